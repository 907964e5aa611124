import Verif.Yarr.Sem
import Verif.Array.Window

/-! The edge padding of the NumPy backend (`ein/backend/numpy_backend.py:90-123`). -/

namespace Verif.Backend
open Verif.Phi Verif.Yarr Verif.Arr
variable {F : Type} [FloatOps F]

/-- Storing an element into an array of floats (`numpy.empty` without a `dtype`). -/
def toFloat : Scal F → Scal F
  | .i n => .f (FloatOps.ofInt n)
  | .b x => .f (FloatOps.ofInt (if x then 1 else 0))
  | .f x => .f x

/-- One axis of the padded array: length, widths, position. -/
structure PadAxis where
  d : Nat
  l : Int
  r : Int
  i : Nat

/-- `dest_op` (`numpy_backend.py:105-118`): the position is in the padding. -/
def PadAxis.inOp (q : PadAxis) : Bool :=
  if q.l = 0 ∧ q.r = 0 then true else if q.l = 0 then decide (q.d ≤ q.i) else decide ((q.i : Int) < q.l)

/-- `edge_index` (`numpy_backend.py:105-118`) -/
def PadAxis.edge (q : PadAxis) : Nat :=
  if q.l = 0 ∧ q.r = 0 then q.i else if q.l = 0 then q.d - 1 else 0

/-- `dest` (`numpy_backend.py:105-118`): the position is in the copy of the target. -/
def PadAxis.inDest (q : PadAxis) : Bool :=
  if q.l = 0 ∧ q.r = 0 then true else if q.l = 0 then decide (q.i < q.d) else decide (q.l ≤ (q.i : Int))

/-- The position in the target that is copied to a position in `dest`. -/
def PadAxis.src (q : PadAxis) : Nat :=
  if q.l = 0 ∧ q.r = 0 then q.i else if q.l = 0 then q.i else ((q.i : Int) - q.l).toNat

/-- The axes of a position. -/
def padAxes (s : List Nat) (pads : List (Int × Int)) (ix : List Nat) : List PadAxis :=
  ((s.zip pads).zip ix).map fun q => ⟨q.1.1, q.1.2.1, q.1.2.2, q.2⟩

/-- `fast_edge_pad` (`numpy_backend.py:90-123`). Negative widths are not modelled (`none`). Elements of
`numpy.empty` that are never assigned are `none`, and then so is the result. -/
def fastEdgePad (pads : List (Int × Int)) (a : A F) : Option (A F) :=
  if pads.length = a.rank ∧ ∀ p ∈ pads, 0 ≤ p.1 ∧ 0 ≤ p.2 then
    if a.shape.prod = 0 then NArr.ofFn? (pads.map fun p => (p.1 + p.2).toNat) (fun _ => none)
    else if (pads.map fun p => p.1 + p.2).sum = 0 then some a
    else if ∀ p ∈ pads, ¬ (p.1 ≠ 0 ∧ p.2 ≠ 0) then
      NArr.ofFn? ((a.shape.zip pads).map fun q => q.1 + q.2.1.toNat + q.2.2.toNat) (fun ix =>
        let qs := padAxes a.shape pads ix
        if qs.all PadAxis.inOp then (a.get? (qs.map PadAxis.edge)).map toFloat
        else if qs.all PadAxis.inDest then (a.get? (qs.map PadAxis.src)).map toFloat
        else none)
    else a.pad pads
  else none

omit [FloatOps F] in
theorem padAxes_mid {s₁ s₂ : List Nat} {p n m i : Nat} {l r : Int} {i₁ i₂ : List Nat}
    (h1 : s₁.length = p) (h2 : s₂.length = n - p - 1) (h3 : i₁.length = s₁.length) :
    padAxes (s₁ ++ m :: s₂) (NArr.putAt n p (l, r) (0, 0)) (i₁ ++ i :: i₂) =
      padAxes s₁ (List.replicate s₁.length (0, 0)) i₁ ++ ⟨m, l, r, i⟩ ::
        padAxes s₂ (List.replicate s₂.length (0, 0)) i₂ := by
  unfold padAxes NArr.putAt
  rw [NArr.zip_mid (by simpa using h1), NArr.zip_mid (by simp [h1, h3]), List.map_append, List.map_cons,
    h1, h2]

theorem padAxes_zero {s ix : List Nat} (h : s.length = ix.length) :
    (padAxes s (List.replicate s.length (0, 0)) ix).all PadAxis.inOp = true ∧
    (padAxes s (List.replicate s.length (0, 0)) ix).all PadAxis.inDest = true ∧
    (padAxes s (List.replicate s.length (0, 0)) ix).map PadAxis.edge = ix ∧
    (padAxes s (List.replicate s.length (0, 0)) ix).map PadAxis.src = ix := by
  induction s generalizing ix with
  | nil => cases ix <;> simp_all [padAxes]
  | cons d s ih =>
    cases ix with
    | nil => simp at h
    | cons i ix =>
      have := ih (ix := ix) (by simpa using h)
      unfold padAxes at this ⊢
      simp only [List.length_cons, List.replicate_succ, List.zip_cons_cons, List.map_cons, List.all_cons]
      refine ⟨?_, ?_, ?_, ?_⟩ <;> simp [PadAxis.inOp, PadAxis.inDest, PadAxis.edge, PadAxis.src, this]

theorem prod_ne_zero {a : List Nat} (h : ∀ x ∈ a, x ≠ 0) : a.prod ≠ 0 := by
  induction a with
  | nil => simp
  | cons x a ih =>
    simp only [List.prod_cons]
    have := h x (by simp)
    have := ih (fun y hy => h y (by simp [hy]))
    exact Nat.mul_ne_zero ‹_› ‹_›

/-- Padding one axis of an array with elements, element by element: the elements are those of
`numpy.pad`, as floats if there is padding on one side only. -/
theorem fastEdgePad_at {a : A F} {p m : Nat} (hm : a.shape[p]? = some m) (hne : a.shape.prod ≠ 0) {l r : Int}
    (hl0 : 0 ≤ l) (hr0 : 0 ≤ r) :
    ∃ b, fastEdgePad (NArr.putAt a.rank p (l, r) (0, 0)) a = some b ∧
      b.shape = a.shape.set p (m + l + r).toNat ∧
      ∀ ix, InRange b.shape ix →
        b.get? ix = (a.get? (ix.set p (Val.clip m ((ix.getD p 0 : Nat) - l)))).map
          (if (l = 0 ↔ r = 0) then id else toFloat) := by
  obtain ⟨s₁, s₂, hsh, hl⟩ := NArr.split_at hm
  have hp : p < a.rank := by unfold NArr.rank; rw [hsh]; simp; omega
  have hr : s₂.length = a.rank - p - 1 := by unfold NArr.rank; rw [hsh]; simp; omega
  have hpos : 0 < m := by
    rcases Nat.eq_zero_or_pos m with h | h
    · exfalso; apply hne; rw [hsh, h]; simp
    · exact h
  have hmem : ∀ q ∈ NArr.putAt a.rank p (l, r) ((0 : Int), (0 : Int)), q = (l, r) ∨ q = (0, 0) := by
    intro q hq
    simp only [NArr.putAt, List.mem_append, List.mem_cons, List.mem_replicate] at hq
    rcases hq with ⟨_, rfl⟩ | rfl | ⟨_, rfl⟩ <;> simp
  have hsum : ((NArr.putAt a.rank p (l, r) ((0 : Int), (0 : Int))).map fun p => p.1 + p.2).sum = l + r := by
    simp [NArr.putAt]
  obtain ⟨b₀, hb₀, hsh₀, hg₀⟩ := NArr.pad_at hm hpos hl0 hr0
  unfold fastEdgePad
  rw [if_pos ⟨NArr.length_putAt hp _ _, fun q hq => by rcases hmem q hq with rfl | rfl <;> simp_all⟩,
    if_neg hne, hsum]
  by_cases h0 : l + r = 0
  · have h1 : l = 0 := by omega
    have h2 : r = 0 := by omega
    subst h1 h2
    rw [if_pos h0]
    refine ⟨a, rfl, ?_, fun ix hix => ?_⟩
    · rw [hsh, NArr.set_mid hl]; simp
    · rw [hsh] at hix
      obtain ⟨i₁, i, i₂, rfl, hi, h1, h2, h3⟩ := NArr.inRange_mid hix
      rw [NArr.set_mid (hi.trans hl), NArr.getD_mid (hi.trans hl), NArr.clip_self h2]
      simp
  · rw [if_neg h0]
    by_cases hboth : l ≠ 0 ∧ r ≠ 0
    · rw [if_neg (by
        intro h
        exact h (l, r) (by simp [NArr.putAt]) hboth)]
      refine ⟨b₀, hb₀, hsh₀, fun ix hix => ?_⟩
      rw [hg₀ ix hix]
      simp [hboth]
    · rw [if_pos (fun q hq => by rcases hmem q hq with rfl | rfl <;> simp_all)]
      have hif : ¬ (l = 0 ↔ r = 0) := by omega
      rw [if_neg hif]
      have hshape : (a.shape.zip (NArr.putAt a.rank p (l, r) (0, 0))).map
          (fun q => q.1 + q.2.1.toNat + q.2.2.toNat) = s₁ ++ (m + l + r).toNat :: s₂ := by
        have : b₀.shape = (a.shape.zip (NArr.putAt a.rank p (l, r) (0, 0))).map
            (fun q => q.1 + q.2.1.toNat + q.2.2.toNat) := by
          unfold NArr.pad at hb₀
          split at hb₀
          · exact NArr.shape_of_reindex hb₀
          · cases hb₀
        rw [← this, hsh₀, hsh, NArr.set_mid hl]
      rw [hshape]
      have key : ∀ ix, InRange (s₁ ++ (m + l + r).toNat :: s₂) ix →
          (let qs := padAxes a.shape (NArr.putAt a.rank p (l, r) (0, 0)) ix
          if qs.all PadAxis.inOp then (a.get? (qs.map PadAxis.edge)).map toFloat
          else if qs.all PadAxis.inDest then (a.get? (qs.map PadAxis.src)).map toFloat
          else none) =
          (a.get? (ix.set p (Val.clip m ((ix.getD p 0 : Nat) - l)))).map (toFloat (F := F)) := by
        intro ix hix
        obtain ⟨i₁, i, i₂, rfl, hi, h1, h2, h3⟩ := NArr.inRange_mid hix
        have z1 := padAxes_zero hi.symm
        have z2 := padAxes_zero h3.length
        simp only []
        rw [NArr.set_mid (hi.trans hl), NArr.getD_mid (hi.trans hl)]
        rw [show padAxes a.shape (NArr.putAt a.rank p (l, r) (0, 0)) (i₁ ++ i :: i₂) = _ from
          (congrArg (fun t => padAxes t _ _) hsh).trans (padAxes_mid hl hr hi)]
        simp only [List.all_append, List.all_cons, z1.1, z1.2.1, z2.1, z2.2.1, Bool.true_and, Bool.and_true,
          List.map_append, List.map_cons, z1.2.2.1, z1.2.2.2, z2.2.2.1, z2.2.2.2]
        by_cases hl' : l = 0
        · subst hl'
          have hr' : r ≠ 0 := by omega
          simp only [PadAxis.inOp, PadAxis.inDest, PadAxis.edge, PadAxis.src, hr', and_false, if_true,
            if_false, decide_eq_true_eq]
          have hv : Val.clip m ((i : Int) - 0) = if m ≤ i then m - 1 else i := by
            unfold Val.clip; split <;> omega
          rw [hv]
          by_cases hmi : m ≤ i
          · rw [if_pos hmi, if_pos hmi]
          · rw [if_neg hmi, if_neg hmi, if_pos (by omega)]
        · have hr' : r = 0 := by omega
          simp only [PadAxis.inOp, PadAxis.inDest, PadAxis.edge, PadAxis.src, hl', false_and,
            if_false, decide_eq_true_eq]
          have hv : Val.clip m ((i : Int) - l) = if (i : Int) < l then 0 else ((i : Int) - l).toNat := by
            unfold Val.clip; split <;> omega
          rw [hv]
          by_cases hmi : (i : Int) < l
          · rw [if_pos hmi, if_pos hmi]
          · rw [if_neg hmi, if_neg hmi, if_pos (by omega)]
      obtain ⟨b, hb, hbs, hbg⟩ := NArr.ofFn?_spec (s := s₁ ++ (m + l + r).toNat :: s₂) (f := fun ix =>
          (let qs := padAxes a.shape (NArr.putAt a.rank p (l, r) (0, 0)) ix
          if qs.all PadAxis.inOp then (a.get? (qs.map PadAxis.edge)).map toFloat
          else if qs.all PadAxis.inDest then (a.get? (qs.map PadAxis.src)).map toFloat
          else none)) (by
        intro ix hix
        rw [key ix hix, Option.isSome_map]
        obtain ⟨i₁, i, i₂, rfl, hi, h1, h2, h3⟩ := NArr.inRange_mid hix
        rw [NArr.set_mid (hi.trans hl), NArr.get?_isSome, hsh, inRange_append hi.symm, inRange_cons]
        exact ⟨h1, Val.clip_lt hpos _, h3⟩)
      refine ⟨b, hb, by rw [hbs, hsh, NArr.set_mid hl], fun ix hix => ?_⟩
      rw [hbs] at hix
      rw [hbg ix hix]
      exact key ix hix

end Verif.Backend
