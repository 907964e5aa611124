import Verif.Array.Shape
import Mathlib.Tactic.Ring

/-! Slicing and padding along one axis, element by element. -/

namespace Verif.Arr
open Verif.Phi
namespace NArr
variable {α β : Type}

/-- `p * (d,) + (x,) + (n - p - 1) * (d,)` -/
def putAt (n p : Nat) (x d : β) : List β := List.replicate p d ++ x :: List.replicate (n - p - 1) d

theorem length_putAt {n p : Nat} (h : p < n) (x d : β) : (putAt n p x d).length = n := by
  simp [putAt]; omega

/-- A list around one of its places. -/
theorem split_at {l : List β} {p : Nat} {x : β} (h : l[p]? = some x) :
    ∃ l₁ l₂, l = l₁ ++ x :: l₂ ∧ l₁.length = p := by
  obtain ⟨hp, rfl⟩ := List.getElem?_eq_some_iff.1 h
  exact ⟨l.take p, l.drop (p + 1), by simp, by simp; omega⟩

theorem set_mid {l₁ l₂ : List β} {x y : β} {p : Nat} (h : l₁.length = p) :
    (l₁ ++ x :: l₂).set p y = l₁ ++ y :: l₂ := by
  subst h; simp

theorem getD_mid {l₁ l₂ : List β} {x d : β} {p : Nat} (h : l₁.length = p) :
    (l₁ ++ x :: l₂).getD p d = x := by
  subst h; simp

/-- A position of an array around one of its axes. -/
theorem inRange_mid {s₁ s₂ ix : List Nat} {n : Nat} (h : InRange (s₁ ++ n :: s₂) ix) :
    ∃ i₁ i i₂, ix = i₁ ++ i :: i₂ ∧ i₁.length = s₁.length ∧ InRange s₁ i₁ ∧ i < n ∧ InRange s₂ i₂ := by
  obtain ⟨p, q, rfl, h1, h2⟩ := inRange_append_left.1 h
  cases q with
  | nil => simp at h2
  | cons i q =>
    rw [inRange_cons] at h2
    exact ⟨p, i, q, rfl, h1.length.symm, h1, h2.1, h2.2⟩

theorem zip_mid {γ : Type} {l₁ l₂ : List β} {m₁ m₂ : List γ} {x : β} {y : γ} (h : l₁.length = m₁.length) :
    (l₁ ++ x :: l₂).zip (m₁ ++ y :: m₂) = l₁.zip m₁ ++ (x, y) :: l₂.zip m₂ := by
  rw [List.zip_append h]; rfl

theorem sliceDims_none (s : List Nat) {k : Nat} (h : s.length = k) :
    (s.zip (List.replicate k ((none : Option Int), (none : Option Int)))).map
      (fun p => sliceDim p.1 p.2.1 p.2.2) = s.map fun d => (0, d) := by
  subst h
  induction s with
  | nil => rfl
  | cons d s ih => simpa [List.replicate_succ, sliceDim] using ih

theorem zip_replicate {γ : Type} (k : Nat) (x : β) (y : γ) :
    (List.replicate k x).zip (List.replicate k y) = List.replicate k (x, y) := by
  induction k with
  | zero => rfl
  | succ k ih => simp [List.replicate_succ, ih]

theorem zip_putAt {γ : Type} (n p : Nat) (x d : β) (y e : γ) :
    (putAt n p x d).zip (putAt n p y e) = putAt n p (x, y) (d, e) := by
  unfold putAt
  rw [zip_mid (by simp), zip_replicate, zip_replicate]

theorem zipWith_zero {s ix : List Nat} (h : s.length = ix.length) :
    List.zipWith (· + ·) ((s.map fun d => (0, d)).map Prod.fst) ix = ix := by
  induction s generalizing ix with
  | nil => cases ix <;> simp_all
  | cons d s ih =>
    cases ix with
    | nil => simp at h
    | cons i ix => simpa using ih (by simpa using h)

/-- Slicing one axis at bounds inside the array. -/
theorem slice_at {a : NArr α} {p m : Nat} (hm : a.shape[p]? = some m) {s e : Int}
    (hs : 0 ≤ s) (he : 0 ≤ e) (hse : s ≤ m) (hem : e ≤ m) :
    ∃ b, a.slice (putAt a.rank p (some s) none) (putAt a.rank p (some e) none) = some b ∧
      b.shape = a.shape.set p (e - s).toNat ∧
      ∀ ix, InRange b.shape ix → b.get? ix = a.get? (ix.set p (s.toNat + ix.getD p 0)) := by
  obtain ⟨s₁, s₂, hsh, hl⟩ := split_at hm
  have hp : p < a.rank := by unfold rank; rw [hsh]; simp; omega
  have hr : s₂.length = a.rank - p - 1 := by unfold rank; rw [hsh]; simp; omega
  have hd : sliceDim m (some s) (some e) = (s.toNat, (e - s).toNat) := by
    simp only [sliceDim, sliceBound, Option.map_some, Option.getD_some, if_neg (not_lt.2 hs),
      if_neg (not_lt.2 he), Prod.mk.injEq]
    omega
  have hbs : (a.shape.zip ((putAt a.rank p (some s) none).zip (putAt a.rank p (some e) none))).map
      (fun p => sliceDim p.1 p.2.1 p.2.2) =
      (s₁.map fun d => (0, d)) ++ (s.toNat, (e - s).toNat) :: (s₂.map fun d => (0, d)) := by
    rw [zip_putAt, hsh]
    unfold putAt
    rw [zip_mid (by simpa using hl), List.map_append, List.map_cons, sliceDims_none _ hl,
      sliceDims_none _ hr, hd]
  have hshape : ((s₁.map fun d => (0, d)) ++ (s.toNat, (e - s).toNat) ::
      (s₂.map fun d => ((0 : Nat), d))).map Prod.snd = s₁ ++ (e - s).toNat :: s₂ := by
    simp [Function.comp_def]
  unfold slice
  rw [if_pos ⟨length_putAt hp _ _, length_putAt hp _ _⟩]
  simp only [hbs, hshape]
  have key : ∀ ix, InRange (s₁ ++ (e - s).toNat :: s₂) ix →
      List.zipWith (· + ·) (((s₁.map fun d => (0, d)) ++ (s.toNat, (e - s).toNat) ::
        (s₂.map fun d => ((0 : Nat), d))).map Prod.fst) ix = ix.set p (s.toNat + ix.getD p 0) := by
    intro ix hix
    obtain ⟨i₁, i, i₂, rfl, hi, h1, h2, h3⟩ := inRange_mid hix
    rw [set_mid (hi.trans hl), getD_mid (hi.trans hl), List.map_append, List.map_cons,
      List.zipWith_append (by simpa using hi.symm), List.zipWith_cons_cons, zipWith_zero hi.symm,
      zipWith_zero h3.length]
  obtain ⟨b, hb, hbsh, hbg⟩ := reindex_spec (a := a) (s := s₁ ++ (e - s).toNat :: s₂)
    (g := fun ix => List.zipWith (· + ·) (((s₁.map fun d => (0, d)) ++ (s.toNat, (e - s).toNat) ::
        (s₂.map fun d => ((0 : Nat), d))).map Prod.fst) ix) (by
      intro ix hix
      rw [key ix hix]
      obtain ⟨i₁, i, i₂, rfl, hi, h1, h2, h3⟩ := inRange_mid hix
      rw [set_mid (hi.trans hl), getD_mid (hi.trans hl), hsh, inRange_append hi.symm, inRange_cons]
      exact ⟨h1, by omega, h3⟩)
  refine ⟨b, hb, by rw [hbsh, hsh, set_mid hl], fun ix hix => ?_⟩
  rw [hbsh] at hix
  rw [hbg ix hix, key ix hix]

theorem clip_self {d i : Nat} (h : i < d) : Val.clip d ((i : Int) - 0) = i := by
  unfold Val.clip; omega

theorem padDims_zero (s : List Nat) {k : Nat} (h : s.length = k) :
    (s.zip (List.replicate k ((0 : Int), (0 : Int)))).map
      (fun q => q.1 + q.2.1.toNat + q.2.2.toNat) = s := by
  subst h
  induction s with
  | nil => rfl
  | cons d s ih => simp [List.replicate_succ, ih]

theorem padIx_zero {s ix : List Nat} {k : Nat} (h : s.length = k) (hix : InRange s ix) :
    ((s.zip (List.replicate k ((0 : Int), (0 : Int)))).zip ix).map
      (fun q => Val.clip q.1.1 ((q.2 : Int) - q.1.2.1)) = ix := by
  subst h
  induction s generalizing ix with
  | nil => simp at hix; subst hix; rfl
  | cons d s ih =>
    cases ix with
    | nil => simp at hix
    | cons i ix =>
      rw [inRange_cons] at hix
      simp [List.replicate_succ, ih hix.2]
      have := clip_self hix.1
      simpa using this

/-- Padding one axis that is not empty. -/
theorem pad_at {a : NArr α} {p m : Nat} (hm : a.shape[p]? = some m) (hpos : 0 < m) {l r : Int}
    (hl0 : 0 ≤ l) (hr0 : 0 ≤ r) :
    ∃ b, a.pad (putAt a.rank p (l, r) (0, 0)) = some b ∧
      b.shape = a.shape.set p (m + l + r).toNat ∧
      ∀ ix, InRange b.shape ix →
        b.get? ix = a.get? (ix.set p (Val.clip m ((ix.getD p 0 : Nat) - l))) := by
  obtain ⟨s₁, s₂, hsh, hl⟩ := split_at hm
  have hp : p < a.rank := by unfold rank; rw [hsh]; simp; omega
  have hr : s₂.length = a.rank - p - 1 := by unfold rank; rw [hsh]; simp; omega
  have hz : a.shape.zip (putAt a.rank p (l, r) (0, 0)) =
      s₁.zip (List.replicate p (0, 0)) ++ (m, (l, r)) :: s₂.zip (List.replicate (a.rank - p - 1) (0, 0)) := by
    rw [hsh]; unfold putAt
    rw [zip_mid (by simpa using hl)]
  have hshape : (a.shape.zip (putAt a.rank p (l, r) (0, 0))).map
      (fun q => q.1 + q.2.1.toNat + q.2.2.toNat) = s₁ ++ (m + l + r).toNat :: s₂ := by
    rw [hz, List.map_append, List.map_cons, padDims_zero _ hl, padDims_zero _ hr]
    congr 2
    show m + l.toNat + r.toNat = _
    omega
  have key : ∀ ix, InRange (s₁ ++ (m + l + r).toNat :: s₂) ix →
      ((a.shape.zip (putAt a.rank p (l, r) (0, 0))).zip ix).map
        (fun q => Val.clip q.1.1 ((q.2 : Int) - q.1.2.1)) =
        ix.set p (Val.clip m ((ix.getD p 0 : Nat) - l)) := by
    intro ix hix
    obtain ⟨i₁, i, i₂, rfl, hi, h1, h2, h3⟩ := inRange_mid hix
    rw [set_mid (hi.trans hl), getD_mid (hi.trans hl), hz, zip_mid (by simp [hl, hi]), List.map_append,
      List.map_cons, padIx_zero hl h1, padIx_zero hr h3]
  unfold pad
  rw [if_pos]
  · rw [hshape]
    obtain ⟨b, hb, hbsh, hbg⟩ := reindex_spec (a := a) (s := s₁ ++ (m + l + r).toNat :: s₂)
      (g := fun ix => ((a.shape.zip (putAt a.rank p (l, r) (0, 0))).zip ix).map
        (fun q => Val.clip q.1.1 ((q.2 : Int) - q.1.2.1))) (by
        intro ix hix
        rw [key ix hix]
        obtain ⟨i₁, i, i₂, rfl, hi, h1, h2, h3⟩ := inRange_mid hix
        rw [set_mid (hi.trans hl), hsh, inRange_append hi.symm, inRange_cons]
        exact ⟨h1, Val.clip_lt hpos _, h3⟩)
    refine ⟨b, hb, by rw [hbsh, hsh, set_mid hl], fun ix hix => ?_⟩
    rw [hbsh] at hix
    rw [hbg ix hix, key ix hix]
  · refine ⟨length_putAt hp _ _, fun q hq => ?_, fun q hq h0 => ?_⟩
    · unfold putAt at hq
      simp only [List.mem_append, List.mem_cons, List.mem_replicate] at hq
      rcases hq with ⟨_, rfl⟩ | rfl | ⟨_, rfl⟩ <;> simp_all
    · rw [hz] at hq
      simp only [List.mem_append, List.mem_cons] at hq
      rcases hq with hq | rfl | hq
      · have := List.of_mem_zip hq
        have := (List.mem_replicate.1 this.2).2
        simp [this]
      · simp at h0; omega
      · have := List.of_mem_zip hq
        have := (List.mem_replicate.1 this.2).2
        simp [this]

end NArr
end Verif.Arr
