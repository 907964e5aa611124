import Verif.Codegen.PadSlice
import Verif.Backend.EdgePad
import Verif.Toy

/-! C03: slicing and padding instead of clipped shifted reads is exact. -/

namespace Verif.Props
open Verif.Phi Verif.Term Verif.Codegen Verif.Yarr Verif.Arr Verif.Backend
variable {F : Type} [FloatOps F]

/-! ### Specification -/

/-- `b` has length `n` along `axis`, and its elements at place `i` along the axis are those of `a` at
place `min(max(i + s, lo), hi)`. -/
def ClippedShift {α : Type} (a b : NArr α) (axis : Nat) (s lo hi n : Int) : Prop :=
  b.shape = a.shape.set axis n.toNat ∧
  ∀ ix : List Nat, InRange b.shape ix →
    b.get? ix = a.get? (ix.set axis (min (max ((ix.getD axis 0 : Nat) + s) lo) hi).toNat)

/-! ### Proof -/

/-- The arithmetic of the four bounds. -/
structure Bounds (m : Nat) (s lo hi n start stop left right : Int) : Prop where
  start0 : 0 ≤ start
  stop0 : 0 ≤ stop
  startm : start ≤ m
  stopm : stop ≤ m
  slice : 0 < stop - start
  left0 : 0 ≤ left
  right0 : 0 ≤ right
  length : (stop - start).toNat + left + right = n
  pos : ∀ i : Nat, (i : Int) < n → start.toNat + Val.clip (stop - start).toNat (i - left) =
    (min (max (i + s) lo) hi).toNat

theorem bounds {m : Nat} {s lo hi n : Int} (hn : 1 ≤ n) (hlo : 0 ≤ lo) (hhi : 0 ≤ hi) (hm : hi < m) :
    Bounds m s lo hi n (min (max s lo) hi) (min (max (s + n - 1) lo) hi + 1)
      (min (max (lo - s) 0) (n - 1))
      (n - (min (max (s + n - 1) lo) hi + 1 - min (max s lo) hi) - min (max (lo - s) 0) (n - 1)) := by
  constructor
  case pos => intro i hi; unfold Val.clip; omega
  all_goals omega

/-- Slice, then pad, with the pad given by what it does along one axis. -/
theorem window {α : Type} {a b c : NArr α} {g : α → α} {axis m : Nat} {s lo hi n start stop left right : Int}
    (hm : a.shape[axis]? = some m) (hb : Bounds m s lo hi n start stop left right)
    (h1 : b.shape = a.shape.set axis (stop - start).toNat)
    (h2 : ∀ ix, InRange b.shape ix → b.get? ix = a.get? (ix.set axis (start.toNat + ix.getD axis 0)))
    (h3 : c.shape = b.shape.set axis ((stop - start).toNat + left + right).toNat)
    (h4 : ∀ ix, InRange c.shape ix → c.get? ix =
      (b.get? (ix.set axis (Val.clip (stop - start).toNat ((ix.getD axis 0 : Nat) - left)))).map g) :
    c.shape = a.shape.set axis n.toNat ∧ ∀ ix : List Nat, InRange c.shape ix → c.get? ix =
      (a.get? (ix.set axis (min (max ((ix.getD axis 0 : Nat) + s) lo) hi).toNat)).map g := by
  obtain ⟨s₁, s₂, hsh, hl⟩ := NArr.split_at hm
  rw [hsh, NArr.set_mid hl] at h1
  rw [h1, NArr.set_mid hl] at h3
  refine ⟨by rw [h3, hsh, NArr.set_mid hl, hb.length], fun ix hix => ?_⟩
  rw [h4 ix hix]
  rw [h3] at hix
  obtain ⟨i₁, i, i₂, rfl, hi', k1, k2, k3⟩ := NArr.inRange_mid hix
  have hlen := hb.length
  have hp := hb.pos i (by omega)
  rw [NArr.set_mid (hi'.trans hl), NArr.getD_mid (hi'.trans hl), NArr.set_mid (hi'.trans hl)]
  rw [h2 _ (by
    rw [h1, inRange_append hi'.symm, inRange_cons]
    exact ⟨k1, Val.clip_lt (by have := hb.slice; omega) _, k3⟩)]
  rw [NArr.set_mid (hi'.trans hl), NArr.getD_mid (hi'.trans hl), hp]

/-- **C03**. The array code built for a clipped shifted read of an array `a` along an axis evaluates to
exactly the `n` clipped reads, for every shift, also one that leaves the array entirely. -/
theorem C03_slice_and_pad (J : YExt F) (env : Env (YVal F)) {target shift low high size y : YExpr F}
    {axis m : Nat} {k : Kind} {a : A F} {s lo hi n : Int}
    (hy : padSliceGet target axis shift low high size = some y)
    (hτ : Yarr.typeOf target = some [⟨a.rank, k⟩]) (ha : Yarr.eval J target env = some (.arr a))
    (hs : EvalsInt J env shift s) (hlo : EvalsInt J env low lo) (hhi : EvalsInt J env high hi)
    (hn : EvalsInt J env size n) (hm : a.shape[axis]? = some m)
    (h1 : 1 ≤ n) (h2 : 0 ≤ lo) (h3 : 0 ≤ hi) (h4 : hi < m) :
    ∃ b, Yarr.eval J y env = some (.arr b) ∧ ClippedShift a b axis s lo hi n := by
  have hb := bounds (s := s) h1 h2 h3 h4
  have e1 : EvalsInt J env (psStart shift low high) _ := evalsInt_min (evalsInt_max hs hlo) hhi
  have e2 : EvalsInt J env (psStop shift low high size) _ := evalsInt_add (evalsInt_min (evalsInt_max
    (evalsInt_sub (evalsInt_add hs hn) (evalsInt_const 1)) hlo) hhi) (evalsInt_const 1)
  have e3 : EvalsInt J env (psLeft shift low size) _ := evalsInt_min (evalsInt_max (evalsInt_sub hlo hs)
    (evalsInt_const 0)) (evalsInt_sub hn (evalsInt_const 1))
  have e4 : EvalsInt J env (psRight shift low high size) _ :=
    evalsInt_sub (evalsInt_sub hn (evalsInt_sub e2 e1)) e3
  unfold padSliceGet at hy
  rw [hτ] at hy
  simp only [] at hy
  split at hy
  · cases hy
    obtain ⟨b, hb1, hb2, hb3⟩ := NArr.slice_at hm hb.start0 hb.stop0 hb.startm hb.stopm
    have hbm : b.shape[axis]? = some (min (max (s + n - 1) lo) hi + 1 - min (max s lo) hi).toNat := by
      rw [hb2, List.getElem?_set_self]
      obtain ⟨h, _⟩ := List.getElem?_eq_some_iff.1 hm
      exact h
    have hrank : b.rank = a.rank := by unfold NArr.rank; rw [hb2, List.length_set]
    obtain ⟨c, hc1, hc2, hc3⟩ := NArr.pad_at hbm (by have := hb.slice; omega) hb.left0 hb.right0
    rw [hrank] at hc1
    refine ⟨c, ?_, ?_⟩
    · unfold EvalsInt at e1 e2 e3 e4
      rw [Yarr.eval_node]
      simp only [List.map_cons, List.map_nil, Yarr.den, arrsOf, mapOpt, e3, e4, Option.bind_some,
        YVal.asArr, arr1, Yarr.eval_node, ha, e1, e2, sliceOf_putMask, hb1, padOf_putMask, hc1]
    · have := window (g := id) hm hb hb2 hb3 hc2 (fun ix hix => by rw [hc3 ix hix]; simp)
      exact ⟨this.1, fun ix hix => by rw [this.2 ix hix]; simp⟩
  · cases hy

/-- What NumPy executes for that code: Python slicing and `fast_edge_pad`, with the values of the four
bounds. -/
def numpyWindow (a : A F) (axis : Nat) (start stop left right : Int) : Option (A F) :=
  (a.slice (NArr.putAt a.rank axis (some start) none) (NArr.putAt a.rank axis (some stop) none)).bind
    (fastEdgePad (NArr.putAt a.rank axis (left, right) (0, 0)))

/-- **C03**, with the backend's own padding routine, for arrays of floats. Missing for the full property:
integer and boolean arrays, for which see `C03_integer_counterexample`. -/
theorem C03_numpy_partial {a : A F} {axis m : Nat} {s lo hi n : Int}
    (hf : ∀ ix x, a.get? ix = some x → x.kind = .float) (hne : ∀ d ∈ a.shape, d ≠ 0)
    (hm : a.shape[axis]? = some m) (h1 : 1 ≤ n) (h2 : 0 ≤ lo) (h3 : 0 ≤ hi) (h4 : hi < m) :
    ∃ b, numpyWindow a axis (min (max s lo) hi) (min (max (s + n - 1) lo) hi + 1)
      (min (max (lo - s) 0) (n - 1))
      (n - (min (max (s + n - 1) lo) hi + 1 - min (max s lo) hi) - min (max (lo - s) 0) (n - 1)) = some b ∧
      ClippedShift a b axis s lo hi n := by
  have hb := bounds (s := s) h1 h2 h3 h4
  obtain ⟨b, hb1, hb2, hb3⟩ := NArr.slice_at hm hb.start0 hb.stop0 hb.startm hb.stopm
  have hbm : b.shape[axis]? = some (min (max (s + n - 1) lo) hi + 1 - min (max s lo) hi).toNat := by
    rw [hb2, List.getElem?_set_self]
    obtain ⟨h, _⟩ := List.getElem?_eq_some_iff.1 hm
    exact h
  have hrank : b.rank = a.rank := by unfold NArr.rank; rw [hb2, List.length_set]
  have hbne : b.shape.prod ≠ 0 := by
    apply prod_ne_zero
    intro x hx
    rw [hb2] at hx
    rcases List.mem_or_eq_of_mem_set hx with h | h
    · exact hne x h
    · have := hb.slice; omega
  obtain ⟨c, hc1, hc2, hc3⟩ := fastEdgePad_at hbm hbne hb.left0 hb.right0
  rw [hrank] at hc1
  refine ⟨c, by unfold numpyWindow; rw [hb1]; exact hc1, ?_⟩
  have := window hm hb hb2 hb3 hc2 hc3
  refine ⟨this.1, fun ix hix => ?_⟩
  rw [this.2 ix hix]
  cases hg : a.get? (ix.set axis (min (max ((ix.getD axis 0 : Nat) + s) lo) hi).toNat) with
  | none => rfl
  | some x =>
    have hk := hf _ _ hg
    simp only [Option.map_some]
    split
    · rfl
    · cases x <;> simp_all [Scal.kind, toFloat]

/-! ### Examples -/

/-- The array 10, 20, 30. -/
def tens : A Int := ⟨[3], [.f 10, .f 20, .f 30], rfl⟩

/-- Reading `a[min(max(i - 2, 0), 2)]` for `i < 6`. -/
def shifted : Option (YExpr Int) :=
  padSliceGet (node (.var 0 [⟨1, .float⟩]) []) 0 (yint (-2)) (yint 0) (yint 2) (yint 6)

example : (shifted.bind fun y => Yarr.eval (fun _ _ => none) y (fun _ => some (.arr tens))) =
    some (.arr ⟨[6], [.f 10, .f 10, .f 10, .f 20, .f 30, .f 30], rfl⟩) := by decide +kernel

example : ∃ y b, shifted = some y ∧
    Yarr.eval (fun _ _ => none) y (fun _ => some (.arr tens)) = some (.arr b) ∧
    ClippedShift tens b 0 (-2) 0 2 6 := by
  cases h : shifted with
  | none => exact absurd h (by decide +kernel)
  | some y =>
    obtain ⟨b, hb, hc⟩ := C03_slice_and_pad (fun _ _ => none) (fun _ => some (.arr tens)) (a := tens) (k := .float)
      (m := 3) h (by decide +kernel) (by decide +kernel) (evalsInt_const _) (evalsInt_const _)
      (evalsInt_const _) (evalsInt_const _) (by decide +kernel) (by decide) (by decide) (by decide) (by decide)
    exact ⟨y, b, rfl, hb, hc⟩

example : (numpyWindow tens 0 0 1 5 0) = some ⟨[6], [.f 10, .f 10, .f 10, .f 10, .f 10, .f 10], rfl⟩ := by
  decide +kernel

/-! ### Where the property fails -/

/-- An array of integers padded on one side comes back as an array of floats: `a[max(i - 1, 0)]` for
`i < 3` of the integers 1, 2, 3. -/
theorem C03_integer_counterexample :
    numpyWindow (⟨[3], [.i 1, .i 2, .i 3], rfl⟩ : A Int) 0 0 2 1 0 =
      some ⟨[3], [.f 1, .f 1, .f 2], rfl⟩ := by decide +kernel

/-- A bound written by the user that lies outside the array gives an array of the wrong length:
`a[min(i, 10)]` for `i < 5` of an array of length 3 has 3 elements, where clamped reads give 5. -/
theorem C03_high_outside_counterexample :
    ((padSliceGet (node (.var 0 [⟨1, .float⟩]) []) 0 (yint 0) (yint 0) (yint 10) (yint 5)).bind fun y =>
      Yarr.eval (fun _ _ => none) y (fun _ => some (.arr tens))) =
      some (.arr ⟨[3], [.f 10, .f 20, .f 30], rfl⟩) := by decide +kernel

/-- A negative lower bound written by the user: `a[max(i - 2, -2)]` for `i < 3` has no elements, where
clamped reads give 10, 10, 10. -/
theorem C03_low_outside_counterexample :
    ((padSliceGet (node (.var 0 [⟨1, .float⟩]) []) 0 (yint (-2)) (yint (-2)) (yint 2) (yint 3)).bind fun y =>
      Yarr.eval (fun _ _ => none) y (fun _ => some (.arr tens))) =
      some (.arr ⟨[0], [], rfl⟩) := by decide +kernel

end Verif.Props
