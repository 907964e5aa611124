import Verif.Frontend.ScriptStd
import Verif.Props.C25
import Verif.Props.C42
import Mathlib.Algebra.BigOperators.Group.Finset.Basic

/-!
# C43: sums, minima, maxima and positions of minima of the standard library

For every function of the user that computes a number from an index, `fold_sum`, `fold_min`, `fold_max`, `fold_argmin` and
`reduce_sum`, `reduce_min`, `reduce_max`, `reduce_argmin` are what their names say. The count may be left out:
then it is the common size of the arrays that the function reads at the index (C42). What a program tells is what
the arrays it makes hold (`C42_value`), and what calls with the backends return (`C42_calls_tell_partial`).
-/

set_option linter.unusedSectionVars false

namespace Verif.Props
open Verif.Phi Verif.Term Verif.Frontend
variable {F : Type} [FloatOps F]

/-! ### Specification -/

/-- The number of rounds: the count given, or the common size of the arrays that `f` reads at the index, which is the local
variable 0; `lo` local variables are not from outside. -/
def Rounds (count : Option (Script F)) (f : Script F) (lo : Nat) (vs : List (PVal F)) (n : Nat) : Prop :=
  match count with
  | some e => ∃ k : Int, tells e vs = some (.sc (.i k)) ∧ n = k.toNat
  | none => (uses f lo 0).bind (common vs) = some n

/-- The program `f` in the loop of a fold computes the numbers `r`, whatever is in the accumulator of the library. -/
def FoldNumbers (f : Script F) (vs : List (PVal F)) (n : Nat) (r : Nat → F) : Prop :=
  ∀ i < n, ∀ a, tells f (.sc (.i i) :: a :: vs) = some (.sc (.f (r i)))

/-- The program `f` in a comprehension computes the numbers `r`. -/
def Numbers (f : Script F) (vs : List (PVal F)) (n : Nat) (r : Nat → F) : Prop :=
  ∀ i < n, tells f (.sc (.i i) :: vs) = some (.sc (.f (r i)))

/-- `k` is the first position of a greatest element. -/
structure IsArgmax (r : Nat → F) (n k : Nat) : Prop where
  lt : k < n
  greatest : ∀ j < n, FloatOps.le (r j) (r k) = true
  first : ∀ j < k, FloatOps.le (r k) (r j) = false

/-! ### Loops -/

omit [FloatOps F] in
theorem loop_foldl {α β γ : Type} {step : β → α → Option β} {g : γ → α → γ} {e : γ → β} : ∀ (l : List α) (z : γ),
    (∀ a ∈ l, ∀ c, step (e c) a = some (e (g c a))) → loopOpt step (e z) l = some (e (l.foldl g z))
  | [], _, _ => rfl
  | a :: l, z, h => by
    rw [loopOpt, h a (by simp), Option.bind_some, List.foldl_cons]
    exact loop_foldl l _ fun b hb => h b (by simp [hb])

/-- The first best element, with its position, where `R x y` says that `x` is at least as good as `y`. -/
theorem scan_best {num : F → Prop} {R : F → F → Bool} {u : F} (total : ∀ x y, num x → num y → R x y = true ∨ R y x = true)
    (trans : ∀ x y z, num x → num y → num z → R x y = true → R y z = true → R x z = true)
    (unit : ∀ x, num x → R u x = true → x = u) (r : Nat → F) (n : Nat) (hn : 0 < n) (hr : ∀ i < n, num (r i)) :
    ∃ k < n, (∀ j < n, R (r k) (r j) = true) ∧ (∀ j < k, R (r j) (r k) = false) ∧
      (List.range n).foldl (fun (a : F × Int) i => if R a.1 (r i) then a else (r i, (i : Int))) (u, 0) = (r k, (k : Int)) := by
  induction n with
  | zero => omega
  | succ n ih =>
    rw [List.range_succ, List.foldl_append]
    by_cases h0 : n = 0
    · subst h0
      refine ⟨0, Nat.zero_lt_one, ?_, by intro j hj; omega, ?_⟩
      · intro j hj
        obtain rfl : j = 0 := by omega
        rcases total (r 0) (r 0) (hr 0 hn) (hr 0 hn) with h | h <;> exact h
      · simp only [List.range_zero, List.foldl_nil, List.foldl_cons]
        cases h : R u (r 0)
        · simp
        · simp [unit (r 0) (hr 0 hn) h]
    · obtain ⟨k, hkn, hk, hf, he⟩ := ih (by omega) (fun i hi => hr i (by omega))
      rw [he]
      simp only [List.foldl_cons, List.foldl_nil]
      have nk := hr k (by omega)
      have nn := hr n (by omega)
      cases h : R (r k) (r n)
      · refine ⟨n, by omega, ?_, ?_, by simp⟩
        · intro j hj
          have h1 : R (r n) (r k) = true := by
            rcases total (r k) (r n) nk nn with h' | h'
            · rw [h] at h'; cases h'
            · exact h'
          by_cases hjn : j = n
          · subst hjn
            rcases total (r j) (r j) nn nn with h | h <;> exact h
          · exact trans _ _ _ nn nk (hr j hj) h1 (hk j (by omega))
        · intro j hj
          cases hh : R (r j) (r n)
          · rfl
          · have := trans _ _ _ nk (hr j (by omega)) nn (hk j (by omega)) hh
            rw [h] at this; cases this
      · refine ⟨k, by omega, ?_, hf, by simp⟩
        intro j hj
        by_cases hjn : j = n
        · rw [hjn]; exact h
        · exact hk j (by omega)

omit [FloatOps F] in
theorem scan_fst {R : F → F → Bool} (r : Nat → F) : ∀ (l : List Nat) (a : F × Int),
    (l.foldl (fun (a : F × Int) i => if R a.1 (r i) then a else (r i, (i : Int))) a).1 = l.foldl (fun x i => if R x (r i) then x else r i) a.1
  | [], _ => rfl
  | i :: l, a => by
    rw [List.foldl_cons, List.foldl_cons, scan_fst r l]
    cases R a.1 (r i) <;> rfl

/-! ### The programs as loops -/

theorem fold_tells {o : PyOp} {z : F} {count : Option (Script F)} {f : Script F} {vs : List (PVal F)} {n : Nat} {r : Nat → F}
    (hn : Rounds count f 2 vs n) (hf : FoldNumbers f vs n r) {g : F → F → F} (P : F → Prop) (hz : P z)
    (hg : ∀ x, P x → ∀ i < n, P (g x (r i)) ∧ applyPy o (.f x) (.f (r i)) = some (.f (g x (r i)))) :
    tells (foldMonoid o z count f) vs = some (.sc (.f ((List.range n).foldl (fun x i => g x (r i)) z))) := by
  have key : loopOpt (fun v (k : Nat) => tells (.bin o (.loc 1) f) (.sc (.i k) :: v :: vs)) (.sc (.f z)) (List.range n) =
      some (.sc (.f ((List.range n).foldl (fun x i => g x (r i)) z))) := by
    have : ∀ (l : List Nat) (z : F), P z → (∀ i ∈ l, i < n) →
        loopOpt (fun v (k : Nat) => tells (.bin o (.loc 1) f) (.sc (.i k) :: v :: vs)) (.sc (.f z)) l =
          some (.sc (.f (l.foldl (fun x i => g x (r i)) z))) := by
      intro l
      induction l with
      | nil => intro z _ _; rfl
      | cons i l ih =>
        intro z hz hl
        obtain ⟨h1, h2⟩ := hg z hz i (hl i (by simp))
        rw [loopOpt]
        simp only [tells, List.getElem?_cons_succ, List.getElem?_cons_zero, Option.bind_some, toScal, hf i (hl i (by simp)), h2, Option.map_some]
        exact ih _ h1 fun j hj => hl j (by simp [hj])
    exact this _ z hz fun i hi => List.mem_range.1 hi
  cases count with
  | some e =>
    obtain ⟨k, h1, rfl⟩ := hn
    simp only [foldMonoid, tells, h1, Option.bind_some, toInt]
    exact key
  | none =>
    obtain ⟨l, h1, h2⟩ := Option.bind_eq_some_iff.1 hn
    have hi : isLoc 0 f = false := by
      cases f <;> first | rfl | skip
      rename_i m
      by_cases hm : m = 0
      · simp [uses, hm] at h1
      · simp [isLoc, hm]
    have : usesIn (.bin o (.loc 1) f) 2 0 = some l := by
      refine usesIn_of_uses _ ?_
      rw [uses, hi, h1]
      simp [uses, isLoc]
    rw [foldMonoid, tells, this]
    simp only [Option.bind_some, h2, tells]
    exact key

theorem rows_scalars (n : Nat) (h : Nat → PVal F) (hs : ∀ i j, PVal.sameShape (h i) (h j) = true) :
    rows ((List.range n).map h) = some (.arr ((List.range n).map h)) := by
  rw [rows, if_pos]
  simp only [List.all_eq_true, List.mem_map]
  rintro _ ⟨i, -, rfl⟩ _ ⟨j, -, rfl⟩
  exact hs i j

theorem mapOpt_numbers {n : Nat} {f : Nat → Option (PVal F)} {h : Nat → PVal F} (H : ∀ i < n, f i = some (h i)) :
    Phi.mapOpt f (List.range n) = some ((List.range n).map h) := by
  have : ∀ l : List Nat, (∀ i ∈ l, i < n) → Phi.mapOpt f l = some (l.map h) := by
    intro l
    induction l with
    | nil => intro _; rfl
    | cons i l ih =>
      intro hl
      rw [Phi.mapOpt, H i (hl i (by simp)), ih fun j hj => hl j (by simp [hj])]
      rfl
  exact this _ fun i hi => List.mem_range.1 hi

theorem reduce_tells {o : PyOp} {z : F} {count : Option (Script F)} {f : Script F} {vs : List (PVal F)} {n : Nat} {r : Nat → F}
    (hn : Rounds count f 1 vs n) (hf : Numbers f vs n r) {g : F → F → F} (P : F → Prop) (hz : P z)
    (hg : ∀ x, P x → ∀ i < n, P (g x (r i)) ∧ applyPy o (.f x) (.f (r i)) = some (.f (g x (r i)))) :
    tells (reduceMonoid o z count f) vs = some (.sc (.f ((List.range n).foldl (fun x i => g x (r i)) z))) := by
  have key : loopOpt (fun v y => tells (.bin o (.loc 0) (.loc 1)) (v :: y :: vs)) (.sc (.f z))
      ((List.range n).map fun i => PVal.sc (.f (r i))) = some (.sc (.f ((List.range n).foldl (fun x i => g x (r i)) z))) := by
    have : ∀ (l : List Nat) (z : F), P z → (∀ i ∈ l, i < n) →
        loopOpt (fun v y => tells (.bin o (.loc 0) (.loc 1)) (v :: y :: vs)) (.sc (.f z)) (l.map fun i => PVal.sc (.f (r i))) =
          some (.sc (.f (l.foldl (fun x i => g x (r i)) z))) := by
      intro l
      induction l with
      | nil => intro z _ _; rfl
      | cons i l ih =>
        intro z hz hl
        obtain ⟨h1, h2⟩ := hg z hz i (hl i (by simp))
        rw [List.map_cons, loopOpt]
        simp only [tells, List.getElem?_cons_succ, List.getElem?_cons_zero, Option.bind_some, toScal, h2, Option.map_some]
        exact ih _ h1 fun j hj => hl j (by simp [hj])
    exact this _ z hz fun i hi => List.mem_range.1 hi
  have hrows := rows_scalars n (fun i => PVal.sc (.f (r i))) fun _ _ => rfl
  cases count with
  | some e =>
    obtain ⟨k, h1, rfl⟩ := hn
    simp only [reduceMonoid, tells, h1, Option.bind_some, toInt, mapOpt_numbers hf, hrows, toList]
    exact key
  | none =>
    obtain ⟨l, h1, h2⟩ := Option.bind_eq_some_iff.1 hn
    have : usesAll f 0 = some [l] := by
      simp [usesAll, Phi.mapOpt, usesIn_of_uses f h1]
    have ht : tells (.auto 0 f) vs = some (.arr ((List.range n).map fun i => PVal.sc (.f (r i)))) := by
      rw [tells, this]
      simp only [Option.bind_some, Phi.mapOpt, h2, table, List.map_cons, List.map_nil, List.reverse_cons, List.reverse_nil, List.nil_append,
        List.cons_append]
      rw [mapOpt_numbers hf, Option.bind_some, hrows]
    rw [reduceMonoid, tells, ht]
    simp only [Option.bind_some, toList, tells]
    exact key

/-! ### Sums -/

theorem foldl_sum {F : Type} [Field F] (r : Nat → F) (n : Nat) : (List.range n).foldl (fun x i => x + r i) 0 = ∑ i ∈ Finset.range n, r i := by
  induction n with
  | zero => rfl
  | succ n ih => rw [List.range_succ, List.foldl_append, ih, Finset.sum_range_succ]; rfl

/-- C43: `fold_sum(f, count)` is the sum of the values of `f`, in exact arithmetic. -/
theorem C43_fold_sum [Field F] [LinearOrder F] [ExactFloat F] (count : Option (Script F)) (f : Script F) (vs : List (PVal F)) (n : Nat) (r : Nat → F)
    (hn : Rounds count f 2 vs n) (hf : FoldNumbers f vs n r) :
    tells (foldSum 0 count f) vs = some (.sc (.f (∑ i ∈ Finset.range n, r i))) := by
  rw [← foldl_sum]
  exact fold_tells hn hf (fun _ => True) trivial (fun x _ i _ => ⟨trivial, by simp [applyPy, applyOp, ExactFloat.add]⟩)

/-- C43: `reduce_sum(f, count)` is the sum of the values of `f`, in exact arithmetic. -/
theorem C43_reduce_sum [Field F] [LinearOrder F] [ExactFloat F] (count : Option (Script F)) (f : Script F) (vs : List (PVal F)) (n : Nat) (r : Nat → F)
    (hn : Rounds count f 1 vs n) (hf : Numbers f vs n r) :
    tells (reduceSum 0 count f) vs = some (.sc (.f (∑ i ∈ Finset.range n, r i))) := by
  rw [← foldl_sum]
  exact reduce_tells hn hf (fun _ => True) trivial fun x _ i _ => ⟨trivial, by simp [applyPy, applyOp, ExactFloat.add]⟩

/-! ### Minima and maxima -/

section
variable [FloatOrder F]

theorem least_num (r : Nat → F) (n : Nat) (hr : ∀ i < n, FloatOrder.num (r i)) : ∀ x : F, FloatOrder.num x → ∀ i < n,
    FloatOrder.num (if FloatOps.le x (r i) then x else r i) ∧
      applyPy .min (.f x) (.f (r i)) = some (.f (if FloatOps.le x (r i) then x else r i)) := by
  intro x hx i hi
  refine ⟨?_, by simp [applyPy, applyOp, FloatOrder.min_eq x (r i) hx (hr i hi)]⟩
  split
  · exact hx
  · exact hr i hi

theorem greatest_num (r : Nat → F) (n : Nat) (hr : ∀ i < n, FloatOrder.num (r i)) : ∀ x : F, FloatOrder.num x → ∀ i < n,
    FloatOrder.num (if FloatOps.le (r i) x then x else r i) ∧
      applyPy .max (.f x) (.f (r i)) = some (.f (if FloatOps.le (r i) x then x else r i)) := by
  intro x hx i hi
  refine ⟨?_, by simp [applyPy, applyOp, FloatOrder.max_eq x (r i) hx (hr i hi)]⟩
  split
  · exact hx
  · exact hr i hi

theorem scan_least (r : Nat → F) (n : Nat) (hn : 0 < n) (hr : ∀ i < n, FloatOrder.num (r i)) :
    ∃ k, IsArgmin r n k ∧ (List.range n).foldl (fun (a : F × Int) i => if FloatOps.le a.1 (r i) then a else (r i, (i : Int))) (FloatOrder.inf, 0) =
      (r k, (k : Int)) := by
  obtain ⟨k, h1, h2, h3, h4⟩ := scan_best (num := FloatOrder.num) (R := FloatOps.le) (u := FloatOrder.inf) FloatOrder.le_total
    FloatOrder.le_trans FloatOrder.inf_le r n hn hr
  exact ⟨k, ⟨h1, h2, h3⟩, h4⟩

theorem scan_smallest (r : Nat → F) (n : Nat) (hn : 0 < n) (hr : ∀ i < n, FloatOrder.num (r i)) :
    ∃ k, IsArgmin r n k ∧ (List.range n).foldl (fun (x : F) i => if FloatOps.le x (r i) then x else r i) FloatOrder.inf = r k := by
  obtain ⟨k, h1, h2⟩ := scan_least r n hn hr
  exact ⟨k, h1, (scan_fst (R := FloatOps.le) r _ _).symm.trans (congrArg Prod.fst h2)⟩

theorem scan_greatest (r : Nat → F) (n : Nat) (hn : 0 < n) (hr : ∀ i < n, FloatOrder.num (r i)) :
    ∃ k, IsArgmax r n k ∧ (List.range n).foldl (fun (x : F) i => if FloatOps.le (r i) x then x else r i) FloatOrder.ninf = r k := by
  obtain ⟨k, h1, h2, h3, h4⟩ := scan_best (num := FloatOrder.num) (R := fun x y => FloatOps.le y x) (u := FloatOrder.ninf)
    (fun x y hx hy => FloatOrder.le_total y x hy hx) (fun x y z hx hy hz h1 h2 => FloatOrder.le_trans z y x hz hy hx h2 h1)
    FloatOrder.le_ninf r n hn hr
  exact ⟨k, ⟨h1, h2, h3⟩, (scan_fst (R := fun x y => FloatOps.le y x) r _ _).symm.trans (congrArg Prod.fst h4)⟩

/-- C43: `fold_min(f, count)` is the least of the values of `f` (the first such value, where several compare equal), and `+inf`
if there are none. The values are not NaN. -/
theorem C43_fold_min (count : Option (Script F)) (f : Script F) (vs : List (PVal F)) (n : Nat) (r : Nat → F)
    (hn : Rounds count f 2 vs n) (hf : FoldNumbers f vs n r) (hr : ∀ i < n, FloatOrder.num (r i)) :
    (n = 0 → tells (foldMin FloatOrder.inf count f) vs = some (.sc (.f FloatOrder.inf))) ∧
    (0 < n → ∃ k, IsArgmin r n k ∧ tells (foldMin FloatOrder.inf count f) vs = some (.sc (.f (r k)))) := by
  have h := fold_tells (o := .min) (z := FloatOrder.inf) hn hf (g := fun x y => if FloatOps.le x y then x else y) FloatOrder.num FloatOrder.num_inf
    (least_num r n hr)
  refine ⟨fun h0 => by subst h0; exact h, fun h0 => ?_⟩
  obtain ⟨k, h1, h2⟩ := scan_smallest r n h0 hr
  exact ⟨k, h1, h.trans (by rw [h2])⟩

/-- C43: `fold_max(f, count)` is the greatest of the values of `f`, and `-inf` if there are none. -/
theorem C43_fold_max (count : Option (Script F)) (f : Script F) (vs : List (PVal F)) (n : Nat) (r : Nat → F)
    (hn : Rounds count f 2 vs n) (hf : FoldNumbers f vs n r) (hr : ∀ i < n, FloatOrder.num (r i)) :
    (n = 0 → tells (foldMax FloatOrder.ninf count f) vs = some (.sc (.f FloatOrder.ninf))) ∧
    (0 < n → ∃ k, IsArgmax r n k ∧ tells (foldMax FloatOrder.ninf count f) vs = some (.sc (.f (r k)))) := by
  have h := fold_tells (o := .max) (z := FloatOrder.ninf) hn hf (g := fun x y => if FloatOps.le y x then x else y) FloatOrder.num FloatOrder.num_ninf
    (greatest_num r n hr)
  refine ⟨fun h0 => by subst h0; exact h, fun h0 => ?_⟩
  obtain ⟨k, h1, h2⟩ := scan_greatest r n h0 hr
  exact ⟨k, h1, h.trans (by rw [h2])⟩

/-- C43: `reduce_min(f, count)`. -/
theorem C43_reduce_min (count : Option (Script F)) (f : Script F) (vs : List (PVal F)) (n : Nat) (r : Nat → F)
    (hn : Rounds count f 1 vs n) (hf : Numbers f vs n r) (hr : ∀ i < n, FloatOrder.num (r i)) :
    (n = 0 → tells (reduceMin FloatOrder.inf count f) vs = some (.sc (.f FloatOrder.inf))) ∧
    (0 < n → ∃ k, IsArgmin r n k ∧ tells (reduceMin FloatOrder.inf count f) vs = some (.sc (.f (r k)))) := by
  have h := reduce_tells (o := .min) (z := FloatOrder.inf) hn hf (g := fun x y => if FloatOps.le x y then x else y) FloatOrder.num FloatOrder.num_inf
    (least_num r n hr)
  refine ⟨fun h0 => by subst h0; exact h, fun h0 => ?_⟩
  obtain ⟨k, h1, h2⟩ := scan_smallest r n h0 hr
  exact ⟨k, h1, h.trans (by rw [h2])⟩

/-- C43: `reduce_max(f, count)`. -/
theorem C43_reduce_max (count : Option (Script F)) (f : Script F) (vs : List (PVal F)) (n : Nat) (r : Nat → F)
    (hn : Rounds count f 1 vs n) (hf : Numbers f vs n r) (hr : ∀ i < n, FloatOrder.num (r i)) :
    (n = 0 → tells (reduceMax FloatOrder.ninf count f) vs = some (.sc (.f FloatOrder.ninf))) ∧
    (0 < n → ∃ k, IsArgmax r n k ∧ tells (reduceMax FloatOrder.ninf count f) vs = some (.sc (.f (r k)))) := by
  have h := reduce_tells (o := .max) (z := FloatOrder.ninf) hn hf (g := fun x y => if FloatOps.le y x then x else y) FloatOrder.num FloatOrder.num_ninf
    (greatest_num r n hr)
  refine ⟨fun h0 => by subst h0; exact h, fun h0 => ?_⟩
  obtain ⟨k, h1, h2⟩ := scan_greatest r n h0 hr
  exact ⟨k, h1, h.trans (by rw [h2])⟩

/-! ### Positions of minima -/

/-- A number with a position. -/
def placed (a : F × Int) : PVal F := .record .positional [("0", .sc (.f a.1)), ("1", .sc (.i a.2))]

theorem whereLess_tells {x y : Script F} {a b : Script F × Script F} {vs : List (PVal F)} {u w : F × Int}
    (hx : tells x vs = some (.sc (.f u.1))) (hy : tells y vs = some (.sc (.f w.1)))
    (ha : ∀ c, tells a.1 (c :: vs) = some (.sc (.f u.1)) ∧ tells a.2 (c :: vs) = some (.sc (.i u.2)))
    (hb : ∀ c, tells b.1 (c :: vs) = some (.sc (.f w.1)) ∧ tells b.2 (c :: vs) = some (.sc (.i w.2))) :
    tells (whereLess x y a b) vs = some (placed (if FloatOps.le u.1 w.1 then u else w)) := by
  have hc : tells (.bin .le x y) vs = some (.sc (.b (FloatOps.le u.1 w.1))) := by
    simp [tells, hx, hy, toScal, applyPy, applyOp]
  rw [whereLess, tells, hc, Option.bind_some]
  simp only [pairOf, tells, tellsFields, (ha _).1, (ha _).2, (hb _).1, (hb _).2, List.getElem?_cons_zero, Option.bind_some, toScal]
  cases FloatOps.le u.1 w.1 <;> simp [applyOp, placed]

/-- C43: `fold_argmin(f, count)` is the first position of a least value of `f`, and 0 if there are no values. -/
theorem C43_fold_argmin (count : Option (Script F)) (f : Script F) (vs : List (PVal F)) (n : Nat) (r : Nat → F) (hn : Rounds count f 2 vs n)
    (hf : FoldNumbers f vs n r) (hr : ∀ i < n, FloatOrder.num (r i)) :
    (n = 0 → tells (foldArgminOf FloatOrder.inf count f) vs = some (.sc (.i 0))) ∧
    (0 < n → ∃ k : Nat, IsArgmin r n k ∧ tells (foldArgminOf FloatOrder.inf count f) vs = some (.sc (.i k))) := by
  have hz : tells (pairOf (.lit (.f FloatOrder.inf)) (.lit (.i 0))) vs = some (placed ((FloatOrder.inf : F), 0)) := rfl
  have key : tells (foldArgminOf FloatOrder.inf count f) vs = some (.sc (.i ((List.range n).foldl
      (fun (a : F × Int) i => if FloatOps.le a.1 (r i) then a else (r i, (i : Int))) (FloatOrder.inf, 0)).2)) := by
    have loop : loopOpt (fun v (k : Nat) => tells (argminStep f) (.sc (.i k) :: v :: vs)) (placed (FloatOrder.inf, 0)) (List.range n) =
        some (placed ((List.range n).foldl (fun (a : F × Int) i => if FloatOps.le a.1 (r i) then a else (r i, (i : Int))) (FloatOrder.inf, 0))) := by
      refine loop_foldl (e := placed) _ _ fun i hi a => ?_
      rw [argminStep, tells, hf i (List.mem_range.1 hi), Option.bind_some]
      exact whereLess_tells (u := a) (w := (r i, (i : Int))) rfl rfl (fun _ => ⟨rfl, rfl⟩) fun _ => ⟨rfl, rfl⟩
    cases count with
    | some e =>
      obtain ⟨k, h1, rfl⟩ := hn
      rw [foldArgminOf, tells, tells, h1, hz]
      simp only [Option.bind_some, toInt]
      rw [loop]
      rfl
    | none =>
      obtain ⟨l, h1, h2⟩ := Option.bind_eq_some_iff.1 hn
      have : usesIn (argminStep f) 2 0 = some l := by
        rw [argminStep, usesIn, h1]
        simp [whereLess, pairOf, usesIn, usesInFields, uses, isLoc]
      rw [foldArgminOf, tells, tells, this, hz]
      simp only [Option.bind_some, h2]
      rw [loop]
      rfl
  refine ⟨fun h0 => by rw [key, h0]; rfl, fun h0 => ?_⟩
  obtain ⟨j, h2, h3⟩ := scan_least r _ h0 hr
  exact ⟨j, h2, by rw [key, h3]⟩

/-- C43: `reduce_argmin(f, count)`. -/
theorem C43_reduce_argmin (count : Option (Script F)) (f : Script F) (vs : List (PVal F)) (n : Nat) (r : Nat → F) (hn : Rounds count f 1 vs n)
    (hf : Numbers f vs n r) (hr : ∀ i < n, FloatOrder.num (r i)) :
    (n = 0 → tells (reduceArgminOf FloatOrder.inf count f) vs = some (.sc (.i 0))) ∧
    (0 < n → ∃ k : Nat, IsArgmin r n k ∧ tells (reduceArgminOf FloatOrder.inf count f) vs = some (.sc (.i k))) := by
  have hz : tells (pairOf (.lit (.f FloatOrder.inf)) (.lit (.i 0))) vs = some (placed ((FloatOrder.inf : F), 0)) := rfl
  have key : tells (reduceArgminOf FloatOrder.inf count f) vs = some (.sc (.i ((List.range n).foldl
      (fun (a : F × Int) i => if FloatOps.le a.1 (r i) then a else (r i, (i : Int))) (FloatOrder.inf, 0)).2)) := by
    have hpairs : Phi.mapOpt (fun k : Nat => tells (pairOf f (.loc 0)) (.sc (.i k) :: vs)) (List.range n) =
        some ((List.range n).map fun i => placed (r i, (i : Int))) :=
      mapOpt_numbers fun i hi => by simp [pairOf, tells, tellsFields, hf i hi, placed]
    have hrows := rows_scalars n (fun i => placed (r i, (i : Int))) fun _ _ => by simp [placed, PVal.sameShape, PVal.sameShapeFields]
    have loop : ∀ (l : List Nat) (z : F × Int), loopOpt (fun v y => tells argminPair (v :: y :: vs)) (placed z)
          (l.map fun i => placed (r i, (i : Int))) =
        some (placed (l.foldl (fun (a : F × Int) i => if FloatOps.le a.1 (r i) then a else (r i, (i : Int))) z)) := by
      intro l
      induction l with
      | nil => intro z; rfl
      | cons i l ih =>
        intro z
        rw [List.map_cons, loopOpt, argminPair,
          whereLess_tells (u := z) (w := (r i, (i : Int))) rfl rfl (fun _ => ⟨rfl, rfl⟩) fun _ => ⟨rfl, rfl⟩, Option.bind_some]
        exact ih _
    cases count with
    | some e =>
      obtain ⟨k, h1, rfl⟩ := hn
      have hx : tells (.array e (pairOf f (.loc 0))) vs = some (.arr ((List.range k.toNat).map fun i => placed (r i, (i : Int)))) := by
        rw [tells, h1]
        simp only [Option.bind_some, toInt]
        rw [hpairs, Option.bind_some, hrows]
      rw [reduceArgminOf, tells, tells, hx, hz]
      simp only [Option.bind_some, toList]
      rw [loop]
      rfl
    | none =>
      obtain ⟨l, h1, h2⟩ := Option.bind_eq_some_iff.1 hn
      have hu : usesAll (pairOf f (.loc 0)) 0 = some [l] := by
        simp [usesAll, Phi.mapOpt, pairOf, usesIn, usesInFields, usesIn_of_uses f h1, isLoc]
      have hx : tells (.auto 0 (pairOf f (.loc 0))) vs = some (.arr ((List.range n).map fun i => placed (r i, (i : Int)))) := by
        rw [tells, hu]
        simp only [Option.bind_some, Phi.mapOpt, h2, table, List.map_cons, List.map_nil, List.reverse_cons, List.reverse_nil, List.nil_append,
          List.cons_append]
        rw [hpairs, Option.bind_some, hrows]
      rw [reduceArgminOf, tells, tells, hx, hz]
      simp only [Option.bind_some, toList]
      rw [loop]
      rfl
  refine ⟨fun h0 => by rw [key, h0]; rfl, fun h0 => ?_⟩
  obtain ⟨j, h2, h3⟩ := scan_least r _ h0 hr
  exact ⟨j, h2, by rw [key, h3]⟩

end

section
variable [DecidableEq F]
attribute [-simp] List.map_const' List.map_const_fun List.map_const

/-! ### The values of what the library makes -/

/-- The count, if there is one, is an integer, in which sizes are settled; otherwise arrays from outside are read at the index,
and they are arguments. The arguments have types `ts`. -/
def CountOk (count : Option (Script F)) (f : Script F) (lo : Nat) (ts : List UTy) : Prop :=
  match count with
  | some e => typ e ts = some (.sc .int) ∧ deps e 0 (ts.map fun _ => []) = some [] ∧ settled e 0 (ts.map fun _ => []) = true
  | none => (∃ l, uses f lo 0 = some l ∧ ∀ q ∈ l, q.1.loc < ts.length) ∧
      ∃ q, reads f [] lo 0 = some q ∧ q.1.loc < ts.length ∧ ((q.1.type ts).bind UTy.elem?).isSome = true

/-- The function of the user in a fold: it computes a number from an integer, whatever the accumulator of the library is. -/
structure FoldFun (f : Script F) (ts : List UTy) : Prop where
  typed : ∀ t, typ f (.sc .int :: t :: ts) = some (.sc .float)
  sizes : (deps f 0 ([] :: [] :: ts.map fun _ => [])).isSome = true
  settled : settled f 0 ([] :: [] :: ts.map fun _ => []) = true

/-- The function of the user in a comprehension. -/
structure ArrayFun (f : Script F) (ts : List UTy) : Prop where
  typed : typ f (.sc .int :: ts) = some (.sc .float)
  sizes : (deps f 1 ([0] :: ts.map fun _ => [])).isSome = true
  settled : settled f 1 ([0] :: ts.map fun _ => []) = true

/-- A program of arguments of types `ts` is typed, and sizes do not depend on indices. -/
structure Ready (P : Script F) (ts : List UTy) (t : UTy) : Prop where
  typed : typ P ts = some t
  sizes : (deps P 0 (ts.map fun _ => [])).isSome = true
  settled : settled P 0 (ts.map fun _ => []) = true

omit [FloatOps F] in
theorem none_of (ts : List UTy) {k : Nat} (h : k < ts.length) : (ts.map fun _ => ([] : List Nat))[k]? = some [] := by
  simp [h]

omit [FloatOps F] in
theorem notLoc_of_typed {f : Script F} {ts : List UTy} (h : typ f (.sc .int :: ts) = some (.sc .float)) : isLoc 0 f = false := by
  cases f <;> try rfl
  rename_i n
  cases n with
  | zero => simp [typ] at h
  | succ n => simp [isLoc]

/-- `fold_sum`, `fold_min`, `fold_max` of such a function are typed. -/
theorem foldMonoid_ready {o : PyOp} (ho : pyKind o .float .float = some .float) (z : F) {count : Option (Script F)} {f : Script F} {ts : List UTy}
    (hc : CountOk count f 2 ts) (hf : FoldFun f ts) : Ready (foldMonoid o z count f) ts (.sc .float) := by
  obtain ⟨x, hx⟩ := Option.isSome_iff_exists.1 hf.sizes
  cases count with
  | some e =>
    obtain ⟨h1, h2, h3⟩ := hc
    refine ⟨?_, ?_, ?_⟩
    · simp [foldMonoid, typ, h1, UTy.kind?, hf.typed, ho, Scal.kind, UTy.same]
    · simp [foldMonoid, deps, h2, hx]
    · simp [foldMonoid, Frontend.settled, h3, hf.settled]
  | none =>
    obtain ⟨⟨l, h1, h2⟩, q, h3, h4, h5⟩ := hc
    have hr : reads (.bin o (.loc 1) f) [] 2 0 = some q := by simp [reads, h3]
    have hu : usesIn (.bin o (.loc 1) f) 2 0 = some l := by
      refine usesIn_of_uses _ ?_
      rw [uses, notLoc_of_typed (hf.typed (.sc .float)), h1]
      simp [uses, isLoc]
    obtain ⟨t, ht⟩ := Option.isSome_iff_exists.1 h5
    refine ⟨?_, ?_, ?_⟩
    · simp only [foldMonoid, typ, hr, Option.bind_some, ht]
      simp [UTy.kind?, hf.typed, ho, Scal.kind, UTy.same]
    · simp only [foldMonoid, deps, hr, Option.bind_some, none_of ts h4]
      simp [hx]
    · simp only [foldMonoid, Frontend.settled, hu, Option.any_some, hf.settled, Bool.and_true, List.all_eq_true, decide_eq_true_eq]
      exact fun q hq => none_of ts (h2 q hq)

/-- `reduce_sum`, `reduce_min`, `reduce_max` of such a function are typed. -/
theorem reduceMonoid_ready {o : PyOp} (ho : pyKind o .float .float = some .float) (z : F) {count : Option (Script F)} {f : Script F} {ts : List UTy}
    (hc : CountOk count f 1 ts) (hf : ArrayFun f ts) : Ready (reduceMonoid o z count f) ts (.sc .float) := by
  obtain ⟨x, hx⟩ := Option.isSome_iff_exists.1 hf.sizes
  cases count with
  | some e =>
    obtain ⟨h1, h2, h3⟩ := hc
    refine ⟨?_, ?_, ?_⟩
    · simp [reduceMonoid, typ, h1, UTy.kind?, UTy.elem?, hf.typed, ho, Scal.kind, UTy.same]
    · simp [reduceMonoid, deps, h2, hx]
    · simp [reduceMonoid, Frontend.settled, h3, hf.settled]
  | none =>
    obtain ⟨⟨l, h1, h2⟩, q, h3, h4, h5⟩ := hc
    have hr : readsAll f 0 = some [q] := by simp [readsAll, Phi.mapOpt, h3]
    have hu : usesAll f 0 = some [l] := by simp [usesAll, Phi.mapOpt, usesIn_of_uses f h1]
    refine ⟨?_, ?_, ?_⟩
    · simp [reduceMonoid, typ, hr, h5, UTy.kind?, UTy.elem?, hf.typed, ho, Scal.kind, UTy.same, UTy.arrs]
    · simp [reduceMonoid, deps, hr, h4, hx]
    · simp [reduceMonoid, Frontend.settled, hu, hf.settled]
      exact fun a k hq => ⟨_, List.getElem?_eq_getElem (h2 (a, k) hq)⟩

omit [FloatOps F] in
/-- Where an array is read in a number, it is read in all of it. -/
theorem spread_of_reads : ∀ (f : Script F) {ts : List UTy} {k : Kind} {σ : List (Option (Place × Nat))} {lo j : Nat} {q : Place × Nat},
    typ f ts = some (.sc k) → reads f σ lo j = some q → spread f = true
  | .assign a b, ts, k, σ, lo, j, q, h, hr => by
    simp only [typ, Option.bind_eq_some_iff] at h
    obtain ⟨t, -, h⟩ := h
    exact spread_of_reads b h hr
  | .field x n, _, _, _, _, _, _, _, hr => by
    simp only [reads] at hr
    split at hr
    · assumption
    · cases hr
  | .part x n, _, _, _, _, _, _, _, hr => by
    simp only [reads] at hr
    split at hr
    · assumption
    · cases hr
  | .record k fs, _, _, _, _, _, _, h, _ => by
    simp only [typ, Option.bind_eq_some_iff] at h
    obtain ⟨t, -, h⟩ := h
    split at h <;> cases h
  | .loc _, _, _, _, _, _, _, _, _ => rfl
  | .lit _, _, _, _, _, _, _, _, _ => rfl
  | .un _ _, _, _, _, _, _, _, _, _ => rfl
  | .bin _ _ _, _, _, _, _, _, _, _, _ => rfl
  | .choose _ _ _, _, _, _, _, _, _, _, _ => rfl
  | .item _ _, _, _, _, _, _, _, _, _ => rfl
  | .size _ _, _, _, _, _, _, _, _, _ => rfl
  | .array _ _, _, _, _, _, _, _, _, _ => rfl
  | .fold _ _ _, _, _, _, _, _, _, _, _ => rfl
  | .reduce _ _ _, _, _, _, _, _, _, _, _ => rfl
  | .concat _ _, _, _, _, _, _, _, _, _ => rfl
  | .auto _ _, _, _, _, _, _, _, _, _ => rfl
  | .autoFold _ _, _, _, _, _, _, _, _, _ => rfl

/-- The type of a number and its position. -/
def placedTy : UTy := .record .positional (.cons "0" (.sc .float) (.cons "1" (.sc .int) .nil))

/-- `fold_argmin` of such a function is typed. -/
theorem foldArgmin_ready (z : F) {count : Option (Script F)} {f : Script F} {ts : List UTy}
    (hc : CountOk count f 2 ts) (hf : FoldFun f ts) : Ready (foldArgminOf z count f) ts (.sc .int) := by
  obtain ⟨x, hx⟩ := Option.isSome_iff_exists.1 hf.sizes
  have hz : typ (pairOf (.lit (.f z)) (.lit (.i 0))) ts = some placedTy := rfl
  have hs : typ (argminStep f) (.sc .int :: placedTy :: ts) = some placedTy := by
    rw [argminStep, typ, hf.typed]
    rfl
  have hsame : placedTy.same placedTy = true := rfl
  have hd : (deps (argminStep f) 0 ([] :: [] :: ts.map fun _ => [])).isSome = true := by
    rw [argminStep, deps, hx]
    simp [whereLess, pairOf, deps, depsFields]
  obtain ⟨y, hy⟩ := Option.isSome_iff_exists.1 hd
  have hb : Frontend.settled (argminStep f) 0 ([] :: [] :: ts.map fun _ => []) = true := by
    rw [argminStep, Frontend.settled, hx, hf.settled]
    simp [whereLess, pairOf, Frontend.settled, settledFields, deps]
  cases count with
  | some e =>
    obtain ⟨h1, h2, h3⟩ := hc
    refine ⟨?_, ?_, ?_⟩
    · simp only [foldArgminOf, typ, h1, Option.bind_some, UTy.kind?, if_true, hz, hs, hsame]
      rfl
    · simp [foldArgminOf, deps, h2, hy, pairOf, depsFields]
    · simp [foldArgminOf, Frontend.settled, h3, hb, pairOf, settledFields]
  | none =>
    obtain ⟨⟨l, h1, h2⟩, q, h3, h4, h5⟩ := hc
    have hsp := spread_of_reads f (hf.typed placedTy) h3
    have hr : reads (argminStep f) [] 2 0 = some q := by
      rw [argminStep, reads, hsp, h3]
      simp [whereLess, pairOf, reads, readsFields, spread]
    have hu : usesIn (argminStep f) 2 0 = some l := by
      rw [argminStep, usesIn, h1]
      simp [whereLess, pairOf, usesIn, usesInFields, uses, isLoc]
    obtain ⟨t, ht⟩ := Option.isSome_iff_exists.1 h5
    refine ⟨?_, ?_, ?_⟩
    · simp only [foldArgminOf, typ, hr, Option.bind_some, ht, hz, hs, hsame, if_true]
      rfl
    · simp only [foldArgminOf, deps, hr, Option.bind_some, none_of ts h4]
      simp [hy, pairOf, deps, depsFields]
    · simp only [foldArgminOf, Frontend.settled, hu, Option.any_some, hb, Bool.and_true, Bool.and_eq_true, List.all_eq_true, decide_eq_true_eq]
      exact ⟨fun q hq => none_of ts (h2 q hq), by simp [pairOf, Frontend.settled, settledFields]⟩

/-- `reduce_argmin` of such a function is typed. -/
theorem reduceArgmin_ready (z : F) {count : Option (Script F)} {f : Script F} {ts : List UTy}
    (hc : CountOk count f 1 ts) (hf : ArrayFun f ts) : Ready (reduceArgminOf z count f) ts (.sc .int) := by
  obtain ⟨x, hx⟩ := Option.isSome_iff_exists.1 hf.sizes
  have hz : typ (pairOf (.lit (.f z)) (.lit (.i 0))) ts = some placedTy := rfl
  have hp : typ (pairOf f (.loc 0)) (.sc .int :: ts) = some placedTy := by
    simp only [pairOf, typ, typFields, hf.typed]
    rfl
  have hs : typ (argminPair : Script F) (placedTy :: placedTy :: ts) = some placedTy := rfl
  have hsame : placedTy.same placedTy = true := rfl
  have hd : (deps (argminPair : Script F) 0 ([] :: [] :: ts.map fun _ => [])).isSome = true := by
    simp [argminPair, whereLess, pairOf, deps, depsFields]
  obtain ⟨y, hy⟩ := Option.isSome_iff_exists.1 hd
  have hb : Frontend.settled (argminPair : Script F) 0 ([] :: [] :: ts.map fun _ => []) = true := by
    simp [argminPair, whereLess, pairOf, Frontend.settled, settledFields, deps]
  cases count with
  | some e =>
    obtain ⟨h1, h2, h3⟩ := hc
    refine ⟨?_, ?_, ?_⟩
    · simp only [reduceArgminOf, typ, h1, Option.bind_some, UTy.kind?, if_true, hp, Option.map_some, UTy.elem?, hz, hs, hsame, Bool.and_self]
      rfl
    · simp [reduceArgminOf, deps, h2, hx, hy, pairOf, depsFields]
    · simp [reduceArgminOf, Frontend.settled, h3, hb, hf.settled, pairOf, settledFields]
  | none =>
    obtain ⟨⟨l, h1, h2⟩, q, h3, h4, h5⟩ := hc
    have hr : readsAll (pairOf f (.loc 0)) 0 = some [q] := by simp [readsAll, Phi.mapOpt, pairOf, reads, readsFields, h3]
    have hu : usesAll (pairOf f (.loc 0)) 0 = some [l] := by
      simp [usesAll, Phi.mapOpt, pairOf, usesIn, usesInFields, usesIn_of_uses f h1, isLoc]
    refine ⟨?_, ?_, ?_⟩
    · simp only [reduceArgminOf, typ, hr, Option.bind_some, List.all_cons, List.all_nil, h5, Bool.and_self, if_true, Nat.zero_add, List.replicate_one,
        List.cons_append, List.nil_append, hp, Option.map_some, UTy.arrs, UTy.elem?, hz, hs, hsame]
      rfl
    · simp only [reduceArgminOf, deps, hr, Option.bind_some, List.all_cons, List.all_nil, none_of ts h4]
      simp [hx, hy, pairOf, deps, depsFields]
    · have hg : Frontend.settled (pairOf f (.loc 0)) 1 ([0] :: ts.map fun _ => []) = true := by
        simp [pairOf, Frontend.settled, settledFields, hf.settled]
      have hi : Frontend.settled (pairOf (.lit (.f z)) (.lit (.i 0))) 0 (ts.map fun _ => []) = true := by
        simp [pairOf, Frontend.settled, settledFields]
      have hall : (l.all fun q => decide ((ts.map fun _ => ([] : List Nat))[q.1.loc]? = some [])) = true :=
        List.all_eq_true.2 fun q hq => decide_eq_true (none_of ts (h2 q hq))
      simp only [reduceArgminOf, Frontend.settled, hu, Option.any_some, List.all_cons, List.all_nil, hall, hb, hi, Bool.and_true, Bool.true_and]
      exact hg

/-- For arguments of types `ts` that hold `vs`, the program does not raise, and what it makes holds `v`. -/
def Makes (I : Ext F) (P : Script F) (ts : List UTy) (vs : List (PVal F)) (v : PVal F) : Prop :=
  ∀ c args env, argObjs c (ts.map UTy.ty) = some args → RegularEnv env → Phi.mapOpt (value I env) args = some vs →
    ∃ o c', make P args (c + (ts.map UTy.ty).length) = some (o, c') ∧ value I env o = some v

theorem Ready.makes (I : Ext F) {P : Script F} {ts : List UTy} {t : UTy} (h : Ready P ts t) (ha : ∀ t ∈ ts, isArray t = true) {vs : List (PVal F)}
    {v : PVal F} (hv : tells P vs = some v) : Makes I P ts vs v := by
  intro c args env h1 h2 h3
  obtain ⟨x, hx⟩ := Option.isSome_iff_exists.1 h.sizes
  obtain ⟨args', g1, g2, g3⟩ := args_has (I := I) (Γ := argCtx c (ts.map UTy.ty)) (c' := c + (ts.map UTy.ty).length) ts c ha (args_ctx c _)
  cases g1.symm.trans h1
  obtain ⟨o, c', hm, -⟩ := all_traces (I := I) P ts t args _ _ [] _ x (args_ok ha) g2 (argCtx_below c _) h.typed (g3 []) hx
  exact ⟨o, c', hm, C42_value I P ts t ha h.typed h.sizes h.settled c args o c' env vs v h1 hm h2 h3 hv⟩

/-- C43: the object that `fold_sum(f, count)` returns holds the sum. -/
theorem C43_fold_sum_value [Field F] [LinearOrder F] [ExactFloat F] (I : Ext F) (count : Option (Script F)) (f : Script F) (ts : List UTy)
    (ha : ∀ t ∈ ts, isArray t = true) (hc : CountOk count f 2 ts) (hf : FoldFun f ts) (vs : List (PVal F)) (n : Nat) (r : Nat → F)
    (hn : Rounds count f 2 vs n) (hr : FoldNumbers f vs n r) :
    Makes I (foldSum 0 count f) ts vs (.sc (.f (∑ i ∈ Finset.range n, r i))) :=
  (foldMonoid_ready rfl 0 hc hf).makes I ha (C43_fold_sum count f vs n r hn hr)

/-- C43: the object that `reduce_sum(f, count)` returns holds the sum. -/
theorem C43_reduce_sum_value [Field F] [LinearOrder F] [ExactFloat F] (I : Ext F) (count : Option (Script F)) (f : Script F) (ts : List UTy)
    (ha : ∀ t ∈ ts, isArray t = true) (hc : CountOk count f 1 ts) (hf : ArrayFun f ts) (vs : List (PVal F)) (n : Nat) (r : Nat → F)
    (hn : Rounds count f 1 vs n) (hr : Numbers f vs n r) :
    Makes I (reduceSum 0 count f) ts vs (.sc (.f (∑ i ∈ Finset.range n, r i))) :=
  (reduceMonoid_ready rfl 0 hc hf).makes I ha (C43_reduce_sum count f vs n r hn hr)

section
variable [FloatOrder F]

/-- C43: the objects that `fold_min`, `fold_max` and `fold_argmin` return, where there are values. -/
theorem C43_fold_order_value (I : Ext F) (count : Option (Script F)) (f : Script F) (ts : List UTy)
    (ha : ∀ t ∈ ts, isArray t = true) (hc : CountOk count f 2 ts) (hf : FoldFun f ts) (vs : List (PVal F)) (n : Nat) (r : Nat → F)
    (hn : Rounds count f 2 vs n) (hr : FoldNumbers f vs n r) (hnum : ∀ i < n, FloatOrder.num (r i)) (h0 : 0 < n) :
    (∃ k, IsArgmin r n k ∧ Makes I (foldMin FloatOrder.inf count f) ts vs (.sc (.f (r k)))) ∧
    (∃ k, IsArgmax r n k ∧ Makes I (foldMax FloatOrder.ninf count f) ts vs (.sc (.f (r k)))) ∧
    (∃ k : Nat, IsArgmin r n k ∧ Makes I (foldArgminOf FloatOrder.inf count f) ts vs (.sc (.i k))) := by
  obtain ⟨k, hk, h1⟩ := (C43_fold_min count f vs n r hn hr hnum).2 h0
  obtain ⟨l, hl, h2⟩ := (C43_fold_max count f vs n r hn hr hnum).2 h0
  obtain ⟨m, hm, h3⟩ := (C43_fold_argmin count f vs n r hn hr hnum).2 h0
  exact ⟨⟨k, hk, (foldMonoid_ready rfl _ hc hf).makes I ha h1⟩, ⟨l, hl, (foldMonoid_ready rfl _ hc hf).makes I ha h2⟩,
    ⟨m, hm, (foldArgmin_ready _ hc hf).makes I ha h3⟩⟩

/-- C43: the objects that `reduce_min`, `reduce_max` and `reduce_argmin` return, where there are values. -/
theorem C43_reduce_order_value (I : Ext F) (count : Option (Script F)) (f : Script F) (ts : List UTy)
    (ha : ∀ t ∈ ts, isArray t = true) (hc : CountOk count f 1 ts) (hf : ArrayFun f ts) (vs : List (PVal F)) (n : Nat) (r : Nat → F)
    (hn : Rounds count f 1 vs n) (hr : Numbers f vs n r) (hnum : ∀ i < n, FloatOrder.num (r i)) (h0 : 0 < n) :
    (∃ k, IsArgmin r n k ∧ Makes I (reduceMin FloatOrder.inf count f) ts vs (.sc (.f (r k)))) ∧
    (∃ k, IsArgmax r n k ∧ Makes I (reduceMax FloatOrder.ninf count f) ts vs (.sc (.f (r k)))) ∧
    (∃ k : Nat, IsArgmin r n k ∧ Makes I (reduceArgminOf FloatOrder.inf count f) ts vs (.sc (.i k))) := by
  obtain ⟨k, hk, h1⟩ := (C43_reduce_min count f vs n r hn hr hnum).2 h0
  obtain ⟨l, hl, h2⟩ := (C43_reduce_max count f vs n r hn hr hnum).2 h0
  obtain ⟨m, hm, h3⟩ := (C43_reduce_argmin count f vs n r hn hr hnum).2 h0
  exact ⟨⟨k, hk, (reduceMonoid_ready rfl _ hc hf).makes I ha h1⟩, ⟨l, hl, (reduceMonoid_ready rfl _ hc hf).makes I ha h2⟩,
    ⟨m, hm, (reduceArgmin_ready _ hc hf).makes I ha h3⟩⟩

/-- C43: without values, the objects are the identities, and position 0. -/
theorem C43_empty_value (I : Ext F) (count : Option (Script F)) (f g : Script F) (ts : List UTy)
    (ha : ∀ t ∈ ts, isArray t = true) (hc : CountOk count f 2 ts) (hc' : CountOk count g 1 ts) (hf : FoldFun f ts) (hg : ArrayFun g ts)
    (vs : List (PVal F)) (hn : Rounds count f 2 vs 0) (hn' : Rounds count g 1 vs 0) :
    Makes I (foldMin FloatOrder.inf count f) ts vs (.sc (.f FloatOrder.inf)) ∧
    Makes I (foldMax FloatOrder.ninf count f) ts vs (.sc (.f FloatOrder.ninf)) ∧
    Makes I (foldArgminOf FloatOrder.inf count f) ts vs (.sc (.i 0)) ∧
    Makes I (reduceMin FloatOrder.inf count g) ts vs (.sc (.f FloatOrder.inf)) ∧
    Makes I (reduceMax FloatOrder.ninf count g) ts vs (.sc (.f FloatOrder.ninf)) ∧
    Makes I (reduceArgminOf FloatOrder.inf count g) ts vs (.sc (.i 0)) :=
  ⟨(foldMonoid_ready rfl _ hc hf).makes I ha ((C43_fold_min count f vs 0 (fun _ => FloatOrder.inf) hn (by intro i hi; omega) (by intro i hi; omega)).1 rfl),
    (foldMonoid_ready rfl _ hc hf).makes I ha ((C43_fold_max count f vs 0 (fun _ => FloatOrder.inf) hn (by intro i hi; omega) (by intro i hi; omega)).1 rfl),
    (foldArgmin_ready _ hc hf).makes I ha ((C43_fold_argmin count f vs 0 (fun _ => FloatOrder.inf) hn (by intro i hi; omega) (by intro i hi; omega)).1 rfl),
    (reduceMonoid_ready rfl _ hc' hg).makes I ha ((C43_reduce_min count g vs 0 (fun _ => FloatOrder.inf) hn' (by intro i hi; omega) (by intro i hi; omega)).1 rfl),
    (reduceMonoid_ready rfl _ hc' hg).makes I ha ((C43_reduce_max count g vs 0 (fun _ => FloatOrder.inf) hn' (by intro i hi; omega) (by intro i hi; omega)).1 rfl),
    (reduceArgmin_ready _ hc' hg).makes I ha ((C43_reduce_argmin count g vs 0 (fun _ => FloatOrder.inf) hn' (by intro i hi; omega) (by intro i hi; omega)).1 rfl)⟩

end

end

/-! ### Examples -/

namespace C43Example
open Verif.Toy

/-- `lambda i: x[i]` in a fold and in a comprehension, for the only argument `x` -/
def inFold {F : Type} : Script F := .item (.loc 2) (.loc 0)
def inArray {F : Type} : Script F := .item (.loc 1) (.loc 0)

/-- An array of numbers. -/
def numbers {F : Type} (l : List F) : List (PVal F) := [.arr (l.map fun x => .sc (.f x))]

theorem inFold_numbers {F : Type} [FloatOps F] (l : List F) (d : F) : FoldNumbers inFold (numbers l) l.length fun i => l.getD i d := by
  intro i hi a
  simp only [inFold, numbers, tells, List.getElem?_cons_succ, List.getElem?_cons_zero, Option.bind_some, toList, toInt, elementAt]
  rw [show (Max.max 0 (Min.min (i : Int) (((l.map fun x => PVal.sc (Scal.f x)).length : Int) - 1))).toNat = i by simp; omega]
  simp [List.getElem?_eq_getElem hi, List.getD]

theorem inArray_numbers {F : Type} [FloatOps F] (l : List F) (d : F) : Numbers inArray (numbers l) l.length fun i => l.getD i d := by
  intro i hi
  simp only [inArray, numbers, tells, List.getElem?_cons_succ, List.getElem?_cons_zero, Option.bind_some, toList, toInt, elementAt]
  rw [show (Max.max 0 (Min.min (i : Int) (((l.map fun x => PVal.sc (Scal.f x)).length : Int) - 1))).toNat = i by simp; omega]
  simp [List.getElem?_eq_getElem hi, List.getD]

theorem inFold_rounds {F : Type} [FloatOps F] (l : List F) (h : 0 < l.length) : Rounds none inFold 2 (numbers l) l.length := by
  simp [Rounds, inFold, uses, isLoc, placeOf, common, Phi.mapOpt, Place.val, numbers, extent, h]

theorem inArray_rounds {F : Type} [FloatOps F] (l : List F) (h : 0 < l.length) : Rounds none inArray 1 (numbers l) l.length := by
  simp [Rounds, inArray, uses, isLoc, placeOf, common, Phi.mapOpt, Place.val, numbers, extent, h]

/-- `1 + 2 + 4 = 7`, with the count left out and with a count. -/
example : tells (foldSum 0 none inFold) (numbers [1, 2, (4 : ℚ)]) = some (.sc (.f 7)) ∧
    tells (foldSum 0 (some (.lit (.i 3))) inFold) (numbers [1, 2, (4 : ℚ)]) = some (.sc (.f 7)) ∧
    tells (reduceSum 0 none inArray) (numbers [1, 2, (4 : ℚ)]) = some (.sc (.f 7)) := by
  refine ⟨?_, ?_, ?_⟩
  · rw [C43_fold_sum none inFold _ 3 _ (inFold_rounds [1, 2, (4 : ℚ)] (by decide)) (inFold_numbers [1, 2, (4 : ℚ)] 0)]
    simp [Finset.sum_range_succ]; norm_num
  · rw [C43_fold_sum (some (.lit (.i 3))) inFold (numbers [1, 2, (4 : ℚ)]) 3 _ ⟨3, rfl, rfl⟩ (inFold_numbers [1, 2, (4 : ℚ)] 0)]
    simp [Finset.sum_range_succ]; norm_num
  · rw [C43_reduce_sum none inArray _ 3 _ (inArray_rounds [1, 2, (4 : ℚ)] (by decide)) (inArray_numbers [1, 2, (4 : ℚ)] 0)]
    simp [Finset.sum_range_succ]; norm_num

/-- The numbers 7, 4, 9, 4. -/
def four : List Fl := [.fin 7, .fin 4, .fin 9, .fin 4]

theorem four_num : ∀ i < four.length, FloatOrder.num (four.getD i .nan) := by
  show ∀ i < 4, four.getD i .nan ≠ .nan
  decide +kernel

/-- The hypotheses of the theorems hold for arrays of these numbers, whether the count is left out or not. -/
example : (∃ k, IsArgmin (fun i => four.getD i .nan) 4 k ∧ tells (foldMin .inf none inFold) (numbers four) = some (.sc (.f (four.getD k .nan)))) ∧
    (∃ k, IsArgmax (fun i => four.getD i .nan) 4 k ∧ tells (foldMax .ninf none inFold) (numbers four) = some (.sc (.f (four.getD k .nan)))) ∧
    (∃ k, IsArgmin (fun i => four.getD i .nan) 4 k ∧ tells (reduceMin .inf none inArray) (numbers four) = some (.sc (.f (four.getD k .nan)))) ∧
    (∃ k, IsArgmax (fun i => four.getD i .nan) 4 k ∧ tells (reduceMax .ninf none inArray) (numbers four) = some (.sc (.f (four.getD k .nan)))) ∧
    (∃ k : Nat, IsArgmin (fun i => four.getD i .nan) 4 k ∧ tells (foldArgminOf .inf none inFold) (numbers four) = some (.sc (.i k))) ∧
    (∃ k : Nat, IsArgmin (fun i => four.getD i .nan) 4 k ∧ tells (reduceArgminOf .inf none inArray) (numbers four) = some (.sc (.i k))) :=
  ⟨(C43_fold_min none inFold _ 4 _ (inFold_rounds four (by decide)) (inFold_numbers four .nan) four_num).2 (by decide),
    (C43_fold_max none inFold _ 4 _ (inFold_rounds four (by decide)) (inFold_numbers four .nan) four_num).2 (by decide),
    (C43_reduce_min none inArray _ 4 _ (inArray_rounds four (by decide)) (inArray_numbers four .nan) four_num).2 (by decide),
    (C43_reduce_max none inArray _ 4 _ (inArray_rounds four (by decide)) (inArray_numbers four .nan) four_num).2 (by decide),
    (C43_fold_argmin none inFold _ 4 _ (inFold_rounds four (by decide)) (inFold_numbers four .nan) four_num).2 (by decide),
    (C43_reduce_argmin none inArray _ 4 _ (inArray_rounds four (by decide)) (inArray_numbers four .nan) four_num).2 (by decide)⟩

/-- The values: the least is 4, which is first at position 1; the greatest is 9. -/
example : (tells (foldMin .inf none inFold) (numbers four) = some (.sc (.f (.fin 4))) ∧
    tells (foldMax .ninf none inFold) (numbers four) = some (.sc (.f (.fin 9))) ∧
    tells (foldArgminOf .inf none inFold) (numbers four) = some (.sc (.i 1))) ∧
    tells (reduceArgminOf .inf none inArray) (numbers four) = some (.sc (.i 1)) :=
  ⟨⟨rfl, rfl, rfl⟩, rfl⟩

/-- The programs are typed and meet the conditions of C41 and C42, so this is what the arrays that they make hold. -/
example (I : Ext Fl) : Computes I (make (foldMin .inf none inFold)) [.vector (.scalar .float)] (tells (foldMin .inf none inFold)) ∧
    Computes I (make (reduceMax .ninf none inArray)) [.vector (.scalar .float)] (tells (reduceMax .ninf none inArray)) ∧
    Computes I (make (foldArgminOf .inf none inFold)) [.vector (.scalar .float)]
      (tells (foldArgminOf .inf none inFold)) ∧
    Computes I (make (reduceArgminOf .inf none inArray)) [.vector (.scalar .float)]
      (tells (reduceArgminOf .inf none inArray)) :=
  ⟨C42_value I _ [.arr (.sc .float)] (.sc .float) (by simp [isArray]) rfl rfl rfl,
    C42_value I _ [.arr (.sc .float)] (.sc .float) (by simp [isArray]) rfl rfl rfl,
    C42_value I _ [.arr (.sc .float)] (.sc .int) (by simp [isArray]) rfl rfl rfl,
    C42_value I _ [.arr (.sc .float)] (.sc .int) (by simp [isArray]) rfl rfl rfl⟩

/-- The function `lambda i: x[i]` meets the conditions, for an array `x` of numbers. -/
theorem inFold_ok {F : Type} [FloatOps F] : CountOk (F := F) none inFold 2 [.arr (.sc .float)] ∧ FoldFun (F := F) inFold [.arr (.sc .float)] :=
  ⟨⟨⟨_, rfl, by simp⟩, _, rfl, by simp, rfl⟩, ⟨fun _ => rfl, rfl, rfl⟩⟩

theorem inArray_ok {F : Type} [FloatOps F] : CountOk (F := F) none inArray 1 [.arr (.sc .float)] ∧ ArrayFun (F := F) inArray [.arr (.sc .float)] :=
  ⟨⟨⟨_, rfl, by simp⟩, _, rfl, by simp, rfl⟩, ⟨rfl, rfl, rfl⟩⟩

/-- So what the library makes from it holds the sum, for every array of rational numbers that is not empty. -/
example (I : Ext ℚ) (l : List ℚ) (h : 0 < l.length) :
    Makes I (foldSum 0 none inFold) [.arr (.sc .float)] (numbers l) (.sc (.f (∑ i ∈ Finset.range l.length, l.getD i 0))) ∧
    Makes I (reduceSum 0 none inArray) [.arr (.sc .float)] (numbers l) (.sc (.f (∑ i ∈ Finset.range l.length, l.getD i 0))) :=
  ⟨C43_fold_sum_value I none inFold _ (by simp [isArray]) inFold_ok.1 inFold_ok.2 _ _ _ (inFold_rounds l h) (inFold_numbers l 0),
    C43_reduce_sum_value I none inArray _ (by simp [isArray]) inArray_ok.1 inArray_ok.2 _ _ _ (inArray_rounds l h) (inArray_numbers l 0)⟩

/-- And the minima, maxima and positions of the numbers 7, 4, 9, 4. -/
example (I : Ext Fl) :=
  (⟨C43_fold_order_value I none inFold _ (by simp [isArray]) inFold_ok.1 inFold_ok.2 _ _ _ (inFold_rounds four (by decide)) (inFold_numbers four .nan)
      four_num (by decide),
    C43_reduce_order_value I none inArray _ (by simp [isArray]) inArray_ok.1 inArray_ok.2 _ _ _ (inArray_rounds four (by decide))
      (inArray_numbers four .nan) four_num (by decide)⟩ : _ ∧ _)

/-- With a count of zero. -/
example (I : Ext Fl) :=
  C43_empty_value I (some (.lit (.i 0))) inFold inArray [.arr (.sc .float)] (by simp [isArray]) ⟨rfl, rfl, rfl⟩ ⟨rfl, rfl, rfl⟩ inFold_ok.2 inArray_ok.2
    (numbers four) ⟨0, rfl, rfl⟩ ⟨0, rfl, rfl⟩

end C43Example

end Verif.Props
