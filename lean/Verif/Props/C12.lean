import Verif.Midend.SizeMoment
import Verif.Props.C01
import Verif.Toy

/-!
C12 — size equality reasoning is sound.

The statements are about *moments* of an evaluation (`Moment`): a value for every symbol of the program, where
let-bound variables have the values of their definitions, fold counters and accumulators the values of one
round, and indices the value 0. Comparing sizes at index 0 is what the program itself does
(`_with_indices_at_zero`).

The full property does not hold; see the two counterexamples at the end. What is proved is the property for
moments at which all code is reached (a moment gives a value to every sub-expression, so no loop or
comprehension is empty), and for programs whose array accumulators keep their lengths from round to round
(`KeepsShape`).
-/

set_option linter.unusedSectionVars false

namespace Verif.Props
open Verif.Phi Verif.Term Verif.Midend Verif.Codegen
variable {F : Type} [FloatOps F] [DecidableEq F] {I : Ext F} {p : Expr F} {sz : Nat → Int} {η : Env (D F)}
  {s : Equivalence (SizeNode F)}

/-- The compiler's answer: are these two the same size? (`SizeEquivalence.equiv`) -/
def sameSize (s : Equivalence (SizeNode F)) (a b : SizeNode F) : Bool := s.equiv sizeNorm [a, b]

/-- The expression the compiler forms for a dimension of an array stands for that dimension. -/
theorem run_dimExpr (ht : Tidy p) (hm : Moment I p sz η) (ho : Ordinary I p η) (e : Expr F) :
    Occurs e p → ∀ k v, run I e η = some v → Tidy (dimExpr e k) ∧
      run I (dimExpr e k) η = dimOf k (some v) := by
  induction e using ind with
  | step h ts ih =>
    intro hoc k v hv
    have hch : ∀ t ∈ ts, Occurs t p := fun t h => Occurs.trans (.child h (.refl _)) hoc
    by_cases hg : ∃ t i, h = .get ∧ ts = [t, i]
    · obtain ⟨t, i, rfl, rfl⟩ := hg
      obtain ⟨vs, hvs, _⟩ := run_get_vec hv
      obtain ⟨h1, h2⟩ := ih t (by simp) (hch t (by simp)) (k + 1) _ hvs
      rw [dimExpr_get]
      refine ⟨h1, h2.trans ?_⟩
      simp only [dimOf, Option.bind_some, dim_get (ho.regular (hch t (by simp)) hvs) hvs hv]
    · by_cases hve : ∃ j n b, h = .vec j ∧ ts = [n, b] ∧ k = 0
      · obtain ⟨j, n, b, rfl, rfl, rfl⟩ := hve
        rw [dimExpr_vec]
        refine ⟨ht.occurs (hch n (by simp)), ?_⟩
        obtain ⟨hn, _⟩ := hm.sizes j n b hoc
        obtain ⟨w, ws, h1, h2, _⟩ := run_vec_moment hm hoc
        have hv' : run I (Phi.vec j n b) η = some v := hv
        rw [h1] at hv'
        cases hv'
        rw [hn, ← h2]
        rfl
      · rw [dimExpr_other (fun t i h => hg ⟨t, i, h⟩) (fun j n b h => hve ⟨j, n, b, h⟩)]
        exact ⟨(ht.occurs hoc).dim k, by rw [run_dim, hv]⟩

/-- C12, the reads whose bounds handling is dropped: if the compiler concludes that an index ranges over
exactly the first dimension of an array in the program, then at every moment the number of values of the index
is the length of the array.

Missing: moments of evaluations with empty loops, and accumulators that change their lengths
(`C12_dead_code_counterexample`, `C12_accumulator_counterexample`). -/
theorem C12_reads_partial (ht : Tidy p) (hm : Moment I p sz η) (ho : Ordinary I p η) (hk : KeepsShape I p η)
    (hs : findSizeClasses p = some s) {t : Expr F} {i : Nat} {vs : List (D F)} (hr : Occurs t p)
    (he : sameSize s (.inl i) (.inr (dimExpr t 0)) = true) (hv : run I t η = some (.vec vs)) :
    (vs.length : Int) = sz i := by
  have h := (findSizeClasses_sound ht hm ho hk hs).equiv he (.inr (dimExpr t 0)) (by simp)
  obtain ⟨h1, h2⟩ := run_dimExpr ht hm ho t hr 0 _ hv
  rw [sizeVal_inr h1 hm.indices, h2] at h
  simp only [sizeVal, dimOf, Option.bind_some, Val.dim, Option.some.injEq, Val.sc.injEq, Scal.i.injEq, Val.int] at h
  exact h.symm

/-- C12, sizes that coincide: if the compiler concludes that two expressions of the program, or two dimensions
of arrays in it, are the same size, then they have the same value at every moment. Missing: as above. -/
theorem C12_sizes_partial (ht : Tidy p) (hm : Moment I p sz η) (ho : Ordinary I p η) (hk : KeepsShape I p η)
    (hs : findSizeClasses p = some s) {a b : Expr F} (ha : Occurs a p) (hb : Occurs b p) :
    (sameSize s (.inr a) (.inr b) = true → run I a η = run I b η) ∧
    (∀ j k, sameSize s (.inr (dim a j)) (.inr (dim b k)) = true →
      ∀ v w, run I a η = some v → run I b η = some w → Val.dim j v = Val.dim k w) := by
  have hsound := findSizeClasses_sound ht hm ho hk hs
  constructor
  · intro he
    have h := hsound.equiv he (.inr b) (by simp)
    rwa [sizeVal_inr (ht.occurs ha) hm.indices, sizeVal_inr (ht.occurs hb) hm.indices] at h
  · intro j k he v w hv hw
    have h := hsound.equiv he (.inr (dim b k)) (by simp)
    rw [sizeVal_inr ((ht.occurs ha).dim j) hm.indices, sizeVal_inr ((ht.occurs hb).dim k) hm.indices, run_dim,
      run_dim, hv, hw] at h
    simp only [dimOf, Option.bind_some] at h
    cases h1 : Val.dim j v <;> cases h2 : Val.dim k w <;> rw [h1, h2] at h <;> simp at h ⊢
    exact h

/-- C12: every evaluation in which each loop and comprehension runs at least once has a moment, with the given
inputs, so the theorems above speak about all of them. -/
theorem C12_moment_exists (hu : UniqueBinders p) (hs : Scoped p) (hi : freeIndices p = ∅)
    (hca : ∀ c a n z b, Occurs (fold c a n z b) p → c ≠ a) {env : Env (D F)} {v : D F}
    (hv : runBusy I p env = some v) :
    ∃ sz η, (∀ s ∈ fv p, η s = env s) ∧ Moment I p sz η ∧
      (RegularConsts p → RegularExt I → RegularEnv env → RegularEnv η) := by
  have hag : Env.AgreeOn (fv p) (fun s => if s.isIdx then some (.int 0) else env s) env := by
    intro s h
    cases hx : s.isIdx with
    | false => simp [hx]
    | true =>
      have : s ∈ freeIndices p := Finset.mem_filter.2 ⟨h, hx⟩
      rw [hi] at this; cases this
  obtain ⟨sz, η, h1, h2, h3⟩ := exists_moment (I := I) hu hs hca
    (env := fun s => if s.isIdx then some (.int 0) else env s) (fun _ => rfl)
    ((runBusy_agree hs hag).trans hv)
  refine ⟨sz, η, fun s h => (h1 s h).trans (hag s h), h2, fun hc hI he => h3 hc hI ?_⟩
  intro s w hw
  dsimp only at hw
  split at hw
  · cases hw; exact .sc _
  · exact he s w hw

/-! ### Non-vacuity -/

/-- `x` and `y` -/
def xv : Expr Int := var 0 (.vector (.scalar .int))
def yv : Expr Int := var 1 (.vector (.scalar .int))

/-- An assertion that sizes are equal. -/
def asserting (t : Expr Int) (l : List (Expr Int)) : Expr Int := node .assertEq (t :: l)

/-- `fold(λ k a. array(λ i. a[i] + y[i]), 2, x)`, with the assertion the frontend adds. -/
def addTwice : Expr Int :=
  fold 2 3 (int 2) xv (vec 4 (asserting (dim yv 0) [dim (var 3 (.vector (.scalar .int))) 0, dim yv 0])
    (op2 .add (Phi.get (var 3 (.vector (.scalar .int))) (at_ 4)) (Phi.get yv (at_ 4))))

/-- Inputs of the same length, in the first round of the fold, at index 0. -/
def firstRound : Env (D Int)
  | .var v => Toy.envOf [(0, Toy.ints [10, 20]), (1, Toy.ints [1, 2]), (2, .int 0), (3, Toy.ints [10, 20])] (.var v)
  | .idx _ => some (.int 0)

theorem regular_envOf {l : List (Nat × D Int)} (h : ∀ q ∈ l, Val.Regular q.2) {v : Nat} {w : D Int}
    (hw : Toy.envOf l (.var v) = some w) : Val.Regular w := by
  unfold Toy.envOf at hw
  obtain ⟨q, hq, rfl⟩ := Option.map_eq_some_iff.1 hw
  exact h q (List.mem_of_find?_eq_some hq)

theorem addTwice_tidy : Tidy addTwice := ⟨by decide +kernel, by decide +kernel, by decide +kernel⟩

theorem addTwice_ordinary : Ordinary Toy.noExt addTwice firstRound where
  consts := regularConsts_of _ (by decide +kernel)
  ext := by intro fn vs v h; cases h
  env := by
    intro s v h
    cases s with
    | idx i => cases h; exact .sc _
    | var x => exact regular_envOf (by decide +kernel) h

/-- The only fold of `addTwice` -/
theorem addTwice_fold {c a : Nat} {n z b : Expr Int} (h : Occurs (fold c a n z b) addTwice) :
    fold c a n z b = addTwice := by
  have h2 : ∀ u ∈ occurrences addTwice, (match u.head with | .fold _ _ => decide (u = addTwice) | _ => true) = true := by
    decide +kernel
  exact of_decide_eq_true (h2 _ (mem_occurrences.2 h))

theorem addTwice_moment : Moment Toy.noExt addTwice (fun _ => 2) firstRound where
  indices _ := rfl
  values e h := by
    have h2 : ∀ u ∈ occurrences addTwice, (run Toy.noExt u firstRound).isSome = true := by decide +kernel
    exact Option.isSome_iff_exists.1 (h2 e (mem_occurrences.2 h))
  lets v b e h := by
    have h2 : ∀ u ∈ occurrences addTwice, (match u.head with | .letv _ => false | _ => true) = true := by
      decide +kernel
    cases h2 _ (mem_occurrences.2 h)
  sizes i n b h := by
    have h2 : ∀ u ∈ occurrences addTwice, (match u with
      | node (.vec _) [n, _] => decide (run Toy.noExt n firstRound = some (.int 2)) | _ => true) = true := by
      decide +kernel
    exact ⟨of_decide_eq_true (h2 _ (mem_occurrences.2 h)), by decide⟩
  folds c a n z b h := by
    have := addTwice_fold h
    unfold addTwice fold at this
    injection this with h1 h2
    injection h1 with h3 h4
    injection h2 with h5 h6
    injection h6 with h6 h7
    injection h7 with h7 h8
    subst h3 h4 h5 h6 h7
    exact ⟨2, Toy.ints [10, 20], Toy.ints [10, 20], 0, by decide +kernel, by decide +kernel, by decide,
      by rfl, by decide +kernel, by decide +kernel⟩

theorem addTwice_keeps : KeepsShape Toy.noExt addTwice firstRound := by
  intro c a n z b h m x hm hx k hk y hy axis
  have := addTwice_fold h
  unfold addTwice fold at this
  injection this with h1 h2
  injection h1 with h3 h4
  injection h2 with h5 h6
  injection h6 with h6 h7
  injection h7 with h7 h8
  subst h3 h4 h5 h6 h7
  cases hm
  cases hx
  have h2 : ∀ k < 3, ∀ y ∈ iterate Toy.noExt 2 3 (vec 4 (asserting (dim yv 0) [dim (var 3 (.vector (.scalar .int))) 0,
      dim yv 0]) (op2 .add (Phi.get (var 3 (.vector (.scalar .int))) (at_ 4)) (Phi.get yv (at_ 4)))) firstRound
      (Toy.ints [10, 20]) k, Val.shape y = Val.shape (Toy.ints [10, 20]) := by decide +kernel
  exact Val.dim_congr (h2 k (by omega) y hy) axis

/-- The compiler finds that the index of the comprehension runs over exactly the accumulator, over `y`, and over
the initial value. -/
theorem addTwice_found : ∃ s, findSizeClasses addTwice = some s ∧
    (sameSize s (.inl 4) (.inr (dimExpr yv 0)) = true ∧
      sameSize s (.inl 4) (.inr (dimExpr (var 3 (.vector (.scalar .int))) 0)) = true ∧
      sameSize s (.inr (dim xv 0)) (.inr (dim yv 0)) = true) :=
  Toy.exists_of_any (by decide +kernel)

example : ∃ s, findSizeClasses addTwice = some s ∧ sameSize s (.inl 4) (.inr (dimExpr yv 0)) = true ∧
    (([1, 2] : List Int).length : Int) = 2 := by
  obtain ⟨s, hs, h1, _, _⟩ := addTwice_found
  have := C12_reads_partial (vs := [.sc (.i 1), .sc (.i 2)]) addTwice_tidy addTwice_moment addTwice_ordinary
    addTwice_keeps hs (t := yv) (i := 4) (mem_occurrences.1 (by decide +kernel)) h1 (by decide +kernel)
  exact ⟨s, hs, h1, this⟩

example : ∃ sz η, (∀ s ∈ fv addTwice, η s = Toy.envOf [(0, Toy.ints [10, 20]), (1, Toy.ints [1, 2])] s) ∧
    Moment Toy.noExt addTwice sz η := by
  obtain ⟨v, hv⟩ := Option.isSome_iff_exists.1 (show (runBusy Toy.noExt addTwice
    (Toy.envOf [(0, Toy.ints [10, 20]), (1, Toy.ints [1, 2])])).isSome = true by decide +kernel)
  obtain ⟨sz, η, h1, h2, _⟩ := C12_moment_exists (p := addTwice) (by decide +kernel) (by decide +kernel)
    (by decide +kernel) (by
      intro c a n z b h
      have := addTwice_fold h
      unfold addTwice fold at this
      injection this with h1 h2
      injection h1 with h3 h4
      subst h3 h4
      decide) hv
  exact ⟨sz, η, h1, h2⟩

/-! ### Where the property fails -/

/-- The options of the compiler with the size classes of the program. -/
def sizedOpts (s : Equivalence (SizeNode Int)) : Opts Int :=
  { takes := true, slicePads := true, sliceElision := true, equiv := fun i e => sameSize s (.inl i) (.inr e), pairs := fun _ _ => true }

/-- Compile with the size classes of the program, and run the result. -/
def compiledValue (p : Expr Int) (inputs : Env (Yarr.YVal Int)) : Option (Yarr.YVal Int) :=
  (findSizeClasses p).bind fun s => (compileProgram (sizedOpts s) 20 p).bind fun y =>
    Yarr.eval (fun _ _ => none) y inputs

/-- `(fold(λ k a. assert_eq(a; dim x, dim y), 0, x), array(λ i < dim x. y[i]))` -/
def deadAssert : Expr Int :=
  cons (fold 2 3 (int 0) xv (asserting (var 3 (.vector (.scalar .int))) [dim xv 0, dim yv 0]))
    (vec 4 (dim xv 0) (Phi.get yv (at_ 4)))

/-- C12 fails for facts from code that is never reached (`size_classes.py:75-78` looks at assertions anywhere):
the loop makes no round, so the assertion is never checked; `x` and `y` have different lengths, but they are put
in one class, and the read of `y` at an index below the length of `x` is compiled to all of `y`. -/
theorem C12_dead_code_counterexample :
    lexical deadAssert {.var 0, .var 1} = true ∧
    Phi.typeOf deadAssert = some (.pair (.vector (.scalar .int)) (.vector (.scalar .int))) ∧
    (∃ s, findSizeClasses deadAssert = some s ∧ sameSize s (.inl 4) (.inr (dimExpr yv 0)) = true) ∧
    run Toy.noExt deadAssert (Toy.envOf [(0, Toy.ints [7]), (1, Toy.ints [1, 2, 3])]) =
      some (.pair (Toy.ints [7]) (Toy.ints [1])) ∧
    compiledValue deadAssert (yenvOf [(0, vecArr [.i 7]), (1, vecArr [.i 1, .i 2, .i 3])]) =
      some (.tup [vecArr [.i 7], vecArr [.i 1, .i 2, .i 3]]) := by
  refine ⟨by decide +kernel, by decide +kernel, Toy.exists_of_any (by decide +kernel), by decide +kernel,
    by decide +kernel⟩

/-- `let s = fold(λ k a. assert_eq(concat(a, a); dim a, dim x), 1, x) in array(λ i < dim x. s[i])` -/
def growing : Expr Int :=
  letIn 5 (fold 2 3 (int 1) xv (asserting (node .concat [var 3 (.vector (.scalar .int)), var 3 (.vector (.scalar .int))])
      [dim (var 3 (.vector (.scalar .int))) 0, dim xv 0]))
    (vec 4 (dim xv 0) (Phi.get (var 5 (.vector (.scalar .int))) (at_ 4)))

/-- C12 fails for accumulators that grow: from "the accumulator is as long as the initial value" the compiler
concludes that the body is as well (`size_classes.py:115-126`), which does not follow. All assertions hold here and
all code is reached. -/
theorem C12_accumulator_counterexample :
    lexical growing {.var 0} = true ∧
    Phi.typeOf growing = some (.vector (.scalar .int)) ∧
    (∃ s, findSizeClasses growing = some s ∧
      sameSize s (.inl 4) (.inr (dimExpr (var 5 (.vector (.scalar .int))) 0)) = true) ∧
    runBusy Toy.noExt growing (Toy.envOf [(0, Toy.ints [7])]) = some (Toy.ints [7]) ∧
    compiledValue growing (yenvOf [(0, vecArr [.i 7])]) = some (.arr (vecArr [.i 7, .i 7])) := by
  refine ⟨by decide +kernel, by decide +kernel, Toy.exists_of_any (by decide +kernel), by decide +kernel,
    by decide +kernel⟩

end Verif.Props
