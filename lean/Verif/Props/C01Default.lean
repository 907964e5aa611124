import Verif.Props.C07

/-!
# C01, with the default options of the compiler

An example for the theorems of C01 in which folds are compiled to `einsum` and to reductions of arrays.
-/

namespace Verif.Props
open Verif.Codegen Verif.Phi Verif.Term Verif.Yarr Verif.Arr Verif.Midend

/-- All lowerings of reads, `use_einsum` and `use_reductions`. -/
def defaultOpts : Opts Int :=
  { takes := true, slicePads := true, sliceElision := true, equiv := fun _ _ => false, pairs := fun _ _ => true,
    plan := standardPlan true true same6 new7, small := standardPlan_small true true same6 new7 }

/-- `∑ c < y.size, y[c] * (x[i] - y[c])` -/
def weighted : Expr Int :=
  sum7 4 5 (dim (fs 1) 0) (op2 .multiply (at7 1 4) (op2 .subtract (Phi.get (fs 0) (at_ 2)) (at7 1 4)))

/-- `fold(λ c a. max(a, x[i] * y[c]), y.size, 100)` -/
def largest : Expr Int :=
  fold 6 7 (dim (fs 1) 0) hundred (op2 .max (var 7 (.scalar .float)) (op2 .multiply (Phi.get (fs 0) (at_ 2)) (at7 1 6)))

/-- `array(λ i. weighted + largest)` -/
def defaultProgram : Expr Int := comprehensions [(2, dim (fs 0) 0)] (op2 .add weighted largest)

/-- The types of `x` and `y`. -/
def ctx7 : TCtx := ctxOf [(0, .vector (.scalar .float)), (1, .vector (.scalar .float))]

/-- The example is in the setting of C01. -/
theorem default_setting : ∃ v y, Setting defaultOpts Toy.noExt 20 defaultProgram blurInputs ctx7
    (.vector (.scalar .float)) env7 arrays7 v y := by
  obtain ⟨y, hy⟩ := Option.isSome_iff_exists.1
    (show (compileProgram (evenPairs defaultOpts) 20 defaultProgram).isSome = true by decide +kernel)
  obtain ⟨v, hv⟩ := Option.isSome_iff_exists.1
    (show (check defaultOpts Toy.noExt false defaultProgram (fun _ => 0) env7).isSome = true by decide +kernel)
  refine ⟨v, y, ?_, by decide +kernel, by decide +kernel, declB_declared _ _ _ (by decide +kernel), ?_, ?_, hv, hy,
    .standard inferInstance inferInstance inferInstance inferInstance true true same6 new7 rfl⟩
  · intro s hs
    simp only [blurInputs, Finset.mem_insert, Finset.mem_singleton] at hs
    rcases hs with rfl | rfl <;> exact ⟨_, rfl⟩
  · intro s τ h
    cases s with
    | idx i => cases h
    | var x =>
      by_cases h0 : x = 0
      · subst h0; cases h; exact ⟨_, rfl, hasType_floats _⟩
      · by_cases h1 : x = 1
        · subst h1; cases h; exact ⟨_, rfl, hasType_floats _⟩
        · have : ctx7 (.var x) = none := by
            simp [ctx7, ctxOf, List.find?, Ne.symm h0, Ne.symm h1]
          rw [this] at h; cases h
  · intro x hx
    simp only [blurInputs, Finset.mem_insert, Finset.mem_singleton, Sym.var.injEq] at hx
    rcases hx with rfl | rfl
    · exact ⟨_, _, rfl, rfl, represents_floats [3, 1, 2] (by simp)⟩
    · exact ⟨_, _, rfl, rfl, represents_floats [5, 7] (by simp)⟩

/-- Is it an `einsum`? -/
def isEinsum : Yarr.Head Int → Bool
  | .einsum _ _ => true
  | _ => false

/-- Is it a reduction by the maximum? -/
def isMaxReduction : Yarr.Head Int → Bool
  | .reduceAxis .maximum _ => true
  | _ => false

/-- Is it a loop? -/
def isLoop : Yarr.Head Int → Bool
  | .fold _ _ => true
  | _ => false

/-- Does such a node occur in the code? -/
def occursIn (p : Yarr.Head Int → Bool) (y : YExpr Int) : Bool := cata (fun h bs => p h || bs.any id) y

/-- The code consists of `einsum` and a reduction, without loops. -/
example : (compileProgram (program defaultOpts) 20 defaultProgram).any (fun y =>
    occursIn isEinsum y && occursIn isMaxReduction y && !occursIn isLoop y) = true := by decide +kernel

/-- It computes what the loops compute, element by element. -/
example : ∃ y, compileProgram (program defaultOpts) 20 defaultProgram = some y ∧ ∃ a : A Int,
    Yarr.eval (fun _ _ => none) y arrays7 = some (.arr a) ∧ a.shape.length = 1 ∧
      ∀ ix, InRange a.shape ix → ∃ c, a.get? ix = some c ∧
        run Toy.noExt (op2 .add weighted largest) (atElement [(2, dim (fs 0) 0)] ix env7) = some (.sc c) := by
  obtain ⟨v, y, h⟩ := default_setting
  exact ⟨y, (C01_compiled_meaning_partial _ _ (fun _ _ => none) (vectorises_none _) _ _ _ _ _ _ _ _ _ h).1,
    C01_comprehensions_partial _ _ (fun _ _ => none) (vectorises_none _) _ [(2, dim (fs 0) 0)] _ .float _ _ _ _ _ _ _ (by decide +kernel) h⟩

/-- The values. -/
example : run Toy.noExt defaultProgram env7 = some (floats [62, 38, 50]) := by decide +kernel

/-! ### Initial values of folds that become reductions -/

/-- `array(λ i. fold(λ c a. fold(λ k b. b + y[k], y.size, a), 2, x[i]))` -/
def carried : Expr Int :=
  vec 2 (dim (fs 0) 0) (fold 4 5 (int 2) (Phi.get (fs 0) (at_ 2))
    (fold 6 7 (dim (fs 1) 0) (var 5 (.scalar .float)) (op2 .add (var 7 (.scalar .float)) (at7 1 6))))

/-- The compiler fails on some programs with `use_reductions` that it compiles correctly without: `match_reduction`
(`phi_to_yarr.py:408`) looks for indices in the initial value of a fold, but not for variables the code of which has
axes, such as the accumulator of a fold around it; `go(init).normal` (`426`) is then an assertion that does not hold. -/
theorem C06_carried_counterexample :
    lexical carried blurInputs = true ∧ Phi.typeOf carried = some (.vector (.scalar .float)) ∧
    run Toy.noExt carried env7 = some (floats [27, 25, 26]) ∧
    compileProgram (program defaultOpts) 20 carried = none ∧
    ((compileProgram (program allReads) 20 carried).bind (Yarr.eval (fun _ _ => none) · arrays7)) =
      some (.arr (vecArr [.f 27, .f 25, .f 26])) := by
  refine ⟨by decide +kernel, by decide +kernel, by decide +kernel, by decide +kernel, by decide +kernel⟩

end Verif.Props
