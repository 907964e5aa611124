import Verif.Toy
import Verif.Midend.SubstStrict

/-!
# C28: values depend only on free variables

`fv` models `free_symbols` (`ein/term.py:80-83`), which removes captured symbols from all sub-terms.
-/

namespace Verif.Props
open Verif.Term Verif.Midend Verif.Phi
variable {F : Type} [FloatOps F] [DecidableEq F]

/-- C28: two environments that agree on the free symbols give the same result (value or failure). -/
theorem C28_value_depends_on_free_symbols (I : Ext F) (p : Expr F) (hs : Scoped p)
    (env env' : Env (D F)) (h : ∀ s ∈ fv p, env s = env' s) : run I p env = run I p env' :=
  (strict I).eval_agree_eq p hs h

/-- C28: binding or changing any other variable has no effect. -/
theorem C28_other_bindings_irrelevant (I : Ext F) (p : Expr F) (hs : Scoped p) (env : Env (D F))
    (s : Sym) (hf : s ∉ fv p) (x : Option (D F)) : run I p (env.set s x) = run I p env := by
  refine C28_value_depends_on_free_symbols I p hs _ _ (fun s' hs' => ?_)
  have : s' ≠ s := by rintro rfl; exact hf hs'
  simp [Env.set, this]

omit [FloatOps F] in
/-- C28: the midend passes introduce no free symbol. -/
theorem C28_passes_introduce_no_free_symbol {p : Expr F} (hu : UniqueBinders p) (hns : NoShadow p)
    (ha : LetArity p) :
    (∀ r, fv (inlineMemo r p) ⊆ fv p) ∧ (∀ p', outline p = some p' → fv p' = fv p) ∧
    (∀ σ, fv (substitute σ p) ⊆ (fv p \ keys σ) ∪ rangeFv σ) := by
  refine ⟨fun r => ?_, fun p' h => ?_, fun σ => fv_substitute σ p⟩
  · rw [inlineMemo_eq hu hns]; exact fv_inline_subset hns r
  · obtain ⟨_, _, _, _, _, _, _, _, _, _, h2, _⟩ := outline_spec hu hns ha h
    exact h2

open Toy in
/-- `vec i (size n) (a[i] + fold(0, λ k acc: acc + k, count=i))` -/
def c28Example : Expr Int := vec 0 (ivar 1)
  (op2 .add (get (var 0 (.vector (.scalar .int))) (at_ 0))
    (fold 5 6 (at_ 0) (int 0) (op2 .add (ivar 6) (ivar 5))))

open Toy in
/-- Non-vacuity. -/
example : Scoped c28Example ∧ fv c28Example = {.var 0, .var 1} ∧ UniqueBinders c28Example ∧
    NoShadow c28Example ∧ LetArity c28Example ∧
    run noExt c28Example (envOf [(0, ints [10, 20, 30]), (1, .int 3), (5, .int 99)]) =
      some (ints [10, 20, 31]) := by decide +kernel

open Toy in
/-- Why `Scoped` is needed: in a fold whose count is its own counter variable, the count reads the outer
variable, which `free_symbols` does not report. Not constructible through the frontend, where the counter
is created after the count. -/
theorem C28_unscoped_counterexample :
    let p := fold 5 6 (ivar 5) (int 0) (op2 .add (ivar 6) (int 1))
    fv p = ∅ ∧ run noExt p (envOf [(5, .int 2)]) = some (.int 2) ∧
      run noExt p (envOf [(5, .int 3)]) = some (.int 3) := by decide +kernel

end Verif.Props
