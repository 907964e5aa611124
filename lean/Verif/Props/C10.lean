import Verif.Toy
import Verif.Midend.SubstStrict

/-!
# C10: substitution has its semantic meaning

`substitute σ t` models `substitute(t, σ)` (`ein/midend/substitution.py:8-20`). `bindEnv (run I) σ env` is the
environment in which each symbol in `σ` has the value of its replacement.
-/

namespace Verif.Props
open Verif.Term Verif.Midend Verif.Phi
variable {F : Type} [FloatOps F] [DecidableEq F]

/-- C10: substitute, then evaluate = evaluate with the symbols bound to the values of the replacements;
in particular failures are the same. Binders of `t` may not capture symbols of the replacements or be
substituted themselves (always true of symbols created fresh). -/
theorem C10_substitute_value (I : Ext F) (σ : List (Sym × Expr F)) (hσ : ∀ p ∈ σ, Scoped p.2)
    (t : Expr F) (hs : Scoped t) (hd : Disjoint (binders t) (keys σ ∪ rangeFv σ)) (env : Env (D F)) :
    run I (substitute σ t) env = run I t (bindEnv (run I) σ env) :=
  substitute_strict (strict I) (fun h fs s env hs => by
    change Head.symbol h = some s at hs
    cases h <;> simp only [Head.symbol, reduceCtorEq, Option.some.injEq] at hs
    subst hs; rfl) σ hσ t hs hd env

omit [FloatOps F] [DecidableEq F] in
/-- C10: symbols that are not free in the program are ignored. -/
theorem C10_substitute_absent (σ : List (Sym × Expr F)) (t : Expr F)
    (h : ∀ s ∈ fv t, s ∉ keys σ) : substitute σ t = t :=
  substitute_eq_self σ t (Finset.disjoint_left.2 fun {_} hs => h _ hs)

omit [FloatOps F] [DecidableEq F] in
/-- C10: substitution removes the substituted symbols and adds only those of the replacements. -/
theorem C10_substitute_free (σ : List (Sym × Expr F)) (t : Expr F) :
    fv (substitute σ t) ⊆ (fv t \ keys σ) ∪ rangeFv σ := fv_substitute σ t

open Toy in
/-- `fold(x, λ k acc: acc * y + k, count=y)` with `x := z + 1`, `y := 2`. -/
def c10Term : Expr Int := fold 10 11 (ivar 1) (ivar 0)
  (op2 .add (op2 .multiply (ivar 11) (ivar 1)) (ivar 10))

open Toy in
def c10Subst : List (Sym × Expr Int) := [(.var 0, op2 .add (ivar 2) (int 1)), (.var 1, int 2)]

open Toy in
/-- Non-vacuity. -/
example : Scoped c10Term ∧ (∀ p ∈ c10Subst, Scoped p.2) ∧
    Disjoint (binders c10Term) (keys c10Subst ∪ rangeFv c10Subst) ∧
    substitute c10Subst c10Term ≠ c10Term ∧
    run noExt (substitute c10Subst c10Term) (envOf [(2, .int 4)]) = some (.int 21) := by
  decide +kernel

open Toy in
/-- Without the condition on binders the replacement is captured: `fold(0, λ k acc: acc + y, count=3)` with
`y := k`. Substitution does not rename binders. -/
theorem C10_capture_counterexample :
    let t := fold 10 11 (int 3) (int 0) (op2 .add (ivar 11) (ivar 1))
    let σ : List (Sym × Expr Int) := [(.var 1, ivar 10)]
    let env := envOf [(10, .int 5)]
    run noExt t (bindEnv (run noExt) σ env) = some (.int 15) ∧
    run noExt (substitute σ t) env = some (.int 3) := by decide +kernel

end Verif.Props
