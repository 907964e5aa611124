import Verif.Toy

/-!
# C09: inlining of let bindings preserves meaning

`inlineMemo r p` models `inline(p, only_renames=r)` (`ein/midend/lining.py:161-185`) with its memo table.
`run` is the reference meaning, in which the definition of a `let` is evaluated before its body; `sem` is
the call-by-name meaning. `UniqueBinders`, `Scoped`: see `Props/C08.lean`; `NoShadow`: no binder rebinds a
symbol bound further out, and no let refers to itself.
-/

namespace Verif.Props
open Verif.Term Verif.Midend Verif.Phi
variable {F : Type} [FloatOps F] [DecidableEq F]

/-- C09: if the program has a value, the inlined program has the same value. -/
theorem C09_inline_preserves_value (I : Ext F) {p : Expr F} (hu : UniqueBinders p) (hns : NoShadow p)
    (hs : Scoped p) (onlyRenames : Bool) (env : Env (D F)) (v : D F) (h : run I p env = some v) :
    run I (inlineMemo onlyRenames p) env = some v := by
  rw [inlineMemo_eq hu hns]
  exact inline_strict (strict I) onlyRenames hns hs hu.closed env v h

/-- C09: conversely, if both programs have a value, it is the same (the inlined program may have a value
where the original fails, because an unused failing definition disappears). -/
theorem C09_inline_value_unique (I : Ext F) {p : Expr F} (hu : UniqueBinders p) (hns : NoShadow p)
    (hs : Scoped p) (onlyRenames : Bool) (env : Env (D F)) (v w : D F)
    (h' : run I (inlineMemo onlyRenames p) env = some v) (h : run I p env = some w) : v = w := by
  rw [C09_inline_preserves_value I hu hns hs onlyRenames env w h] at h'
  exact (Option.some.inj h').symm

/-- C09, call-by-name: the meanings are the same function of the environment. -/
theorem C09_inline_lazy (I : Ext F) {p : Expr F} (hu : UniqueBinders p) (hns : NoShadow p)
    (onlyRenames : Bool) (env : Env (D F)) :
    (sem I).eval (inlineMemo onlyRenames p) env = (sem I).eval p env := by
  rw [inlineMemo_eq hu hns]
  exact inline_eval (sem I) onlyRenames hns hu.closed env

omit [FloatOps F] in
/-- C09: inlining everything leaves no let. -/
theorem C09_no_let_left {p : Expr F} (hu : UniqueBinders p) (hns : NoShadow p) (ha : LetArity p) :
    LetFree (inlineMemo false p) := by
  rw [inlineMemo_eq hu hns]
  exact inline_letFree ha

omit [FloatOps F] in
/-- C09: inlining introduces no free symbol. -/
theorem C09_no_new_free_symbol {p : Expr F} (hu : UniqueBinders p) (hns : NoShadow p)
    (onlyRenames : Bool) : fv (inlineMemo onlyRenames p) ⊆ fv p := by
  rw [inlineMemo_eq hu hns]
  exact fv_inline_subset hns onlyRenames

open Toy in
/-- `let a = x + 1 in let b = a in vec i (size b) (b * i)` -/
def c09Example : Expr Int :=
  letIn 1 (op2 .add (ivar 0) (int 1)) (letIn 2 (ivar 1)
    (vec 0 (ivar 2) (op2 .multiply (ivar 2) (at_ 0))))

open Toy in
/-- Non-vacuity, with a let that is kept and one that is a renaming. -/
example : UniqueBinders c09Example ∧ NoShadow c09Example ∧ Scoped c09Example ∧ LetArity c09Example ∧
    run noExt c09Example (envOf [(0, .int 2)]) = some (ints [0, 3, 6]) ∧
    inlineMemo true c09Example =
      letIn 1 (op2 .add (ivar 0) (int 1)) (vec 0 (ivar 1) (op2 .multiply (ivar 1) (at_ 0))) ∧
    inlineMemo false c09Example =
      vec 0 (op2 .add (ivar 0) (int 1)) (op2 .multiply (op2 .add (ivar 0) (int 1)) (at_ 0)) := by
  decide +kernel

open Toy in
/-- Why binders must be unique: two lets binding the same variable to different values around the same
expression; the memo table (`lining.py:181-184`) is not keyed by the bindings, so the second use is given
the first definition. Not reachable from the frontend, which creates a fresh variable per binding. -/
def c09Clash : Expr Int :=
  op2 .add (letIn 1 (int 1) (op1 .negate (ivar 1))) (letIn 1 (int 2) (op1 .negate (ivar 1)))

open Toy in
theorem C09_clash_counterexample : NoShadow c09Clash ∧ Scoped c09Clash ∧
    run noExt c09Clash (envOf []) = some (.int (-3)) ∧
    run noExt (inlineMemo false c09Clash) (envOf []) = some (.int (-2)) := by decide +kernel

end Verif.Props
