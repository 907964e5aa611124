import Verif.Toy
import Verif.Midend.OutlineAtoms

/-!
# C08: sharing and hoisting do not change results

`outline` (`ein/midend/lining.py:113-143`) runs before every evaluation: it inlines lets, shares
repeated sub-expressions (CSE) and hoists loop-invariant ones (LICM).

Specification vocabulary:
* `run I p env`: the value of program `p` (what the reference interpreter computes), `none` if it raises;
* `runBusy`: the same, but also `none` if some loop executed during evaluation has no iterations;
* `UniqueBinders p`: each index/counter/accumulator is bound by one expression of `p` and is used in one
  argument of it only, and is not also free in `p` (the frontend creates a fresh symbol per binder);
* `Scoped p`: loop sizes, initial values and let definitions do not use the symbols bound by that node;
* `LetFree p`: no `Let` in `p` (the frontend builds none).
-/

namespace Verif.Props
open Verif.Term Verif.Midend Verif.Phi
variable {F : Type} [FloatOps F] [DecidableEq F]

/-- C08, value preservation. Any value computed by the outlined program is the value of the source
program; and a value computed by the source program is computed by the outlined one, provided no loop on
the way had zero iterations. Missing from the full property: hoisting an expression that fails out of a
loop that is never entered makes the program fail (`C08_zero_trip_counterexample`). -/
theorem C08_outline_preserves_value_partial (I : Ext F) {p p' : Expr F} (hl : LetFree p)
    (hu : UniqueBinders p) (hs : Scoped p) (h : outline p = some p') (env : Env (D F)) (v : D F) :
    (run I p' env = some v → run I p env = some v) ∧
    (runBusy I p env = some v → run I p' env = some v) := by
  have hns := hu.noShadow hl
  have hs' := outline_scoped hu hns hl.letArity hs h
  constructor
  · intro hv
    rw [run_eq_eval I p hl hs env, ← outline_eval (sem I) hu hns hl.letArity h env]
    exact run_eval I p' hs' env v hv
  · intro hv
    exact runBusy_run I p' env v
      (outline_strict (busy I) (busy_demanding I) hu hns hl.letArity hs h env v hv)

/-- C08 for programs that already contain lets (a program may be outlined twice), both meanings. -/
theorem C08_outline_with_lets_partial (I : Ext F) {p p' : Expr F} (hu : UniqueBinders p)
    (hns : NoShadow p) (ha : LetArity p) (hs : Scoped p) (h : outline p = some p') (env : Env (D F)) :
    (∀ v w, run I p' env = some v → run I p env = some w → v = w) ∧
    (∀ v, runBusy I p env = some v → run I p' env = some v) := by
  have hs' := outline_scoped hu hns ha hs h
  exact ⟨fun v w hv hw => run_unique I hs' hs (outline_eval (sem I) hu hns ha h env) hv hw,
    fun v hv => runBusy_run I p' env v
      (outline_strict (busy I) (busy_demanding I) hu hns ha hs h env v hv)⟩

omit [FloatOps F] in
/-- C08, scoping: no expression leaves the scope of a symbol it uses. The outlined program has exactly
the free symbols of the source, its binders are again unique and its sizes, initial values and
definitions do not use symbols bound later. -/
theorem C08_outline_scope {p p' : Expr F} (hu : UniqueBinders p) (hns : NoShadow p) (ha : LetArity p)
    (hs : Scoped p) (h : outline p = some p') :
    fv p' = fv p ∧ Scoped p' ∧ UniqueBinders p' := by
  obtain ⟨_, _, _, _, _, _, _, _, _, h1, h2, _⟩ := outline_spec hu hns ha h
  exact ⟨h2, outline_scoped hu hns ha hs h, h1⟩

omit [FloatOps F] in
/-- C08: `outline` returns a program. None of its assertions (`lining.py:120`, `128-130`) fails: after each pass the
program is a tree, and has the free symbols it had. -/
theorem C08_outline_returns {p : Expr F} {τ : Ty} (hl : LetFree p) (hu : UniqueBinders p) (ht : typeOf p = some τ) :
    ∃ p', outline p = some p' :=
  Option.isSome_iff_exists.1 (outline_isSome hl hu (phi_atomLeaves ht))

omit [FloatOps F] in
/-- C08 for programs that already contain lets: `outline` returns exactly if no free symbol of the program is lost
when its lets are inlined. -/
theorem C08_outline_with_lets_returns {p : Expr F} {τ : Ty} (hu : UniqueBinders p) (hns : NoShadow p) (ha : LetArity p)
    (ht : typeOf p = some τ) : (∃ p', outline p = some p') ↔ fv (inline false p) = fv p := by
  rw [← Option.isSome_iff_exists]
  exact outline_isSome_iff hu hns ha (phi_atomLeaves ht)

/-! ### Non-vacuity: `sum_{k<3} ((x*x) + (x*x)) * (k + sum_{j<2} x*x*k)`, which has both shared and loop
invariant expressions. -/

open Toy in
def c08Example : Expr Int :=
  let xx := op2 .multiply (ivar 0) (ivar 0)
  fold 1 2 (int 3) (int 0) (op2 .add (ivar 2) (op2 .multiply (op2 .add xx xx)
    (op2 .add (ivar 1) (fold 3 4 (int 2) (int 0)
      (op2 .add (ivar 4) (op2 .multiply xx (ivar 1)))))))

open Toy in
example : LetFree c08Example ∧ UniqueBinders c08Example ∧ Scoped c08Example ∧
    (∃ p', outline c08Example = some p' ∧ p' ≠ c08Example ∧ ¬ LetFree p' ∧
      run noExt p' (envOf [(0, .int 5)]) = some (.int 7650)) ∧
    runBusy noExt c08Example (envOf [(0, .int 5)]) = some (.int 7650) := by
  refine ⟨by decide +kernel, by decide +kernel, by decide +kernel, ?_, by decide +kernel⟩
  exact exists_of_any (by decide +kernel)

open Toy in
example : typeOf c08Example = some (.scalar .int) := by decide +kernel

open Toy in
/-- Hoisting the definition of a shared expression leaves a definition `let v = w`, which is then removed
(`lining.py:141`): `x + ∑ k<3, (x*x + x*x) * (x*x + x*x + k)`. -/
def c08Rename : Expr Int :=
  let xx := op2 .multiply (ivar 0) (ivar 0)
  let s := op2 .add xx xx
  fold 1 2 (int 3) (int 0) (op2 .add (ivar 2) (op2 .multiply s (op2 .add s (ivar 1))))

/-- The `let`s that only rename. -/
def renamings (p : Expr Int) : Nat := ((occurrences p).filter fun u =>
  match u.head, u.subs with
  | .letv _, [b, _] => b.head.isAtom
  | _, _ => false).length

open Toy in
/-- The last stage of `outline` has something to do here. -/
example : LetFree c08Rename ∧ UniqueBinders c08Rename ∧ typeOf c08Rename = some (.scalar .int) ∧
    ((cse c08Rename).bind licm).any (fun p => decide (0 < renamings p)) ∧
    (outline c08Rename).any (fun p => decide (renamings p = 0)) := by
  refine ⟨by decide +kernel, by decide +kernel, by decide +kernel, by decide +kernel, by decide +kernel⟩

/-! ### The gap -/

open Toy in
/-- A definition that is not used, with a free variable: `outline` stops at its first assertion. (The frontend
builds no `Let`.) -/
theorem C08_dead_let_counterexample : outline (letIn 1 (ivar 0) (int 3) : Expr Int) = none ∧
    UniqueBinders (letIn 1 (ivar 0) (int 3) : Expr Int) ∧ NoShadow (letIn 1 (ivar 0) (int 3) : Expr Int) ∧
    LetArity (letIn 1 (ivar 0) (int 3) : Expr Int) ∧ typeOf (letIn 1 (ivar 0) (int 3) : Expr Int) = some (.scalar .int) ∧
    run noExt (letIn 1 (ivar 0) (int 3)) (envOf [(0, .int 5)]) = some (.int 3) := by
  decide +kernel

open Toy in
/-- `fold(7, λ k acc: acc + assert_eq(1; 1, 2), count=0)`: the assertion is loop invariant. -/
def c08ZeroTrip : Expr Int :=
  fold 1 2 (int 0) (int 7) (op2 .add (ivar 2) (node .assertEq [int 1, int 1, int 2]))

open Toy in
/-- The source program returns 7, the outlined program fails: the failing expression was hoisted out of
a loop that is never entered. -/
theorem C08_zero_trip_counterexample :
    LetFree c08ZeroTrip ∧ UniqueBinders c08ZeroTrip ∧ Scoped c08ZeroTrip ∧
    run noExt c08ZeroTrip (envOf []) = some (.int 7) ∧
    ∃ p', outline c08ZeroTrip = some p' ∧ run noExt p' (envOf []) = none := by
  refine ⟨by decide +kernel, by decide +kernel, by decide +kernel, by decide +kernel, ?_⟩
  exact exists_of_any (by decide +kernel)

end Verif.Props
