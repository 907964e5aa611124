import Verif.Toy
import Verif.Midend.OutlineAtoms
import Verif.Yarr.Strict

/-!
# C08 for array code

The backends outline the compiled array code before they stage it
(`ein/backend/numpy_backend.py:175`): the same CSE and loop-invariant code motion, on array code.
-/

namespace Verif.Props
open Verif.Term Verif.Midend Verif.Phi Verif.Yarr
variable {F : Type} [FloatOps F] [DecidableEq F]

/-- C08 on array code: a value computed by the source array code, with every executed loop running at
least once, is the value of the outlined array code. Missing from the full property: loops with zero
iterations (as for `C08_outline_preserves_value_partial`). -/
theorem C08_outline_array_code_partial (J : YExt F) {p p' : YExpr F} (hu : UniqueBinders p)
    (hns : NoShadow p) (ha : LetArity p) (hs : Scoped p) (h : outline p = some p')
    (env : Env (YVal F)) (v : YVal F) (hv : evalBusy J p env = some v) :
    Yarr.eval J p' env = some v :=
  evalBusy_eval J p' env v (outline_strict (Yarr.busy J) (Yarr.busy_demanding J) hu hns ha hs h env v hv)

omit [FloatOps F] in
/-- C08 on array code, scoping. -/
theorem C08_outline_array_code_scope {p p' : YExpr F} (hu : UniqueBinders p) (hns : NoShadow p)
    (ha : LetArity p) (hs : Scoped p) (h : outline p = some p') :
    fv p' = fv p ∧ Scoped p' ∧ UniqueBinders p' := by
  obtain ⟨_, _, _, _, _, _, _, _, _, h1, h2, _⟩ := outline_spec hu hns ha h
  exact ⟨h2, outline_scoped hu hns ha hs h, h1⟩

omit [FloatOps F] in
/-- C08 on array code: `outline` returns, exactly if no free symbol is lost when lets are inlined; so always if there
are none. -/
theorem C08_outline_array_code_returns {p : YExpr F} {τ : PTy} (hu : UniqueBinders p) (hns : NoShadow p)
    (ha : LetArity p) (ht : Yarr.typeOf p = some τ) :
    ((∃ p', outline p = some p') ↔ fv (inline false p) = fv p) ∧ (LetFree p → ∃ p', outline p = some p') := by
  have h : (∃ p', outline p = some p') ↔ fv (inline false p) = fv p := by
    rw [← Option.isSome_iff_exists]
    exact outline_isSome_iff hu hns ha (yarr_atomLeaves ht)
  exact ⟨h, fun hl => h.2 (by rw [inline_of_letFree hl])⟩

/-- `fold(c, acc = a; acc + (a * a) * c; 3 times) + a * a`: `a * a` is shared and loop invariant. -/
def c08ArrayExample : YExpr Int :=
  let a := node (.var 0 [⟨1, .int⟩]) []
  let aa := node (.elem .multiply none) [a, a]
  node (.elem .add none) [
    node (.fold 1 2) [node (.const (.arr (.scalar (.i 3))) [⟨0, .int⟩]) [], a,
      node (.elem .add none) [node (.var 2 [⟨1, .int⟩]) [],
        node (.elem .multiply none) [aa, node (.var 1 [⟨0, .int⟩]) []]]],
    aa]

/-- An environment for the example. -/
def c08ArrayEnv : Env (YVal Int) :=
  fun s => if s = .var 0 then some (.arr ⟨[2], [.i 3, .i 10], rfl⟩) else none

/-- Non-vacuity. -/
example : UniqueBinders c08ArrayExample ∧ NoShadow c08ArrayExample ∧ LetArity c08ArrayExample ∧
    Scoped c08ArrayExample ∧ LetFree c08ArrayExample ∧ (Yarr.typeOf c08ArrayExample).isSome ∧
    (∃ p', outline c08ArrayExample = some p' ∧ p' ≠ c08ArrayExample) ∧
    (∃ v, evalBusy (fun _ _ => none) c08ArrayExample c08ArrayEnv = some v ∧
      v = .arr ⟨[2], [.i 39, .i 410], rfl⟩) := by
  refine ⟨by decide +kernel, by decide +kernel, by decide +kernel, by decide +kernel, by decide +kernel,
    by decide +kernel, ?_, ?_⟩
  · exact Toy.exists_of_any (by decide +kernel)
  · exact Toy.exists_of_any (by decide +kernel)

end Verif.Props
