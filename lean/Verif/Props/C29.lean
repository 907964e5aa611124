import Verif.Toy
import Verif.Yarr.Cancel

/-!
# C29: peephole simplification of array code

After compilation, `transform` applies `cancel_shape_ops` and then `cancel_tuple_ops`
(`ein/codegen/phi_to_yarr.py:309-312`).
-/

namespace Verif.Props
open Verif.Term Verif.Phi Verif.Arr Verif.Yarr
variable {F : Type}

/-- The simplification applied to compiled array code; `none` if it raises. -/
def simplifyArrayCode (e : YExpr F) : Option (YExpr F) := cancelTuple (cancelShape e)

/-- C29: simplification never fails on array code that passes its type checks, keeps the static type, and
gives code with the same value in every environment in which the original has one. -/
theorem C29_simplification_preserves_value [FloatOps F] (J : YExt F) (e : YExpr F) (τ : PTy)
    (ht : Yarr.typeOf e = some τ) :
    ∃ r, simplifyArrayCode e = some r ∧ Yarr.typeOf r = some τ ∧
      ∀ env x, Yarr.eval J e env = some x → Yarr.eval J r env = some x := by
  obtain ⟨r, hr, hrt⟩ := cancelTuple_total _ τ (typeOf_cancelShape e τ ht)
  exact ⟨r, hr, hrt, fun env x hx => eval_cancelTuple J _ r hr env x (eval_cancelShape J e env x hx)⟩

/-- C29: in the simplified code no axis permutation is the identity and no axis insertion or removal is
empty. -/
theorem C29_no_noop_left (e r : YExpr F) (τ : PTy) (ht : Yarr.typeOf e = some τ)
    (hr : simplifyArrayCode e = some r) :
    ∀ h ts, Occurs (node h ts) r →
      (∀ n, h ≠ .transpose (List.range n)) ∧ h ≠ .squeeze [] ∧ h ≠ .unsqueeze [] := by
  intro h ts ho
  obtain ⟨w, hw, he⟩ := cancelTuple_heads _ r hr _ ho
  have := noop_free e τ ht w hw
  rw [he] at this
  simp only [head] at this
  refine ⟨fun n => ?_, ?_, ?_⟩ <;> rintro rfl <;> simp [Head.noop] at this

/-- `untuple(1, (transpose((0, 1), squeeze((), a)) + unsqueeze((), 7), transpose((1, 0), a)))` -/
def c29Example : YExpr Int :=
  let a := node (.var 0 [⟨2, .int⟩]) []
  node (.untuple 1 2) [node .tuple [
    node (.transpose [1, 0]) [a],
    node (.elem .add none) [node (.transpose [0, 1]) [node (.squeeze []) [a]],
      node (.unsqueeze []) [node (.const (.arr (.scalar (.i 7))) [⟨0, .int⟩]) []]]]]

/-- Non-vacuity: the example is typed, has a value, and is simplified to `a + 7`. -/
example : Yarr.typeOf c29Example = some [⟨2, .int⟩] ∧
    (∃ x, Yarr.eval (fun _ _ => none) c29Example
      (fun _ => some (.arr ⟨[1, 2], [.i 3, .i 4], rfl⟩)) = some x ∧
      x = .arr ⟨[1, 2], [.i 10, .i 11], rfl⟩) ∧
    simplifyArrayCode c29Example = some (node (.elem .add none) [node (.var 0 [⟨2, .int⟩]) [],
      node (.const (.arr (.scalar (.i 7))) [⟨0, .int⟩]) []]) := by
  refine ⟨by decide +kernel, Toy.exists_of_any (by decide +kernel), by decide +kernel⟩

end Verif.Props
