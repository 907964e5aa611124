import Verif.Toy

/-!
# C15: scalar operator typing is exact and never promotes

Specification: `OpKind o ks k`, the table of operators, operand kinds and result kind, as a user would
state it. `resolveSignature tys (signature o)` models `resolve_scalar_signature` on the operator's entry of
`UFUNC_SIGNATURES` (`ein/phi/type_system.py:182-245`); `none` is a type error.
-/

namespace Verif.Props
open Verif.Phi

/-- A number kind: int or float, not bool. -/
inductive IsNumber : Kind → Prop
  | int : IsNumber .int
  | float : IsNumber .float

/-- Specification: which operand kinds an operator takes, and what it produces. -/
inductive OpKind : ScalarOp → List Kind → Kind → Prop
  | negate {k} : IsNumber k → OpKind .negate [k] k
  | floatFn {o} : o ∈ [ScalarOp.reciprocal, .exp, .sin, .cos] → OpKind o [.float] .float
  | not : OpKind .logicalNot [.bool] .bool
  | cast : OpKind .castToFloat [.int] .float
  | arith {o k} : o ∈ [ScalarOp.add, .subtract, .multiply, .min, .max] → IsNumber k → OpKind o [k, k] k
  | modulo : OpKind .modulo [.int, .int] .int
  | power : OpKind .power [.float, .float] .float
  | compare {o k} : o ∈ [ScalarOp.less, .lessEqual, .equal, .notEqual] → IsNumber k →
      OpKind o [k, k] .bool
  | logic {o} : o ∈ [ScalarOp.logicalAnd, .logicalOr] → OpKind o [.bool, .bool] .bool
  | whr {k} : OpKind .where_ [.bool, k, k] k

/-- C15: an operator applied to the right number of operands is accepted iff all operands are scalars of
the kinds in the table, and gets the table's result type; any other application is a type error. -/
theorem C15_operator_typing (o : ScalarOp) (tys : List Ty) (h : tys.length = ScalarOp.arity o) (τ : Ty) :
    resolveSignature tys (signature o) = some τ ↔
      ∃ ks k, tys = ks.map Ty.scalar ∧ τ = .scalar k ∧ OpKind o ks k := by
  constructor
  · intro hr
    cases o <;> simp only [ScalarOp.arity] at h <;>
      rcases tys with _ | ⟨a, _ | ⟨b, _ | ⟨c, _ | ⟨d, l⟩⟩⟩⟩ <;> simp at h
    all_goals
      first
      | (cases a with
          | scalar ka =>
            first
            | (cases b with
                | scalar kb =>
                  first
                  | (cases c with
                      | scalar kc =>
                        refine ⟨[ka, kb, kc], ?_⟩
                        cases ka <;> cases kb <;> cases kc <;> first
                          | (refine ⟨_, rfl, (Option.some.inj hr).symm, ?_⟩; constructor)
                          | (exact absurd hr (by simp [resolveSignature, resolveArgs, signature]))
                      | _ => cases ka <;> cases kb <;>
                        exact absurd hr (by simp [resolveSignature, resolveArgs, signature]))
                  | (refine ⟨[ka, kb], ?_⟩
                     cases ka <;> cases kb <;> first
                      | (refine ⟨_, rfl, (Option.some.inj hr).symm, ?_⟩
                         first
                          | exact OpKind.modulo
                          | exact OpKind.power
                          | (apply OpKind.arith <;> first | decide | constructor)
                          | (apply OpKind.compare (k := .int) <;> first | decide | constructor)
                          | (apply OpKind.compare (k := .float) <;> first | decide | constructor)
                          | (apply OpKind.logic; decide))
                      | (exact absurd hr (by simp [resolveSignature, resolveArgs, signature, number])))
                | _ => cases ka <;>
                    exact absurd hr (by simp [resolveSignature, resolveArgs, signature, number]))
            | (refine ⟨[ka], ?_⟩
               cases ka <;> first
                | (refine ⟨_, rfl, (Option.some.inj hr).symm, ?_⟩
                   first
                    | (apply OpKind.floatFn; decide)
                    | (apply OpKind.negate; constructor)
                    | constructor)
                | (exact absurd hr (by simp [resolveSignature, resolveArgs, signature, number])))
          | _ => exact absurd hr (by simp [resolveSignature, resolveArgs, signature]))
  · rintro ⟨ks, k, rfl, rfl, hk⟩
    cases hk with
    | negate hn => cases hn <;> rfl
    | floatFn ho => simp at ho; rcases ho with rfl | rfl | rfl | rfl <;> rfl
    | not => rfl
    | cast => rfl
    | arith ho hn => simp at ho; rcases ho with rfl | rfl | rfl | rfl | rfl <;> cases hn <;> rfl
    | modulo => rfl
    | power => rfl
    | compare ho hn => simp at ho; rcases ho with rfl | rfl | rfl | rfl <;> cases hn <;> rfl
    | logic ho => simp at ho; rcases ho with rfl | rfl <;> rfl
    | whr => cases k <;> rfl

/-- C15: on operands of accepted kinds the operator produces a value, and of exactly the stated kind. -/
theorem C15_result_kind {F : Type} [FloatOps F] (o : ScalarOp) (ss : List (Scal F)) (k : Kind)
    (h : OpKind o (ss.map Scal.kind) k) : ∃ s, applyOp o ss = some s ∧ s.kind = k := by
  generalize hks : ss.map Scal.kind = ks at h
  have l1 : ∀ k1, ss.map Scal.kind = [k1] → ∃ a, ss = [a] ∧ a.kind = k1 := by
    intro k1 he
    rcases ss with _ | ⟨a, _ | ⟨b, l⟩⟩ <;> simp at he
    exact ⟨a, rfl, he⟩
  have l2 : ∀ k1 k2, ss.map Scal.kind = [k1, k2] → ∃ a b, ss = [a, b] ∧ a.kind = k1 ∧ b.kind = k2 := by
    intro k1 k2 he
    rcases ss with _ | ⟨a, _ | ⟨b, _ | ⟨c, l⟩⟩⟩ <;> simp at he
    exact ⟨a, b, rfl, he⟩
  have l3 : ∀ k1 k2 k3, ss.map Scal.kind = [k1, k2, k3] →
      ∃ a b c, ss = [a, b, c] ∧ a.kind = k1 ∧ b.kind = k2 ∧ c.kind = k3 := by
    intro k1 k2 k3 he
    rcases ss with _ | ⟨a, _ | ⟨b, _ | ⟨c, _ | ⟨d, l⟩⟩⟩⟩ <;> simp at he
    exact ⟨a, b, c, rfl, he⟩
  cases h with
  | negate hn =>
    obtain ⟨a, rfl, ha⟩ := l1 _ hks
    cases hn <;> cases a <;> simp [Scal.kind] at ha <;> exact ⟨_, rfl, rfl⟩
  | floatFn ho =>
    obtain ⟨a, rfl, ha⟩ := l1 _ hks
    simp at ho
    rcases ho with rfl | rfl | rfl | rfl <;> cases a <;> simp [Scal.kind] at ha <;>
      exact ⟨_, rfl, rfl⟩
  | not | cast =>
    obtain ⟨a, rfl, ha⟩ := l1 _ hks
    cases a <;> simp [Scal.kind] at ha
    exact ⟨_, rfl, rfl⟩
  | arith ho hn =>
    obtain ⟨a, b, rfl, ha, hb⟩ := l2 _ _ hks
    simp at ho
    rcases ho with rfl | rfl | rfl | rfl | rfl <;> cases hn <;> cases a <;> simp [Scal.kind] at ha <;>
      cases b <;> simp [Scal.kind] at hb <;> exact ⟨_, rfl, rfl⟩
  | modulo | power =>
    obtain ⟨a, b, rfl, ha, hb⟩ := l2 _ _ hks
    cases a <;> simp [Scal.kind] at ha
    cases b <;> simp [Scal.kind] at hb
    exact ⟨_, rfl, rfl⟩
  | compare ho hn =>
    obtain ⟨a, b, rfl, ha, hb⟩ := l2 _ _ hks
    simp at ho
    rcases ho with rfl | rfl | rfl | rfl <;> cases hn <;> cases a <;> simp [Scal.kind] at ha <;>
      cases b <;> simp [Scal.kind] at hb <;> exact ⟨_, rfl, rfl⟩
  | logic ho =>
    obtain ⟨a, b, rfl, ha, hb⟩ := l2 _ _ hks
    simp at ho
    rcases ho with rfl | rfl <;> cases a <;> simp [Scal.kind] at ha <;>
      cases b <;> simp [Scal.kind] at hb <;> exact ⟨_, rfl, rfl⟩
  | whr =>
    obtain ⟨a, b, c, rfl, ha, hb, hc⟩ := l3 _ _ _ hks
    cases a <;> simp [Scal.kind] at ha
    cases k <;> cases b <;> simp [Scal.kind] at hb <;> cases c <;> simp [Scal.kind] at hc <;>
      exact ⟨_, rfl, rfl⟩

/-- C15: no implicit promotion: an accepted binary operator has operands of one and the same kind. -/
theorem C15_no_promotion (o : ScalarOp) (a b τ : Ty) (ho : ScalarOp.arity o = 2)
    (h : resolveSignature [a, b] (signature o) = some τ) : a = b := by
  obtain ⟨ks, k, he, rfl, hk⟩ := (C15_operator_typing o [a, b] (by simp [ho]) τ).1 h
  rcases ks with _ | ⟨ka, _ | ⟨kb, _ | ⟨kc, l⟩⟩⟩ <;> simp at he
  obtain ⟨rfl, rfl⟩ := he
  cases hk <;> rfl

/-- Non-vacuity. -/
example : resolveSignature [.scalar .bool, .scalar .float, .scalar .float] (signature .where_) =
      some (.scalar .float) ∧
    OpKind .where_ [.bool, .float, .float] .float ∧
    resolveSignature [.scalar .int, .scalar .float] (signature .add) = none ∧
    resolveSignature [.scalar .bool, .scalar .bool] (signature .add) = none ∧
    resolveSignature [.vector (.scalar .int), .scalar .int] (signature .add) = none :=
  ⟨by decide, .whr, by decide, by decide, by decide⟩

/-- The number of operands is not checked by `resolve_scalar_signature`: `zip` stops at the shorter list
(`type_system.py:191`), so `Add((x,))` is accepted when constructed directly. The operator methods of the
frontend always pass the right number. -/
theorem C15_arity_counterexample :
    resolveSignature [.scalar .int] (signature .add) = some (.scalar .int) ∧
    resolveSignature [.scalar .int, .scalar .int, .vector (.scalar .bool)] (signature .add) =
      some (.scalar .int) := by decide

end Verif.Props
