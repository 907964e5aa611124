import Verif.Phi.Prim

/-!
# C32: shape-record types are decomposed consistently

`prim τ` models `τ.primitive_type`, `primTy ps` models `PrimitiveType(ps).type`
(`ein/phi/type_system.py`); `none` is an exception.
-/

namespace Verif.Props
open Verif.Phi

/-- Specification: an array of scalars with the given rank and kind. -/
inductive IsArray : Ty → Nat → Kind → Prop
  | scalar (k) : IsArray (.scalar k) 0 k
  | vector {τ n k} : IsArray τ n k → IsArray (.vector τ) (n + 1) k

/-- Specification: `Components τ cs`: `cs` are the array types found in the record type `τ`, left to
right. There is no case for arrays of records. -/
inductive Components : Ty → List (Nat × Kind) → Prop
  | array {τ n k} : IsArray τ n k → Components τ [(n, k)]
  | pair {a b cs ds} : Components a cs → Components b ds → Components (.pair a b) (cs ++ ds)

/-- Records nested to the right only. -/
inductive RightNested : Ty → Prop
  | array {τ n k} : IsArray τ n k → RightNested τ
  | pair {a b n k} : IsArray a n k → RightNested b → RightNested (.pair a b)

theorem isArray_toTy (a : Arr) : IsArray a.toTy a.rank a.kind := by
  suffices ∀ n, IsArray (ndarrayTy n a.kind) n a.kind from this a.rank
  intro n
  induction n with
  | zero => exact .scalar _
  | succ n ih => exact .vector ih

theorem isArray_iff {τ : Ty} {n : Nat} {k : Kind} (h : IsArray τ n k) : τ = (Arr.mk n k).toTy := by
  induction h with
  | scalar k => rfl
  | vector _ ih => rw [ih]; rfl

/-- C32: the decomposition is exactly the list of component arrays in order; it fails exactly on types
containing arrays of records. -/
theorem C32_decompose (τ : Ty) (cs : List (Nat × Kind)) :
    prim τ = some (cs.map fun c => ⟨c.1, c.2⟩) ↔ Components τ cs := by
  constructor
  · intro h
    induction τ generalizing cs with
    | scalar k =>
      rcases cs with _ | ⟨⟨n, k'⟩, _ | ⟨d, l⟩⟩ <;> simp [prim] at h
      obtain ⟨rfl, rfl⟩ := h
      exact .array (.scalar _)
    | vector e ih =>
      have h0 := h
      cases hp : prim e with
      | none => simp [prim, hp] at h
      | some p =>
        cases hs : single p with
        | none => simp [prim, hp, hs] at h
        | some a =>
          simp only [prim, hp, hs, Option.bind_eq_bind, Option.bind_some, Option.pure_def,
            Option.some.injEq] at h
          rcases cs with _ | ⟨⟨n, k'⟩, _ | ⟨d, l⟩⟩ <;> simp at h
          refine .array ?_
          rw [prim_single h0]
          exact isArray_toTy ⟨n, k'⟩
    | pair a b iha ihb =>
      cases hp : prim a with
      | none => simp [prim, hp] at h
      | some p =>
        cases hq : prim b with
        | none => simp [prim, hp, hq] at h
        | some q =>
          simp only [prim, hp, hq, Option.bind_eq_bind, Option.bind_some, Option.pure_def,
            Option.some.injEq] at h
          have e1 : ∀ l : List Arr, l = (l.map fun a => (a.rank, a.kind)).map fun c => ⟨c.1, c.2⟩ := by
            intro l; simp only [List.map_map]; exact (List.map_id' l).symm
          have := congrArg (List.map fun a : Arr => (a.rank, a.kind)) h
          simp [Function.comp_def] at this
          rw [← this]
          exact .pair (iha _ (hp.trans (congrArg some (e1 p)))) (ihb _ (hq.trans (congrArg some (e1 q))))
  · intro h
    induction h with
    | array h => rw [isArray_iff h]; exact prim_toTy _
    | pair _ _ ih1 ih2 => simp only [prim, ih1, ih2]; simp

/-- C32: every non-empty list of array types is the decomposition of a type, the recomposed one. -/
theorem C32_recompose (ps : List Arr) (h : ps ≠ []) :
    ∃ τ, primTy ps = some τ ∧ prim τ = some ps := by
  obtain ⟨τ, hτ⟩ := primTy_isSome h
  exact ⟨τ, hτ, prim_primTy hτ⟩

/-- C32: the first component of a record is stored in the prefix, the second in the suffix of the list
(the split used by the compiler for `Fst` and `Snd`, `phi_to_yarr.py:278-286`). -/
theorem C32_projection (a b : Ty) (ps : List Arr) (h : prim (.pair a b) = some ps) :
    ∃ p q, prim a = some p ∧ prim b = some q ∧ ps.take p.length = p ∧ ps.drop p.length = q ∧
      p ≠ [] ∧ q ≠ [] := by
  cases hp : prim a with
  | none => simp [prim, hp] at h
  | some p =>
    cases hq : prim b with
    | none => simp [prim, hp, hq] at h
    | some q =>
      simp [prim, hp, hq] at h; subst h
      exact ⟨p, q, rfl, rfl, by simp, by simp, prim_ne_nil hp, prim_ne_nil hq⟩

/-- C32: recomposing a decomposed type gives the type back if its records are nested to the right.
Missing: other nestings, see `C32_nesting_counterexample`. -/
theorem C32_roundtrip_partial (τ : Ty) (h : RightNested τ) : (prim τ).bind primTy = some τ := by
  induction h with
  | array h => rw [isArray_iff h, prim_toTy]; rfl
  | @pair a b n k h hb ih =>
    rw [isArray_iff h]
    cases hq : prim b with
    | none => simp [hq] at ih
    | some q =>
      rw [hq] at ih
      simp only [prim, prim_toTy, hq, Option.bind_eq_bind, Option.bind_some, Option.pure_def,
        List.cons_append, List.nil_append] at ih ⊢
      rcases q with _ | ⟨c, l⟩
      · exact absurd rfl (prim_ne_nil hq)
      · rw [primTy, ih]; rfl

/-- The nesting of records is lost: `((a, b), c)` and `(a, (b, c))` have the same decomposition. -/
theorem C32_nesting_counterexample :
    let s : Ty := .scalar .int
    prim (.pair (.pair s s) s) = prim (.pair s (.pair s s)) ∧
      (prim (.pair (.pair s s) s)).bind primTy = some (.pair s (.pair s s)) := by decide

/-- Non-vacuity, and failure on an array of records. -/
example :
    prim (.pair (.vector (.scalar .float)) (.pair (.scalar .int) (.vector (.vector (.scalar .bool))))) =
      some [⟨1, .float⟩, ⟨0, .int⟩, ⟨2, .bool⟩] ∧
    RightNested (.pair (.vector (.scalar .float)) (.scalar .int)) ∧
    prim (.vector (.pair (.scalar .int) (.scalar .int))) = none :=
  ⟨by decide, .pair (.vector (.scalar _)) (.array (.scalar _)), by decide⟩

end Verif.Props
