import Verif.Val

/-! Primitive types: the list of array types a record type is stored as (`type_system.py:116-179`). -/

namespace Verif.Phi

/-- `PrimitiveArrayType` (`type_system.py:116-123`); `rank >= 0` is in the type. -/
structure Arr where
  rank : Nat
  kind : Kind
deriving DecidableEq, Repr

/-- `ndarray_type(rank, kind)` (`type_system.py:108-109`), also the recursion of
`PrimitiveArrayType.type` (`type_system.py:128-134`). -/
def ndarrayTy : Nat → Kind → Ty
  | 0, k => .scalar k
  | n + 1, k => .vector (ndarrayTy n k)

/-- `PrimitiveArrayType.type` (`type_system.py:128-134`) -/
def Arr.toTy (a : Arr) : Ty := ndarrayTy a.rank a.kind

/-- `with_rank_delta(+1)` (`type_system.py:139-140`) -/
def Arr.lift (a : Arr) : Arr := ⟨a.rank + 1, a.kind⟩

/-- `PrimitiveType.single` (`type_system.py:154-157`); `none`: unpacking fails. -/
def single : List Arr → Option Arr
  | [a] => some a
  | _ => none

/-- `primitive_type` of `Scalar` (`type_system.py:57-59`), `Vector` (72-74) and `Pair` (89-93). -/
def prim : Ty → Option (List Arr)
  | .scalar k => some [⟨0, k⟩]
  | .vector e => do
    let p ← prim e
    let a ← single p
    return [a.lift]
  | .pair a b => do
    let p ← prim a
    let q ← prim b
    return p ++ q

/-- `PrimitiveType.type` (`type_system.py:159-166`); the empty tuple is an assertion failure. -/
def primTy : List Arr → Option Ty
  | [] => none
  | [a] => some a.toTy
  | a :: b :: l => do
    let t ← primTy (b :: l)
    return .pair a.toTy t

theorem Arr.toTy_lift (a : Arr) : a.lift.toTy = .vector a.toTy := rfl

theorem prim_ndarrayTy (n : Nat) (k : Kind) : prim (ndarrayTy n k) = some [⟨n, k⟩] := by
  induction n with
  | zero => rfl
  | succ n ih => simp [ndarrayTy, prim, ih, single, Arr.lift]

theorem prim_toTy (a : Arr) : prim a.toTy = some [a] := prim_ndarrayTy a.rank a.kind

theorem prim_ne_nil {τ : Ty} {ps : List Arr} (h : prim τ = some ps) : ps ≠ [] := by
  induction τ generalizing ps with
  | scalar k => cases h; simp
  | vector e ih =>
    cases hp : prim e with
    | none => simp [prim, hp] at h
    | some p =>
      cases hs : single p with
      | none => simp [prim, hp, hs] at h
      | some a => simp [prim, hp, hs] at h; subst h; simp
  | pair a b iha ihb =>
    cases hp : prim a with
    | none => simp [prim, hp] at h
    | some p =>
      cases hq : prim b with
      | none => simp [prim, hp, hq] at h
      | some q => simp [prim, hp, hq] at h; subst h; simp [iha hp]

theorem prim_single {τ : Ty} {a : Arr} (h : prim τ = some [a]) : τ = a.toTy := by
  induction τ generalizing a with
  | scalar k => cases h; rfl
  | vector e ih =>
    cases hp : prim e with
    | none => simp [prim, hp] at h
    | some p =>
      cases hs : single p with
      | none => simp [prim, hp, hs] at h
      | some b =>
        simp [prim, hp, hs] at h; subst h
        have : p = [b] := by
          rcases p with _ | ⟨c, _ | ⟨d, l⟩⟩ <;> simp [single] at hs
          rw [hs]
        rw [ih (hp.trans (by rw [this])), Arr.toTy_lift]
  | pair x y iha ihb =>
    cases hp : prim x with
    | none => simp [prim, hp] at h
    | some p =>
      cases hq : prim y with
      | none => simp [prim, hp, hq] at h
      | some q =>
        simp [prim, hp, hq] at h
        have h1 := prim_ne_nil hp
        have h2 := prim_ne_nil hq
        have hl := congrArg List.length h
        simp at hl
        have := List.length_pos_iff.2 h1
        have := List.length_pos_iff.2 h2
        omega

theorem primTy_isSome {ps : List Arr} (h : ps ≠ []) : ∃ τ, primTy ps = some τ := by
  induction ps with
  | nil => exact absurd rfl h
  | cons a l ih =>
    cases l with
    | nil => exact ⟨_, rfl⟩
    | cons b l =>
      obtain ⟨t, ht⟩ := ih (by simp)
      exact ⟨_, by rw [primTy, ht]; rfl⟩

theorem prim_primTy {ps : List Arr} {τ : Ty} (h : primTy ps = some τ) : prim τ = some ps := by
  induction ps generalizing τ with
  | nil => cases h
  | cons a l ih =>
    cases l with
    | nil => cases h; exact prim_toTy a
    | cons b l =>
      cases ht : primTy (b :: l) with
      | none => simp [primTy, ht] at h
      | some t =>
        simp [primTy, ht] at h; subst h
        simp [prim, prim_toTy, ih ht]

end Verif.Phi
