import Verif.Toy
import Verif.Yarr.Rank

/-!
# C31: array code evaluates to arrays of the claimed ranks

`typeOf` models the `type` properties that every constructor of array code evaluates
(`ein/codegen/yarr.py:32-33`); `eval` is the meaning of array code on the NumPy backend.
-/

namespace Verif.Props
open Verif.Term Verif.Phi Verif.Arr Verif.Yarr
variable {F : Type} [FloatOps F]

/-- C31: if array code passes its type checks with type `τ`, its variables are used with the types they
are bound with, and the inputs have the ranks of their declared types, then whenever evaluation gives a
value, it is an array (or tuple of arrays) of exactly the ranks in `τ`. -/
theorem C31_value_has_claimed_rank (J : YExt F) (e : YExpr F) (Γ : Ctx) (env : Env (YVal F)) (τ : PTy)
    (hd : Declared J e Γ) (ht : Yarr.typeOf e = some τ)
    (hin : ∀ v σ x, Γ v = some σ → env (.var v) = some x → x.arrs.map NArr.rank = σ.map Phi.Arr.rank)
    (x : YVal F) (hx : Yarr.eval J e env = some x) : x.arrs.map NArr.rank = τ.map Phi.Arr.rank :=
  eval_rank J e Γ env τ x hd ht hin hx

/-- The common case of a single array. -/
theorem C31_single_array (J : YExt F) (e : YExpr F) (Γ : Ctx) (env : Env (YVal F)) (r : Nat) (k : Kind)
    (hd : Declared J e Γ) (ht : Yarr.typeOf e = some [⟨r, k⟩])
    (hin : ∀ v σ x, Γ v = some σ → env (.var v) = some x → x.arrs.map NArr.rank = σ.map Phi.Arr.rank)
    (x : YVal F) (hx : Yarr.eval J e env = some x) : ∃ a, x.arrs = [a] ∧ a.shape.length = r := by
  have := C31_value_has_claimed_rank J e Γ env _ hd ht hin x hx
  rcases h : x.arrs with _ | ⟨a, _ | ⟨b, l⟩⟩ <;> simp [h] at this
  exact ⟨a, rfl, this⟩

/-- A 2 by 3 array. -/
def c31Input : A Int := ⟨[2, 3], [1, 2, 3, 4, 5, 6].map Scal.i, rfl⟩

/-- `let b = transpose(a) in fold(i, acc = unsqueeze(b); acc + (unsqueeze(b) * i); 2 times)`, then the
`range` of its last dimension is added. -/
def c31Example : YExpr Int :=
  let at_ := node (.var 1 [⟨2, .int⟩]) []
  node (.letv 1) [node (.transpose [1, 0]) [node (.var 0 [⟨2, .int⟩]) []],
    node (.elem .add none) [
      node (.fold 2 3) [node (.const (.arr (.scalar (.i 2))) [⟨0, .int⟩]) [],
        node (.unsqueeze [1]) [at_],
        node (.elem .add none) [node (.var 3 [⟨3, .int⟩]) [],
          node (.elem .multiply none) [node (.unsqueeze [1]) [at_], node (.var 2 [⟨0, .int⟩]) []]]],
      node .range [node (.dim 1) [at_]]]]

/-- The input's type. -/
def c31Ctx : Ctx := fun v => if v = 0 then some [⟨2, .int⟩] else none

/-- The environment holding the input. -/
def c31Env : Env (YVal Int) := fun s => if s = .var 0 then some (.arr c31Input) else none

/-- Non-vacuity: the hypotheses hold and the value exists; its shape is 3 × 1 × 2. -/
example : Declared (fun _ _ => none) c31Example c31Ctx ∧ Yarr.typeOf c31Example = some [⟨3, .int⟩] ∧
    (∀ v σ x, c31Ctx v = some σ → c31Env (.var v) = some x → x.arrs.map NArr.rank = σ.map Phi.Arr.rank) ∧
    ∃ x, Yarr.eval (fun _ _ => none) c31Example c31Env = some x ∧
      x.arrs.map NArr.shape = [[3, 1, 2]] ∧
      x.arrs.map NArr.data = [[2, 9, 4, 11, 6, 13].map Scal.i] := by
  refine ⟨?_, by decide +kernel, ?_, Toy.exists_of_any (by decide +kernel)⟩
  · simp only [Declared, c31Example, para, paraList, declStep]
    simp [Ctx.set, c31Ctx, ValRank, YVal.arrs, NArr.rank, NArr.scalar, Yarr.typeOf, cata, cataList, Yarr.typeStep,
      deltaTy, deltaArr, mapOpt, declStep]
  · intro v σ x h1 h2
    simp only [c31Ctx, c31Env, Sym.var.injEq] at h1 h2
    split at h1
    · rename_i h; subst h
      cases h1; cases h2; rfl
    · cases h1

/-- Without the declared-type hypothesis the claim fails: the array code's own checks do not relate a
bound variable's type to its binder (`Let.type` looks only at the body), so a wrongly annotated variable
yields a different rank. -/
theorem C31_undeclared_counterexample :
    let e : YExpr Int := node (.letv 1) [node (.const (.arr (.scalar (.i 2))) [⟨0, .int⟩]) [],
      node (.var 1 [⟨2, .int⟩]) []]
    Yarr.typeOf e = some [⟨2, .int⟩] ∧
    ∃ x, Yarr.eval (fun _ _ => none) e (fun _ => none) = some x ∧ x.arrs.map NArr.rank = [0] := by
  refine ⟨by decide +kernel, Toy.exists_of_any (by decide +kernel)⟩

end Verif.Props
