import Verif.Backend.Naive
import Verif.Backend.Staged
import Verif.Toy

/-! C19: evaluation leaves the variable environment as it found it. -/

namespace Verif.Props
open Verif.Phi Verif.Term Verif.Backend
variable {F : Type} [FloatOps F]

/-- C19 on the interpreter: if evaluation returns, the dictionary is what it was, and the value is the
one given by lexically scoped evaluation. -/
theorem C19_interpreter (I : Ext F) (e : Expr F) (env env' : Env (D F)) (r : D F)
    (hns : NoShadow e) (hd : ∀ u, Occurs u e → Distinct u.head)
    (hb : ∀ s ∈ binders e, env s = none) (h : interp I e env = some (r, env')) :
    env' = env ∧ run I e env = some r := by
  rw [interp_eq I e hns hd env hb, Option.map_eq_some_iff] at h
  obtain ⟨x, hx, hr⟩ := h
  simp only [Prod.mk.injEq] at hr
  obtain ⟨rfl, rfl⟩ := hr
  exact ⟨rfl, runNaive_run I e env _ hx⟩

/-- The binders must be fresh: a loop over an accumulator that the caller has bound deletes the
caller's binding. -/
theorem C19_bound_binder_counterexample :
    let p : Expr Int := fold 0 1 (int 1) (int 7) (Toy.ivar 1)
    ∃ r, interp Toy.noExt p (Toy.envOf [(1, .int 5)]) = some r ∧
      r.1 = .int 7 ∧ r.2 (.var 1) = none ∧ Toy.envOf [(1, .int 5)] (.var 1) = some (.int 5) :=
  Toy.exists_of_any (by decide +kernel)

/-- Non-vacuity: a fold inside a comprehension, with a let and a free variable. -/
example :
    let p : Expr Int := vec 0 (int 3) (letIn 5 (op2 .add (at_ 0) (Toy.ivar 9))
      (fold 1 2 (int 2) (Toy.ivar 5) (op2 .multiply (Toy.ivar 2) (Toy.ivar 5))))
    NoShadow p ∧ (∀ u, Occurs u p → Distinct u.head) ∧
      (∀ s ∈ binders p, Toy.envOf [(9, .int 1)] s = none) ∧
      ∃ r, interp Toy.noExt p (Toy.envOf [(9, .int 1)]) = some r ∧ r.1 = Toy.ints [1, 8, 27] ∧
        r.2 (.var 9) = some (.int 1) ∧ r.2 (.var 5) = none := by
  refine ⟨by decide +kernel, ?_, by decide +kernel, Toy.exists_of_any (by decide +kernel)⟩
  have h : ∀ u ∈ Midend.occurrences (vec 0 (int 3) (letIn 5 (op2 .add (at_ 0) (Toy.ivar 9))
      (fold 1 2 (int 2) (Toy.ivar 5) (op2 .multiply (Toy.ivar 2) (Toy.ivar 5)))) : Expr Int),
      Distinct u.head := by decide +kernel
  exact fun u hu => h u (Midend.mem_occurrences.2 hu)

/-! ### The array backends -/

/-- C19 on the array backends: if the staged program returns, the dictionary is what it was, and the value is the one
given by lexically scoped evaluation. -/
theorem C19_array_backend (J : Yarr.YExt F) (e : Yarr.YExpr F) (env env' : Env (Yarr.YVal F)) (r : Yarr.YVal F)
    (hns : NoShadow e) (hd : ∀ u, Occurs u e → Different u.head)
    (hb : ∀ s ∈ binders e, env s = none) (h : staged J e env = some (r, env')) :
    env' = env ∧ Yarr.eval J e env = some r := by
  rw [staged_eq J e hns hd env hb, Option.map_eq_some_iff] at h
  obtain ⟨x, hx, hr⟩ := h
  simp only [Prod.mk.injEq] at hr
  obtain ⟨rfl, rfl⟩ := hr
  exact ⟨rfl, hx⟩

/-- The converse: the staged program returns whenever lexically scoped evaluation does. -/
theorem C19_array_backend_returns (J : Yarr.YExt F) (e : Yarr.YExpr F) (env : Env (Yarr.YVal F)) (r : Yarr.YVal F)
    (hns : NoShadow e) (hd : ∀ u, Occurs u e → Different u.head)
    (hb : ∀ s ∈ binders e, env s = none) (h : Yarr.eval J e env = some r) :
    staged J e env = some (r, env) := by
  rw [staged_eq J e hns hd env hb, h]; rfl

/-- The sum of `x₉ * 2 ^ 2`, where the square is a loop, the product is let-bound and the sum is a reduction. -/
def c19Array : Yarr.YExpr Int :=
  let k (n : Int) : Yarr.YExpr Int := node (.const (.arr (.scalar (.i n))) [⟨0, .int⟩]) []
  let v (n r : Nat) : Yarr.YExpr Int := node (.var n [⟨r, .int⟩]) []
  node (.letv 5) [node (.fold 1 2) [k 2, v 9 1, node (.elem .multiply none) [v 2 1, k 2]],
    node (.reduce 3 4 0) [k 0, node (.elem .add none) [v 3 1, v 4 1], v 5 1]]

/-- The dictionary of the caller: `x₉ = [1, 2, 3]`. -/
def c19Env : Env (Yarr.YVal Int) := fun s => if s = .var 9 then some (.arr ⟨[3], [.i 1, .i 2, .i 3], rfl⟩) else none

/-- Non-vacuity: a let, a loop and a reduction. -/
example : NoShadow c19Array ∧ (∀ u, Occurs u c19Array → Different u.head) ∧
    (∀ s ∈ binders c19Array, c19Env s = none) ∧
    ∃ r, staged (fun _ _ => none) c19Array c19Env = some r ∧ r.1 = .arr (.scalar (.i 24)) ∧
      r.2 (.var 9) = c19Env (.var 9) ∧ r.2 (.var 5) = none ∧ r.2 (.var 3) = none := by
  refine ⟨by decide +kernel, ?_, by decide +kernel, Toy.exists_of_any (by decide +kernel)⟩
  have h : ∀ u ∈ Midend.occurrences c19Array, Different u.head := by decide +kernel
  exact fun u hu => h u (Midend.mem_occurrences.2 hu)

/-- The binders must be fresh here too: a reduction over a variable that the caller has bound deletes the caller's
binding. -/
theorem C19_array_bound_binder_counterexample :
    ∃ r, staged (fun _ _ => none) (node (.reduce 9 4 0) [node (.const (.arr (.scalar (.i 0))) [⟨0, .int⟩]) [],
        node (.elem .add none) [node (.var 9 [⟨1, .int⟩]) [], node (.var 4 [⟨1, .int⟩]) []],
        node (.var 9 [⟨1, .int⟩]) []]) c19Env = some r ∧
      r.1 = .arr (.scalar (.i 6)) ∧ r.2 (.var 9) = none ∧ c19Env (.var 9) ≠ none :=
  Toy.exists_of_any (by decide +kernel)

end Verif.Props
