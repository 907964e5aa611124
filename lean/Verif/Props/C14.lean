import Verif.Phi.Sound
import Verif.Toy

/-!
C14: well-typed programs compute values of their type.

`HasType v τ` (`Verif/Val.lean`) is the specification: a scalar of kind `k` has type `scalar k`, a vector
has type `vector τ` if all its elements have type `τ`, a pair has the pair of the types.
-/

namespace Verif.Props
open Verif.Term Verif.Phi
variable {F : Type} [FloatOps F]

/-- The reference evaluator and the evaluator that also says why it fails agree on values, for every
program and environment. -/
theorem C14_same_values (I : Ext F) (e : Expr F) (env : Env (D F)) (v : D F) :
    run I e env = some v ↔ runRes I e env = .ok v := by
  rw [← runRes_toOption]
  cases runRes I e env with
  | ok w => simp [Except.toOption]
  | error e => simp [Except.toOption]

/-- A program that passes the constructors' type checks, in an environment holding values of the declared
types, evaluates to nothing or to a value of exactly its static type. -/
theorem C14_type_soundness (I : Ext F) (e : Expr F) (Γ : TCtx) (env : Env (D F)) (τ : Ty)
    (hτ : typeOf e = some τ) (hd : Declared I e Γ) (henv : EnvTyped Γ env) (v : D F)
    (hv : run I e env = some v) : HasType v τ := by
  have := runRes_good False I e Γ env τ hd (fun h => h.elim) hτ henv
  rw [(C14_same_values I e env v).1 hv] at this
  exact this

/-- ... and if moreover positions are integers, axes exist and assertions are about integers (which the
constructors do not check), it never applies an operation to a value of the wrong form: what remains are
the failures that depend on the data. -/
theorem C14_never_stuck_partial (I : Ext F) (e : Expr F) (Γ : TCtx) (env : Env (D F)) (τ : Ty)
    (hτ : typeOf e = some τ) (hd : Declared I e Γ) (henv : EnvTyped Γ env) (hs : Strictly e) :
    (∃ v, run I e env = some v ∧ HasType v τ) ∨ runRes I e env = .error .raised := by
  have := runRes_good True I e Γ env τ hd (fun _ => hs) hτ henv
  cases hr : runRes I e env with
  | ok v =>
    rw [hr] at this
    exact .inl ⟨v, (C14_same_values I e env v).2 hr, this⟩
  | error x =>
    cases x with
    | raised => exact .inr rfl
    | stuck => rw [hr] at this; exact absurd trivial this

/-! The hypotheses are met by `fold(λ k a. a + x[k], dim(x), 0)`, and the conclusion is not void. -/

/-- The sum of the elements of the vector `x`. -/
def sumOf : Expr Int :=
  fold 5 6 (dim (var 0 (.vector (.scalar .int))) 0) (int 0)
    (op2 .add (var 6 (.scalar .int)) (get (var 0 (.vector (.scalar .int))) (var 5 (.scalar .int))))

/-- The type of `x`. -/
def sumCtx : TCtx := fun s => if s = .var 0 then some (.vector (.scalar .int)) else none

theorem sumOf_typed : typeOf sumOf = some (.scalar .int) := by decide +kernel

theorem sumOf_declared : Declared Toy.noExt sumOf sumCtx := by
  simp only [sumOf, fold, dim, var, int, op2, Phi.get, declared_node, List.map, declStep]
  have h0 : typeOf (node (Head.const (Val.int 0) (.scalar .int)) [] : Expr Int) = some (.scalar .int) := by
    decide +kernel
  simp only [h0, List.forall_mem_cons, List.not_mem_nil, false_imp_iff, implies_true, and_true]
  refine ⟨rfl, HasType.sc (.i 0), rfl, ?_⟩
  intro p hp
  simp only [List.mem_cons, List.not_mem_nil, or_false] at hp
  rcases hp with rfl | rfl <;> rfl

theorem sumOf_strictly : Strictly sumOf := by
  have h0 : typeOf (var 0 (.vector (.scalar .int)) : Expr Int) = some (.vector (.scalar .int)) := by decide +kernel
  have h5 : typeOf (var 5 (.scalar .int) : Expr Int) = some (.scalar .int) := by decide +kernel
  simp only [var] at h0 h5
  simp only [sumOf, fold, dim, var, int, op2, Phi.get, strictly_node, List.map, strictStep]
  simp only [List.forall_mem_cons, List.not_mem_nil, false_imp_iff, implies_true, and_true, true_and]
  simp [h5]
  rintro a τ rfl h
  rw [h0] at h
  cases h
  decide

example : (∃ v, run Toy.noExt sumOf (Toy.envOf [(0, Toy.ints [3, 4, 5])]) = some v ∧ HasType v (.scalar .int)) ∨
    runRes Toy.noExt sumOf (Toy.envOf [(0, Toy.ints [3, 4, 5])]) = .error .raised := by
  refine C14_never_stuck_partial _ _ sumCtx _ _ sumOf_typed sumOf_declared ?_ sumOf_strictly
  intro s τ h
  simp only [sumCtx] at h
  split at h
  · rename_i hs
    subst hs
    cases h
    exact ⟨_, rfl, .vec (by simp; exact ⟨.sc _, .sc _, .sc _⟩)⟩
  · cases h

example : run Toy.noExt sumOf (Toy.envOf [(0, Toy.ints [3, 4, 5])]) = some (.sc (.i 12)) := by decide +kernel

/-! What the constructors' checks leave open. -/

/-- A float accepted as a position (`Get.type`, `phi.py:239-246`, asks twice for a scalar, the second time with the message
"non-integer type"). -/
theorem C14_position_counterexample :
    typeOf (get (var 0 (.vector (.scalar .int))) (node (.const (.sc (.f 1)) (.scalar .float)) []) : Expr Int) =
      some (.scalar .int) ∧
    (run Toy.noExt (get (var 0 (.vector (.scalar .int))) (node (.const (.sc (.f 1)) (.scalar .float)) []))
      (Toy.envOf [(0, Toy.ints [3, 4])])) = none := by decide +kernel

/-- An axis that does not exist (`Dim.type`, `phi.py:215-220`, asks only that it is not negative). -/
theorem C14_axis_counterexample :
    typeOf (dim (var 0 (.vector (.scalar .int))) 3 : Expr Int) = some (.scalar .int) ∧
    run Toy.noExt (dim (var 0 (.vector (.scalar .int))) 3) (Toy.envOf [(0, Toy.ints [3, 4])]) = none := by
  decide +kernel

/-- The type written on an occurrence of a bound variable is not compared with the type of its binder
(`Let.type`, `phi.py:161-163`; `Store.type`, 122-124), so the hypothesis `Declared` is needed: the program
`let x = true in (x : int)` has static type int and value `true`. -/
theorem C14_undeclared_counterexample :
    typeOf (letIn 0 (node (.const (.sc (.b true)) (.scalar .bool)) []) (var 0 (.scalar .int)) : Expr Int) =
      some (.scalar .int) ∧
    run Toy.noExt (letIn 0 (node (.const (.sc (.b true)) (.scalar .bool)) []) (var 0 (.scalar .int)))
      (Toy.envOf []) = some (.sc (.b true)) := by decide +kernel

/-- `numpy.array(rows)` in `_interpret` (`naive.py:17-27`) for rows of one kind and shape, as the kind and
shape of the result: without rows NumPy makes a float array of shape `(0,)`. -/
def stackRows : List (Kind × List Nat) → Kind × List Nat
  | [] => (.float, [0])
  | r :: rs => (r.1, (rs.length + 1) :: r.2)

/-- In the naive backend an empty array comprehension of integer vectors is an array of floats with one
axis; its static type is a rank-two array of integers. (In the model of values above, an empty vector has
every vector type.) -/
theorem C14_empty_counterexample :
    typeOf (vec 1 (int 0) (vec 2 (int 3) (at_ 2)) : Expr Int) = some (.vector (.vector (.scalar .int))) ∧
    stackRows ((List.range 0).map fun _ => stackRows ((List.range 3).map fun _ => (.int, []))) = (.float, [0]) ∧
    stackRows ((List.range 2).map fun _ => stackRows ((List.range 3).map fun _ => (.int, []))) = (.int, [2, 3]) := by
  decide +kernel

end Verif.Props
