import Verif.Props.C01
import Verif.Props.C05

/-!
# C01 for reductions

`C01_compiled_meaning_partial` also covers the structured `Reduce` (`phi_to_yarr.py:192-223`). Here: its condition on
the order of evaluation holds for monoids, an example, and what happens without the condition `evenPairs` puts on the
body of a reduction.
-/

namespace Verif.Props
open Verif.Codegen Verif.Phi Verif.Term Verif.Yarr Verif.Arr

/-- The condition that `check` puts on a reduction holds for every monoid: if the body combines values of the monoid
and the initial value is the identity, then the checked reduction has the value `x₀ · … · xₙ₋₁`, for every number of
rows. -/
theorem C01_reduce_condition_monoid {F : Type} (o : Opts F) (ho : ∀ v, o.same v v = true) (tc : Bool) (τ : Ty)
    {P : D F → Prop} {op : D F → D F → Option (D F)} {m : D F → D F → D F} {e : D F} (h : Monoid P op m e)
    (hP : ∀ v, P v → HasType v τ) (rows : List (D F)) (hrows : ∀ v ∈ rows, P v) :
    reduceCheck o tc (some τ) op e rows = some (rows.foldl m e) := by
  have h1 : ((some τ).any fun τ => hasTy τ e && rows.all (hasTy τ)) = true := by
    simp only [Option.any_some, Bool.and_eq_true, List.all_eq_true, hasTy_iff]
    exact ⟨hP _ h.one, fun v hv => hP _ (hrows v hv)⟩
  unfold reduceCheck
  rw [if_neg (by rw [h1]; simp), (C05_tree_reduce_monoid h rows hrows).1, Option.bind_some,
    loopOpt_foldl h.toSemigroup rows e h.one hrows, Option.bind_some, if_pos (ho _)]

/-! ### Non-vacuity -/

/-- Options for reductions: the new index of the reduction that binds `x` is `x + 100`. -/
def allReductions : Opts Int :=
  { allReads with
    batch := fun x => x + 100
    same := fun v w => decide (v = w)
    same_eq := fun _ _ h => of_decide_eq_true h }

/-- Integers under addition. -/
example (l : List Int) : reduceCheck allReductions true (some (.scalar .int))
    (fun v w => (v.asInt).bind fun a => (w.asInt).map fun b => .int (a + b)) (.int 0) (l.map Val.int) =
      some ((l.map Val.int).foldl (fun v w : D Int => .int ((v.asInt).getD 0 + (w.asInt).getD 0)) (.int 0)) := by
  refine C01_reduce_condition_monoid (P := fun v => ∃ n : Int, v = .int n) allReductions ?_ true _ ?_ ?_ _ ?_
  · intro v; exact decide_eq_true rfl
  · exact
      { defined := by rintro _ _ ⟨a, rfl⟩ ⟨b, rfl⟩; rfl
        closed := by rintro _ _ ⟨a, rfl⟩ ⟨b, rfl⟩; exact ⟨_, rfl⟩
        assoc := by
          rintro _ _ _ ⟨a, rfl⟩ ⟨b, rfl⟩ ⟨c, rfl⟩
          simp [Val.asInt, Val.int, Int.add_assoc]
        one := ⟨0, rfl⟩
        one_left := by rintro _ ⟨a, rfl⟩; simp [Val.asInt, Val.int]
        one_right := by rintro _ ⟨a, rfl⟩; simp [Val.asInt, Val.int] }
  · rintro _ ⟨n, rfl⟩; exact .sc (.i n)
  · intro v hv
    obtain ⟨n, -, rfl⟩ := List.mem_map.1 hv
    exact ⟨n, rfl⟩

/-- `reduce(zeros, λ u v. array(λ k. f k (u[k] + v[k])), array(λ r k. a * (r + y[k])))`, sums of vectors. -/
def sumOfRows (f : Expr Int → Expr Int → Expr Int) (rows a : Expr Int) : Expr Int :=
  node (.reduce 5 6) [vec 7 (dim (xs 1) 0) (int 0),
    vec 8 (dim (xs 1) 0) (f (at_ 8) (op2 .add (Phi.get (xs 5) (at_ 8)) (Phi.get (xs 6) (at_ 8)))),
    vec 3 rows (vec 4 (dim (xs 1) 0) (op2 .multiply a (op2 .add (at_ 3) (Phi.get (xs 1) (at_ 4)))))]

/-- `array(λ i. reduce(zeros, λ u v. array(λ k. u[k] + v[k]), array(λ r k. x[i] * (r + y[k]))))` -/
def rowSums : Expr Int := vec 2 (dim (xs 0) 0) (sumOfRows (fun _ e => e) (int 4) (Phi.get (xs 0) (at_ 2)))

/-- A reduction of matrices inside a comprehension is in the setting of C01. -/
theorem rowSums_setting : ∃ v y, Setting allReductions Toy.noExt 20 rowSums blurInputs blurCtx
    (.vector (.vector (.scalar .int))) blurEnv blurArrays v y := by
  obtain ⟨_, _, h⟩ := blur_setting
  obtain ⟨y, hy⟩ := Option.isSome_iff_exists.1
    (show (compileProgram (evenPairs allReductions) 20 rowSums).isSome = true by decide +kernel)
  obtain ⟨v, hv⟩ := Option.isSome_iff_exists.1
    (show (check allReductions Toy.noExt false rowSums (fun _ => 0) blurEnv).isSome = true by decide +kernel)
  exact ⟨v, y, h.inputs, by decide +kernel, by decide +kernel, declB_declared _ _ _ (by decide +kernel), h.values,
    h.arrays, hv, hy, .loops fun _ _ _ _ _ => rfl⟩

/-- The array program made of it, in numbers. -/
example : (compileProgram (program allReductions) 20 rowSums).bind (Yarr.eval (fun _ _ => none) · blurArrays) =
    some (.arr ⟨[2, 3], [.i 100, .i 140, .i 180, .i 200, .i 280, .i 360], rfl⟩) := by decide +kernel

example : run Toy.noExt rowSums blurEnv = some (.vec [Toy.ints [100, 140, 180], Toy.ints [200, 280, 360]]) := by
  decide +kernel

/-! ### The condition on bodies of reductions is needed -/

/-- The same, with the body `array(λ k. 0 * k + (u[k] + v[k]))`. -/
def rowSumsBehind : Expr Int :=
  vec 2 (dim (xs 0) 0) (sumOfRows (fun k e => op2 .add (op2 .multiply (int 0) k) e) (int 4) (Phi.get (xs 0) (at_ 2)))

/-- C01 fails for a reduction in the body of which an index of a comprehension comes before the reduced values. The
axis of the batch is then not the last axis of the body (`along`, `axial.py:62-77`), but the body is not aligned
(`phi_to_yarr.py:210-223`, with the remark "There's probably something wrong here"). The array program fails. -/
theorem C01_reduce_axes_counterexample :
    lexical rowSumsBehind blurInputs = true ∧
    Phi.typeOf rowSumsBehind = some (.vector (.vector (.scalar .int))) ∧
    check allReductions Toy.noExt false rowSumsBehind (fun _ => 0) blurEnv =
      some (.vec [Toy.ints [100, 140, 180], Toy.ints [200, 280, 360]]) ∧
    (compileProgram (program allReductions) 20 rowSumsBehind).map (Yarr.eval (fun _ _ => none) · blurArrays) =
      some none := by
  refine ⟨by decide +kernel, by decide +kernel, by decide +kernel, by decide +kernel⟩

/-- The same with one row and another comprehension, of size 1, inside the first. -/
def oneRowBehind : Expr Int :=
  vec 2 (dim (xs 0) 0) (vec 9 (int 1) (sumOfRows (fun k e => op2 .add (op2 .multiply (int 0) k) e) (int 1)
    (op2 .add (at_ 9) (Phi.get (xs 0) (at_ 2)))))

/-- Or it gives a wrong result: the shape is 1 × 2 × 3 instead of 2 × 1 × 3. -/
theorem C01_reduce_shape_counterexample :
    lexical oneRowBehind blurInputs = true ∧
    Phi.typeOf oneRowBehind = some (.vector (.vector (.vector (.scalar .int)))) ∧
    check allReductions Toy.noExt false oneRowBehind (fun _ => 0) blurEnv =
      some (.vec [.vec [Toy.ints [10, 20, 30]], .vec [Toy.ints [20, 40, 60]]]) ∧
    (compileProgram (program allReductions) 20 oneRowBehind).bind (Yarr.eval (fun _ _ => none) · blurArrays) =
      some (.arr ⟨[1, 2, 3], [.i 10, .i 20, .i 30, .i 20, .i 40, .i 60], rfl⟩) := by
  refine ⟨by decide +kernel, by decide +kernel, by decide +kernel, by decide +kernel⟩

end Verif.Props
