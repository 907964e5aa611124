import Verif.Backend.Reduce
import Verif.Toy

/-!
# C05: reduce is independent of the evaluation tree

`treeReduce op init xs` models the logarithmic reduction of the array backends
(`ein/backend/array_backend.py:104-155`); `reduceOf` the sequential one of the interpreter
(`ein/backend/naive.py:36-48`). `op x y = none` is a failing body.
-/

namespace Verif.Props
open Verif.Phi Verif.Backend
variable {α : Type}

/-- Specification: `op` computes an associative operation `m` on the values satisfying `P` (say, all
values of one type and shape). -/
structure Semigroup (P : α → Prop) (op : α → α → Option α) (m : α → α → α) : Prop where
  defined : ∀ x y, P x → P y → op x y = some (m x y)
  closed : ∀ x y, P x → P y → P (m x y)
  assoc : ∀ x y z, P x → P y → P z → m (m x y) z = m x (m y z)

/-- Specification: with a two-sided identity. -/
structure Monoid (P : α → Prop) (op : α → α → Option α) (m : α → α → α) (e : α) : Prop
    extends Semigroup P op m where
  one : P e
  one_left : ∀ x, P x → m e x = x
  one_right : ∀ x, P x → m x e = x

/-- C05 for merely associative operations: the result is `x₀ · x₁ · … · xₙ₋₁ · init` in this order, the
initial value combined exactly once, for every length (`init` for none). -/
theorem C05_tree_reduce_associative {P : α → Prop} {op : α → α → Option α} {m : α → α → α}
    (h : Semigroup P op m) (init : α) (xs : List α) (hi : P init) (hx : ∀ x ∈ xs, P x) :
    treeReduce op init xs = some (xs.foldr m init) :=
  treeLoop_eq h.defined h.closed h.assoc _ _ _ (Nat.lt_succ_self _) hx hi

theorem loopOpt_foldl {P : α → Prop} {op : α → α → Option α} {m : α → α → α}
    (h : Semigroup P op m) (xs : List α) (a : α) (ha : P a) (hx : ∀ x ∈ xs, P x) :
    loopOpt op a xs = some (xs.foldl m a) := by
  induction xs generalizing a with
  | nil => rfl
  | cons x xs ih =>
    rw [loopOpt, h.defined _ _ ha (hx x (by simp)), Option.bind_some]
    exact ih _ (h.closed _ _ ha (hx x (by simp))) (fun y hy => hx y (by simp [hy]))

theorem foldl_eq_foldr {P : α → Prop} {op : α → α → Option α} {m : α → α → α} {e : α}
    (h : Monoid P op m e) (xs : List α) (hx : ∀ x ∈ xs, P x) :
    xs.foldl m e = xs.foldr m e := by
  have key : ∀ (xs : List α) (a : α), P a → (∀ x ∈ xs, P x) →
      xs.foldl m a = m a (xs.foldr m e) ∧ P (xs.foldr m e) := by
    intro xs
    induction xs with
    | nil => intro a ha _; exact ⟨(h.one_right a ha).symm, h.one⟩
    | cons x xs ih =>
      intro a ha hx
      have px := hx x (by simp)
      obtain ⟨h1, h2⟩ := ih (m a x) (h.closed _ _ ha px) (fun y hy => hx y (by simp [hy]))
      exact ⟨by rw [List.foldl_cons, h1, List.foldr_cons, h.assoc _ _ _ ha px h2], h.closed _ _ px h2⟩
  obtain ⟨h1, h2⟩ := key xs e h.one hx
  rw [h1, h.one_left _ h2]

/-- The sequential reduction over one vector visits its elements in order. -/
theorem reduceOf_single {F : Type} (init : D F) (xs : List (D F)) (body : D F → D F → Option (D F)) :
    reduceOf (some init) [some (.vec xs)] body = loopOpt body init xs := by
  have key : ∀ (l : List (D F)) (k : Nat) (a : D F), l = xs.drop k →
      loopOpt (fun acc i => (rowAt [xs] i).bind (fun y => body acc y)) a (List.range' k l.length) =
        loopOpt body a l := by
    intro l
    induction l with
    | nil => intro k a _; rfl
    | cons x l ih =>
      intro k a hk
      have hx : xs[k]? = some x := by
        have := congrArg List.head? hk
        rw [List.head?_drop] at this
        exact this.symm
      have hr : rowAt [xs] k = some x := by simp [rowAt, mapOpt, hx, pairAll]
      rw [List.length_cons, List.range'_succ, loopOpt, loopOpt]
      simp only [hr, Option.bind_some]
      cases body a x with
      | none => rfl
      | some b =>
        exact ih (k + 1) b (by rw [← List.drop_drop, ← hk]; rfl)
  have := key xs 0 init rfl
  simp only [reduceOf, mapOpt, Option.bind_some, Val.asVec, List.all_nil, if_true,
    List.range_eq_range']
  exact this

/-- C05 for monoids: the tree reduction, the sequential interpreter and `x₀ · … · xₙ₋₁` agree, for
every length including 0. -/
theorem C05_tree_reduce_monoid {F : Type} {P : D F → Prop} {op : D F → D F → Option (D F)}
    {m : D F → D F → D F} {e : D F} (h : Monoid P op m e) (xs : List (D F)) (hx : ∀ x ∈ xs, P x) :
    treeReduce op e xs = some (xs.foldl m e) ∧
      reduceOf (some e) [some (.vec xs)] op = treeReduce op e xs := by
  rw [C05_tree_reduce_associative h.toSemigroup e xs h.one hx, reduceOf_single,
    loopOpt_foldl h.toSemigroup xs e h.one hx, foldl_eq_foldr h xs hx]
  exact ⟨rfl, rfl⟩

/-- The identity is needed: with an associative operation and a non-neutral initial value the two
evaluation orders differ (`init` is combined on the left by the interpreter, on the right by the
tree). Here: `a · b = a`. -/
theorem C05_init_side_counterexample :
    let op : D Int → D Int → Option (D Int) := fun a _ => some a
    let xs := [Val.int 1, Val.int 2, Val.int 3]
    treeReduce op (Val.int 0) xs = some (Val.int 1) ∧
      reduceOf (some (Val.int 0)) [some (.vec xs)] op = some (Val.int 0) := by decide +kernel

/-- Affine maps `x ↦ a x + b` under composition, as pairs: a non-commutative monoid. -/
def affine : D Int → D Int → Option (D Int)
  | .pair (.sc (.i a)) (.sc (.i b)), .pair (.sc (.i c)) (.sc (.i d)) =>
    some (.pair (.int (a * c)) (.int (a * d + b)))
  | _, _ => none

/-- Non-vacuity: `Monoid` holds of affine maps. -/
example : Monoid (fun v : D Int => ∃ a b : Int, v = .pair (.int a) (.int b)) affine
    (fun x y => (affine x y).getD x) (.pair (.int 1) (.int 0)) where
  defined := by rintro _ _ ⟨a, b, rfl⟩ ⟨c, d, rfl⟩; rfl
  closed := by rintro _ _ ⟨a, b, rfl⟩ ⟨c, d, rfl⟩; exact ⟨_, _, rfl⟩
  assoc := by
    rintro _ _ _ ⟨a, b, rfl⟩ ⟨c, d, rfl⟩ ⟨e, f, rfl⟩
    simp [affine, Int.mul_assoc, Int.mul_add, Int.add_assoc]
  one := ⟨1, 0, rfl⟩
  one_left := by rintro _ ⟨a, b, rfl⟩; simp [affine]
  one_right := by rintro _ ⟨a, b, rfl⟩; simp [affine]

/-- Non-vacuity: five slices, not a power of two. -/
example : treeReduce affine (.pair (.int 1) (.int 0))
    ([(2, 1), (3, 5), (1, 7), (-1, 2), (4, 0)].map fun p => .pair (.int p.1) (.int p.2)) =
      some (.pair (.int (-24)) (.int 65)) := by decide +kernel

end Verif.Props
