import Verif.Codegen.Compile

/-! Recursion over expressions along the plans of the compiler, and the axes of compiled code, read off the expression. -/

set_option linter.unusedSectionVars false

namespace Verif.Codegen
open Verif.Phi Verif.Term Verif.Yarr Verif.Arr
variable {F : Type}

/-- The plan for a node, if it is a fold that is not compiled to a loop. -/
def planned (o : Opts F) : Phi.Head F → List (Expr F) → Option (Plan F)
  | .fold c a, [n, z, b] => o.plan c a n z b
  | _, _ => none

theorem planned_some {o : Opts F} {h : Phi.Head F} {ts : List (Expr F)} {p : Plan F} (hp : planned o h ts = some p) :
    ∃ c a n z b, h = .fold c a ∧ ts = [n, z, b] ∧ o.plan c a n z b = some p := by
  unfold planned at hp
  split at hp
  · exact ⟨_, _, _, _, _, rfl, rfl, hp⟩
  · cases hp

section
variable {α : Type} [Inhabited α]

/-- Recursion over expressions: `step` combines the results for the children, except for folds with a plan, the
result for which is made from the results for the expressions in the plan. -/
def planRec (o : Opts F) (step : Phi.Head F → List (Expr F × α) → α)
    (plan : (Expr F → α) → Phi.Head F → List (Expr F) → Plan F → α) : Expr F → α :=
  recSize fun rec e =>
    match e with
    | .node h ts =>
      match planned o h ts with
      | none => step h (ts.map fun t => (t, rec t))
      | some p => plan rec h ts p

theorem planRec_node {o : Opts F} {step : Phi.Head F → List (Expr F × α) → α}
    {plan : (Expr F → α) → Phi.Head F → List (Expr F) → Plan F → α}
    (hplan : ∀ f g h ts p, (∀ t ∈ ts, f t = g t) → (∀ t ∈ p.exprs, f t = g t) → plan f h ts p = plan g h ts p)
    (h : Phi.Head F) (ts : List (Expr F)) :
    planRec o step plan (node h ts) =
      match planned o h ts with
      | none => step h (ts.map fun t => (t, planRec o step plan t))
      | some p => plan (planRec o step plan) h ts p := by
  unfold planRec
  refine recSize_eq (fun f g e hfg => ?_) (node h ts)
  obtain ⟨h, ts⟩ := e
  have hts : ∀ t ∈ ts, f t = g t := fun t ht => hfg t (size_lt_of_mem ht)
  dsimp only
  split
  · congr 1
    exact List.map_congr_left fun t ht => by rw [hts t ht]
  · rename_i p hp
    obtain ⟨c, a, n, z, b, rfl, rfl, hp⟩ := planned_some hp
    exact hplan f g _ _ p hts fun t ht => hfg t (o.small c a n z b p hp t ht).1

end

/-- A finite union. -/
def unions (l : List (Finset Nat)) : Finset Nat := l.foldr (· ∪ ·) ∅

theorem mem_unions {i : Nat} {l : List (Finset Nat)} : i ∈ unions l ↔ ∃ A ∈ l, i ∈ A := by
  induction l with
  | nil => simp [unions]
  | cons A l ih => simp only [unions, List.foldr_cons, Finset.mem_union, List.mem_cons, exists_eq_or_imp] at ih ⊢; rw [ih]

/-- One node of `axesOf`. -/
def axesStep (o : Opts F) :
    Phi.Head F → List (Expr F × ((Nat → Finset Nat) → Finset Nat)) → (Nat → Finset Nat) → Finset Nat
  | .const _ _, _, _ => ∅
  | .store (.idx i) _, _, _ => {i}
  | .store (.var v) _, _, V => V v
  | .letv v, [b, e], V => e.2 (upd V v (b.2 V))
  | .assertEq, t :: _, V => t.2 V
  | .dim _, _, _ => ∅
  | .fold _ a, [_, z, b], V => b.2 (upd V a (z.2 V))
  | .reduce x y, z :: b :: vs, V =>
    let A := unions ((z :: vs).map fun t => t.2 V)
    b.2 (upd (upd V x A) y A)
  | .get, [t, i], V =>
    match window o t.1 i.1 with
    | some (index, _) => t.2 V ∪ {index}
    | none => t.2 V ∪ i.2 V
  | .vec i, [_, b], V => b.2 V \ {i}
  | .vec _, _, _ => ∅
  | _, ts, V => unions (ts.map fun t => t.2 V)

/-- The axes of the code of a fold with a plan. -/
def axesPlan (rec : Expr F → (Nat → Finset Nat) → Finset Nat) (V : Nat → Finset Nat) : Plan F → Finset Nat
  | .fail => ∅
  | .bulk _ _ _ elems _ => rec elems V
  | .dot _ sums products => (unions ((products.flatMap Prod.snd).map fun t => rec t V)) \ (sums.map Prod.fst).toFinset

/-- The axes of the code of an expression, where `V` are the axes of the variables. -/
def axesOf (o : Opts F) : Expr F → (Nat → Finset Nat) → Finset Nat :=
  planRec o (axesStep o) fun rec _ _ p V => axesPlan rec V p

theorem axesOf_eq (o : Opts F) (h : Phi.Head F) (ts : List (Expr F)) :
    axesOf o (node h ts) =
      match planned o h ts with
      | none => axesStep o h (ts.map fun t => (t, axesOf o t))
      | some p => fun V => axesPlan (axesOf o) V p := by
  refine planRec_node (fun f g _ _ p _ hfg => ?_) h ts
  funext V
  cases p with
  | fail => rfl
  | bulk s k i elems init => exact congrFun (hfg elems (by simp [Plan.exprs])) V
  | dot s sums products =>
    simp only [axesPlan]
    congr 2
    exact List.map_congr_left fun t ht => congrFun (hfg t (by simp only [Plan.exprs, List.mem_append]; exact .inr ht)) V

theorem axesOf_node (o : Opts F) (h : Phi.Head F) (ts : List (Expr F)) (hp : planned o h ts = none) :
    axesOf o (node h ts) = axesStep o h (ts.map fun t => (t, axesOf o t)) := by
  rw [axesOf_eq, hp]

theorem axesOf_plan {o : Opts F} {h : Phi.Head F} {ts : List (Expr F)} {p : Plan F} (hp : planned o h ts = some p)
    (V : Nat → Finset Nat) : axesOf o (node h ts) V = axesPlan (axesOf o) V p := by
  rw [axesOf_eq, hp]

end Verif.Codegen
