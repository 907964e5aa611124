import Verif.Codegen.Axial
import Verif.Codegen.Letters

/-!
The code of folds that are compiled to one reduction of an array (`ein/codegen/phi_to_yarr.py:422-428`) or to
`einsum` (`117-153`), and the plans from which it is made.
-/

set_option linter.unusedSectionVars false

namespace Verif.Codegen
open Verif.Phi Verif.Term Verif.Yarr Verif.Arr
variable {F : Type}

/-! ### Recursion on the size of expressions -/

section
variable {α : Type} [Inhabited α]

/-- Recursion with bounded depth. -/
def recBound (step : (Expr F → α) → Expr F → α) : Nat → Expr F → α
  | 0, _ => default
  | n + 1, e => step (recBound step n) e

/-- Recursion that calls itself on smaller expressions only. -/
def recSize (step : (Expr F → α) → Expr F → α) (e : Expr F) : α := recBound step (size e) e

omit [Inhabited α] in
theorem size_pos (e : Expr F) : 0 < size e := by
  obtain ⟨h, ts⟩ := e
  rw [size_node]; omega

theorem recBound_eq {step : (Expr F → α) → Expr F → α}
    (hs : ∀ f g e, (∀ t, size t < size e → f t = g t) → step f e = step g e) :
    ∀ n m e, size e ≤ n → size e ≤ m → recBound step n e = recBound step m e := by
  intro n
  induction n with
  | zero => intro m e h; exact absurd (size_pos e) (by omega)
  | succ n ih =>
    intro m e h1 h2
    obtain ⟨m, rfl⟩ : ∃ k, m = k + 1 := ⟨m - 1, by have := size_pos e; omega⟩
    exact hs _ _ e fun t ht => ih m t (by omega) (by omega)

theorem recSize_eq {step : (Expr F → α) → Expr F → α}
    (hs : ∀ f g e, (∀ t, size t < size e → f t = g t) → step f e = step g e) (e : Expr F) :
    recSize step e = step (recSize step) e := by
  have h : recSize step e = recBound step (size e + 1) e := recBound_eq hs _ _ e le_rfl (by omega)
  rw [h]
  exact hs _ _ e fun t ht => recBound_eq hs _ _ t (by omega) le_rfl

end

/-- Induction on the size. -/
theorem size_ind {P : Expr F → Prop} (step : ∀ e, (∀ t, size t < size e → P t) → P e) (e : Expr F) : P e := by
  have : ∀ n e, size e ≤ n → P e := by
    intro n
    induction n with
    | zero => intro e h; exact absurd (size_pos e) (by omega)
    | succ n ih => intro e h; exact step e fun t ht => ih t (by omega)
  exact this _ e le_rfl

/-! ### Code -/

/-- `REDUCE_UNDERLYING` (`yarr.py:761-765`) -/
def redOp : RedKind → ScalarOp
  | .add => .add
  | .minimum => .min
  | .maximum => .max

/-- The code of the reduction (`phi_to_yarr.py:422-428`), from the code of the elements and of the initial
value. -/
def reductionCode (k : RedKind) (elems init : Axial F) : Option (Axial F) :=
  (elems.positional 0).bind fun p => init.normal.bind fun z =>
  Axial.mk? elems.axes (node (.elem (redOp k) none) [z, node (.reduceAxis k p) [elems.expr]])

/-- The `einsum` of one product (`go_product`, `phi_to_yarr.py:117-133`), from the code of the factors. `sums`
are the new indices, over which one sums. -/
def productCode (sums : List Nat) (xs : List (Axial F)) : Option (Axial F) :=
  let res := (alignment (xs.map Axial.axes)).filter fun i => decide (i ∉ sums)
  (toEinsumSubs (xs.map Axial.axes) res).bind fun subs =>
  Axial.mk? res (node (.einsum subs.1 subs.2) (xs.map Axial.expr))

/-- `functools.reduce` of the additions (`phi_to_yarr.py:144-153`). -/
def addCode (e : YExpr F) (es : List (YExpr F)) : YExpr F :=
  es.foldl (fun a b => node (.elem .add none) [a, b]) e

/-- The sum of all products (`phi_to_yarr.py:135-153`). -/
def einsumCode (sums : List Nat) (products : List (List (Axial F))) : Option (Axial F) :=
  (mapOpt (productCode sums) products).bind fun ss =>
  let used := alignment (ss.map Axial.axes)
  (mapOpt (fun x : Axial F => x.aligned used false) ss).bind fun es =>
  match es with
  | [] => none
  | e :: es => Axial.mk? used (addCode e es)

/-- A function changed at one place. -/
def upd {β : Type} (f : Nat → β) (i : Nat) (x : β) : Nat → β := fun j => if j = i then x else f j

/-- Sizes of the new indices in addition to those in scope (`phi_to_yarr.py:91-96`, `119`). -/
def withSums (sizes : Nat → Option (YExpr F)) (ns : List (Nat × YExpr F)) : Nat → Option (YExpr F) :=
  ns.foldl (fun f p => upd f p.1 (some p.2)) sizes

/-- How a fold is compiled, if not to a loop. The compiler does not read `safe`: whether no name is captured and
the accumulators are not mentioned in the elements. It does not read the first components of `products`
either.
* `fail`: an assertion fails;
* `bulk`: one reduction of the comprehension `elems`, of which the new index is `i`, with the initial value `init`;
* `dot`: `einsum`. `sums` are the new indices and their sizes, `products` the factors of each product, with the
  new indices of the summations around it. -/
inductive Plan (F : Type) where
  | fail
  | bulk (safe : Bool) (k : RedKind) (i : Nat) (elems init : Expr F)
  | dot (safe : Bool) (sums : List (Nat × Expr F)) (products : List (List Nat × List (Expr F)))

/-- The expressions in a plan. -/
def Plan.exprs : Plan F → List (Expr F)
  | .fail => []
  | .bulk _ _ _ elems init => [elems, init]
  | .dot _ sums products => sums.map Prod.snd ++ products.flatMap Prod.snd

/-- The new indices that are not bound by the expressions themselves. -/
def Plan.new : Plan F → List Nat
  | .dot _ sums _ => sums.map Prod.fst
  | _ => []

/-- The code of a fold, from its plan. -/
def planCode (go : (Nat → Option (YExpr F)) → Expr F → Option (Axial F)) (sizes : Nat → Option (YExpr F)) :
    Plan F → Option (Axial F)
  | .fail => none
  | .bulk _ k _ elems init => (go sizes elems).bind fun x => (go sizes init).bind fun z => reductionCode k x z
  | .dot _ sums products =>
    (mapOpt (fun q : Nat × Expr F => ((go sizes q.2).bind Axial.normal).map fun n => (q.1, n)) sums).bind fun ns =>
    (mapOpt (fun p : List Nat × List (Expr F) => mapOpt (go (withSums sizes ns)) p.2) products).bind
      (einsumCode (sums.map Prod.fst))

end Verif.Codegen
