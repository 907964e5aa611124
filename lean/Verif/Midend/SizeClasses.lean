import Verif.Midend.Equiv
import Verif.Midend.Outline
import Verif.Midend.SubstStrict
import Verif.Codegen.Compile

/-!
Model of `ein/midend/size_classes.py`: which sizes of a program are known to be the same.

Simplifications:
* The set `vis` (`size_classes.py:60-65`) is left out: an expression that occurs twice is visited twice, and
  uniting the same two items again changes nothing.
* `next(iter(required))` (`size_classes.py:144`) is some element of a set: here the first of the list.
* A constant that is an array is a nested value; the lengths below an empty dimension are not represented.
-/

namespace Verif.Midend
open Verif.Phi Verif.Term Verif.Codegen
variable {F : Type}

/-- `Union[Index, phi.Expr]` (`size_classes.py:46`) -/
abbrev SizeNode (F : Type) := Nat ⊕ Expr F

/-- The symbols at the leaves of an expression. -/
def leafSyms (e : Expr F) : List Sym :=
  cata (fun h (rs : List (List Sym)) => (Head.symbol h).toList ++ rs.flatten) e

/-- `{index: Const(0) for index in expr.free_indices}` (`size_classes.py:16-18`) -/
def zeros (e : Expr F) : List (Sym × Expr F) :=
  ((leafSyms e).filter fun s => s ∈ freeIndices e).map fun s => (s, int 0)

/-- `_with_indices_at_zero` (`size_classes.py:15-19`) -/
def atZero (e : Expr F) : Expr F := substitute (zeros e) e

/-- The normalisation in `SizeEquivalence._get_parent` (`size_classes.py:46-52`). -/
def sizeNorm : SizeNode F → SizeNode F
  | .inl i => .inl i
  | .inr e => .inr (atZero e)

/-- `e.type.primitive_type.single.rank`, if `e.type` is stored as one array. -/
def arrayRank (e : Expr F) : Option Nat := ((typeOf e).bind prim).bind fun p => (single p).map Arr.rank

/-- The items united at one node (`size_classes.py:66-107`); `none` where `single` raises. -/
def sizeFacts : Phi.Head F → List (Expr F) → Option (List (SizeNode F × SizeNode F))
  | .const v τ, [] =>
    some (((valShape (tyDepth τ) v).zipIdx).map fun p =>
      (.inr (dim (node (.const v τ) []) p.2), .inr (int p.1)))
  | .assertEq, [t] => some [(.inr (node .assertEq [t]), .inr t)]
  | .assertEq, t :: o :: ops =>
    some ((.inr (node .assertEq (t :: o :: ops)), .inr t) :: (o :: ops).map fun s => (.inr o, .inr s))
  | .letv v, [b, _] =>
    match (typeOf b).bind prim with
    | some [a] =>
      let s := var v ((typeOf b).getD (.scalar .int))
      some ((.inr s, .inr b) :: (List.range a.rank).map fun k => (.inr (dim s k), .inr (dim b k)))
    | _ => some []
  | .vec i, [n, b] =>
    let e := node (.vec i) [n, b]
    (arrayRank e).bind fun r =>
      -- `range(1, rank)`; the loop variable is not used (`size_classes.py:92-93`)
      some ((.inl i, .inr n) :: (.inl i, .inr (dim e 0)) ::
        List.replicate (r - 1) (.inr (dim e r), .inr (dim b (r - 1))))
  | .get, [t, i] =>
    let e := node .get [t, i]
    (arrayRank e).bind fun r =>
      some ((List.range r).flatMap fun k =>
        [(.inr (dim e k), .inr (dim (node .get [t, int 0]) k)), (.inr (dim e k), .inr (dim t (k + 1)))])
  | _, _ => some []

/-- The triggers added at one node (`size_classes.py:108-130`): when the items of the list are in one class,
so is the other one. `none` where `single` raises. -/
def sizeTriggers : Phi.Head F → List (Expr F) → Option (List (List (SizeNode F) × SizeNode F))
  | .fold c a, [n, z, b] =>
    match (typeOf z).bind prim with
    | some [_] =>
      let e := node (.fold c a) [n, z, b]
      (arrayRank e).bind fun r =>
        some ((List.range r).flatMap fun k =>
          let acc : SizeNode F := .inr (dim (var a ((typeOf z).getD (.scalar .int))) k)
          let body : SizeNode F := .inr (dim b k)
          let init : SizeNode F := .inr (dim z k)
          [([acc, body], init), ([body, init], acc), ([init, acc], body), ([acc, body, init], .inr (dim e k))])
    | _ => some []
  | _, _ => some []

variable [DecidableEq F]

/-- `sizes.unite(a, b)` -/
def uniteSize (s : Equivalence (SizeNode F)) (p : SizeNode F × SizeNode F) : Equivalence (SizeNode F) :=
  (s.unite sizeNorm p.1 p.2).1

/-- `sizes.unite(next(iter(required)), obtained)` (`size_classes.py:144`) -/
def fire (s : Equivalence (SizeNode F)) (req : List (SizeNode F)) (x : SizeNode F) : Equivalence (SizeNode F) :=
  match req with
  | [] => s
  | r :: _ => uniteSize s (r, x)

/-- One pass over the triggers (`size_classes.py:141-145`, `148`): the new classes and the triggers left. -/
def triggerPass : List (List (SizeNode F) × SizeNode F) → Equivalence (SizeNode F) →
    Equivalence (SizeNode F) × List (List (SizeNode F) × SizeNode F)
  | [], s => (s, [])
  | (req, x) :: l, s =>
    if s.equiv sizeNorm req then triggerPass l (fire s req x)
    else ((triggerPass l s).1, (req, x) :: (triggerPass l s).2)

/-- `while True:` (`size_classes.py:140-148`): until no trigger fires. Every round but the last removes a
trigger, so their number bounds the rounds. -/
def triggerLoop : Nat → List (List (SizeNode F) × SizeNode F) → Equivalence (SizeNode F) → Equivalence (SizeNode F)
  | 0, _, s => s
  | n + 1, l, s =>
    if (triggerPass l s).2.length = l.length then (triggerPass l s).1
    else triggerLoop n (triggerPass l s).2 (triggerPass l s).1

/-- `find_size_classes` (`size_classes.py:55-154`) -/
def findSizeClasses (p : Expr F) : Option (Equivalence (SizeNode F)) :=
  (mapOpt (fun e : Expr F => sizeFacts e.head e.subs) (occurrences p)).bind fun facts =>
  (mapOpt (fun e : Expr F => sizeTriggers e.head e.subs) (occurrences p)).bind fun triggers =>
  some (triggerLoop (triggers.flatten.length + 1) triggers.flatten (facts.flatten.foldl uniteSize .empty))

end Verif.Midend
