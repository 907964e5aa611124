import Verif.Yarr.Syntax
import Mathlib.Data.List.Sort

/-! Array code with named axes (`ein/codegen/axial.py`). -/

namespace Verif.Codegen
open Verif.Phi Verif.Term Verif.Yarr Verif.Arr
variable {F : Type}

/-- `Axial` (`axial.py:35-37`): the leading axes of the array belong to the given indices. -/
structure Axial (F : Type) where
  axes : List Nat
  expr : YExpr F
deriving DecidableEq

/-- `Axial.__init__` (`axial.py:39-43`). All types are computed when code is constructed
(`yarr.py:32-33`), so code without a type raises before. -/
def Axial.mk? (axes : List Nat) (e : YExpr F) : Option (Axial F) :=
  match Yarr.typeOf e with
  | some τ => if axes.Nodup ∧ ∀ a ∈ τ, axes.length ≤ a.rank then some ⟨axes, e⟩ else none
  | none => none

/-- `expr.type.single.rank` -/
def rankOf (e : YExpr F) : Option Nat := (Yarr.typeOf e).bind fun τ => (single τ).map Phi.Arr.rank

/-- `expr.type.elems` (how many) -/
def arityOf (e : YExpr F) : Option Nat := (Yarr.typeOf e).map List.length

/-- `positional_axis` (`axial.py:48-50`) -/
def Axial.positional (x : Axial F) (axis : Nat) : Option Nat :=
  (rankOf x.expr).bind fun r =>
    if x.axes.length + axis < r then some (x.axes.length + axis) else none

/-- `normal` (`axial.py:57-60`) -/
def Axial.normal (x : Axial F) : Option (YExpr F) := if x.axes = [] then some x.expr else none

/-- Exchange two places of a list (`axial.py:68`). -/
def swapAt {β : Type} (l : List β) (i j : Nat) (d : β) : List β :=
  (l.set i (l.getD j d)).set j (l.getD i d)

/-- `along` (`axial.py:62-77`) -/
def Axial.along (x : Axial F) (index : Nat) (size : YExpr F) : Option (Axial F) :=
  (rankOf x.expr).bind fun r =>
    if x.axes.length ≤ r then
      if index ∈ x.axes then
        let pi := swapAt (List.range r) (x.axes.idxOf index) (x.axes.length - 1) 0
        Axial.mk? ((pi.take (x.axes.length - 1)).map fun k => x.axes.getD k 0)
          (node (.transpose pi) [x.expr])
      else
        Axial.mk? x.axes
          (node (.repeat_ x.axes.length) [size, node (.unsqueeze [x.axes.length]) [x.expr]])
    else none

/-- `within` with one binding (`axial.py:79-83`); the compiler gives no more than one
(`phi_to_yarr.py:70`). -/
def Axial.within (x : Axial F) (v : Nat) (bind : YExpr F) : Option (Axial F) :=
  Axial.mk? x.axes (node (.letv v) [bind, x.expr])

/-- The inner loop of `_alignment` (`axial.py:140-143`). -/
def alignStep (seen axes : List Nat) : List Nat :=
  axes.foldl (fun seen a => if a ∈ seen then seen else seen ++ [a]) seen

/-- `_alignment` (`axial.py:138-144`) -/
def alignment (args : List (List Nat)) : List Nat := args.foldl alignStep []

/-- `sorted(axes, key=into_axes.index)` (`axial.py:156`) -/
def sortAxes (axes into : List Nat) : List Nat :=
  axes.insertionSort fun a b => into.idxOf a ≤ into.idxOf b

/-- `expands` (`axial.py:159`); `k` is the place of the first axis. -/
def expands (axes : List Nat) : Nat → List Nat → List (Nat × Nat)
  | _, [] => []
  | k, x :: into => if x ∈ axes then expands axes (k + 1) into else (k, x) :: expands axes (k + 1) into

/-- The loop that drops leading expansions (`axial.py:160-162`); `k` is how many were dropped. -/
def dropLeading : Nat → List (Nat × Nat) → List (Nat × Nat)
  | _, [] => []
  | k, (i, x) :: l => if i = k then dropLeading (k + 1) l else ((i, x) :: l).map fun p => (p.1 - k, p.2)

/-- The loop that repeats the new axes (`axial.py:165-167`). -/
def repeatAll (repeats : Nat → Option (YExpr F)) (e : YExpr F) (l : List (Nat × Nat)) : YExpr F :=
  l.foldl (fun e p => match repeats p.2 with
    | some n => node (.repeat_ p.1) [n, e]
    | none => e) e

/-- `_align` (`axial.py:147-168`). The dictionary of repeats is a partial function. -/
def align (e : YExpr F) (axes into : List Nat) (leftpad : Bool) (repeats : Nat → Option (YExpr F)) :
    Option (YExpr F) :=
  (rankOf e).bind fun r =>
    if axes.length ≤ into.length ∧ ∀ x ∈ axes, x ∈ into then
      let pi := (sortAxes axes into).map (axes.idxOf ·) ++ (List.range (r - axes.length)).map (axes.length + ·)
      let ex := expands axes 0 into
      let ex := if leftpad then ex else dropLeading 0 ex
      some (repeatAll repeats (node (.unsqueeze (ex.map Prod.fst)) [node (.transpose pi) [e]]) ex)
    else none

/-- No repeats. -/
def noRepeats : Nat → Option (YExpr F) := fun _ => none

/-- `aligned` (`axial.py:109-134`) -/
def Axial.aligned (x : Axial F) (into : List Nat) (leftpad : Bool := true)
    (repeats : Nat → Option (YExpr F) := noRepeats) : Option (YExpr F) :=
  (arityOf x.expr).bind fun k =>
    if k = 1 then align x.expr x.axes into leftpad repeats
    else (mapOpt (fun i => align (node (.untuple i k) [x.expr]) x.axes into leftpad repeats)
      (List.range k)).map (node .tuple)

/-- `tuple_maybe_singleton` (`axial.py:26-27`) -/
def tupleMaybe (es : List (YExpr F)) : YExpr F :=
  match es with
  | [e] => e
  | es => node .tuple es

/-- `untuple_maybe_singleton` (`axial.py:30-32`) -/
def untupleMaybe (e : YExpr F) (i : Nat) : Option (YExpr F) :=
  (arityOf e).map fun k => if k = 1 then e else node (.untuple i k) [e]

/-- `cons` (`axial.py:85-97`) -/
def Axial.cons (x y : Axial F) : Option (Axial F) :=
  (arityOf x.expr).bind fun n => (arityOf y.expr).bind fun m =>
  let axes := alignment [x.axes, y.axes]
  (x.aligned axes).bind fun ex => (y.aligned axes).bind fun ey =>
  (mapOpt (untupleMaybe ex) (List.range n)).bind fun es =>
  (mapOpt (untupleMaybe ey) (List.range m)).bind fun es' =>
  Axial.mk? axes (tupleMaybe (es ++ es'))

/-- `slice_tuple` (`axial.py:99-107`) -/
def Axial.sliceTuple (x : Axial F) (start stop : Nat) : Option (Axial F) :=
  (arityOf x.expr).bind fun k =>
  if start ≤ stop ∧ stop ≤ k then
    (mapOpt (untupleMaybe x.expr) ((List.range (stop - start)).map (start + ·))).bind fun es =>
    Axial.mk? x.axes (tupleMaybe es)
  else none

end Verif.Codegen
