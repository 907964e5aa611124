import Verif.Frontend.Layout
import Verif.Frontend.InferSizes

/-!
The frontend on Python objects: arrays and records of arrays (`ein/frontend/ndarray.py:137-252`,
`ein/frontend/comprehension.py:140-175`, `ein/frontend/std.py:12-22`).

The functions that the user passes are functions on objects. `Variable()` and `Index()` make new symbols: their number
so far is threaded through. Type errors, which expressions raise when they are constructed, are left out (C14, C15).
-/

namespace Verif.Frontend
open Verif.Phi Verif.Term Verif.Midend Verif.Codegen
variable {F : Type}

deriving instance DecidableEq for Layout, LFields

/-- A computation that makes new symbols; `none` is an exception. -/
abbrev Py (α : Type) := Nat → Option (α × Nat)

/-- `VecLayout` as often as there are indices (`comprehension.py:152`). -/
def vecLayouts : Nat → Layout → Layout
  | 0, l => l
  | n + 1, l => .vec (vecLayouts n l)

variable [DecidableEq F]

/-- `array(constructor, size=sizes)` for a constructor with `n` parameters (`comprehension.py:140-153`). -/
def arrayPy (n : Nat) (constructor : List (Obj F) → Py (Obj F)) (sizes : Option (List (Expr F))) : Py (Obj F) := fun c =>
  let indices := List.range' c n
  (constructor (indices.map fun i => .scalar (.scalar (at_ i))) (c + n)).bind fun r =>
  (build r.1).bind fun layout => (pack layout r.1).bind fun body =>
  (arrayOf indices body sizes).map fun e => (unpack (vecLayouts n layout) e, r.2)

/-- `fold(init, step, count)` (`comprehension.py:156-175`). The layouts that are compared in lines 164-169 are both that of
`init`, so nothing is checked. -/
def foldPy (init : Obj F) (step : Obj F → Obj F → Py (Obj F)) (count : Option (Expr F)) : Py (Obj F) := fun c =>
  (build init).bind fun layout => (pack layout init).bind fun z => (Phi.typeOf z).bind fun τ =>
  (step (.scalar (.scalar (var c (.scalar .int)))) (unpack layout (var (c + 1) τ)) (c + 2)).bind fun r =>
  (pack layout r.1).bind fun body =>
  (foldOf c (c + 1) z body count).map fun e => (unpack layout e, r.2)

/-- `self.reduce(init, f)` for a `Vec` (`ndarray.py:230-252`). -/
def reducePy (self init : Obj F) (f : Obj F → Obj F → Py (Obj F)) : Py (Obj F) := fun c =>
  match self with
  | .vec e sub =>
    match Phi.typeOf e with
    | some (.vector τ) =>
      (f (unpack sub (var c τ)) (unpack sub (var (c + 1) τ)) (c + 2)).bind fun r =>
      (build r.1).bind fun layout =>
      if sub = layout then
        (build init).bind fun layoutInit =>
        if layoutInit = layout then
          (pack layout init).bind fun z => (pack layout r.1).bind fun xy =>
          some (unpack sub (node (.reduce c (c + 1)) [z, xy, e]), r.2)
        else none
      else none
    | _ => none
  | _ => none

/-- One item of `x[...]`: an index, or `:`. -/
inductive Item (F : Type) where
  | at (a : ScalarLike F)
  | all

/-- `x[items]` (`ndarray.py:190-216`), and `maybe_rest`: no items leave any object as it is; only a `Vec` takes items. -/
def getItem : List (Item F) → Obj F → Py (Obj F)
  | [], x, c => some (x, c)
  | .at a :: rest, .vec e sub, c => getItem rest (unpack sub (Phi.get e (wrap a))) c
  | .all :: rest, .vec e sub, c =>
    arrayPy 1 (fun is => match is with
      | [.scalar i] => getItem rest (unpack sub (Phi.get e (wrap i)))
      | _ => fun _ => none) none c
  | _, _, _ => none

/-- `_assume_expr` and `assume` (`ndarray.py:104-112`, `148-149`, `266-267`) -/
def assumePy (self other : Obj F) : Option (Obj F) :=
  (build other).bind fun layout => (pack layout other).bind fun e =>
    match self with
    | .scalar a => some (.scalar (.scalar (Phi.fst (Phi.cons (wrap a) e))))
    | .vec s sub => some (.vec (Phi.fst (Phi.cons s e)) sub)
    | _ => none

/-! `where(cond, true, false)` (`std.py:12-22`), through `map_layout` (`layout.py:129-154`). -/

/-- `c.where(t, f)` on the leaves (`ndarray.py:345-346`). -/
def whereAtom (cond : ScalarLike F) : Obj F → Obj F → Option (Obj F)
  | .scalar t, .scalar f => some (.scalar (.scalar (where_ (wrap cond) t f)))
  | _, _ => none

mutual
/-- `map_layout(layout, [true, false], ...)`; the elements of arrays have the layout of the elements, so the check in the
inner call of `where` passes. -/
def whereL (cond : ScalarLike F) : Layout → Obj F → Obj F → Py (Obj F)
  | .atom, t, f, c => (whereAtom cond t f).map fun o => (o, c)
  | .vec sub, .vec t _, .vec f _, c =>
    arrayPy 1 (fun is => match is with
      | [.scalar i] => whereL cond sub (unpack sub (Phi.get t (wrap i))) (unpack sub (Phi.get f (wrap i)))
      | _ => fun _ => none) none c
  | .struct .positional subs, .struct .positional ts, .struct .positional fs, c =>
    (wherePos cond subs ts.toList fs.toList c).map fun r => (.struct .positional r.1, r.2)
  | .struct .dict subs, t, f, c => (whereLab cond subs t f c).map fun r => (.struct .dict r.1, r.2)
  | .struct (.data k) subs, t, f, c => (whereLab cond subs t f c).map fun r => (.struct (.data k) r.1, r.2)
  | _, _, _, _ => none
/-- The components of a tuple. -/
def wherePos (cond : ScalarLike F) : LFields → List (Obj F) → List (Obj F) → Py (Fields F)
  | .nil, [], [], c => some (.nil, c)
  | .cons n l rest, t :: ts, f :: fs, c => (whereL cond l t f c).bind fun r =>
      (wherePos cond rest ts fs r.2).map fun q => (.cons n r.1 q.1, q.2)
  | _, _, _, _ => none
/-- The components of a dict or dataclass. -/
def whereLab (cond : ScalarLike F) : LFields → Obj F → Obj F → Py (Fields F)
  | .nil, _, _, c => some (.nil, c)
  | .cons n l rest, t, f, c => (getName n t).bind fun t' => (getName n f).bind fun f' =>
      (whereL cond l t' f' c).bind fun r => (whereLab cond rest t f r.2).map fun q => (.cons n r.1 q.1, q.2)
end

/-- `where(cond, true, false)` (`std.py:12-22`) -/
def wherePy (cond : ScalarLike F) (t f : Obj F) : Py (Obj F) := fun c =>
  (build t).bind fun l' => (build f).bind fun l => if l = l' then whereL cond l t f c else none

end Verif.Frontend
