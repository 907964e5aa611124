import Verif.Frontend.Scalar

/-! Record layouts (`ein/frontend/layout.py`) and packing of records into pairs
(`ein/frontend/ndarray.py:46-82`). -/

namespace Verif.Frontend
open Verif.Phi Verif.Term
variable {F : Type}

/-- The container of a record: tuple or list, dict, or an instance of a dataclass. -/
inductive RecKind where
  | positional
  | dict
  | data (cls : Nat)
deriving DecidableEq, Repr

mutual
/-- `Layout` (`layout.py:7-70`). `PositionalLayout` and `LabelledLayout` are both `struct`; the tag of
`LabelledLayout` is the dataclass, `PositionalLayout` is never tagged. -/
inductive Layout where
  | atom
  | vec (sub : Layout)
  | struct (k : RecKind) (subs : LFields)
/-- The labels and layouts of the components; the labels of positional layouts are not used. -/
inductive LFields where
  | nil
  | cons (name : String) (l : Layout) (rest : LFields)
end

mutual
/-- The Python objects records are made of: scalars (`Scalar` or a number), `Vec` objects with their
expression and layout, arrays that are not wrapped in a `Vec`, and records. -/
inductive Obj (F : Type) where
  | scalar (a : ScalarLike F)
  | vec (e : Expr F) (sub : Layout)
  | raw (v : D F) (τ : Ty)
  | struct (k : RecKind) (fs : Fields F)
inductive Fields (F : Type) where
  | nil
  | cons (name : String) (o : Obj F) (rest : Fields F)
end

/-- The public attributes of Python's `dict` (names with underscores left out), which `hasattr` in `get`
finds before the keys (`layout.py:94-100`). -/
def dictAttrs : List String :=
  ["clear", "copy", "fromkeys", "get", "items", "keys", "pop", "popitem", "setdefault", "update",
    "values"]

mutual
/-- `match` (`layout.py:21-70`) -/
def Layout.matches : Layout → Ty → Bool
  | .atom, .scalar _ => true
  | .vec _, .vector _ => true
  | .struct _ fs, τ => fs.matches τ
  | _, _ => false
def LFields.matches : LFields → Ty → Bool
  | .nil, _ => false
  | .cons _ l .nil, τ => l.matches τ
  | .cons _ l (.cons n' l' rest), .pair σ τ => l.matches σ && (LFields.cons n' l' rest).matches τ
  | _, _ => false
end

/-- `unambiguous_layout` (`layout.py:157-167`) -/
def unambiguous : Ty → Option Layout
  | .scalar _ => some .atom
  | .vector τ => (unambiguous τ).map .vec
  | .pair _ _ => none

mutual
/-- `build_layout(obj, lambda a: wrap(a).layout)` (`layout.py:73-89`) -/
def build : Obj F → Option Layout
  | .scalar _ => some .atom
  | .vec _ sub => some (.vec sub)
  | .raw _ τ => unambiguous τ
  | .struct (.data c) .nil => some (.struct (.data c) .nil)
  | .struct _ .nil => none
  | .struct k (.cons n o rest) => (buildFields (.cons n o rest)).map (.struct k)
def buildFields : Fields F → Option LFields
  | .nil => some .nil
  | .cons n o rest => (build o).bind fun l => (buildFields rest).map (.cons n l)
end

/-- Look up a component by name. -/
def Fields.lookup (name : String) : Fields F → Option (Obj F)
  | .nil => none
  | .cons n o rest => if n = name then some o else rest.lookup name

/-- `get(name)` (`layout.py:93-101`); a `dict` attribute of that name is found first, and is no ein
value. -/
def getName (name : String) : Obj F → Option (Obj F)
  | .struct .dict fs => if name ∈ dictAttrs then none else fs.lookup name
  | .struct (.data _) fs => fs.lookup name
  | _ => none

/-- The objects of a record, for positional access. -/
def Fields.toList : Fields F → List (Obj F)
  | .nil => []
  | .cons _ o rest => o :: rest.toList

/-- `reduce` (`layout.py:103-104`) with `merge = phi.Cons`: right-nested pairs. -/
def consAll : List (Expr F) → Option (Expr F)
  | [] => none
  | [e] => some e
  | e :: es => (consAll es).map (Phi.cons e)

mutual
/-- `_layout_struct_to_expr(layout, struct)` (`ndarray.py:52-59`), i.e. `fold_layout`
(`layout.py:92-126`) with one argument. Note that `vec` does not wrap (`ndarray.py:57`). -/
def pack : Layout → Obj F → Option (Expr F)
  | .atom, .scalar a => some (wrap a)
  | .atom, .vec e _ => some e
  | .atom, .raw v τ => some (node (.const v τ) [])
  | .vec _, .vec e _ => some e
  | .vec _, .scalar (.scalar e) => some e
  | .struct .positional subs, .struct .positional fs => (packPos subs fs.toList).bind consAll
  | .struct (.data _) subs, o => (packLab subs o).bind consAll
  | .struct .dict subs, o => (packLab subs o).bind consAll
  | _, _ => none
/-- The components of a `PositionalLayout`; `zip(..., strict=True)` rejects different lengths. -/
def packPos : LFields → List (Obj F) → Option (List (Expr F))
  | .nil, [] => some []
  | .cons _ l rest, o :: os => (pack l o).bind fun e => (packPos rest os).map (e :: ·)
  | _, _ => none
/-- The components of a `LabelledLayout`. -/
def packLab : LFields → Obj F → Option (List (Expr F))
  | .nil, _ => some []
  | .cons n l rest, o => (getName n o).bind fun x => (pack l x).bind fun e =>
      (packLab rest o).map (e :: ·)
end

/-- `i` times `Second`. -/
def sndIter : Nat → Expr F → Expr F
  | 0, e => e
  | i + 1, e => Phi.snd (sndIter i e)

/-- `_project_tuple` (`ndarray.py:46-49`) -/
def project (e : Expr F) (i n : Nat) : Expr F :=
  if i + 1 < n then Phi.fst (sndIter i e) else sndIter i e

def LFields.length : LFields → Nat
  | .nil => 0
  | .cons _ _ rest => rest.length + 1

mutual
/-- `_to_array(expr, layout)` (`ndarray.py:62-82`) -/
def unpack : Layout → Expr F → Obj F
  | .atom, e => .scalar (.scalar e)
  | .vec sub, e => .vec e sub
  | .struct k subs, e => .struct k (unpackFields subs e 0 subs.length)
/-- The components from position `i` of `n`. -/
def unpackFields : LFields → Expr F → Nat → Nat → Fields F
  | .nil, _, _, _ => .nil
  | .cons name l rest, e, i, n => .cons name (unpack l (project e i n)) (unpackFields rest e (i + 1) n)
end

end Verif.Frontend
