import Verif.Frontend.ObjLemmas
import Verif.Midend.StructsOk

/-!
Programs of the user: Python expressions that call the library, with local variables and functions passed to
comprehensions, folds and reductions. `make` runs such a program with the library's definitions (`Frontend/Objects`),
which builds expressions; `sem` is what the program says, on nested lists and records.
-/

namespace Verif.Frontend
open Verif.Phi Verif.Term Verif.Midend Verif.Codegen
variable {F : Type}

mutual
/-- A Python expression. Local variables are numbered from the innermost one. -/
inductive Script (F : Type) where
  /-- a local variable -/
  | loc (n : Nat)
  /-- `wrap(s)` for a number or boolean -/
  | lit (s : Scal F)
  /-- `x = a`, followed by `b` -/
  | assign (a b : Script F)
  /-- a function or method of one scalar, such as `-a` or `a.exp()` -/
  | un (o : ScalarOp) (a : Script F)
  /-- `a op b` -/
  | bin (o : PyOp) (a b : Script F)
  /-- `c.where(t, f)` -/
  | choose (c t f : Script F)
  /-- `x[i]` -/
  | item (x i : Script F)
  /-- `x.size(axis)` -/
  | size (x : Script F) (axis : Nat)
  /-- `array(lambda i: body, size=n)` -/
  | array (n body : Script F)
  /-- `fold(z, lambda i, a: body, count=n)` -/
  | fold (n z body : Script F)
  /-- `x.reduce(z, lambda a, b: body)` -/
  | reduce (x z body : Script F)
  /-- `x.concat(y)` -/
  | concat (x y : Script F)
  /-- a tuple, dict or dataclass -/
  | record (k : RecKind) (fs : SFields F)
  /-- `x["n"]` for a dict and `x.n` for a dataclass -/
  | field (x : Script F) (n : String)
  /-- `x[i]` for a tuple and a number `i` -/
  | part (x : Script F) (i : Nat)
  /-- `array(lambda i, …, j: body)` with `k + 1` indices: the sizes are left out -/
  | auto (k : Nat) (body : Script F)
  /-- `fold(z, lambda i, a: body)`: the count is left out -/
  | autoFold (z body : Script F)
inductive SFields (F : Type) where
  | nil
  | cons (n : String) (a : Script F) (rest : SFields F)
end

/-! ### Sizes that are left out -/

/-- A local variable, or a component of a component … of one: a number for tuples, and a name for dicts and
dataclasses. -/
structure Place where
  loc : Nat
  parts : List (Nat ⊕ String)
deriving DecidableEq

/-- `x.a[0]…` -/
def Place.script (p : Place) : Script F :=
  p.parts.foldl (fun x q => match q with
    | .inl i => .part x i
    | .inr n => .field x n) (.loc p.loc)

/-- `x[j]…[k]` for an `x` outside, where locals are outside from `lo` on; and how many positions follow. -/
def placeOf (lo : Nat) : Script F → Option (Place × Nat)
  | .loc n => if lo ≤ n then some (⟨n - lo, []⟩, 0) else none
  | .part x i => (placeOf lo x).bind fun q => if q.2 = 0 then some (⟨q.1.loc, q.1.parts ++ [.inl i]⟩, 0) else none
  | .field x n => (placeOf lo x).bind fun q => if q.2 = 0 then some (⟨q.1.loc, q.1.parts ++ [.inr n]⟩, 0) else none
  | .item x _ => (placeOf lo x).map fun q => (q.1, q.2 + 1)
  | _ => none

/-- Is it the local variable `j`? -/
def isLoc (j : Nat) : Script F → Bool
  | .loc n => decide (n = j)
  | _ => false

/-- Is the result taken as a whole from an expression, so that whatever is read in it is read in each of its components? This
holds unless it is a record that was built from components. For local variables it is decided where they are assigned. -/
def spread : Script F → Bool
  | .assign _ b => spread b
  | .field x _ => spread x
  | .part x _ => spread x
  | .record _ _ => false
  | _ => true

mutual
/-- The array from outside that is read at the local variable `j`, as in `x[j]` or `x[…][j]`, and the axis. Locals
are outside from `lo` on; `σ` are the arrays that are read in the values of local variables. -/
def reads : Script F → List (Option (Place × Nat)) → Nat → Nat → Option (Place × Nat)
  | .loc n, σ, _, _ => σ[n]?.join
  | .lit _, _, _, _ => none
  | .assign a b, σ, lo, j => reads b ((if spread a then reads a σ lo j else none) :: σ) (lo + 1) (j + 1)
  | .un _ a, σ, lo, j => reads a σ lo j
  | .bin _ a b, σ, lo, j => (reads a σ lo j).or (reads b σ lo j)
  | .choose a b c, σ, lo, j => (reads a σ lo j).or ((reads b σ lo j).or (reads c σ lo j))
  | .item x i, σ, lo, j => (if isLoc j i then placeOf lo x else none).or ((reads x σ lo j).or (reads i σ lo j))
  | .size x _, σ, lo, j => reads x σ lo j
  | .array n b, σ, lo, j => (reads n σ lo j).or (reads b (none :: σ) (lo + 1) (j + 1))
  | .fold n z b, σ, lo, j => (reads n σ lo j).or ((reads z σ lo j).or (reads b (none :: none :: σ) (lo + 2) (j + 2)))
  | .reduce x z b, σ, lo, j => (reads x σ lo j).or ((reads z σ lo j).or (reads b (none :: none :: σ) (lo + 2) (j + 2)))
  | .concat x y, σ, lo, j => (reads x σ lo j).or (reads y σ lo j)
  | .record _ fs, σ, lo, j => readsFields fs σ lo j
  | .field x _, σ, lo, j => if spread x then reads x σ lo j else none
  | .part x _, σ, lo, j => if spread x then reads x σ lo j else none
  | .auto k b, σ, lo, j => reads b (List.replicate (k + 1) none ++ σ) (lo + (k + 1)) (j + (k + 1))
  | .autoFold z b, σ, lo, j => (reads z σ lo j).or (reads b (none :: none :: σ) (lo + 2) (j + 2))
def readsFields : SFields F → List (Option (Place × Nat)) → Nat → Nat → Option (Place × Nat)
  | .nil, _, _, _ => none
  | .cons _ a rest, σ, lo, j => (reads a σ lo j).or (readsFields rest σ lo j)
end

/-- The arrays that are read at the `k + 1` indices of a comprehension, for the outermost index first; that is the local
variable `k`. -/
def readsAll (b : Script F) (k : Nat) : Option (List (Place × Nat)) :=
  Phi.mapOpt (fun m => reads b [] (k + 1) (k - m)) (List.range (k + 1))

/-- `array(lambda i: … array(lambda j: b, size=n) …, size=m)` where the sizes are those of arrays outside; `d` more local
variables are in scope than there. -/
def nested : List (Place × Nat) → Nat → Script F → Script F
  | [], _, b => b
  | (p, k) :: l, d, b => .array (.size (Place.script ⟨p.loc + d, p.parts⟩) k) (nested l (d + 1) b)

mutual
/-- The program with all sizes given: where a size is left out, it is that of an array that is read at the index. -/
def fill : Script F → Script F
  | .loc n => .loc n
  | .lit s => .lit s
  | .assign a b => .assign (fill a) (fill b)
  | .un o a => .un o (fill a)
  | .bin o a b => .bin o (fill a) (fill b)
  | .choose a b c => .choose (fill a) (fill b) (fill c)
  | .item x i => .item (fill x) (fill i)
  | .size x k => .size (fill x) k
  | .array n b => .array (fill n) (fill b)
  | .fold n z b => .fold (fill n) (fill z) (fill b)
  | .reduce x z b => .reduce (fill x) (fill z) (fill b)
  | .concat x y => .concat (fill x) (fill y)
  | .record k fs => .record k (fillFields fs)
  | .field x n => .field (fill x) n
  | .part x i => .part (fill x) i
  | .auto k b => match readsAll b k with
    | some l => nested l 0 (fill b)
    | none => .auto k (fill b)
  | .autoFold z b => match reads b [] 2 0 with
    | some (p, k) => .fold (.size p.script k) (fill z) (fill b)
    | none => .autoFold (fill z) (fill b)
def fillFields : SFields F → SFields F
  | .nil => .nil
  | .cons n a rest => .cons n (fill a) (fillFields rest)
end

/-! ### What the program says -/

mutual
/-- Do two values have equal shapes? -/
def PVal.sameShape : PVal F → PVal F → Bool
  | .sc _, .sc _ => true
  | .arr l, .arr l' => PVal.sameShapes l l'
  | .record k fs, .record k' fs' => decide (k = k') && PVal.sameShapeFields fs fs'
  | _, _ => false
def PVal.sameShapes : List (PVal F) → List (PVal F) → Bool
  | [], [] => true
  | a :: l, b :: l' => PVal.sameShape a b && PVal.sameShapes l l'
  | _, _ => false
def PVal.sameShapeFields : List (String × PVal F) → List (String × PVal F) → Bool
  | [], [] => true
  | (n, a) :: l, (m, b) :: l' => decide (n = m) && PVal.sameShape a b && PVal.sameShapeFields l l'
  | _, _ => false
end

/-- An array of values of equal shapes. -/
def rows (l : List (PVal F)) : Option (PVal F) :=
  if l.all fun a => l.all fun b => PVal.sameShape a b then some (.arr l) else none

/-- The number of elements along an axis. -/
def extent : Nat → PVal F → Option Nat
  | 0, .arr l => some l.length
  | k + 1, .arr (v :: _) => extent k v
  | _, _ => none

def toScal : PVal F → Option (Scal F)
  | .sc s => some s
  | _ => none

def toInt : PVal F → Option Int
  | .sc (.i n) => some n
  | _ => none

def toList : PVal F → Option (List (PVal F))
  | .arr l => some l
  | _ => none

/-- The element at an index, which is clamped to the bounds. -/
def elementAt (l : List (PVal F)) (k : Int) : Option (PVal F) := l[(Max.max 0 (Min.min k (l.length - 1))).toNat]?

/-- The named component of a dict or dataclass. -/
def fieldOf (n : String) : PVal F → Option (PVal F)
  | .record .positional _ => none
  | .record _ fs => (fs.find? fun p => p.1 = n).map Prod.snd
  | _ => none

/-- The component of a tuple. -/
def partOf (i : Nat) : PVal F → Option (PVal F)
  | .record .positional fs => fs[i]?.map Prod.snd
  | _ => none

variable [FloatOps F]

/-- The operators on numbers. Division multiplies by the reciprocal. -/
def applyPy (o : PyOp) (x y : Scal F) : Option (Scal F) :=
  match o with
  | .add => applyOp .add [x, y]
  | .sub => applyOp .subtract [x, y]
  | .mul => applyOp .multiply [x, y]
  | .truediv => (applyOp .reciprocal [y]).bind fun r => applyOp .multiply [x, r]
  | .mod => applyOp .modulo [x, y]
  | .and => applyOp .logicalAnd [x, y]
  | .or => applyOp .logicalOr [x, y]
  | .lt => applyOp .less [x, y]
  | .le => applyOp .lessEqual [x, y]
  | .gt => applyOp .less [y, x]
  | .ge => applyOp .lessEqual [y, x]
  | .eq => applyOp .equal [x, y]
  | .ne => applyOp .notEqual [x, y]
  | .min => applyOp .min [x, y]
  | .max => applyOp .max [x, y]

mutual
/-- The value of a program with all sizes given, if its local variables have the values `vs`. -/
def sem : Script F → List (PVal F) → Option (PVal F)
  | .loc n, vs => vs[n]?
  | .lit s, _ => some (.sc s)
  | .assign a b, vs => (sem a vs).bind fun v => sem b (v :: vs)
  | .un o a, vs => ((sem a vs).bind toScal).bind fun x => (applyOp o [x]).map .sc
  | .bin o a b, vs => ((sem a vs).bind toScal).bind fun x => ((sem b vs).bind toScal).bind fun y => (applyPy o x y).map .sc
  | .choose c t f, vs => ((sem c vs).bind toScal).bind fun b => ((sem t vs).bind toScal).bind fun x =>
      ((sem f vs).bind toScal).bind fun y => (applyOp .where_ [b, x, y]).map .sc
  | .item x i, vs => ((sem x vs).bind toList).bind fun l => ((sem i vs).bind toInt).bind fun k => elementAt l k
  | .size x k, vs => ((sem x vs).bind (extent k)).map fun n : Nat => .sc (.i (n : Int))
  | .array n b, vs => ((sem n vs).bind toInt).bind fun n =>
      (mapOpt (fun k : Nat => sem b (.sc (.i k) :: vs)) (List.range n.toNat)).bind rows
  | .fold n z b, vs => ((sem n vs).bind toInt).bind fun n => (sem z vs).bind fun v =>
      loopOpt (fun v (k : Nat) => sem b (.sc (.i k) :: v :: vs)) v (List.range n.toNat)
  | .reduce x z b, vs => ((sem x vs).bind toList).bind fun l => (sem z vs).bind fun v =>
      loopOpt (fun v y => sem b (v :: y :: vs)) v l
  | .concat x y, vs => ((sem x vs).bind toList).bind fun l => ((sem y vs).bind toList).bind fun m => rows (l ++ m)
  | .record k fs, vs => (semFields fs vs).map (.record k)
  | .field x n, vs => (sem x vs).bind (fieldOf n)
  | .part x i, vs => (sem x vs).bind (partOf i)
  | .auto _ _, _ => none
  | .autoFold _ _, _ => none
def semFields : SFields F → List (PVal F) → Option (List (String × PVal F))
  | .nil, _ => some []
  | .cons n a rest, vs => (sem a vs).bind fun v => (semFields rest vs).map fun l => (n, v) :: l
end

/-! ### What the library builds -/

/-- The scalar an operand is. -/
def scalarOf : Obj F → Option (ScalarLike F)
  | .scalar a => some a
  | _ => none

/-- The expression of a `Vec`, with the layout of the elements. -/
def vecOf? : Obj F → Option (Expr F × Layout)
  | .vec e sub => some (e, sub)
  | _ => none

/-- `c.where(t, f)` etc.: results of scalar operations. -/
def scalarObj (e : Expr F) : Obj F := .scalar (.scalar e)

/-- The components of a Python record. -/
def fieldObj (n : String) : Obj F → Option (Obj F)
  | .struct .positional _ => none
  | .struct _ fs => fs.lookup n
  | _ => none
def partObj (i : Nat) : Obj F → Option (Obj F)
  | .struct .positional fs => fs.toList[i]?
  | _ => none

/-- `phi.Vec` raises if the size mentions an index (`phi.py:323-333`): the only error of types that
`typ` below does not find. -/
def raising (o : Obj F) : Option (Obj F) :=
  match o with
  | .vec e sub => if (Phi.typeOf e).isSome then some (.vec e sub) else none
  | o => some o

variable [DecidableEq F]

mutual
/-- Run the program: the objects, and how many symbols were made. The methods are those of `ndarray.py:190-371` and
`comprehension.py:140-175`; a plain number on the left of an operator is wrapped (the reflected methods are C24). -/
def make : Script F → List (Obj F) → Py (Obj F)
  | .loc n, os, c => os[n]?.map fun o => (o, c)
  | .lit s, _, c => some (scalarObj (const s), c)
  | .assign a b, os, c => (make a os c).bind fun r => make b (r.1 :: os) r.2
  | .un o a, os, c => (make a os c).bind fun r => (scalarOf r.1).map fun a => (scalarObj (op1 o (wrap a)), r.2)
  | .bin o a b, os, c => (make a os c).bind fun r => (make b os r.2).bind fun q =>
      (scalarOf r.1).bind fun a => (scalarOf q.1).map fun b => (scalarObj (method o (wrap a) b), q.2)
  | .choose b t f, os, c => (make b os c).bind fun r => (make t os r.2).bind fun q => (make f os q.2).bind fun s =>
      (scalarOf r.1).bind fun b => (scalarOf q.1).bind fun t => (scalarOf s.1).map fun f =>
        (scalarObj (where_ (wrap b) t f), s.2)
  | .item x i, os, c => (make x os c).bind fun r => (make i os r.2).bind fun q =>
      (scalarOf q.1).bind fun a => getItem [.at a] r.1 q.2
  | .size x k, os, c => (make x os c).bind fun r => (vecOf? r.1).map fun e => (scalarObj (dim e.1 k), r.2)
  | .array n b, os, c => (make n os c).bind fun r => (scalarOf r.1).bind fun n =>
      (arrayPy 1 (fun is => make b (is ++ os)) (some [wrap n]) r.2).bind fun q => (raising q.1).map fun o => (o, q.2)
  | .fold n z b, os, c => (make z os c).bind fun q => (make n os q.2).bind fun r => (scalarOf r.1).bind fun n =>
      foldPy q.1 (fun i a => make b (i :: a :: os)) (some (wrap n)) r.2
  | .reduce x z b, os, c => (make x os c).bind fun r => (make z os r.2).bind fun q =>
      reducePy r.1 q.1 (fun a y => make b (a :: y :: os)) q.2
  | .concat x y, os, c => (make x os c).bind fun r => (make y os r.2).bind fun q =>
      (vecOf? r.1).bind fun e => (vecOf? q.1).bind fun d =>
        if e.2 = d.2 then some (.vec (node .concat [e.1, d.1]) e.2, q.2) else none
  | .record k fs, os, c => (makeFields fs os c).map fun r => (.struct k r.1, r.2)
  | .field x n, os, c => (make x os c).bind fun r => (fieldObj n r.1).map fun o => (o, r.2)
  | .part x i, os, c => (make x os c).bind fun r => (partObj i r.1).map fun o => (o, r.2)
  | .auto k b, os, c => (arrayPy (k + 1) (fun is => make b (is.reverse ++ os)) none c).bind fun q =>
      (raising q.1).map fun o => (o, q.2)
  | .autoFold z b, os, c => (make z os c).bind fun q => foldPy q.1 (fun i a => make b (i :: a :: os)) none q.2
def makeFields : SFields F → List (Obj F) → Py (Fields F)
  | .nil, _, c => some (.nil, c)
  | .cons n a rest, os, c => (make a os c).bind fun r => (makeFields rest os r.2).map fun q => (.cons n r.1 q.1, q.2)
end

/-! ### Types -/

mutual
/-- The types of values: numbers, arrays and records. -/
inductive UTy where
  | sc (k : Kind)
  | arr (t : UTy)
  | record (k : RecKind) (fs : UFields)
inductive UFields where
  | nil
  | cons (n : String) (t : UTy) (rest : UFields)
end

mutual
def UTy.layout : UTy → Layout
  | .sc _ => .atom
  | .arr t => .vec t.layout
  | .record k fs => .struct k fs.layout
def UFields.layout : UFields → LFields
  | .nil => .nil
  | .cons n t rest => .cons n t.layout rest.layout
end

mutual
/-- The type of the packed expression. -/
def UTy.ty : UTy → Ty
  | .sc k => .scalar k
  | .arr t => .vector t.ty
  | .record _ fs => fs.ty
def UFields.ty : UFields → Ty
  | .nil => .scalar .bool
  | .cons _ t .nil => t.ty
  | .cons _ t (.cons m s rest) => .pair t.ty (UFields.cons m s rest).ty
end

mutual
def UTy.same : UTy → UTy → Bool
  | .sc k, .sc k' => decide (k = k')
  | .arr t, .arr t' => t.same t'
  | .record k fs, .record k' fs' => decide (k = k') && fs.same fs'
  | _, _ => false
def UFields.same : UFields → UFields → Bool
  | .nil, .nil => true
  | .cons n t r, .cons n' t' r' => decide (n = n') && t.same t' && r.same r'
  | _, _ => false
end

def UTy.kind? : UTy → Option Kind
  | .sc k => some k
  | _ => none

def UTy.elem? : UTy → Option UTy
  | .arr t => some t
  | _ => none

def UFields.find (n : String) : UFields → Option UTy
  | .nil => none
  | .cons m t rest => if m = n then some t else rest.find n

def UFields.nth : Nat → UFields → Option UTy
  | _, .nil => none
  | 0, .cons _ t _ => some t
  | i + 1, .cons _ _ rest => rest.nth i

def UTy.field? (n : String) : UTy → Option UTy
  | .record .positional _ => none
  | .record _ fs => fs.find n
  | _ => none
def UTy.part? (i : Nat) : UTy → Option UTy
  | .record .positional fs => fs.nth i
  | _ => none

/-- The type of arrays with `n` axes. -/
def UTy.arrs : Nat → UTy → UTy
  | 0, t => t
  | n + 1, t => .arr (UTy.arrs n t)

/-- The type of a component. -/
def Place.type (p : Place) (ts : List UTy) : Option UTy :=
  p.parts.foldl (fun t q => t.bind fun t => match q with
    | .inl i => t.part? i
    | .inr n => t.field? n) ts[p.loc]?

/-- The kind of the result of an operator (`resolve_scalar_signature`). -/
def opKind (o : ScalarOp) (ks : List Kind) : Option Kind :=
  if ks.length = ScalarOp.arity o then
    match resolveSignature (ks.map .scalar) (signature o) with
    | some (.scalar k) => some k
    | _ => none
  else none

def pyKind (o : PyOp) (x y : Kind) : Option Kind :=
  match o with
  | .add => opKind .add [x, y]
  | .sub => opKind .subtract [x, y]
  | .mul => opKind .multiply [x, y]
  | .truediv => (opKind .reciprocal [y]).bind fun r => opKind .multiply [x, r]
  | .mod => opKind .modulo [x, y]
  | .and => opKind .logicalAnd [x, y]
  | .or => opKind .logicalOr [x, y]
  | .lt => opKind .less [x, y]
  | .le => opKind .lessEqual [x, y]
  | .gt => opKind .less [y, x]
  | .ge => opKind .lessEqual [y, x]
  | .eq => opKind .equal [x, y]
  | .ne => opKind .notEqual [x, y]
  | .min => opKind .min [x, y]
  | .max => opKind .max [x, y]

mutual
/-- The type of a program. In particular a fold keeps the type of its accumulator: the library does not check the names of
its fields (C38). -/
def typ : Script F → List UTy → Option UTy
  | .loc n, ts => ts[n]?
  | .lit s, _ => some (.sc s.kind)
  | .assign a b, ts => (typ a ts).bind fun t => typ b (t :: ts)
  | .un o a, ts => ((typ a ts).bind UTy.kind?).bind fun k => (opKind o [k]).map .sc
  | .bin o a b, ts => ((typ a ts).bind UTy.kind?).bind fun k => ((typ b ts).bind UTy.kind?).bind fun k' =>
      (pyKind o k k').map .sc
  | .choose c t f, ts => ((typ c ts).bind UTy.kind?).bind fun b => ((typ t ts).bind UTy.kind?).bind fun k =>
      ((typ f ts).bind UTy.kind?).bind fun k' => (opKind .where_ [b, k, k']).map .sc
  | .item x i, ts => ((typ x ts).bind UTy.elem?).bind fun t => ((typ i ts).bind UTy.kind?).bind fun _ => some t
  | .size x _, ts => ((typ x ts).bind UTy.elem?).map fun _ => .sc .int
  | .array n b, ts => ((typ n ts).bind UTy.kind?).bind fun k => if k = .int then (typ b (.sc .int :: ts)).map .arr else none
  | .fold n z b, ts => ((typ n ts).bind UTy.kind?).bind fun k => if k = .int then
      (typ z ts).bind fun t => (typ b (.sc .int :: t :: ts)).bind fun t' => if t'.same t then some t else none else none
  | .reduce x z b, ts => ((typ x ts).bind UTy.elem?).bind fun t => (typ z ts).bind fun t' => (typ b (t :: t :: ts)).bind fun s =>
      if t'.same t && s.same t then some t else none
  | .concat x y, ts => ((typ x ts).bind UTy.elem?).bind fun t => ((typ y ts).bind UTy.elem?).bind fun t' =>
      if t'.same t then some (.arr t) else none
  | .record k fs, ts => (typFields fs ts).bind fun ps => if okNames k ps.layout.names then some (.record k ps) else none
  | .field x n, ts => (typ x ts).bind (UTy.field? n)
  | .part x i, ts => (typ x ts).bind (UTy.part? i)
  | .auto k b, ts => (readsAll b k).bind fun l => if l.all fun q => ((q.1.type ts).bind UTy.elem?).isSome then
      (typ b (List.replicate (k + 1) (.sc .int) ++ ts)).map (UTy.arrs (k + 1)) else none
  | .autoFold z b, ts => (reads b [] 2 0).bind fun q => ((q.1.type ts).bind UTy.elem?).bind fun _ =>
      (typ z ts).bind fun t => (typ b (.sc .int :: t :: ts)).bind fun t' => if t'.same t then some t else none
def typFields : SFields F → List UTy → Option UFields
  | .nil, _ => some .nil
  | .cons n a rest, ts => (typ a ts).bind fun t => (typFields rest ts).map (.cons n t)
end

/-! ### Sizes -/

mutual
/-- The indices a program's value is computed from: `d` comprehensions are around it, and their indices are numbered from
the outermost; `ds` are the indices the local variables depend on. There is none if the size of a comprehension depends on
an index (`phi.py:323-333`), or if an array from which a size is inferred does. -/
def deps : Script F → Nat → List (List Nat) → Option (List Nat)
  | .loc n, _, ds => ds[n]?
  | .lit _, _, _ => some []
  | .assign a b, d, ds => (deps a d ds).bind fun x => deps b d (x :: ds)
  | .un _ a, d, ds => deps a d ds
  | .bin _ a b, d, ds => (deps a d ds).bind fun x => (deps b d ds).map fun y => x ++ y
  | .choose a b c, d, ds => (deps a d ds).bind fun x => (deps b d ds).bind fun y => (deps c d ds).map fun z => x ++ y ++ z
  | .item a b, d, ds => (deps a d ds).bind fun x => (deps b d ds).map fun y => x ++ y
  | .size a _, d, ds => deps a d ds
  | .array n b, d, ds => (deps n d ds).bind fun x =>
      if x = [] then (deps b (d + 1) ([d] :: ds)).map fun y => y.filter fun k => decide (k ≠ d) else none
  | .fold n z b, d, ds => (deps n d ds).bind fun x => (deps z d ds).bind fun y =>
      (deps b d ([] :: [] :: ds)).map fun w => x ++ y ++ w
  | .reduce a z b, d, ds => (deps a d ds).bind fun x => (deps z d ds).bind fun y =>
      (deps b d ([] :: [] :: ds)).map fun w => x ++ y ++ w
  | .concat a b, d, ds => (deps a d ds).bind fun x => (deps b d ds).map fun y => x ++ y
  | .record _ fs, d, ds => depsFields fs d ds
  | .field a _, d, ds => deps a d ds
  | .part a _, d, ds => deps a d ds
  | .auto k b, d, ds => (readsAll b k).bind fun l => if l.all fun q => decide (ds[q.1.loc]? = some []) then
      (deps b (d + (k + 1)) (((List.range' d (k + 1)).map fun i => [i]).reverse ++ ds)).map fun y => y.filter fun i => decide (i < d) else none
  | .autoFold z b, d, ds => (reads b [] 2 0).bind fun q => ds[q.1.loc]?.bind fun x =>
      if x = [] then (deps z d ds).bind fun y => (deps b d ([] :: [] :: ds)).map fun w => y ++ w else none
def depsFields : SFields F → Nat → List (List Nat) → Option (List Nat)
  | .nil, _, _ => some []
  | .cons _ a rest, d, ds => (deps a d ds).bind fun x => (depsFields rest d ds).map fun y => x ++ y
end

end Verif.Frontend
