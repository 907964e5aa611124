import Verif.Yarr.Syntax

/-!
Meaning of array code on the NumPy backend (`ein/backend/array_backend.py:157-255`,
`ein/backend/numpy_backend.py:126-178`), with lexical environments. `none` stands for every exception.
In-place flags are ignored here (C20 is about them), and so is the copying in `preprocess_bound`
(`numpy_backend.py:21-27`), which returns an equal array.
-/

namespace Verif.Yarr
open Verif.Term Verif.Phi Verif.Arr
variable {F : Type}

/-- The values of array code. -/
abbrev A (F : Type) := NArr (Scal F)

/-- The integer in a scalar. -/
def scalInt : Scal F → Option Int
  | .i n => some n
  | _ => none

/-- An array of integers; NumPy rejects other index arrays. -/
def asInts (a : A F) : Option (NArr Int) := a.mapM? scalInt

/-- `int(x)` for an array without dimensions, also `__index__` of a slice bound. -/
def asSize (a : A F) : Option Int := a.item.bind scalInt

/-- The array in a value that is not a tuple. -/
def YVal.asArr : YVal F → Option (A F)
  | .arr a => some a
  | .tup _ => none

/-- The arrays of a value (`array_backend.py:114-120`). -/
def YVal.arrs : YVal F → List (A F)
  | .arr a => [a]
  | .tup as => as

/-- An optional scalar (`maybe_call`, `array_backend.py:19-20`). -/
def optSize : Option (A F) → Option (Option Int)
  | none => some none
  | some a => (asSize a).bind fun n => some (some n)

/-- `target[start:stop, …]` with the bounds that are present (`array_backend.py:211-221`). -/
def sliceOf (starts stops : List Bool) (a : A F) (bs : List (A F)) : Option (A F) :=
  (unmask starts bs).bind fun p => (unmask stops p.2).bind fun q =>
    if q.2 = [] then
      (mapOpt optSize p.1).bind fun ss => (mapOpt optSize q.1).bind fun es => a.slice ss es
    else none

/-- Edge padding with the widths that are present, 0 elsewhere (`array_backend.py:222-232`). -/
def padOf (lefts rights : List Bool) (a : A F) (bs : List (A F)) : Option (A F) :=
  (unmask lefts bs).bind fun p => (unmask rights p.2).bind fun q =>
    if q.2 = [] then
      (mapOpt optSize p.1).bind fun ls => (mapOpt optSize q.1).bind fun rs =>
        a.pad ((ls.zip rs).map (fun w => (w.1.getD 0, w.2.getD 0)))
    else none

/-- `Take` (`array_backend.py:205-210`) with exactly one index array, the only form the compiler
generates (`array_indexing.py:105-108`); other forms are not modelled. -/
def takeOf (items : List Bool) (a : A F) (bs : List (A F)) : Option (A F) :=
  match bs with
  | [b] => if items.length = a.rank ∧ items.count true = 1 then
      (asInts b).bind fun ix => a.take (items.idxOf true) ix else none
  | _ => none

/-- Sum of numbers of one kind, from left to right; 0 for no numbers (of float kind). -/
def sumScal [FloatOps F] : List (Scal F) → Option (Scal F)
  | [] => some (.f (FloatOps.ofInt 0))
  | x :: l => loopOpt (fun a b => applyOp .add [a, b]) x l

/-- Product of numbers of one kind, from left to right. -/
def prodScal [FloatOps F] : List (Scal F) → Option (Scal F)
  | [] => none
  | x :: l => loopOpt (fun a b => applyOp .multiply [a, b]) x l

/-- `REDUCE_KINDS[kind].reduce` (`numpy_backend.py:137-140`, `yarr.py:756-760`) on the elements along an
axis: minimum and maximum raise for no elements. The sum of no elements is taken to be the float 0; the
compiler only reduces float arrays (`phi_to_yarr.py:408`). -/
def reduceScal [FloatOps F] : RedKind → List (Scal F) → Option (Scal F)
  | .add, l => sumScal l
  | .minimum, x :: l => loopOpt (fun a b => applyOp .min [a, b]) x l
  | .maximum, x :: l => loopOpt (fun a b => applyOp .max [a, b]) x l
  | _, [] => none

/-- `astype(float)` on one element (`numpy_backend.py:141-143`). Only the conversion to float is
generated (`phi_to_yarr.py:260-265`); conversions of booleans and to other kinds are not modelled. -/
def castScal [FloatOps F] : Kind → Scal F → Option (Scal F)
  | .float, .i n => some (.f (FloatOps.ofInt n))
  | .float, .f x => some (.f x)
  | _, _ => none

/-- Every second slice along an axis, beginning with slice `start`, `count` of them (`array_backend.py:135-137`,
`147`). -/
def stride (axis start count : Nat) (a : A F) : Option (A F) :=
  if axis < a.rank then
    a.reindex (a.shape.set axis count) (fun ix => ix.set axis (start + 2 * ix.getD axis 0))
  else none

/-- `val[:, …, [k]]`: one slice, keeping the axis. -/
def oneSlice (axis k : Nat) (a : A F) : Option (A F) :=
  if axis < a.rank then a.reindex (a.shape.set axis 1) (fun ix => ix.set axis k) else none

/-- A list of arrays as a value again (`unwrap`, `array_backend.py:125-128`). -/
def ofArrs (single : Bool) (as : List (A F)) : Option (YVal F) :=
  match single, as with
  | true, [a] => some (.arr a)
  | true, _ => none
  | false, as => some (.tup as)

/-- `wrap` (`array_backend.py:122-123`) -/
def toArrs (single : Bool) : YVal F → Option (List (A F))
  | .arr a => if single then some [a] else none
  | .tup as => if single then none else some as

/-- The loop of `reduce_impl` (`array_backend.py:144-151`). `fuel` bounds the number of iterations, `n` is
halved in each. -/
def redLoop (xy : List (A F) → List (A F) → Option (List (A F))) (axis : Nat) :
    Nat → Nat → List (A F) → List (A F) → Option (List (A F))
  | 0, _, _, _ => none
  | fuel + 1, n, acc, vals =>
    if 1 < n then
      (if n % 2 = 1 then (mapOpt (oneSlice axis (n - 1)) vals).bind fun l => xy l acc
        else some acc).bind fun acc' =>
      (mapOpt (stride axis 0 (n / 2)) vals).bind fun l =>
      (mapOpt (stride axis 1 (n / 2)) vals).bind fun r =>
      (xy l r).bind fun vals' => redLoop xy axis fuel (n / 2) acc' vals'
    else if n = 1 then (mapOpt (oneSlice axis 0) vals).bind fun l => xy l acc
    else some acc

/-- `reduce_impl` (`array_backend.py:113-153`) -/
def reduceOf (axis : Nat) (init vecs : YVal F) (xy : YVal F → YVal F → Option (YVal F)) :
    Option (YVal F) :=
  let single := match vecs with | .arr _ => true | .tup _ => false
  (toArrs single init).bind fun acc =>
  match (vecs.arrs.map (fun a : A F => a.shape[axis]?)).dedup with
  | [some n] =>
    (mapOpt (NArr.unsqueeze [axis]) acc).bind fun acc =>
    (redLoop (fun x y => (ofArrs single x).bind fun x => (ofArrs single y).bind fun y =>
      (xy x y).bind (toArrs single)) axis (n + 1) n acc vecs.arrs).bind fun acc =>
    (mapOpt (NArr.squeeze [axis]) acc).bind (ofArrs single)
  | _ => none

/-- The interpretation of `Extrinsic` functions. -/
abbrev YExt (F : Type) := Nat → List (YVal F) → Option (YVal F)

/-- All sub-terms evaluate to arrays. -/
def arrsOf (vs : List (Option (YVal F))) : Option (List (A F)) :=
  mapOpt (fun v : Option (YVal F) => v.bind YVal.asArr) vs

/-- An operation with one array operand. -/
def arr1 (f : A F → Option (A F)) (a : Option (YVal F)) : Option (YVal F) :=
  (a.bind YVal.asArr).bind fun a => (f a).bind fun r => some (.arr r)

variable [FloatOps F]

/-- One node of `stage` (`array_backend.py:157-255`, `numpy_backend.py:133-173`). -/
def den (J : YExt F) : Head F → List (Env (YVal F) → Option (YVal F)) → Env (YVal F) → Option (YVal F)
  | .const v _, _, _ => some v
  | .var v _, _, env => env (.var v)
  | .letv v, [f, g], env => (f env).bind fun x => g (env.set (.var v) (some x))
  | .dim axis, [f], env => arr1 (fun a => (a.shape[axis]?).map (fun n => .scalar (.i n))) (f env)
  | .range, [f], env => arr1 (fun a => (asSize a).bind fun n =>
      (NArr.range n).mapM? (fun i => some (.i i))) (f env)
  | .concat axis, fs, env => (arrsOf (fs.map (· env))).bind fun as =>
      (NArr.concat axis as).bind fun r => some (.arr r)
  | .transpose perm, [f], env => arr1 (NArr.transpose perm) (f env)
  | .squeeze axes, [f], env => arr1 (NArr.squeeze axes) (f env)
  | .unsqueeze axes, [f], env => arr1 (NArr.unsqueeze axes) (f env)
  | .gather axis, [f, g], env => ((f env).bind YVal.asArr).bind fun a =>
      arr1 (fun b => (asInts b).bind fun ix => a.gather axis ix) (g env)
  | .take items, f :: fs, env => (arrsOf (fs.map (· env))).bind fun bs =>
      arr1 (fun a => takeOf items a bs) (f env)
  | .slice starts stops, f :: fs, env => (arrsOf (fs.map (· env))).bind fun bs =>
      arr1 (fun a => sliceOf starts stops a bs) (f env)
  | .pad lefts rights, f :: fs, env => (arrsOf (fs.map (· env))).bind fun bs =>
      arr1 (fun a => padOf lefts rights a bs) (f env)
  | .repeat_ axis, [f, g], env => (((f env).bind YVal.asArr).bind asSize).bind fun n =>
      arr1 (NArr.repeat_ axis n) (g env)
  | .reduceAxis k axis, [f], env => arr1 (NArr.reduceAxis (reduceScal k) axis) (f env)
  | .cast k, [f], env => arr1 (NArr.mapM? (castScal k)) (f env)
  | .elem o _, fs, env => (arrsOf (fs.map (· env))).bind fun as =>
      (NArr.zipAll (applyOp o) as).bind fun r => some (.arr r)
  | .fold c a, [n, z, b], env => (((n env).bind YVal.asArr).bind asSize).bind fun k => (z env).bind fun x =>
      loopOpt (fun acc (i : Nat) =>
        b ((env.set (.var a) (some acc)).set (.var c) (some (.arr (.scalar (.i i)))))) x (List.range k.toNat)
  | .reduce x y axis, [z, b, vs], env => (z env).bind fun init => (vs env).bind fun vecs =>
      reduceOf axis init vecs (fun p q => b ((env.set (.var x) (some p)).set (.var y) (some q)))
  | .tuple, fs, env => (arrsOf (fs.map (· env))).bind fun as => some (.tup as)
  | .untuple i _, [f], env => (f env).bind fun v => match v with
      | .tup as => (as[i]?).map .arr
      | .arr _ => none
  | .einsum subs res, fs, env => (arrsOf (fs.map (· env))).bind fun as =>
      (NArr.einsum prodScal sumScal subs res as).bind fun r => some (.arr r)
  | .ext fn _, fs, env => (mapOpt (fun v => v) (fs.map (· env))).bind (J fn)
  | _, _, _ => none

/-- The value of array code. -/
def eval (J : YExt F) (e : YExpr F) : Env (YVal F) → Option (YVal F) := cata (den J) e

theorem eval_node (J : YExt F) (h : Head F) (ts : List (YExpr F)) :
    eval J (node h ts) = den J h (ts.map (eval J)) := cata_node _ _ _

end Verif.Yarr
