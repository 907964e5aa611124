import Verif.Midend.SubstStrict
import Verif.Phi.Sem

/-!
The struct-of-arrays pass (`ein/midend/structs.py`).

* `soaGo` is `go` with its `validate` wrapper: recursion is bounded by a number (`go` calls itself on
  terms it has just built), new symbols are numbered from a counter. The `@functools.cache` is left out: it
  only makes equal sub-terms share their new symbols.
* Python checks the types of a node when it is built (`AbstractExpr.__post_init__`, `phi.py:46-47`); in the
  model the type of every intermediate result that the code looks at is computed with `typeOf`, and `none`
  stands for the exception.
-/

namespace Verif.Midend
open Verif.Phi Verif.Term

/-- `_soa_transform_type` of a vector with the given elements (`structs.py:30-36`); see `soaTy_vector`. -/
def soaVec : Ty → Ty
  | .scalar k => .vector (.scalar k)
  | .pair a b => .pair (soaVec a) (soaVec b)
  | .vector t => .vector (soaVec t)

/-- `_soa_transform_type` (`structs.py:28-41`) -/
def soaTy : Ty → Ty
  | .scalar k => .scalar k
  | .pair a b => .pair (soaTy a) (soaTy b)
  | .vector t => soaVec t

/-- The first two cases of `_soa_transform_type` as they are written (`structs.py:30-36`). -/
theorem soaTy_vector (t : Ty) : soaTy (.vector t) = match t with
    | .pair a b => .pair (soaTy (.vector a)) (soaTy (.vector b))
    | t => .vector (soaTy t) := by
  cases t <;> rfl

variable {F : Type}

/-- `tuple_dim` (`structs.py:67-71`); the type is that of `sub`. -/
def tupleDim (k : Nat) : Ty → Expr F → List (Expr F)
  | .pair a b, sub => tupleDim k a (fst sub) ++ tupleDim k b (snd sub)
  | _, sub => [dim sub k]

/-- `tuple_get` (`structs.py:79-83`); the type is that of `sub`. -/
def tupleGet (it : Expr F) : Ty → Expr F → Expr F
  | .pair a b, sub => cons (tupleGet it a (fst sub)) (tupleGet it b (snd sub))
  | _, sub => Phi.get sub it

/-- `tuple_cat` (`structs.py:90-98`); the type is that of both operands, which the assertion at line 91
compares. -/
def tupleCat : Ty → Expr F → Expr F → Expr F
  | .pair a b, s1, s2 => cons (tupleCat a (fst s1) (fst s2)) (tupleCat b (snd s1) (snd s2))
  | _, s1, s2 => node .concat [s1, s2]

/-- `in_tuple` (`structs.py:115-119`); the type is that of `sub`. -/
def inTuple : Ty → Expr F → List (Expr F)
  | .pair a b, sub => inTuple a (fst sub) ++ inTuple b (snd sub)
  | _, sub => [sub]

/-- `into_tuple` (`structs.py:121-122`): `functools.reduce` fails on no arguments. -/
def intoTuple : List (Expr F) → Option (Expr F)
  | [] => none
  | e :: es => some (es.foldl cons e)

/-- `into_tuple_like` (`structs.py:124-135`): the arguments not used yet are threaded instead of the
position `i`; `none` is the `IndexError`. -/
def intoLike : Ty → List (Expr F) → Option (Expr F × List (Expr F))
  | .pair a b, args =>
    (intoLike a args).bind fun r => (intoLike b r.2).bind fun q => some (cons r.1 q.1, q.2)
  | _, [] => none
  | _, e :: es => some (e, es)

/-- `into_tuple_like` without the unused arguments. -/
def intoTupleLike (τ : Ty) (args : List (Expr F)) : Option (Expr F) := (intoLike τ args).map Prod.fst

/-- The element type of a vector (`cast(Vector, vec.type).elem`, `structs.py:143`); `none` is the
`AttributeError`. -/
def elemTy : Ty → Option Ty
  | .vector t => some t
  | _ => none

/-- Left-nested pairs of types (`functools.reduce(Pair, ...)`, `structs.py:142-144`) -/
def pairTys : List Ty → Option Ty
  | [] => none
  | t :: ts => some (ts.foldl .pair t)

/-- Transform all terms of a list, with the counter of new symbols. -/
def goList (rec : Expr F → Nat → Option (Expr F × Nat)) : List (Expr F) → Nat → Option (List (Expr F) × Nat)
  | [], c => some ([], c)
  | t :: ts, c => (rec t c).bind fun r => (goList rec ts r.2).bind fun q => some (r.1 :: q.1, q.2)

/-- The `Reduce` case after its parts have been transformed (`structs.py:113-151`): `z'`, `b'`, `vs'` are
`init`, `xy` and `vecs`; `c` numbers the two new variables. -/
def soaReduce (x y : Nat) (z' b' : Expr F) (vs' : List (Expr F)) (c : Nat) : Option (Expr F × Nat) :=
  (typeOf z').bind fun τz => (typeOf b').bind fun pre =>
  (mapOpt typeOf vs').bind fun τs =>
  (intoTuple (inTuple τz z')).bind fun init =>
  (intoTuple (inTuple pre b')).bind fun xy =>
  (typeOf init).bind fun L => (typeOf xy).bind fun L' =>
  if L = L' then
    let prim := (List.zipWith inTuple τs vs').flatten
    (mapOpt (fun v => (typeOf v).bind elemTy) prim).bind fun es =>
    if pairTys es = some L then
      let x1 : Expr F := var c L
      let y1 : Expr F := var (c + 1) L
      (intoTupleLike pre (inTuple L x1)).bind fun xx1 =>
      (intoTupleLike pre (inTuple L y1)).bind fun yy1 =>
      let xy' := substitute [(.var y, yy1), (.var x, xx1)] xy
      let e := node (.reduce c (c + 1)) (init :: xy' :: prim)
      (typeOf e).bind fun τe =>
      (intoTupleLike pre (inTuple τe e)).map fun r => (r, c + 2)
    else none
  else none

/-- The cases of `go` (`structs.py:57-153`); `rec` is `go` on other terms. -/
def soaStep (rec : Expr F → Nat → Option (Expr F × Nat)) : Expr F → Nat → Option (Expr F × Nat)
  | node (.store s τ) [], c => some (node (.store s (soaTy τ)) [], c)
  | node (.dim k) [a], c =>
    (rec a c).bind fun r => (typeOf r.1).bind fun τ =>
      match tupleDim k τ r.1 with
      | [] => none
      | [d] => some (d, r.2)
      | d :: ds => some (node .assertEq (d :: ds), r.2)
  | node .get [a, i], c =>
    (rec a c).bind fun r => (rec i r.2).bind fun q => (typeOf r.1).bind fun τ =>
      some (tupleGet q.1 τ r.1, q.2)
  | node .concat [a, b], c =>
    (rec a c).bind fun r => (rec b r.2).bind fun q => (typeOf r.1).bind fun τ =>
      if typeOf q.1 = some τ then some (tupleCat τ r.1 q.1, q.2) else none
  | node (.vec i) [n, b], c =>
    (rec n c).bind fun r => (rec b r.2).bind fun q => (typeOf q.1).bind fun τ =>
      match τ with
      | .pair _ _ =>
        let b1 := substitute [(.idx i, at_ q.2)] (fst q.1)
        let b2 := substitute [(.idx i, at_ (q.2 + 1))] (snd q.1)
        (rec (vec q.2 r.1 b1) (q.2 + 2)).bind fun l => (rec (vec (q.2 + 1) r.1 b2) l.2).bind fun m =>
          some (cons l.1 m.1, m.2)
      | _ => some (vec i r.1 q.1, q.2)
  | node (.reduce x y) (z :: b :: vs), c =>
    (rec z c).bind fun r => (rec b r.2).bind fun q => (goList rec vs q.2).bind fun l =>
      soaReduce x y r.1 q.1 l.1 l.2
  | node h ts, c => (goList rec ts c).map fun r => (node h r.1, r.2)

/-- `go` with `validate` (`structs.py:48-153`); the first argument bounds the depth of the recursion. -/
def soaGo : Nat → Expr F → Nat → Option (Expr F × Nat)
  | 0, _, _ => none
  | n + 1, e, c => (typeOf e).bind fun τ => (soaStep (soaGo n) e c).bind fun r =>
      if typeOf r.1 = some (soaTy τ) then some r else none

variable [DecidableEq F]

/-- One step of `elim` after the sub-terms (`structs.py:158-164`). The code applies `elim` again to what it
returns; `elim_idem` shows that this changes nothing. -/
def elimStep : Head F → List (Expr F) → Expr F
  | .fst, [node .cons [a, _]] => a
  | .snd, [node .cons [_, b]] => b
  | .cons, [node .fst [p], node .snd [q]] => if p = q then p else node .cons [node .fst [p], node .snd [q]]
  | h, ts => node h ts

/-- `elim` (`structs.py:155-165`) -/
def elim : Expr F → Expr F := cata elimStep

theorem elim_node (h : Head F) (ts : List (Expr F)) : elim (node h ts) = elimStep h (ts.map elim) :=
  cata_node _ _ _

/-- `struct_of_arrays_transform` (`structs.py:44-172`); `c` is a number above those of all symbols. -/
def structOfArrays (n c : Nat) (p : Expr F) : Option (Expr F) :=
  (typeOf p).bind fun τ => (soaGo n p c).bind fun r =>
    let q := elim r.1
    if typeOf q = some τ then some q else none

end Verif.Midend
