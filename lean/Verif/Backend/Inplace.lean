import Verif.Backend.Memory
import Verif.Midend.Strict
import Verif.Yarr.Strict

/-!
Execution of array code on NumPy arrays that share memory (`ein/backend/array_backend.py:84-255`,
`ein/backend/numpy_backend.py:126-178`), including binary operations that write their result into one of
their operands (`numpy_backend.py:148-165`), and the pass that decides where this is done
(`apply_inplace_on_temporaries`, `ein/codegen/phi_to_yarr.py:523-558`).
Environments are lexical here; the shared dictionary is the subject of C19.
-/

set_option linter.unusedSectionVars false

namespace Verif.Backend
open Verif.Term Verif.Phi Verif.Arr Verif.Yarr Verif.Midend
variable {F : Type}

/-! ### The pass -/

/-- `TEMPORARIES` (`phi_to_yarr.py:529-538`) -/
def isTemp : Yarr.Head F → Bool
  | .elem _ _ => true
  | .range => true
  | .cast _ => true
  | .pad _ _ => true
  | .repeat_ _ => true
  | .reduceAxis _ _ => true
  | _ => false

/-- `expr.type.single.rank`. Terms that are not well-typed cannot be constructed (`yarr.py:32-33`). -/
def rankOf (e : YExpr F) : Option Nat :=
  match Yarr.typeOf e with
  | some [a] => some a.rank
  | _ => none

/-- `go` of `apply_inplace_on_temporaries` (`phi_to_yarr.py:540-556`) on a node whose sub-terms have been
processed. `AbstractElementwise.map` (`yarr.py:502-503`) drops an existing mark. -/
def inplaceStep : Yarr.Head F → List (YExpr F) → YExpr F
  | .elem o _, [f, g] =>
    match rankOf (node (.elem o none) [f, g]), rankOf f, rankOf g with
    | some r, some r1, some r2 =>
      if r ≠ 0 ∧ r = r1 ∧ isTemp f.head = true then node (.elem o (some 0)) [f, g]
      else if r ≠ 0 ∧ r = r2 ∧ isTemp g.head = true then node (.elem o (some 1)) [f, g]
      else node (.elem o none) [f, g]
    | _, _, _ => node (.elem o none) [f, g]
  | .elem o _, ts => node (.elem o none) ts
  | h, ts => node h ts

/-- `apply_inplace_on_temporaries` (`phi_to_yarr.py:523-558`) -/
def applyInplace (e : YExpr F) : YExpr F := cata inplaceStep e

theorem applyInplace_node (h : Yarr.Head F) (ts : List (YExpr F)) :
    applyInplace (node h ts) = inplaceStep h (ts.map applyInplace) := cata_node _ _ _

/-- In-place operations write to operands that are temporaries. -/
def Marked (e : YExpr F) : Prop := ∀ o f g,
  (Occurs (node (.elem o (some 0)) [f, g]) e → isTemp f.head = true) ∧
  (Occurs (node (.elem o (some 1)) [f, g]) e → isTemp g.head = true)

/-! ### Execution -/

/-- An element written to an array whose dtype is that of the first argument (`casting="same_kind"`, the
default of `out=`): booleans become numbers and integers become floats, everything else raises. -/
def outCast [FloatOps F] : Scal F → Scal F → Option (Scal F)
  | .f _, .f y => some (.f y)
  | .i _, .i y => some (.i y)
  | .b _, .b y => some (.b y)
  | .f _, .i y => some (.f (FloatOps.ofInt y))
  | .f _, .b y => some (.f (FloatOps.ofInt (if y then 1 else 0)))
  | .i _, .b y => some (.i (if y then 1 else 0))
  | _, _ => none

/-- The content of `out` after `call(…, out=out)` computed `res`. The shapes must be equal, since `out` is
an operand as well. Results without dimensions are scalars in NumPy and cannot be written to. -/
def writeOut [FloatOps F] (out res : A F) : Option (A F) :=
  if out.shape = [] then none
  else if res.shape = out.shape then
    NArr.ofFn? out.shape (fun ix => (out.get? ix).bind fun x => (res.get? ix).bind fun y => outCast x y)
  else none

/-- What NumPy does differently from run to run or depending on memory layout. -/
structure Machine (F : Type) where
  /-- `value.array` of a constant (`numpy_backend.py:18-19`): always the same array objects -/
  const : YVal F → HVal
  /-- whether `preprocess_bound` (`numpy_backend.py:21-27`) copies -/
  copies : Ref → Mem F → Bool
  /-- arrays returned by `numpy.einsum` or by an external function that are not new: views of operands -/
  other : Yarr.Head F → List HVal → Mem F → Option HVal

/-- The view returned by a basic indexing operation (`numpy_backend.py:38-47`, `56-67`); `none` for
functions that allocate. The second list are the values of the operands. -/
def viewOf : Yarr.Head F → List HVal → List (YVal F) → Option HVal
  | .transpose perm, [.arr r], _ => some (.arr (r.view (perm.map (fun j => r.shape.getD j 0))
      (fun ix => (List.range r.shape.length).map fun j => ix.getD (perm.idxOf j) 0)))
  | .squeeze axes, [.arr r], _ => some (.arr (r.view (NArr.dropAt axes 0 r.shape)
      (fun ix => NArr.spread axes 0 0 r.shape.length ix)))
  | .unsqueeze axes, [.arr r], _ => some (.arr (r.view
      (NArr.spread axes 1 0 (axes.length + r.shape.length) r.shape) (fun ix => NArr.dropAt axes 0 ix)))
  | .slice starts stops, .arr r :: _, _ :: ys =>
    (mapOpt YVal.asArr ys).bind fun bs => (unmask starts bs).bind fun p => (unmask stops p.2).bind fun q =>
    (mapOpt optSize p.1).bind fun ss => (mapOpt optSize q.1).bind fun es =>
      let ds := (r.shape.zip (ss.zip es)).map (fun p => NArr.sliceDim p.1 p.2.1 p.2.2)
      some (.arr (r.view (ds.map Prod.snd) (fun ix => List.zipWith (· + ·) (ds.map Prod.fst) ix)))
  -- an index without dimensions: basic indexing
  | .take items, [.arr r, _], [_, .arr b] => (asSize b).bind fun i =>
      some (.arr (r.view (r.shape.take (items.idxOf true) ++ r.shape.drop (items.idxOf true + 1))
        (fun ix => ix.take (items.idxOf true) ++
          Val.clip (r.shape.getD (items.idxOf true) 0) i :: ix.drop (items.idxOf true))))
  | _, _, _ => none

/-- Functions about whose results `Machine.other` decides. -/
def mayAlias : Yarr.Head F → Bool
  | .einsum _ _ => true
  | .ext _ _ => true
  | _ => false

section
variable [FloatOps F]

/-- A function applied to the arrays `vs`. -/
def step (B : Machine F) (J : YExt F) (h : Yarr.Head F) (vs : List HVal) : M F HVal := fun H =>
  match (mapOpt (fun v : HVal => v.read H) vs).bind fun ys =>
      (Yarr.den J h (ys.map (fun y _ => some y)) (fun _ => none)).bind fun y => some (ys, y) with
  | none => (none, H)
  | some (ys, y) =>
    match if mayAlias h then B.other h vs H else viewOf h vs ys with
    | some v => (some v, H)
    | none => allocVal y H

/-- `preprocess_bound` on one array (`numpy_backend.py:21-27`) -/
def boundRef (B : Machine F) (r : Ref) : M F Ref := fun H =>
  if B.copies r H then ((loadRef r).bind alloc) H else (some r, H)

/-- `preprocess_bound` on a bound value (`array_backend.py:172-177`) -/
def boundVal (B : Machine F) : HVal → M F HVal
  | .arr r => (boundRef B r).bind fun r' => M.ret (.arr r')
  | .tup rs => (M.seq (rs.map (boundRef B))).bind fun rs' => M.ret (.tup rs')

/-- The array object in a value that is not a tuple. -/
def HVal.asRef : HVal → Option Ref
  | .arr r => some r
  | .tup _ => none

/-- `call(first, second, out=out)` (`numpy_backend.py:153-164`) -/
def callOut (o : ScalarOp) (x y out : HVal) : M F HVal :=
  (M.ofOpt x.asRef).bind fun rx => (M.ofOpt y.asRef).bind fun ry => (M.ofOpt out.asRef).bind fun ro =>
  (loadRef rx).bind fun a => (loadRef ry).bind fun b => (loadRef ro).bind fun c =>
  (M.ofOpt (NArr.zipAll (applyOp o) [a, b])).bind fun r => (M.ofOpt (writeOut c r)).bind fun w =>
  (storeRef ro w).bind fun _ => M.ret out

/-- A view whose elements are computed by `f`; raises when `f` does. -/
def viewM (f : A F → Option (A F)) (g : Ref → Ref) (r : Ref) : M F Ref :=
  (loadRef r).bind fun a => (M.ofOpt (f a)).bind fun _ => M.ret (g r)

/-- A copy of the elements computed by `f`. -/
def copyM (f : A F → Option (A F)) (r : Ref) : M F Ref :=
  (loadRef r).bind fun a => (M.ofOpt (f a)).bind fun b => alloc b

/-- `val[:, …, start:…:2]` (`array_backend.py:147`): a view -/
def strideM (axis start count : Nat) : Ref → M F Ref :=
  viewM (stride axis start count) (fun r => r.view (r.shape.set axis count)
    (fun ix => ix.set axis (start + 2 * ix.getD axis 0)))

/-- `val[:, …, [k]]` (`array_backend.py:146`, `150`): a copy, as it is indexed by a list -/
def oneSliceM (axis k : Nat) : Ref → M F Ref := copyM (oneSlice axis k)

/-- The loop of `reduce_impl` (`array_backend.py:144-151`) -/
def redLoopM (xy : List Ref → List Ref → M F (List Ref)) (axis : Nat) :
    Nat → Nat → List Ref → List Ref → M F (List Ref)
  | 0, _, _, _ => M.ofOpt none
  | fuel + 1, n, acc, vals =>
    if 1 < n then
      (if n % 2 = 1 then (M.seq (vals.map (oneSliceM axis (n - 1)))).bind fun l => xy l acc
        else M.ret acc).bind fun acc' =>
      (M.seq (vals.map (strideM axis 0 (n / 2)))).bind fun l =>
      (M.seq (vals.map (strideM axis 1 (n / 2)))).bind fun r =>
      (xy l r).bind fun vals' => redLoopM xy axis fuel (n / 2) acc' vals'
    else if n = 1 then (M.seq (vals.map (oneSliceM axis 0))).bind fun l => xy l acc
    else M.ret acc

/-- `unwrap` (`array_backend.py:125-128`) -/
def ofRefs (single : Bool) (rs : List Ref) : Option HVal :=
  match single, rs with
  | true, [r] => some (.arr r)
  | true, _ => none
  | false, rs => some (.tup rs)

/-- `wrap` (`array_backend.py:122-123`) -/
def toRefs (single : Bool) : HVal → Option (List Ref)
  | .arr r => if single then some [r] else none
  | .tup rs => if single then none else some rs

/-- The arrays of a value. -/
def HVal.refs : HVal → List Ref
  | .arr r => [r]
  | .tup rs => rs

/-- Is the value not a tuple? (`array_backend.py:117`) -/
def HVal.isArr : HVal → Bool
  | .arr _ => true
  | .tup _ => false

/-- `numpy.expand_dims(a, (axis,))`: a view -/
def unsqueezeM (axis : Nat) : Ref → M F Ref :=
  viewM (NArr.unsqueeze [axis]) (fun r => r.view
    (NArr.spread [axis] 1 0 ([axis].length + r.shape.length) r.shape) (fun ix => NArr.dropAt [axis] 0 ix))

/-- `numpy.squeeze(a, (axis,))`: a view -/
def squeezeM (axis : Nat) : Ref → M F Ref :=
  viewM (NArr.squeeze [axis]) (fun r => r.view (NArr.dropAt [axis] 0 r.shape)
    (fun ix => NArr.spread [axis] 0 0 r.shape.length ix))

/-- `reduce_impl` (`array_backend.py:113-153`) -/
def reduceMem (axis : Nat) (init vecs : HVal) (xy : HVal → HVal → M F HVal) : M F HVal :=
  (M.ofOpt (toRefs vecs.isArr init)).bind fun acc =>
  match (vecs.refs.map (fun r : Ref => r.shape[axis]?)).dedup with
  | [some n] =>
    (M.seq (acc.map (unsqueezeM axis))).bind fun acc =>
    (redLoopM (fun x y => (M.ofOpt (ofRefs vecs.isArr x)).bind fun x =>
      (M.ofOpt (ofRefs vecs.isArr y)).bind fun y => (xy x y).bind fun z =>
        M.ofOpt (toRefs vecs.isArr z)) axis (n + 1) n acc vecs.refs).bind fun acc =>
    (M.seq (acc.map (squeezeM axis))).bind fun rs => M.ofOpt (ofRefs vecs.isArr rs)
  | _ => M.ofOpt none

/-- One node of `stage_in_array` (`numpy_backend.py:132-173`, `array_backend.py:157-255`). -/
def denM (B : Machine F) (J : YExt F) : Yarr.Head F → List (Env HVal → M F HVal) → Env HVal → M F HVal
  | .const v _, _, _ => M.ret (B.const v)
  | .var v _, _, env => M.ofOpt (env (.var v))
  | .letv v, [f, g], env => (f env).bind fun x => (boundVal B x).bind fun x' =>
      g (env.set (.var v) (some x'))
  | .elem o (some 0), [f, g], env => (f env).bind fun x => (g env).bind fun y => callOut o x y x
  | .elem o (some 1), [f, g], env => (g env).bind fun y => (f env).bind fun x => callOut o x y y
  | .fold c a, [n, z, b], env => (z env).bind fun x => (n env).bind fun k =>
      (load k).bind fun k => (M.ofOpt (k.asArr.bind asSize)).bind fun k =>
      M.loop (fun acc (i : Nat) => (alloc (.scalar (.i i))).bind fun ri =>
        b ((env.set (.var a) (some acc)).set (.var c) (some (.arr ri)))) x (List.range k.toNat)
  | .reduce x y axis, [z, b, vs], env => (z env).bind fun init => (vs env).bind fun vecs =>
      reduceMem axis init vecs (fun p q => b ((env.set (.var x) (some p)).set (.var y) (some q)))
  | .tuple, fs, env => (M.seq (fs.map (· env))).bind fun vs =>
      M.ofOpt ((mapOpt HVal.asRef vs).bind fun rs => some (.tup rs))
  | .untuple i _, [f], env => (f env).bind fun v => M.ofOpt (match v with
      | .tup rs => (rs[i]?).map .arr
      | .arr _ => none)
  | h, fs, env => (M.seq (fs.map (· env))).bind (step B J h)

/-- Execution of array code on the NumPy backend. -/
def exec (B : Machine F) (J : YExt F) (e : YExpr F) : Env HVal → M F HVal := cata (denM B J) e

theorem exec_node (B : Machine F) (J : YExt F) (h : Yarr.Head F) (ts : List (YExpr F)) :
    exec B J (node h ts) = denM B J h (ts.map (exec B J)) := cata_node _ _ _

/-- The value computed by in-place operations, on values that do not share memory: as `Yarr.den`, but the
result of an in-place operation is converted to the dtype of the operand it is written to, and must have
its shape. -/
def denI (J : YExt F) : Yarr.Head F → List (Env (YVal F) → Option (YVal F)) → Env (YVal F) → Option (YVal F)
  | .elem o (some 0), [f, g], env => ((f env).bind YVal.asArr).bind fun a =>
      ((g env).bind YVal.asArr).bind fun b => (NArr.zipAll (applyOp o) [a, b]).bind fun r =>
      (writeOut a r).bind fun w => some (.arr w)
  | .elem o (some 1), [f, g], env => ((f env).bind YVal.asArr).bind fun a =>
      ((g env).bind YVal.asArr).bind fun b => (NArr.zipAll (applyOp o) [a, b]).bind fun r =>
      (writeOut b r).bind fun w => some (.arr w)
  | h, fs, env => Yarr.den J h fs env

/-- The value of array code with in-place operations. -/
def evalI (J : YExt F) (e : YExpr F) : Env (YVal F) → Option (YVal F) := cata (denI J) e

theorem evalI_node (J : YExt F) (h : Yarr.Head F) (ts : List (YExpr F)) :
    evalI J (node h ts) = denI J h (ts.map (evalI J)) := cata_node _ _ _

end
end Verif.Backend
