import Verif.Backend.EdgePad
import Verif.Yarr.Strict

/-!
The structural primitives of the three array backends (`ein/backend/numpy_backend.py:43-76`,
`ein/backend/jax_backend.py:65-96`, `ein/backend/torch_backend.py:59-98`, `108-117`), and the evaluation of
array code with given primitives. The library functions they call are modelled from the documentation of
the libraries. Primitives in which the backends call the same function of their library (transposition,
concatenation, slicing, `take`, repetition, element-wise operations) are those of `Yarr.den`.
-/

namespace Verif.Backend
open Verif.Phi Verif.Term Verif.Yarr Verif.Arr
variable {F : Type}

/-- The primitives in which the backends differ (`array_backend.py:56-80`). -/
structure Prims (F : Type) where
  squeeze : List Nat → A F → Option (A F)
  unsqueeze : List Nat → A F → Option (A F)
  gather : Nat → A F → NArr Int → Option (A F)
  pad : List (Int × Int) → A F → Option (A F)

/-- `NumpyBackend` (`numpy_backend.py:43-54`, `69-72`) -/
def numpyPrims [FloatOps F] : Prims F where
  squeeze := NArr.squeeze
  unsqueeze := NArr.unsqueeze
  gather := NArr.gather
  pad := fastEdgePad

/-- `JaxBackend` (`jax_backend.py:65-74`, `91-92`): the functions have the names and the documentation of
NumPy's. Reads outside an empty dimension, which do not raise in JAX, are not modelled (`none`). -/
def jaxPrims : Prims F where
  squeeze := NArr.squeeze
  unsqueeze := NArr.unsqueeze
  gather := NArr.gather
  pad := NArr.pad

/-- `tensor.squeeze(axis)` in PyTorch: nothing happens if the length is not 1. -/
def torchSqueeze1 (k : Nat) (a : A F) : Option (A F) :=
  match a.shape[k]? with
  | none => none
  | some d => if d = 1 then a.reindex (a.shape.eraseIdx k) (fun ix => ix.insertIdx k 0) else some a

/-- `squeeze_axes` (`torch_backend.py:108-111`) -/
def torchSqueeze (axes : List Nat) (a : A F) : Option (A F) := loopOpt (fun a k => torchSqueeze1 k a) a axes

/-- `tensor.unsqueeze(axis)` in PyTorch. -/
def torchUnsqueeze1 (k : Nat) (a : A F) : Option (A F) :=
  if k ≤ a.rank then a.reindex (a.shape.insertIdx k 1) (fun ix => ix.eraseIdx k) else none

/-- `unsqueeze_axes` (`torch_backend.py:114-117`) -/
def torchUnsqueeze (axes : List Nat) (a : A F) : Option (A F) := loopOpt (fun a k => torchUnsqueeze1 k a) a axes

/-- `torch.gather(target, axis, torch.clip(item, 0, target.shape[axis] - 1))` (`torch_backend.py:65-68`): the
result has the shape of the index array, which must not be longer than the target in other dimensions;
nothing is broadcast. -/
def torchGather (axis : Nat) (target : A F) (item : NArr Int) : Option (A F) :=
  if target.rank = item.rank ∧ axis < target.rank ∧
      ∀ k ∈ List.range target.rank, k ≠ axis → item.shape.getD k 0 ≤ target.shape.getD k 0 then
    NArr.ofFn? item.shape (fun ix => (item.get? ix).bind fun i =>
      target.get? (ix.set axis (Val.clip (target.shape.getD axis 0) i)))
  else none

/-- `pad` (`torch_backend.py:83-94`): `torch.nn.functional.pad` takes the widths of the last dimension
first, but is given those of the first dimension first. Replication is implemented for up to three padded
dimensions, and not for empty tensors. Negative widths, which crop in PyTorch, and tensors that do not hold
floats, for which replication is not implemented either, are not modelled. -/
def torchPad (pads : List (Int × Int)) (a : A F) : Option (A F) :=
  if 1 ≤ a.rank ∧ a.rank ≤ 3 ∧ a.shape.prod ≠ 0 then a.pad pads.reverse else none

/-- `TorchBackend` -/
def torchPrims : Prims F where
  squeeze := torchSqueeze
  unsqueeze := torchUnsqueeze
  gather := torchGather
  pad := torchPad

/-- `padOf` with a given primitive (`array_backend.py:222-232`). -/
def padWith (pad : List (Int × Int) → A F → Option (A F)) (lefts rights : List Bool) (a : A F)
    (bs : List (A F)) : Option (A F) :=
  (unmask lefts bs).bind fun p => (unmask rights p.2).bind fun q =>
    if q.2 = [] then
      (mapOpt optSize p.1).bind fun ls => (mapOpt optSize q.1).bind fun rs =>
        pad ((ls.zip rs).map (fun w => (w.1.getD 0, w.2.getD 0))) a
    else none

/-- `reduce_impl` with given primitives (`array_backend.py:113-153`). -/
def reduceWith (P : Prims F) (axis : Nat) (init vecs : YVal F) (xy : YVal F → YVal F → Option (YVal F)) :
    Option (YVal F) :=
  let single := match vecs with | .arr _ => true | .tup _ => false
  (toArrs single init).bind fun acc =>
  match (vecs.arrs.map (fun a : A F => a.shape[axis]?)).dedup with
  | [some n] =>
    (mapOpt (P.unsqueeze [axis]) acc).bind fun acc =>
    (redLoop (fun x y => (ofArrs single x).bind fun x => (ofArrs single y).bind fun y =>
      (xy x y).bind (toArrs single)) axis (n + 1) n acc vecs.arrs).bind fun acc =>
    (mapOpt (P.squeeze [axis]) acc).bind (ofArrs single)
  | _ => none

variable [FloatOps F]

/-- One node of `stage` (`array_backend.py:157-255`) with given primitives. -/
def denP (P : Prims F) (J : YExt F) :
    Yarr.Head F → List (Env (YVal F) → Option (YVal F)) → Env (YVal F) → Option (YVal F)
  | .squeeze axes, [f], env => arr1 (P.squeeze axes) (f env)
  | .unsqueeze axes, [f], env => arr1 (P.unsqueeze axes) (f env)
  | .gather axis, [f, g], env => ((f env).bind YVal.asArr).bind fun a =>
      arr1 (fun b => (asInts b).bind fun ix => P.gather axis a ix) (g env)
  | .pad lefts rights, f :: fs, env => (arrsOf (fs.map (· env))).bind fun bs =>
      arr1 (fun a => padWith P.pad lefts rights a bs) (f env)
  | .reduce x y axis, [z, b, vs], env => (z env).bind fun init => (vs env).bind fun vecs =>
      reduceWith P axis init vecs (fun p q => b ((env.set (.var x) (some p)).set (.var y) (some q)))
  | h, fs, env => Yarr.den J h fs env

/-- The value of array code on a backend with these primitives. -/
def evalP (P : Prims F) (J : YExt F) (e : YExpr F) : Env (YVal F) → Option (YVal F) := cata (denP P J) e

theorem evalP_node (P : Prims F) (J : YExt F) (h : Yarr.Head F) (ts : List (YExpr F)) :
    evalP P J (node h ts) = denP P J h (ts.map (evalP P J)) := cata_node ..

/-- The semantics of the other properties is the one of JAX. -/
theorem evalP_jax (J : YExt F) (e : YExpr F) : evalP jaxPrims J e = Yarr.eval J e := by
  have h : denP (jaxPrims (F := F)) J = Yarr.den J := by
    funext h fs env
    unfold denP
    split <;> rfl
  unfold evalP Yarr.eval
  rw [h]

end Verif.Backend
