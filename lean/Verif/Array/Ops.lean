import Verif.Array.NArr

/-!
The NumPy primitives the array backend calls (`ein/backend/numpy_backend.py:17-123`,
`ein/backend/array_backend.py`), as partial functions on arrays: `none` where NumPy raises.
These are modelled from NumPy's documentation; NumPy itself is not part of the repository.
-/

namespace Verif.Arr
open Verif.Phi
namespace NArr
variable {α β : Type}

/-- An array of a new shape whose elements are looked up in `a`. -/
def reindex (a : NArr α) (s : List Nat) (g : List Nat → List Nat) : Option (NArr α) :=
  ofFn? s (fun ix => a.get? (g ix))

theorem reindex_spec {a : NArr α} {s : List Nat} {g : List Nat → List Nat}
    (h : ∀ ix, InRange s ix → InRange a.shape (g ix)) :
    ∃ b, a.reindex s g = some b ∧ b.shape = s ∧ ∀ ix, InRange s ix → b.get? ix = a.get? (g ix) :=
  ofFn?_spec (fun ix hix => get?_isSome.2 (h ix hix))

theorem shape_of_reindex {a b : NArr α} {s : List Nat} {g : List Nat → List Nat}
    (h : a.reindex s g = some b) : b.shape = s := (ofFn?_eq_some.1 h).1

/-- `numpy.transpose(target, permutation)` (`numpy_backend.py:38-41`): axis `k` of the result is axis
`permutation[k]` of the target. -/
def transpose (perm : List Nat) (a : NArr α) : Option (NArr α) :=
  if perm.length = a.rank ∧ ∀ j ∈ List.range a.rank, j ∈ perm then
    a.reindex (perm.map (fun j => a.shape.getD j 0))
      (fun ix => (List.range a.rank).map fun j => ix.getD (perm.idxOf j) 0)
  else none

/-- Remove the entries at the given places. -/
def dropAt (axes : List Nat) : Nat → List β → List β
  | _, [] => []
  | k, x :: l => if k ∈ axes then dropAt axes (k + 1) l else x :: dropAt axes (k + 1) l

/-- Insert `v` so that it is found at the given places of the result, whose length is the second
number. -/
def spread (axes : List Nat) (v : β) : Nat → Nat → List β → List β
  | _, 0, _ => []
  | k, n + 1, l =>
    if k ∈ axes then v :: spread axes v (k + 1) n l
    else match l with
      | [] => []
      | x :: l => x :: spread axes v (k + 1) n l

/-- `numpy.squeeze(target, axes)` (`numpy_backend.py:43-44`) -/
def squeeze (axes : List Nat) (a : NArr α) : Option (NArr α) :=
  if axes.Nodup ∧ ∀ k ∈ axes, a.shape[k]? = some 1 then
    a.reindex (dropAt axes 0 a.shape) (fun ix => spread axes 0 0 a.rank ix)
  else none

/-- `numpy.expand_dims(target, axes)` (`numpy_backend.py:46-47`) -/
def unsqueeze (axes : List Nat) (a : NArr α) : Option (NArr α) :=
  if axes.Nodup ∧ ∀ k ∈ axes, k < axes.length + a.rank then
    a.reindex (spread axes 1 0 (axes.length + a.rank) a.shape) (fun ix => dropAt axes 0 ix)
  else none

/-- NumPy's broadcasting of one dimension. -/
def bcastDim (a b : Nat) : Option Nat :=
  if a = b then some a else if a = 1 then some b else if b = 1 then some a else none

/-- A shape with leading dimensions of length 1. -/
def padLeft (r : Nat) (s : List Nat) : List Nat := List.replicate (r - s.length) 1 ++ s

/-- NumPy's broadcasting of two shapes (aligned at the last dimension). -/
def bcast (s t : List Nat) : Option (List Nat) :=
  mapOpt (fun p : Nat × Nat => bcastDim p.1 p.2)
    ((padLeft (max s.length t.length) s).zip (padLeft (max s.length t.length) t))

/-- NumPy's broadcasting of several shapes. -/
def bcastAll (ss : List (List Nat)) : Option (List Nat) := loopOpt bcast [] ss

/-- The position read in an operand of shape `s` for position `ix` of the broadcast result. -/
def bcastIx (s ix : List Nat) : List Nat :=
  List.zipWith (fun d i => if d = 1 then 0 else i) s (ix.drop (ix.length - s.length))

/-- A ufunc applied to broadcast operands. -/
def zipAll (f : List α → Option β) (as : List (NArr α)) : Option (NArr β) :=
  (bcastAll (as.map shape)).bind fun s =>
    ofFn? s (fun ix => (mapOpt (fun a : NArr α => a.get? (bcastIx a.shape ix)) as).bind f)

/-- Apply a partial function to every element. -/
def mapM? (f : α → Option β) (a : NArr α) : Option (NArr β) :=
  ofFn? a.shape (fun ix => (a.get? ix).bind f)

/-- `numpy.take_along_axis(target, numpy.clip(item, 0, target.shape[axis] - 1), axis)`
(`numpy_backend.py:49-54`): the other dimensions are broadcast. -/
def gather (axis : Nat) (target : NArr α) (item : NArr Int) : Option (NArr α) :=
  if target.rank = item.rank ∧ axis < target.rank then
    (bcast (target.shape.set axis (item.shape.getD axis 0)) item.shape).bind fun s =>
      ofFn? s (fun ix => (item.get? (bcastIx item.shape ix)).bind fun i =>
        target.get? ((bcastIx target.shape ix).set axis (Val.clip (target.shape.getD axis 0) i)))
  else none

/-- `target[:, …, numpy.clip(item, 0, dim - 1), :, …]` with one index array (`numpy_backend.py:56-64`). -/
def take (axis : Nat) (target : NArr α) (item : NArr Int) : Option (NArr α) :=
  if axis < target.rank then
    ofFn? (target.shape.take axis ++ item.shape ++ target.shape.drop (axis + 1)) (fun ix =>
      (item.get? ((ix.drop axis).take item.rank)).bind fun i =>
        target.get? (ix.take axis ++ Val.clip (target.shape.getD axis 0) i ::
          ix.drop (axis + item.rank)))
  else none

/-- A Python slice bound in a dimension of length `d`. -/
def sliceBound (d : Nat) (x : Int) : Nat := if x < 0 then (x + d).toNat else min x.toNat d

/-- First position and length of `slice(start, stop)` in a dimension of length `d`. -/
def sliceDim (d : Nat) (start stop : Option Int) : Nat × Nat :=
  let lo := (start.map (sliceBound d)).getD 0
  let hi := (stop.map (sliceBound d)).getD d
  (lo, hi - lo)

/-- `target[start0:stop0, start1:stop1, …]` (`numpy_backend.py:66-67`) with one slice per axis. -/
def slice (starts stops : List (Option Int)) (a : NArr α) : Option (NArr α) :=
  if starts.length = a.rank ∧ stops.length = a.rank then
    let bs := (a.shape.zip (starts.zip stops)).map (fun p => sliceDim p.1 p.2.1 p.2.2)
    a.reindex (bs.map Prod.snd) (fun ix => List.zipWith (· + ·) (bs.map Prod.fst) ix)
  else none

/-- `numpy.pad(target, pads, mode="edge")`: negative widths are rejected, and so is a positive width on
an empty axis. -/
def pad (pads : List (Int × Int)) (a : NArr α) : Option (NArr α) :=
  if pads.length = a.rank ∧ (∀ p ∈ pads, 0 ≤ p.1 ∧ 0 ≤ p.2) ∧
      ∀ q ∈ a.shape.zip pads, q.1 = 0 → q.2.1 = 0 ∧ q.2.2 = 0 then
    a.reindex ((a.shape.zip pads).map (fun q => q.1 + q.2.1.toNat + q.2.2.toNat))
      (fun ix => ((a.shape.zip pads).zip ix).map (fun q => Val.clip q.1.1 ((q.2 : Int) - q.1.2.1)))
  else none

/-- `numpy.repeat(target, count, axis=axis)` (`numpy_backend.py:74-77`) -/
def repeat_ (axis : Nat) (n : Int) (a : NArr α) : Option (NArr α) :=
  if axis < a.rank ∧ 0 ≤ n then
    a.reindex (a.shape.set axis (a.shape.getD axis 0 * n.toNat))
      (fun ix => ix.set axis (ix.getD axis 0 / n.toNat))
  else none

/-- `numpy.concatenate((a, b), axis=axis)` -/
def concat2 (axis : Nat) (a b : NArr α) : Option (NArr α) :=
  if axis < a.rank ∧ a.shape.set axis 0 = b.shape.set axis 0 then
    ofFn? (a.shape.set axis (a.shape.getD axis 0 + b.shape.getD axis 0)) (fun ix =>
      if ix.getD axis 0 < a.shape.getD axis 0 then a.get? ix
      else b.get? (ix.set axis (ix.getD axis 0 - a.shape.getD axis 0)))
  else none

/-- `numpy.concatenate(args, axis=axis)` (`numpy_backend.py:35-36`) -/
def concat (axis : Nat) : List (NArr α) → Option (NArr α)
  | [] => none
  | a :: as => loopOpt (concat2 axis) a as

/-- `numpy.arange(int(size))` (`numpy_backend.py:32-33`) -/
def range (n : Int) : NArr Int := ofFn [n.toNat] (fun ix => (ix.getD 0 0 : Nat))

/-- Combine the elements along one axis (`ufunc.reduce(target, axis=axis)`). -/
def reduceAxis (f : List α → Option β) (axis : Nat) (a : NArr α) : Option (NArr β) :=
  if axis < a.rank then
    ofFn? (a.shape.eraseIdx axis) (fun ix =>
      (mapOpt (fun k => a.get? (ix.insertIdx axis k)) (List.range (a.shape.getD axis 0))).bind f)
  else none

/-- The value paired with a label; 0 for a label that does not occur. -/
def labelled (l : List (Nat × Nat)) (x : Nat) : Nat :=
  match l.find? (fun p => p.1 = x) with
  | some p => p.2
  | none => 0

/-- `numpy.einsum(subs, *operands)` (`numpy_backend.py:79-84`): labels in place of letters. Operands with
the same label must have the same length along it. -/
def einsum (mul add : List α → Option α) (subs : List (List Nat)) (res : List Nat)
    (ops : List (NArr α)) : Option (NArr α) :=
  let dims := ((subs.zip (ops.map shape)).map (fun p => p.1.zip p.2)).flatten
  if subs.length = ops.length ∧ (∀ p ∈ subs.zip (ops.map shape), p.1.length = p.2.length) ∧
      (∀ p ∈ dims, p.2 = labelled dims p.1) ∧ res.Nodup ∧ (∀ x ∈ res, x ∈ dims.map Prod.fst) then
    let con := (dims.map Prod.fst).dedup.filter (fun x => decide (x ∉ res))
    ofFn? (res.map (labelled dims)) (fun ix =>
      (mapOpt (fun kx =>
        let env := res.zip ix ++ con.zip kx
        (mapOpt (fun p : List Nat × NArr α => p.2.get? (p.1.map (labelled env))) (subs.zip ops)).bind mul)
        (indices (con.map (labelled dims)))).bind add)
  else none

end NArr
end Verif.Arr
