import Mathlib.Logic.Basic
import Mathlib.Data.List.Forall2

/-! Run-time values and the equality of expressions (`ein/value.py`, `ein/term.py`).

Python objects carry an identity (`id`), because both classes compare by `is` in some cases. -/

namespace Verif.Py

/-- The NumPy element types ein uses. Elements are given by their 64 bit patterns. -/
inductive Dtype where
  | bool
  | int64
  | float64
deriving DecidableEq, Repr

/-- IEEE 754 double: exponent all ones and fraction not zero. -/
def isNaN (w : Nat) : Bool := decide (0x7FF0000000000000 < w % 2 ^ 63)

/-- IEEE 754 double: `+0.0` or `-0.0`. -/
def isZero (w : Nat) : Bool := decide (w % 2 ^ 63 = 0)

/-- `==` of two elements, with NaN equal to NaN (`numpy.array_equal(..., equal_nan=True)`). -/
def elemEq : Dtype → Nat → Nat → Bool
  | .float64, x, y => (isNaN x && isNaN y) || (!isNaN x && !isNaN y && (x == y || (isZero x && isZero y)))
  | _, x, y => x == y

/-- A `numpy.ndarray`: its object identity, dtype, shape and elements in row-major order. -/
structure NdArray where
  oid : Nat
  dtype : Dtype
  shape : List Nat
  data : List Nat
deriving DecidableEq, Repr

/-- `_data_is_small` (`value.py:26-27`): `len(value.data)` is the length of the first axis. -/
def NdArray.small (a : NdArray) : Bool :=
  match a.shape with
  | [] => true
  | n :: _ => decide (n < 1024)

/-- `numpy.array_equal(a, b, equal_nan=True)` -/
def arrayEqual (a b : NdArray) : Bool :=
  decide (a.shape = b.shape) && decide (a.data.length = b.data.length) &&
    (a.data.zip b.data).all fun p => elemEq a.dtype p.1 p.2

/-- `Value` objects (`value.py:30-49`). `foreign` is a Torch or JAX array; its contents are not needed.
`pair` holds a Python tuple, an object with its own identity. -/
inductive Value where
  | arr (id : Nat) (a : NdArray)
  | foreign (id : Nat) (oid : Nat)
  | pair (id : Nat) (oid : Nat) (x y : Value)
deriving DecidableEq, Repr

/-- Identity of the `Value` object. -/
def Value.id : Value → Nat
  | .arr i _ | .foreign i _ | .pair i _ _ _ => i

/-- Identity of the object in its attribute `value`. -/
def Value.oid : Value → Nat
  | .arr _ a => a.oid
  | .foreign _ o => o
  | .pair _ o _ _ => o

/-- `Value.__eq__` (`value.py:51-65`) -/
def Value.eq (self other : Value) : Bool :=
  match self, other with
  | .arr _ a, .arr _ b =>
    if a.data.length ≠ b.data.length ∨ a.dtype ≠ b.dtype then false
    else if a.small then arrayEqual a b
    else decide (self.id = other.id)
  | .arr _ _, _ => false
  | _, _ => decide (self.oid = other.oid)

/-- Python's `hash` on the objects involved: `(dtype, bytes)`, `id`, pairs of hashes, and
`(type, fields)` of a term. -/
structure Hash where
  bytes : Dtype → List Nat → Int
  ident : Nat → Int
  pair : Int → Int → Int
  term : Nat → List Int → List Int → Int

/-- `Value.__hash__` (`value.py:67-72`) -/
def Value.hash (H : Hash) : Value → Int
  | .arr _ a => if a.small then H.bytes a.dtype a.data else H.ident a.oid
  | .foreign _ o => H.ident o
  | .pair _ _ x y => H.pair (x.hash H) (y.hash H)

/-- Expressions as `Term` objects (`term.py:14-45`): the tag stands for the class and all fields that
are compared by identity or structurally without `Value`s or terms (symbols, types, operators, axes);
`vals` are the `Value` fields and `subs` the fields holding terms. -/
inductive TermObj where
  | node (id : Nat) (tag : Nat) (vals : List Value) (subs : List TermObj)

/-- `Term.hash` (`term.py:24-26`) -/
def TermObj.hash (H : Hash) : TermObj → Int
  | .node _ tag vals subs => H.term tag (vals.map (Value.hash H)) (subs.map (TermObj.hash H))

/-- Equality of two tuples of values. -/
def valsEq : List Value → List Value → Bool
  | [], [] => true
  | a :: as, b :: bs => a.eq b && valsEq as bs
  | _, _ => false

mutual
/-- `Term.__eq__` (`term.py:28-35`) -/
def TermObj.eq (H : Hash) : TermObj → TermObj → Bool
  | .node i tag vals subs, .node i' tag' vals' subs' =>
    if tag ≠ tag' then false
    else if H.term tag (vals.map (Value.hash H)) (subs.map (TermObj.hash H)) ≠
        H.term tag' (vals'.map (Value.hash H)) (subs'.map (TermObj.hash H)) then false
    else if i = i' then true
    else valsEq vals vals' && TermObj.eqs H subs subs'
/-- Equality of two tuples of terms. -/
def TermObj.eqs (H : Hash) : List TermObj → List TermObj → Bool
  | [], [] => true
  | a :: as, b :: bs => TermObj.eq H a b && TermObj.eqs H as bs
  | _, _ => false
end

end Verif.Py
