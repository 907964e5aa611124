import Verif.Phi.Sem

/-! The operator overloads of `Scalar` (`ein/frontend/ndarray.py:254-371`). -/

namespace Verif.Frontend
open Verif.Phi Verif.Term
variable {F : Type}

/-- `ScalarLike` (`ndarray.py:42`): an ein scalar or a Python number. -/
inductive ScalarLike (F : Type) where
  | scalar (e : Expr F)
  | bool (b : Bool)
  | int (n : Int)
  | float (x : F)

/-- A constant scalar expression. -/
def const (s : Scal F) : Expr F := node (.const (.sc s) (.scalar s.kind)) []

/-- `wrap(a).expr` (`ndarray.py:401-407`) -/
def wrap : ScalarLike F → Expr F
  | .scalar e => e
  | .bool b => const (.b b)
  | .int n => const (.i n)
  | .float x => const (.f x)

/-- `__add__`, …: the methods of `Scalar` (`ndarray.py:272-285`). -/
def add (self : Expr F) (other : ScalarLike F) : Expr F := op2 .add self (wrap other)
def sub (self : Expr F) (other : ScalarLike F) : Expr F := op2 .subtract self (wrap other)
def mul (self : Expr F) (other : ScalarLike F) : Expr F := op2 .multiply self (wrap other)
def neg (self : Expr F) : Expr F := op1 .negate self
/-- `__rsub__` (`ndarray.py:287-288`) -/
def rsub (self : Expr F) (other : ScalarLike F) : Expr F := add (neg self) other
/-- `__truediv__` (`ndarray.py:290-291`) -/
def truediv (self : Expr F) (other : ScalarLike F) : Expr F :=
  mul self (.scalar (op1 .reciprocal (wrap other)))
/-- `__rtruediv__` (`ndarray.py:293-294`) -/
def rtruediv (self : Expr F) (other : ScalarLike F) : Expr F := truediv (wrap other) (.scalar self)
/-- `__mod__` (`ndarray.py:296-297`) -/
def mod (self : Expr F) (other : ScalarLike F) : Expr F := op2 .modulo self (wrap other)
/-- `__invert__`, `__and__`, `__or__` (`ndarray.py:318-325`) -/
def invert (self : Expr F) : Expr F := op1 .logicalNot self
def and (self : Expr F) (other : ScalarLike F) : Expr F := op2 .logicalAnd self (wrap other)
def or (self : Expr F) (other : ScalarLike F) : Expr F := op2 .logicalOr self (wrap other)
/-- `__lt__`, `__ne__`, `__eq__`, `__gt__`, `__le__`, `__ge__` (`ndarray.py:327-343`) -/
def lt (self : Expr F) (other : ScalarLike F) : Expr F := op2 .less self (wrap other)
def ne (self : Expr F) (other : ScalarLike F) : Expr F := op2 .notEqual self (wrap other)
def eq (self : Expr F) (other : ScalarLike F) : Expr F := op2 .equal self (wrap other)
def gt (self : Expr F) (other : ScalarLike F) : Expr F := lt (wrap other) (.scalar self)
def le (self : Expr F) (other : ScalarLike F) : Expr F := op2 .lessEqual self (wrap other)
def ge (self : Expr F) (other : ScalarLike F) : Expr F := le (wrap other) (.scalar self)
/-- `where`, `min`, `max` (`ndarray.py:345-352`) -/
def where_ (self : Expr F) (t f : ScalarLike F) : Expr F := node (.op .where_) [self, wrap t, wrap f]
def min (self : Expr F) (other : ScalarLike F) : Expr F := op2 .min self (wrap other)
def max (self : Expr F) (other : ScalarLike F) : Expr F := op2 .max self (wrap other)
/-- `float` (`ndarray.py:269-270`) -/
def float (self : Expr F) : Expr F := op1 .castToFloat self

/-- `abs` (`ndarray.py:354-356`); `zeroF` is the constant `0.0`. -/
def abs (zeroF : F) (self : Expr F) : Expr F :=
  let zero : ScalarLike F := if typeOf self = some (.scalar .int) then .int 0 else .float zeroF
  where_ (gt self zero) (.scalar self) (.scalar (neg self))

/-- `tanh` (`ndarray.py:369-371`) -/
def tanh (self : Expr F) : Expr F :=
  let a := op1 .exp self
  let b := op1 .exp (neg self)
  truediv (sub a (.scalar b)) (.scalar (add a (.scalar b)))

/-- The binary Python operators, and the methods `min` and `max`. -/
inductive PyOp where
  | add | sub | mul | truediv | mod | and | or | lt | le | gt | ge | eq | ne | min | max
deriving DecidableEq, Repr

/-- The method Python calls when the left operand is a `Scalar`. -/
def method : PyOp → Expr F → ScalarLike F → Expr F
  | .add => add | .sub => sub | .mul => mul | .truediv => truediv | .mod => mod | .and => and
  | .or => or | .lt => lt | .le => le | .gt => gt | .ge => ge | .eq => eq | .ne => ne
  | .min => Frontend.min | .max => Frontend.max

/-- The method of the right operand Python calls when the left one is a plain number: `__radd__` and
`__rmul__` are `__add__` and `__mul__` (`ndarray.py:281-282`), comparisons are mirrored, and `%`, `&`,
`|` have no reflected method (`TypeError`); plain numbers have no methods `min` and `max` (`AttributeError`). -/
def reflected : PyOp → Option (Expr F → ScalarLike F → Expr F)
  | .add => some add | .sub => some rsub | .mul => some mul | .truediv => some rtruediv
  | .lt => some gt | .le => some ge | .gt => some lt | .ge => some le | .eq => some eq | .ne => some ne
  | .mod | .and | .or | .min | .max => none

/-- `a op b` in Python, when at least one operand is a `Scalar`; `none`: `TypeError` (or no ein
expression at all). -/
def binary (o : PyOp) : ScalarLike F → ScalarLike F → Option (Expr F)
  | .scalar a, b => some (method o a b)
  | a, .scalar b => (reflected o).map (fun m => m b a)
  | _, _ => none

/-- `go` in `__pow__` (`ndarray.py:306-312`), with fuel for the recursion depth; `none`: the recursion
does not end within it. Only called with `k ≥ 0`. -/
def powGo (self : Expr F) : Nat → Nat → Option (Expr F)
  | 0, _ => none
  | fuel + 1, k =>
    if k = 1 then some self
    else if k % 2 = 1 then (powGo self fuel (k - 1)).map (fun e => mul e (.scalar self))
    else (powGo self fuel (k / 2)).map (fun e => mul e (.scalar e))

/-- `__pow__` with an `int` exponent (`ndarray.py:299-314`); `one` is the constant `1.0`. The recursive
call on `-power` is the non-negative case. -/
def pow (one : F) (self : Expr F) (fuel : Nat) (k : Int) : Option (Expr F) :=
  if k < 0 then powGo (rtruediv self (.float one)) fuel (-k).toNat
  else powGo self fuel k.toNat

/-- `std.min(*args)` and `std.max(*args)` (`std.py:49-54`): `functools.reduce` of the methods over the
wrapped arguments; `none`: no argument. -/
def stdMin : List (ScalarLike F) → Option (Expr F)
  | [] => none
  | a :: l => some (l.foldl (fun acc b => min acc (.scalar (wrap b))) (wrap a))
def stdMax : List (ScalarLike F) → Option (Expr F)
  | [] => none
  | a :: l => some (l.foldl (fun acc b => max acc (.scalar (wrap b))) (wrap a))

/-! ### Evaluation -/
section run
variable [FloatOps F] (I : Ext F) (env : Env (D F))

@[simp] theorem run_const (s : Scal F) : run I (const s) env = some (.sc s) := by
  rw [const, run_node]; rfl

theorem run_op1 (o : ScalarOp) (a : Expr F) {x : Scal F} (h : run I a env = some (.sc x)) :
    run I (op1 o a) env = (applyOp o [x]).map .sc := by
  rw [op1, run_node]
  simp only [runDen, List.map_cons, List.map_nil, opOf, mapOpt, h, Option.bind_some, Val.asScal]
  cases applyOp o [x] <;> rfl

theorem run_op2 (o : ScalarOp) (a b : Expr F) {x y : Scal F} (ha : run I a env = some (.sc x))
    (hb : run I b env = some (.sc y)) : run I (op2 o a b) env = (applyOp o [x, y]).map .sc := by
  rw [op2, run_node]
  simp only [runDen, List.map_cons, List.map_nil, opOf, mapOpt, ha, hb, Option.bind_some, Val.asScal]
  cases applyOp o [x, y] <;> rfl

theorem run_op3 (o : ScalarOp) (a b c : Expr F) {x y z : Scal F} (ha : run I a env = some (.sc x))
    (hb : run I b env = some (.sc y)) (hc : run I c env = some (.sc z)) :
    run I (node (.op o) [a, b, c]) env = (applyOp o [x, y, z]).map .sc := by
  rw [run_node]
  simp only [runDen, List.map_cons, List.map_nil, opOf, mapOpt, ha, hb, hc, Option.bind_some,
    Val.asScal]
  cases applyOp o [x, y, z] <;> rfl

theorem run_op1_none (o : ScalarOp) (a : Expr F) (h : run I a env = none) :
    run I (op1 o a) env = none := by
  rw [op1, run_node]
  simp only [runDen, List.map_cons, List.map_nil, opOf, mapOpt, h, Option.bind_none]

theorem run_op2_none_left (o : ScalarOp) (a b : Expr F) (h : run I a env = none) :
    run I (op2 o a b) env = none := by
  rw [op2, run_node]
  simp only [runDen, List.map_cons, List.map_nil, opOf, mapOpt, h, Option.bind_none]

theorem run_op2_none_right (o : ScalarOp) (a b : Expr F) (h : run I b env = none) :
    run I (op2 o a b) env = none := by
  rw [op2, run_node]
  simp only [runDen, List.map_cons, List.map_nil, opOf, mapOpt, h, Option.bind_none]
  cases (run I a env).bind Val.asScal <;> rfl

end run
end Verif.Frontend
