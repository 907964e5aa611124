import Verif.Frontend.ScriptSays

/-!
The standard library (`ein/frontend/std.py`) as programs of the user: `fold_sum`, `fold_min`, `fold_max`, `fold_argmin` and the
same with `reduce`. The function `f` that the user passes is a program in which the local variable 0 is the index; in folds
the accumulator of the library is the local variable 1, which a function of the user does not see. `count` is `none` where it
is left out. The numbers `0.0`, `+inf` and `-inf` are parameters.
-/

namespace Verif.Frontend
open Verif.Phi Verif.Term
variable {F : Type}

/-- `Monoid.fold` (`std.py:34-35`) of the monoids of numbers (`std.py:41-43`), whose operation is `a + b`, `a.min(b)` or
`a.max(b)`. -/
def foldMonoid (o : PyOp) (z : F) (count : Option (Script F)) (f : Script F) : Script F :=
  match count with
  | some n => .fold n (.lit (.f z)) (.bin o (.loc 1) f)
  | none => .autoFold (.lit (.f z)) (.bin o (.loc 1) f)

/-- `Monoid.reduce` (`std.py:37-38`) of these monoids. -/
def reduceMonoid (o : PyOp) (z : F) (count : Option (Script F)) (f : Script F) : Script F :=
  match count with
  | some n => .reduce (.array n f) (.lit (.f z)) (.bin o (.loc 0) (.loc 1))
  | none => .reduce (.auto 0 f) (.lit (.f z)) (.bin o (.loc 0) (.loc 1))

/-- `fold_sum`, `fold_min`, `fold_max` (`std.py:57-66`) -/
def foldSum (zero : F) := foldMonoid .add zero
def foldMin (inf : F) := foldMonoid .min inf
def foldMax (ninf : F) := foldMonoid .max ninf

/-- `reduce_sum`, `reduce_min`, `reduce_max` (`std.py:73-82`) -/
def reduceSum (zero : F) := reduceMonoid .add zero
def reduceMin (inf : F) := reduceMonoid .min inf
def reduceMax (ninf : F) := reduceMonoid .max ninf

/-- `(a, b)` -/
def pairOf (a b : Script F) : Script F := .record .positional (.cons "0" a (.cons "1" b .nil))

/-- `where(a[0] <= b[0], a, b)` (`std.py:44-46`) for tuples of two numbers: `std.where` computes the condition once, and selects
each component (`std.py:12-22`). The arguments are the components, which mention the condition as the local variable 0. -/
def whereLess (x y : Script F) (a b : Script F × Script F) : Script F :=
  .assign (.bin .le x y) (pairOf (.choose (.loc 0) a.1 b.1) (.choose (.loc 0) a.2 b.2))

/-- The function that `fold_argmin` folds: in each round the function of the user is called once, and the result is paired with
the index. -/
def argminStep (f : Script F) : Script F :=
  .assign f (whereLess (.part (.loc 2) 0) (.loc 0) (.part (.loc 3) 0, .part (.loc 3) 1) (.loc 1, .loc 2))

/-- `fold_argmin` (`std.py:69-70`) -/
def foldArgminOf (inf : F) (count : Option (Script F)) (f : Script F) : Script F :=
  match count with
  | some n => .part (.fold n (pairOf (.lit (.f inf)) (.lit (.i 0))) (argminStep f)) 1
  | none => .part (.autoFold (pairOf (.lit (.f inf)) (.lit (.i 0))) (argminStep f)) 1

/-- The function that `reduce_argmin` reduces with. -/
def argminPair : Script F :=
  whereLess (.part (.loc 0) 0) (.part (.loc 1) 0) (.part (.loc 1) 0, .part (.loc 1) 1) (.part (.loc 2) 0, .part (.loc 2) 1)

/-- `reduce_argmin` (`std.py:85-86`) -/
def reduceArgminOf (inf : F) (count : Option (Script F)) (f : Script F) : Script F :=
  match count with
  | some n => .part (.reduce (.array n (pairOf f (.loc 0))) (pairOf (.lit (.f inf)) (.lit (.i 0))) argminPair) 1
  | none => .part (.reduce (.auto 0 (pairOf f (.loc 0))) (pairOf (.lit (.f inf)) (.lit (.i 0))) argminPair) 1

end Verif.Frontend
