import Verif.Frontend.Scalar

/-! The monoids of the standard library (`ein/frontend/std.py:41-46`). -/

namespace Verif.Frontend
open Verif.Phi Verif.Term
variable {F : Type}

/-- `sum_monoid.concat`, `min_monoid.concat`, `max_monoid.concat` (`std.py:41-43`) -/
def sumConcat (a b : Expr F) : Expr F := add a (.scalar b)
def minConcat (a b : Expr F) : Expr F := min a (.scalar b)
def maxConcat (a b : Expr F) : Expr F := max a (.scalar b)

/-- `argmin_monoid.concat` (`std.py:44-46`) on tuples: `where(a[0] <= b[0], a, b)`, where `std.where` selects
each component separately (`std.py:12-22`, through `map_layout`). -/
def argminConcat (a b : Expr F × Expr F) : Expr F × Expr F :=
  let c := le a.1 (.scalar b.1)
  (where_ c (.scalar a.1) (.scalar b.1), where_ c (.scalar a.2) (.scalar b.2))

/-- Packing a tuple of two, and unpacking a variable of pair type (`_layout_struct_to_expr` and
`_to_array`, `ndarray.py:52-82`). -/
def packPair (p : Expr F × Expr F) : Expr F := cons p.1 p.2
def unpackPair (e : Expr F) : Expr F × Expr F := (fst e, snd e)

/-- The body of `reduce_argmin`'s reduction (`Vec.reduce`, `ndarray.py:230-252`): `concat` on two
variables of pair type. -/
def argminBody (x y : Nat) : Expr F :=
  let τ : Ty := .pair (.scalar .float) (.scalar .int)
  packPair (argminConcat (unpackPair (var x τ)) (unpackPair (var y τ)))

/-- `fold_argmin(f, count)` (`std.py:69-70`, `Monoid.fold`, `std.py:34-35`, `fold`,
`comprehension.py:156-175`): `fe` is the expression built by `f` from the counter variable `c`. -/
def foldArgmin (inf : F) (c a : Nat) (count fe : Expr F) : Expr F :=
  snd (fold c a count (packPair (const (.f inf), const (.i 0)))
    (packPair (argminConcat (unpackPair (var a (.pair (.scalar .float) (.scalar .int))))
      (fe, var c (.scalar .int)))))

end Verif.Frontend
