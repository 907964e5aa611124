import Mathlib.Algebra.Order.Field.Basic
import Mathlib.Algebra.Order.Ring.Rat
import Mathlib.Data.Rat.Cast.Order
import Verif.Val

/-!
Floating point operations treated as exact: `+`, `*`, … are those of an ordered field. Used only by
properties that are stated under this reading (C06, C17, C24, C25).
-/

namespace Verif

/-- The arithmetic and comparison operations are those of an ordered field. Nothing is said about
`1/0` and the transcendental functions. -/
class ExactFloat (F : Type) [Field F] [LinearOrder F] [FloatOps F] : Prop where
  ofInt : ∀ n : Int, (FloatOps.ofInt n : F) = n
  neg : ∀ x : F, FloatOps.neg x = -x
  recip : ∀ x : F, x ≠ 0 → FloatOps.recip x = x⁻¹
  add : ∀ x y : F, FloatOps.add x y = x + y
  sub : ∀ x y : F, FloatOps.sub x y = x - y
  mul : ∀ x y : F, FloatOps.mul x y = x * y
  min : ∀ x y : F, FloatOps.min x y = Min.min x y
  max : ∀ x y : F, FloatOps.max x y = Max.max x y
  lt : ∀ x y : F, FloatOps.lt x y = decide (x < y)
  le : ∀ x y : F, FloatOps.le x y = decide (x ≤ y)
  eq : ∀ x y : F, FloatOps.eq x y = decide (x = y)

namespace Toy

/-- Rational numbers as exact floats, for examples. -/
instance ratFloat : FloatOps ℚ where
  ofInt x := x
  neg x := -x
  recip x := x⁻¹
  exp x := x
  sin x := x
  cos x := x
  add x y := x + y
  sub x y := x - y
  mul x y := x * y
  pow x _ := x
  min x y := Min.min x y
  max x y := Max.max x y
  lt x y := decide (x < y)
  le x y := decide (x ≤ y)
  eq x y := decide (x = y)

instance : ExactFloat ℚ where
  ofInt _ := rfl
  neg _ := rfl
  recip _ _ := rfl
  add _ _ := rfl
  sub _ _ := rfl
  mul _ _ := rfl
  min _ _ := rfl
  max _ _ := rfl
  lt _ _ := rfl
  le _ _ := rfl
  eq _ _ := rfl

end Toy
end Verif
