import Verif.Val

/-! The order of floating point numbers other than NaN. -/

namespace Verif

/-- Order laws of floats. `num x`: `x` is not NaN. The order is only a total preorder (`0.0` and `-0.0`
compare equal), with strict end points `+inf` and `-inf`; `min` and `max` return the first operand on
ties. -/
class FloatOrder (F : Type) [FloatOps F] where
  num : F → Prop
  inf : F
  ninf : F
  num_inf : num inf
  num_ninf : num ninf
  le_total : ∀ x y : F, num x → num y → FloatOps.le x y = true ∨ FloatOps.le y x = true
  le_trans : ∀ x y z : F, num x → num y → num z → FloatOps.le x y = true → FloatOps.le y z = true →
    FloatOps.le x z = true
  le_inf : ∀ x : F, num x → FloatOps.le x inf = true
  inf_le : ∀ x : F, num x → FloatOps.le inf x = true → x = inf
  ninf_le : ∀ x : F, num x → FloatOps.le ninf x = true
  le_ninf : ∀ x : F, num x → FloatOps.le x ninf = true → x = ninf
  min_eq : ∀ x y : F, num x → num y → FloatOps.min x y = if FloatOps.le x y then x else y
  max_eq : ∀ x y : F, num x → num y → FloatOps.max x y = if FloatOps.le y x then x else y

namespace Toy

/-- Integers with infinities, two zeros and NaN, for examples. -/
inductive Fl where
  | nan | ninf | negZero | fin (n : Int) | inf
deriving DecidableEq, Repr

/-- Comparison; false on NaN. -/
def Fl.le : Fl → Fl → Bool
  | .nan, _ | _, .nan => false
  | .ninf, _ | _, .inf => true
  | .inf, _ | _, .ninf => false
  | .negZero, .negZero => true
  | .negZero, .fin n => decide (0 ≤ n)
  | .fin n, .negZero => decide (n ≤ 0)
  | .fin n, .fin m => decide (n ≤ m)

instance flOps : FloatOps Fl where
  ofInt x := .fin x
  neg x := x
  recip x := x
  exp x := x
  sin x := x
  cos x := x
  add x _ := x
  sub x _ := x
  mul x _ := x
  pow x _ := x
  min x y := if x.le y then x else y
  max x y := if y.le x then x else y
  lt x y := x.le y && !y.le x
  le x y := x.le y
  eq x y := x.le y && y.le x

instance : FloatOrder Fl where
  num x := x ≠ .nan
  inf := .inf
  ninf := .ninf
  num_inf := by simp
  num_ninf := by simp
  le_total := by
    intro x y hx hy
    cases x <;> cases y <;> simp_all [FloatOps.le, Fl.le] <;> omega
  le_trans := by
    intro x y z hx hy hz h1 h2
    cases x <;> cases y <;> cases z <;> simp_all [FloatOps.le, Fl.le] <;> omega
  le_inf := by intro x hx; cases x <;> simp_all [FloatOps.le, Fl.le]
  inf_le := by intro x hx h; cases x <;> simp_all [FloatOps.le, Fl.le]
  ninf_le := by intro x hx; cases x <;> simp_all [FloatOps.le, Fl.le]
  le_ninf := by intro x hx h; cases x <;> simp_all [FloatOps.le, Fl.le]
  min_eq := by intro x y _ _; rfl
  max_eq := by intro x y _ _; rfl

end Toy
end Verif
