import Verif.Phi.Busy
import Verif.Midend.Decide

/-! A concrete stand-in for floating point numbers, used only by the examples beside the theorems. -/

namespace Verif

/-- "Floats" for examples: integers, with the transcendental functions replaced by the identity. -/
instance toyFloat : FloatOps Int where
  ofInt x := x
  neg x := -x
  recip x := x
  exp x := x
  sin x := x
  cos x := x
  add x y := x + y
  sub x y := x - y
  mul x y := x * y
  pow x _ := x
  min x y := Min.min x y
  max x y := Max.max x y
  lt x y := decide (x < y)
  le x y := decide (x ≤ y)
  eq x y := decide (x = y)

namespace Toy
open Verif.Phi

/-- No extrinsic functions. -/
def noExt : Ext Int := fun _ _ => none

/-- An integer variable. -/
def ivar (v : Nat) : Expr Int := var v (.scalar .int)

/-- The environment binding variables to values. -/
def envOf (l : List (Nat × D Int)) : Env (D Int)
  | .var v => (l.find? (fun p => p.1 = v)).map Prod.snd
  | .idx _ => none

/-- A vector of integers. -/
def ints (l : List Int) : D Int := .vec (l.map fun x => .sc (.i x))

/-- Reduce a statement about the result of a partial function to evaluation. -/
theorem exists_of_any {α : Type} {o : Option α} {q : α → Prop} [DecidablePred q]
    (h : o.any (fun x => decide (q x)) = true) : ∃ x, o = some x ∧ q x := by
  cases o with
  | none => cases h
  | some x => exact ⟨x, rfl, by simpa using h⟩

end Toy
end Verif
