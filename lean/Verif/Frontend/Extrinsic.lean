import Verif.Frontend.Layout

/-! Model of `ext` (`ein/frontend/ndarray.py:374-400`). -/

namespace Verif.Frontend
open Verif.Phi Verif.Term
variable {F : Type}

/-- The operands have the declared types (`for i, (op, exp) in enumerate(zip(operands, input_signature, strict=True))`,
`ndarray.py:388-393`). -/
def checkOperands : List (Expr F) → List Ty → Bool
  | [], [] => true
  | op :: ops, σ :: σs =>
    (((Phi.typeOf op).bind unambiguous).isSome && decide (Phi.typeOf op = some σ)) && checkOperands ops σs
  | _, _ => false

/-- The expression of a call of the function `fn` with declared types of the operands (if there are any) and of the
result (`ndarray.py:385-394`); `none` is an exception. `_to_array` (`ndarray.py:62-82`) refuses results with pairs. -/
def callExt (fn : Nat) (inputs : Option (List Ty)) (output : Ty) (ops : List (Expr F)) : Option (Expr F) :=
  match inputs with
  | none => (unambiguous output).map fun _ => node (.ext fn output) ops
  | some σs => if checkOperands ops σs then (unambiguous output).map fun _ => node (.ext fn output) ops else none

end Verif.Frontend
