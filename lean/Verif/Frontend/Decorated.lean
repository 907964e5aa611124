import Verif.Frontend.Functions
import Verif.Frontend.PyValue
import Verif.Backend.Loaded
import Verif.Props.C37

/-!
Decorated functions with the backends (`ein/frontend/functions.py`, `ein/backend/__init__.py:12-16`): the parts of
`Frontend/Functions` that were left open there.
-/

set_option linter.unusedSectionVars false

namespace Verif.Frontend
open Verif.Phi Verif.Term Verif.Midend Verif.Codegen Verif.Yarr Verif.Arr Verif.Backend Verif.Props
variable {F : Type}

/-- An array the caller passes: its dtype and its elements. -/
structure Input (F : Type) where
  kind : Kind
  array : A F

/-- `ndarray_type` (`type_system.py:108-109`) -/
def ndarrayType : Nat → Kind → Ty
  | 0, k => .scalar k
  | r + 1, k => .vector (ndarrayType r k)

/-- `type_from_ndarray` (`type_system.py:112-113`) -/
def Input.type (a : Input F) : Ty := ndarrayType a.array.shape.length a.kind

/-- `wrap(x).expr` (`ndarray.py:401-407`) -/
def exprOf : Obj F → Option (Expr F)
  | .scalar a => some (wrap a)
  | .vec e _ => some e
  | .raw v τ => (unambiguous τ).map fun _ => node (.const v τ) []
  | .struct _ _ => none

/-- `[_to_array(variable(Variable(), τ)) for τ in types]` (`functions.py:17-18`), the variables being numbered from `c`. -/
def argObjs : Nat → List Ty → Option (List (Obj F))
  | _, [] => some []
  | c, τ :: τs => (unambiguous τ).bind fun l => (argObjs (c + 1) τs).map (unpack l (var c τ) :: ·)

/-- `with_varargs(types, fun)` (`functions.py:14-19`) -/
def withVarargs (f : List (Obj F) → Py (Obj F)) (τs : List Ty) : Py (List Nat × Expr F) := fun c =>
  (argObjs c τs).bind fun args => (f args (c + τs.length)).bind fun r =>
  (exprOf r.1).map fun e => ((List.range' c τs.length, e), r.2)

/-- The keys of `STAGE_BACKENDS` (`backend/__init__.py:12-16`) -/
inductive Lib where
  | numpy | jax | torch
deriving DecidableEq

/-- What a call may raise; the model does not tell more. -/
inductive Err where
  | mismatch | tracing | staging | running

variable [FloatOps F] [DecidableEq F]

/-- `phi_to_yarr.transform(program)` and the rest of `stage` (`numpy_backend.py:178-186`, `jax_backend.py:204-222`,
`torch_backend.py:161-164`): the code, and for JAX the symbols which the wrapper passes. -/
def stageWith (o : Opts F) (n fuel : Nat) (lib : Lib) (p : Expr F × Nat) : Option (Lib × Finset Sym × YExpr F) :=
  (cachedArrayProgram o n p.2 fuel p.1).bind fun r => (outline r).map fun e =>
    match lib with
    | .numpy => (.numpy, ∅, applyInplace e)
    | .jax => (.jax, fv r, e)
    | .torch => (.torch, ∅, e)

/-- Call the staged code on arrays: with NumPy in a memory that holds the arrays and the constants. The result is what the
array objects that are returned show. -/
def runWith (J : YExt F) (copies : Ref → Mem F → Bool) (code : Lib × Finset Sym × YExpr F) (l : List (Nat × A F)) :
    Option (YVal F) :=
  match code with
  | (.numpy, _, e) =>
    let r := exec (loader copies (l.map Prod.snd).length e) J e (passed l 0) (loaded (l.map Prod.snd) e)
    r.1.bind fun v => v.read r.2
  | (.jax, s, e) => jaxWrapper J s e (passedValues l)
  | (.torch, _, e) => evalP torchPrims J e (passedValues l)

/-- A decorated function. Tracing makes new variables and indices; `stage` makes further ones for the components of arrays
of records, from the same supply (here it is asked for the number reached when the function was traced). -/
def decorated (o : Opts F) (J : YExt F) (copies : Ref → Mem F → Bool) (n fuel : Nat) (types : Option (List Ty))
    (f : List (Obj F) → Py (Obj F)) : Setup (Input F) Ty Lib (Expr F × Nat) (Lib × Finset Sym × YExpr F) (YVal F) Err where
  typeOf a := .ok a.type
  declared := types
  mismatch := .mismatch
  trace c τs := match withVarargs f τs c with
    | some ((vars, e), c') => (.ok (vars, (e, c')), c')
    | none => (.error .tracing, c + τs.length)
  stage lib p := match stageWith o n fuel lib p with
    | some code => .ok code
    | none => .error .staging
  exec code l := match runWith J copies code (l.map fun q => (q.1, q.2.array)) with
    | some y => .ok y
    | none => .error .running

end Verif.Frontend
