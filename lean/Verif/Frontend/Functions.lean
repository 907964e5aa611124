/-! Decorated functions (`ein/frontend/functions.py`) as a state machine. -/

namespace Verif.Frontend

/-- What a `Function` depends on. `trace s types` is `with_varargs` (`functions.py:14-19`): it runs the
user's function on fresh variables taken from the supply `s`, and returns the variables and the
expression, or the exception raised, with the supply left. `stage` is `STAGE_BACKENDS[backend]` and `exec`
calls the staged code on a dictionary from variables to arguments. -/
structure Setup (Arg Ty B Prog Code Res Err : Type) where
  /-- `type_from_ndarray` -/
  typeOf : Arg → Except Err Ty
  /-- the types given to `typed_function`, if any -/
  declared : Option (List Ty)
  /-- the `TypeError` of `_types_from_args` -/
  mismatch : Err
  trace : Nat → List Ty → Except Err (List Nat × Prog) × Nat
  stage : B → Prog → Except Err Code
  exec : Code → List (Nat × Arg) → Except Err Res

/-- The state: the fresh symbol supply, the attribute `_staged` as an association list, and (not in the
code) the list of keys for which the user's function was run. -/
structure FState (Ty B Code : Type) where
  supply : Nat
  staged : List ((List Ty × B) × (List Nat × Code))
  traced : List (List Ty × B)

variable {Arg Ty B Prog Code Res Err : Type} [DecidableEq Ty] [DecidableEq B]
  (S : Setup Arg Ty B Prog Code Res Err)

/-- `_types_from_args` (`functions.py:35-41`) -/
def typesFromArgs (args : List Arg) : Except Err (List Ty) := do
  let types ← args.mapM S.typeOf
  match S.declared with
  | some ts => if types ≠ ts then .error S.mismatch else .ok types
  | none => .ok types

/-- `key in self._staged` and the value. -/
def lookup (key : List Ty × B) (l : List ((List Ty × B) × (List Nat × Code))) : Option (List Nat × Code) :=
  (l.find? fun p => p.1 = key).map Prod.snd

/-- `_interpret` (`functions.py:43-50`) -/
def call (σ : FState Ty B Code) (args : List Arg) (b : B) : Except Err Res × FState Ty B Code :=
  match typesFromArgs S args with
  | .error e => (.error e, σ)
  | .ok types =>
    match lookup (types, b) σ.staged with
    | some (vars, code) => (S.exec code (vars.zip args), σ)
    | none =>
      match S.trace σ.supply types with
      | (.error e, s) => (.error e, { σ with supply := s, traced := (types, b) :: σ.traced })
      | (.ok (vars, prog), s) =>
        match S.stage b prog with
        | .error e => (.error e, { σ with supply := s, traced := (types, b) :: σ.traced })
        | .ok code =>
          (S.exec code (vars.zip args),
            { supply := s, staged := ((types, b), (vars, code)) :: σ.staged,
              traced := (types, b) :: σ.traced })

/-- A history of calls: the results, in order, and the final state. -/
def calls (σ : FState Ty B Code) : List (List Arg × B) → List (Except Err Res) × FState Ty B Code
  | [] => ([], σ)
  | (args, b) :: rest =>
    let (r, σ') := call S σ args b
    let (rs, σ'') := calls σ' rest
    (r :: rs, σ'')

/-- `Function.__init__` (`functions.py:28-33`) -/
def FState.init (supply : Nat) : FState Ty B Code := ⟨supply, [], []⟩

end Verif.Frontend
