import Verif.Term
import Verif.Val

/-! Syntax of the phi calculus (`ein/phi/phi.py`). -/

namespace Verif.Phi
open Verif.Term

/-- The expression classes of `ein/phi/phi.py` with their non-term fields. -/
inductive Head (F : Type) where
  /-- `Const` (`phi.py:89-110`); sub-terms `[]`. The type is kept because the model's empty vector has
  no element type. -/
  | const (v : Val (Scal F)) (τ : Ty)
  /-- `Store` (`phi.py:113-148`); `[]` -/
  | store (s : Sym) (τ : Ty)
  /-- `Let` (`phi.py:151-177`); `[bind, body]` -/
  | letv (v : Nat)
  /-- `AssertEq` (`phi.py:180-203`); `target :: operands` -/
  | assertEq
  /-- `Dim` (`phi.py:206-227`); `[target]` -/
  | dim (axis : Nat)
  /-- `Get` (`phi.py:230-254`); `[operand, item]` -/
  | get
  /-- `Concat` (`phi.py:592-618`); `[first, second]` -/
  | concat
  /-- `Cons` (`phi.py:257-275`); `[first, second]` -/
  | cons
  /-- `First` (`phi.py:278-303`); `[target]` -/
  | fst
  /-- `Second` (`phi.py:278-310`); `[target]` -/
  | snd
  /-- `Vec` (`phi.py:313-348`); `[size, body]` -/
  | vec (index : Nat)
  /-- `Fold` (`phi.py:351-394`); `[size, init, body]` -/
  | fold (counter acc : Nat)
  /-- `Reduce` (`phi.py:397-442`); simplified sub-term order `init :: xy :: vecs` (the code has
  `init, *vecs, xy`, `phi.py:410-411`) -/
  | reduce (x y : Nat)
  /-- `AbstractScalarOperator` and its subclasses (`phi.py:445-589`); the operands -/
  | op (o : ScalarOp)
  /-- `Extrinsic` (`phi.py:621-640`): an opaque function, identified by a number; the operands -/
  | ext (fn : Nat) (τ : Ty)
deriving DecidableEq

/-- phi expressions -/
abbrev Expr (F : Type) := Term (Head F)

/-- Is the value a NumPy array without dimensions? (`Const.is_atom`, `phi.py:105-107`) -/
def isScalarVal {S : Type} : Val S → Bool
  | .sc _ => true
  | _ => false

/-- `captured_symbols` (`phi.py:64-66` and the overrides at `172-174`, `339-341`, `385-387`,
`431-433`) -/
def Head.captured {F : Type} : Head F → Finset Sym
  | .letv v => {.var v}
  | .vec i => {.idx i}
  | .fold c a => {.var c, .var a}
  | .reduce x y => {.var x, .var y}
  | _ => ∅

/-- `unwrap_symbol` (`phi.py:77-78`, `133-134`) -/
def Head.symbol {F : Type} : Head F → Option Sym
  | .store s _ => some s
  | _ => none

/-- `unwrap_let` (`phi.py:74-75`, `176-177`) -/
def Head.letVar {F : Type} : Head F → Option Nat
  | .letv v => some v
  | _ => none

/-- `is_atom` (`phi.py:80-82`, `105-107`, `136-138`) -/
def Head.isAtom {F : Type} : Head F → Bool
  | .const v _ => isScalarVal v
  | .store _ _ => true
  | _ => false

/-- `is_loop` (`phi.py:84-86`, `346-348`, `392-394`, `440-442`) -/
def Head.isLoop {F : Type} : Head F → Bool
  | .vec _ => true
  | .fold _ _ => true
  | .reduce _ _ => true
  | _ => false

/-- The kinds and constraint of an operator's signature (`UFUNC_SIGNATURES`,
`type_system.py:217-245`): argument entries are a fixed kind or the type variable `T`. -/
inductive SigArg where
  | fixed (k : Kind)
  | T
deriving DecidableEq, Repr

/-- A row of `UFUNC_SIGNATURES`: arguments, result, and the kinds allowed for `T` (if constrained). -/
structure Signature where
  args : List SigArg
  result : SigArg
  constraint : Option (List Kind)

/-- `number` (`type_system.py:215`) -/
def number : List Kind := [.int, .float]

/-- `UFUNC_SIGNATURES` (`type_system.py:217-245`) -/
def signature : ScalarOp → Signature
  | .negate => ⟨[.T], .T, some number⟩
  | .reciprocal => ⟨[.fixed .float], .fixed .float, none⟩
  | .exp => ⟨[.fixed .float], .fixed .float, none⟩
  | .sin => ⟨[.fixed .float], .fixed .float, none⟩
  | .cos => ⟨[.fixed .float], .fixed .float, none⟩
  | .castToFloat => ⟨[.fixed .int], .fixed .float, none⟩
  | .logicalNot => ⟨[.fixed .bool], .fixed .bool, none⟩
  | .add => ⟨[.T, .T], .T, some number⟩
  | .subtract => ⟨[.T, .T], .T, some number⟩
  | .multiply => ⟨[.T, .T], .T, some number⟩
  | .modulo => ⟨[.fixed .int, .fixed .int], .fixed .int, none⟩
  | .power => ⟨[.fixed .float, .fixed .float], .fixed .float, none⟩
  | .min => ⟨[.T, .T], .T, some number⟩
  | .max => ⟨[.T, .T], .T, some number⟩
  | .less => ⟨[.T, .T], .fixed .bool, some number⟩
  | .lessEqual => ⟨[.T, .T], .fixed .bool, some number⟩
  | .equal => ⟨[.T, .T], .fixed .bool, some number⟩
  | .notEqual => ⟨[.T, .T], .fixed .bool, some number⟩
  | .logicalAnd => ⟨[.fixed .bool, .fixed .bool], .fixed .bool, none⟩
  | .logicalOr => ⟨[.fixed .bool, .fixed .bool], .fixed .bool, none⟩
  | .where_ => ⟨[.fixed .bool, .T, .T], .T, none⟩

/-- The loop of `resolve_scalar_signature` (`type_system.py:191-207`) over `zip(types, args)`; the
state is the binding of `T` so far. -/
def resolveArgs (constraint : Option (List Kind)) :
    List (Ty × SigArg) → Option Kind → Option (Option Kind)
  | [], t => some t
  | (.scalar k, .T) :: rest, t =>
    if (match constraint with | some c => decide (k ∈ c) | none => true) = false then none
    else match t with
      | some k' => if k' ≠ k then none else resolveArgs constraint rest (some k)
      | none => resolveArgs constraint rest (some k)
  | (.scalar k, .fixed k') :: rest, t => if k ≠ k' then none else resolveArgs constraint rest t
  | _ :: _, _ => none

/-- `resolve_scalar_signature` (`type_system.py:182-212`); `none` is a `TypeError` (or the `KeyError`
for a missing `T`). -/
def resolveSignature (types : List Ty) (s : Signature) : Option Ty :=
  match resolveArgs s.constraint (types.zip s.args) none with
  | none => none
  | some t => match s.result with
    | .fixed k => some (.scalar k)
    | .T => t.map .scalar

/-- The number of operands of each operator class (the `operands` annotations of
`AbstractUnaryScalarOperator`, `AbstractBinaryScalarOperator`, `AbstractTernaryScalarOperator`,
`phi.py:473-474`, `513-514`, `583-584`). Python does not enforce the annotation: `zip` in
`resolve_scalar_signature` stops at the shorter list. The model rejects a wrong number of operands. -/
def ScalarOp.arity : ScalarOp → Nat
  | .negate | .reciprocal | .exp | .sin | .cos | .logicalNot | .castToFloat => 1
  | .where_ => 3
  | _ => 2

/-- `Type` of a node from the types and free indices of its sub-terms (the `type` properties of
the classes, `phi.py:97-633`; `AbstractExpr.__post_init__`, `phi.py:46-47`, evaluates them on construction); `none` where they raise. Sub-term counts are those of the classes. -/
def typeStep {F : Type} : Head F → List (Option Ty × Finset Sym) → Option Ty
  | .const _ τ, [] => some τ
  | .store _ τ, [] => some τ
  | .letv _, [(some _, _), (τ, _)] => τ
  | .assertEq, (τ, _) :: ops =>
    match ops with
    | [] => τ
    | (none, _) :: _ => none
    | (some σ, _) :: rest => if rest.all (fun o => decide (o.1 = some σ)) then τ else none
  | .dim _, [(some _, _)] => some (.scalar .int)
  | .get, [(some (.vector τ), _), (some (.scalar _), _)] => some τ
  | .concat, [(some (.vector σ), _), (some τ, _)] =>
    if τ = .vector σ then some (.vector σ) else none
  | .cons, [(some σ, _), (some τ, _)] => some (.pair σ τ)
  | .fst, [(some (.pair σ _), _)] => some σ
  | .snd, [(some (.pair _ τ), _)] => some τ
  | .vec _, [(some (.scalar .int), free), (some τ, _)] => if free = ∅ then some (.vector τ) else none
  | .fold _ _, [(some (.scalar .int), _), (some σ, _), (some τ, _)] => if σ = τ then some σ else none
  | .reduce _ _, (some σ, _) :: (some τ, _) :: vecs =>
    if σ ≠ τ then none
    else
      -- `functools.reduce(Pair, elems)`
      match vecs.map (fun v => match v.1 with | some (.vector e) => some e | _ => none) with
      | [] => none
      | e :: es =>
        match es.foldl (fun a b => match a, b with
            | some a, some b => some (Ty.pair a b) | _, _ => none) e with
        | some elems => if elems = τ then some τ else none
        | none => none
  | .op o, ops =>
    match ops.foldr (fun o acc => match o.1, acc with
        | some τ, some l => some (τ :: l) | _, _ => none) (some []) with
    | some tys => if tys.length = ScalarOp.arity o then resolveSignature tys (signature o) else none
    | none => none
  | .ext _ τ, ops => if ops.all (fun o => o.1.isSome) then some τ else none
  | _, _ => none

/-- The symbols removed and added at a node, as in `free_symbols` (`ein/term.py:80-83`). -/
def fvStep {F : Type} (h : Head F) (fvs : List (Finset Sym)) : Finset Sym :=
  (maybeSet h.symbol ∪ fvs.foldr (· ∪ ·) ∅) \ h.captured

/-- `Expr.type` together with `free_symbols`. -/
def typeFv {F : Type} : Expr F → Option Ty × Finset Sym :=
  cata (fun h rs => (typeStep h (rs.map (fun r => (r.1, r.2.filter (fun s => s.isIdx)))),
    fvStep h (rs.map Prod.snd)))

/-- `Expr.type` (`phi.py`): `none` if some constructor raises. -/
def typeOf {F : Type} (e : Expr F) : Option Ty := (typeFv e).1

/-- Sub-terms evaluated before the symbols are bound: the definition of a let (`naive.py:64-67`), the
size of a comprehension (17-19), the size and initial value of a fold (27-29), the initial value and
vectors of a reduction (36-40). -/
def outside {F : Type} : Head F → Nat → Bool
  | .letv _, k => k = 0
  | .vec _, k => k = 0
  | .fold _ _, k => k < 2
  | .reduce _ _, k => k ≠ 1
  | _, _ => false

instance {F : Type} : Lang (Head F) where
  outside := outside
  outside_let _ _ := rfl
  captured := Head.captured
  symbol := Head.symbol
  letVar := Head.letVar
  isAtom := Head.isAtom
  isLoop := Head.isLoop
  letHead := .letv
  -- `wrap_var` records `self.type` (`phi.py:71-72`); an ill-typed term cannot be built in Python, so the
  -- default is never observed
  varHead t v := .store (.var v) ((typeOf t).getD (.scalar .int))
  letVar_letHead _ := rfl
  letVar_inj h v e := by cases h <;> simp_all [Head.letVar]
  captured_let _ := rfl
  symbol_let _ := rfl
  symbol_var _ _ := rfl
  captured_symbol h s e := by cases h <;> simp_all [Head.symbol, Head.captured]
  isAtom_var _ _ := rfl

theorem typeFv_snd {F : Type} (e : Expr F) : (typeFv e).2 = fv e := by
  induction e using ind with
  | step h ts ih =>
    unfold typeFv fv
    rw [cata_node, cata_node]
    simp only [List.map_map, fvStep]
    congr 2
    congr 1
    refine List.map_congr_left (fun t ht => ?_)
    exact ih t ht

theorem typeOf_node {F : Type} (h : Head F) (ts : List (Expr F)) :
    typeOf (node h ts) = typeStep h (ts.map (fun t => (typeOf t, freeIndices t))) := by
  conv_lhs => unfold typeOf typeFv
  rw [cata_node]
  simp only [List.map_map]
  congr 1
  refine List.map_congr_left (fun t _ => ?_)
  have := typeFv_snd t
  simp only [Function.comp, freeIndices, ← this]
  rfl

/-! Convenient constructors. -/
section
variable {F : Type}
def int (n : Int) : Expr F := node (.const (.int n) (.scalar .int)) []
def var (v : Nat) (τ : Ty) : Expr F := node (.store (.var v) τ) []
/-- `at(index)` (`phi.py:647-648`) -/
def at_ (i : Nat) : Expr F := node (.store (.idx i) (.scalar .int)) []
def op1 (o : ScalarOp) (a : Expr F) : Expr F := node (.op o) [a]
def op2 (o : ScalarOp) (a b : Expr F) : Expr F := node (.op o) [a, b]
def vec (i : Nat) (n b : Expr F) : Expr F := node (.vec i) [n, b]
def fold (c a : Nat) (n init b : Expr F) : Expr F := node (.fold c a) [n, init, b]
def get (a i : Expr F) : Expr F := node .get [a, i]
def dim (a : Expr F) (k : Nat) : Expr F := node (.dim k) [a]
def letIn (v : Nat) (a b : Expr F) : Expr F := node (.letv v) [a, b]
def cons (a b : Expr F) : Expr F := node .cons [a, b]
def fst (a : Expr F) : Expr F := node .fst [a]
def snd (a : Expr F) : Expr F := node .snd [a]
end

end Verif.Phi
