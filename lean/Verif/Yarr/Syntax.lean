import Verif.Phi.Syntax
import Verif.Phi.Prim
import Verif.Array.Ops

/-! Syntax and static types of array code (`ein/codegen/yarr.py`). -/

namespace Verif.Yarr
open Verif.Term Verif.Phi Verif.Arr

/-- The values of array code: an array or a tuple of arrays (`Env`, `numpy_backend.py:14`). -/
inductive YVal (F : Type) where
  | arr (a : NArr (Scal F))
  | tup (as : List (NArr (Scal F)))
deriving DecidableEq

/-- `PrimitiveType` (`type_system.py:143-179`): its `elems`. -/
abbrev PTy := List Phi.Arr

/-- `ReduceAxis.Kind` (`yarr.py:441-444`) -/
inductive RedKind where
  | add | minimum | maximum
deriving DecidableEq, Repr

/-- The expression classes of `yarr.py` with their fields that are not terms. Positions of `None` in
optional sub-terms are recorded as `false` in a mask. -/
inductive Head (F : Type) where
  /-- `Const` (`yarr.py:79-100`); `[]` -/
  | const (v : YVal F) (τ : PTy)
  /-- `Var` (`yarr.py:103-128`); `[]` -/
  | var (v : Nat) (τ : PTy)
  /-- `Let` (`yarr.py:131-157`); `[bind, body]` -/
  | letv (v : Nat)
  /-- `Dim` (`yarr.py:160-179`); `[target]` -/
  | dim (axis : Nat)
  /-- `Range` (`yarr.py:182-200`); `[size]` -/
  | range
  /-- `Concat` (`yarr.py:203-224`); the operands -/
  | concat (axis : Nat)
  /-- `Transpose` (`yarr.py:227-246`); `[target]` -/
  | transpose (perm : List Nat)
  /-- `Squeeze` (`yarr.py:249-269`); `[target]` -/
  | squeeze (axes : List Nat)
  /-- `Unsqueeze` (`yarr.py:272-292`); `[target]` -/
  | unsqueeze (axes : List Nat)
  /-- `Gather` (`yarr.py:295-319`); `[target, item]` -/
  | gather (axis : Nat)
  /-- `Take` (`yarr.py:322-350`); `target ::` the items that are not `None` -/
  | take (items : List Bool)
  /-- `Slice` (`yarr.py:353-380`); `target ::` starts and stops that are not `None` -/
  | slice (starts stops : List Bool)
  /-- `Pad` (`yarr.py:383-410`); `target ::` lefts and rights that are not `None` -/
  | pad (lefts rights : List Bool)
  /-- `Repeat` (`yarr.py:413-436`); `[count, target]` -/
  | repeat_ (axis : Nat)
  /-- `ReduceAxis` (`yarr.py:439-466`); `[target]` -/
  | reduceAxis (k : RedKind) (axis : Nat)
  /-- `Cast` (`yarr.py:469-488`); `[target]` -/
  | cast (k : Kind)
  /-- `UnaryElementwise`, `BinaryElementwise`, `TernaryElementwise` (`yarr.py:491-586`); the operands.
  The kind is named by the scalar operator with the same ufunc (`ELEMENTWISE_UFUNCS`, `yarr.py:767-788`). -/
  | elem (o : ScalarOp) (inplace : Option Nat)
  /-- `Fold` (`yarr.py:589-626`); `[size, init, body]` -/
  | fold (counter acc : Nat)
  /-- `Reduce` (`yarr.py:629-661`); `[init, xy, vecs]` -/
  | reduce (x y : Nat) (axis : Nat)
  /-- `Tuple` (`yarr.py:664-681`); the operands -/
  | tuple
  /-- `Untuple` (`yarr.py:684-704`); `[target]` -/
  | untuple (at_ arity : Nat)
  /-- `Einsum` (`yarr.py:707-731`): labels instead of letters; the operands -/
  | einsum (subs : List (List Nat)) (res : List Nat)
  /-- `Extrinsic` (`yarr.py:734-757`); the operands -/
  | ext (fn : Nat) (τ : PTy)
deriving DecidableEq

/-- Array code. -/
abbrev YExpr (F : Type) := Term (Head F)

/-- `captured_symbols` (`yarr.py:54-56`, `152-154`, `620-622`, `655-657`) -/
def Head.captured {F : Type} : Head F → Finset Sym
  | .letv v => {.var v}
  | .fold c a => {.var c, .var a}
  | .reduce x y _ => {.var x, .var y}
  | _ => ∅

/-- `unwrap_symbol` (`yarr.py:66-67`, `127-128`) -/
def Head.symbol {F : Type} : Head F → Option Sym
  | .var v _ => some (.var v)
  | _ => none

/-- `unwrap_let` (`yarr.py:69-70`, `156-157`) -/
def Head.letVar {F : Type} : Head F → Option Nat
  | .letv v => some v
  | _ => none

/-- `is_atom` (`yarr.py:58-60`, `87-89`, `123-125`) -/
def Head.isAtom {F : Type} : Head F → Bool
  | .const (.arr a) _ => a.shape.isEmpty
  | .var _ _ => true
  | _ => false

/-- `is_loop` (`yarr.py:62-64`, `624-626`, `659-661`) -/
def Head.isLoop {F : Type} : Head F → Bool
  | .fold _ _ => true
  | .reduce _ _ _ => true
  | _ => false

/-- Sub-terms evaluated before the symbols are bound (`array_backend.py:85-153`, `170-184`). -/
def outside {F : Type} : Head F → Nat → Bool
  | .letv _, k => k = 0
  | .fold _ _, k => k < 2
  | .reduce _ _ _, k => k ≠ 1
  | _, _ => false

/-- `with_rank_delta` (`type_system.py:139-140`); `rank >= 0` is asserted
(`type_system.py:121-122`). -/
def deltaArr (d : Int) (a : Phi.Arr) : Option Phi.Arr :=
  if 0 ≤ (a.rank : Int) + d then some ⟨((a.rank : Int) + d).toNat, a.kind⟩ else none

/-- `PrimitiveType.with_rank_delta` (`type_system.py:175-176`) -/
def deltaTy (d : Int) (τ : PTy) : Option PTy := mapOpt (deltaArr d) τ

/-- The entries selected by a mask: `none` at places not present. Fails if there are too few. -/
def unmask {α : Type} : List Bool → List α → Option (List (Option α) × List α)
  | [], l => some ([], l)
  | false :: m, l => (unmask m l).bind fun r => some (none :: r.1, r.2)
  | true :: _, [] => none
  | true :: m, x :: l => (unmask m l).bind fun r => some (some x :: r.1, r.2)

/-- The `type` properties (`yarr.py:79-757`), evaluated on construction (`yarr.py:32-33`); `none` where
an assertion fails. -/
def typeStep {F : Type} : Head F → List (Option PTy) → Option PTy
  | .const _ τ, [] => some τ
  | .var _ τ, [] => some τ
  | .letv _, [some _, τ] => τ
  | .dim axis, [some [a]] => if axis < a.rank then some [⟨0, .int⟩] else none
  | .range, [some [a]] => if a.rank = 0 then some [⟨1, .int⟩] else none
  | .concat _, some [a] :: ts => if ts.all (fun t => decide (t = some [a])) then some [a] else none
  | .transpose perm, [some [a]] => if perm.length = a.rank then some [a] else none
  | .squeeze axes, [some [a]] => if axes.Nodup then deltaTy (-axes.length) [a] else none
  | .unsqueeze axes, [some [a]] => if axes.Nodup then deltaTy axes.length [a] else none
  | .gather axis, [some [a], some [b]] =>
    if a.rank = b.rank ∧ axis < a.rank ∧ b.kind = .int then some [a] else none
  | .take items, some [a] :: ts =>
    if items.length = a.rank ∧ items.count true = ts.length then
      (mapOpt (fun t : Option PTy => t.bind single) ts).bind fun bs =>
        -- `max` of the ranks of all items (0 for `None`); raises if there are no items
        if items = [] then none
        else deltaTy ((bs.map Phi.Arr.rank).foldl max 0 - ts.length) [a]
    else none
  | .slice starts stops, some [a] :: ts =>
    if starts.length = a.rank ∧ stops.length = a.rank ∧
      starts.count true + stops.count true = ts.length ∧ ts.all Option.isSome then some [a] else none
  | .pad lefts rights, some [a] :: ts =>
    if lefts.length = a.rank ∧ rights.length = a.rank ∧
      lefts.count true + rights.count true = ts.length ∧ ts.all Option.isSome then some [a] else none
  | .repeat_ axis, [some [n], some [a]] => if n.rank = 0 ∧ axis < a.rank then some [a] else none
  | .reduceAxis _ axis, [some [a]] => if axis < a.rank then deltaTy (-1) [a] else none
  | .cast k, [some [a]] => some [⟨a.rank, k⟩]
  | .elem o _, ts =>
    (mapOpt (fun t : Option PTy => t.bind single) ts).bind fun as =>
      if as.length = ScalarOp.arity o then
        match resolveSignature (as.map (fun a => .scalar a.kind)) (signature o) with
        | some (.scalar k) => some [⟨(as.map Phi.Arr.rank).foldl max 0, k⟩]
        | _ => none
      else none
  | .fold _ _, [some [n], some σ, some τ] => if n.rank = 0 ∧ σ = τ then some τ else none
  | .reduce _ _ axis, [some σ, some τ, some vs] =>
    if deltaTy (-1) τ = some σ ∧ ∀ v ∈ vs, axis < v.rank then some σ else none
  | .tuple, ts => mapOpt (fun t : Option PTy => t.bind single) ts
  | .untuple i k, [some τ] => if τ.length = k then (τ[i]?).map (fun a => [a]) else none
  | .einsum subs res, ts =>
    (mapOpt (fun t : Option PTy => t.bind single) ts).bind fun as =>
      if ∀ p ∈ subs.zip as, p.1.length = p.2.rank then some [⟨res.length, .float⟩] else none
  | .ext _ τ, ts => if ts.all Option.isSome then some τ else none
  | _, _ => none

/-- `Expr.type` (`yarr.py`): `none` if some constructor raises. -/
def typeOf {F : Type} : YExpr F → Option PTy := cata typeStep

theorem typeOf_node {F : Type} (h : Head F) (ts : List (YExpr F)) :
    typeOf (node h ts) = typeStep h (ts.map typeOf) := cata_node _ _ _

instance {F : Type} : Lang (Head F) where
  outside := outside
  outside_let _ _ := rfl
  captured := Head.captured
  symbol := Head.symbol
  letVar := Head.letVar
  isAtom := Head.isAtom
  isLoop := Head.isLoop
  letHead := .letv
  -- `wrap_var` (`yarr.py:72-73`); the default is never observed
  varHead t v := .var v ((typeOf t).getD [])
  letVar_letHead _ := rfl
  letVar_inj h v e := by cases h <;> simp_all [Head.letVar]
  captured_let _ := rfl
  symbol_let _ := rfl
  symbol_var _ _ := rfl
  captured_symbol h s e := by cases h <;> simp_all [Head.symbol, Head.captured]
  isAtom_var _ _ := rfl

end Verif.Yarr
