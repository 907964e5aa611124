import Verif.Codegen.Plan
import Verif.Codegen.Clip
import Verif.Codegen.PadSlice

/-!
The translation of phi expressions to array code (`ein/codegen/phi_to_yarr.py:25-315`,
`ein/codegen/array_indexing.py:66-177`).

Simplifications:
* The passes before it (`struct_of_arrays_transform`, `phi_to_yarr.py:38`) and after it
  (`cancel_shape_ops`, `cancel_tuple_ops`, `309-312`; see C29) are not part of it.
* Which folds are compiled to reductions or `einsum` (`phi_to_yarr.py:80-160`) is a parameter: see
  `Codegen/Planned.lean` for the decisions of the program.
* The new index of a `Reduce` (`Index()`, `209`) is a parameter.
* The memo table `transformed` (`297-304`) is left out; see `Codegen/Memo.lean` for the compiler with it, and C35.
* The recursion is bounded by `fuel`, because reads also compile expressions that are not sub-expressions
  (`array_indexing.py:91-99`); `none` when it runs out.
-/

namespace Verif.Codegen
open Verif.Phi Verif.Term Verif.Yarr Verif.Arr
variable {F : Type}

/-- The options of `transform` (`phi_to_yarr.py:25-35`), the answers of `size_class.equiv` for an index and
an expression (`phi_to_yarr.py:39`, `array_indexing.py:86`), and a check on the axes of the two components
of a pair. The program has no such check: for it, `pairs` is constantly true. `plan` says how a fold with
the given counter, accumulator, size, initial value and body is compiled (`phi_to_yarr.py:80-160`), if not to a
loop; the expressions in a plan are smaller than the fold, and mention no other indices than the fold and the new
ones.

`batch x` is the new index for the reduction that binds `x` (`phi_to_yarr.py:209`). If `strict`, code is refused
where an axis would have to be repeated that has no size, and where the axes of the body of a reduction are not
those of its variables or its new index has a size already. The program does not check this: for it, `strict` is false. `same` is a test for equality of
values, used in `check` (`Codegen/Checked.lean`), not by the compiler. -/
structure Opts (F : Type) where
  takes : Bool
  slicePads : Bool
  sliceElision : Bool
  equiv : Nat → Expr F → Bool
  pairs : List Nat → List Nat → Bool
  batch : Nat → Nat := fun x => x
  strict : Bool := false
  same : D F → D F → Bool := fun _ _ => false
  same_eq : ∀ v w, same v w = true → v = w := by simp
  plan : Nat → Nat → Expr F → Expr F → Expr F → Option (Plan F) := fun _ _ _ _ _ => none
  small : ∀ c a n z b p, plan c a n z b = some p → ∀ t ∈ p.exprs, size t < size (fold c a n z b) ∧
    ∀ i, Sym.idx i ∈ fv t → Sym.idx i ∈ fv (fold c a n z b) ∨ i ∈ p.new := by simp

/-- `_dim_of` (`size_classes.py:22-31`) -/
def dimExpr (e : Expr F) : Nat → Expr F :=
  para (fun h (ts : List (Expr F × (Nat → Expr F))) k =>
    match h, ts, k with
    | .get, [t, _], k => t.2 (k + 1)
    | .vec _, [n, _], 0 => n.1
    | h, ts, k => dim (node h (ts.map Prod.fst)) k) e

/-- The shape of a nested value, read off the first elements. -/
def valShape {S : Type} : Nat → Val S → List Nat
  | n + 1, .vec (v :: vs) => (vs.length + 1) :: valShape n v
  | _, .vec vs => [vs.length]
  | _, _ => []

/-- Has the value this shape everywhere? -/
def rect {S : Type} : List Nat → Val S → Bool
  | [], .sc _ => true
  | n :: s, .vec vs => decide (vs.length = n) && vs.all (rect s)
  | _, _ => false

/-- One element of a nested value. -/
def readAt {S : Type} : List Nat → Val S → Option S
  | [], .sc x => some x
  | i :: ix, .vec vs => (vs[i]?).bind (readAt ix)
  | _, _ => none

/-- The number of dimensions of a type. -/
def tyDepth : Ty → Nat
  | .vector τ => tyDepth τ + 1
  | _ => 0

/-- The array in a constant (`phi_to_yarr.py:47-48`): in the program a constant holds a NumPy array already.
Constants that are pairs are not modelled. -/
def constArr {S : Type} (τ : Ty) (v : Val S) : Option (NArr S) :=
  let s := valShape (tyDepth τ) v
  if rect s v then NArr.ofFn? s (readAt · v) else none

/-- `general_get` (`array_indexing.py:158-177`) -/
def generalGet (target item : Axial F) : Option (Axial F) :=
  (rankOf target.expr).bind fun r =>
  let axes := alignment [item.axes, target.axes]
  (target.aligned axes).bind fun t => (item.aligned axes).bind fun i =>
  Axial.mk? axes (node (.squeeze [axes.length]) [node (.gather axes.length)
    [t, node (.unsqueeze ((List.range (r - target.axes.length)).map (axes.length + ·))) [i]]])

/-- The end of `transform_get` (`array_indexing.py:103-109`). -/
def itemGet (takes : Bool) (target item : Axial F) : Option (Axial F) :=
  if takes = true ∧ ∀ i ∈ target.axes, i ∉ item.axes then
    (rankOf target.expr).bind fun r => (target.positional 0).bind fun p =>
    Axial.mk? (target.axes ++ item.axes) (node (.take (putMask r p)) [target.expr, item.expr])
  else generalGet target item

/-- A part of a clipped shift: its code without axes, or the default (`array_indexing.py:97-99`). -/
def piece (go : Expr F → Option (Axial F)) (d : YExpr F) : Option (Expr F) → Option (YExpr F)
  | none => some d
  | some e => (go e).bind Axial.normal

/-- The slice and pad of `transform_get` (`array_indexing.py:88-102`). -/
def windowGet (go : Expr F → Option (Axial F)) (sizes : Nat → Option (YExpr F)) (t : Expr F) (target : Axial F)
    (index : Nat) (c : Clip F) : Option (Axial F) :=
  (sizes index).bind fun size =>
  ((go (dimExpr t 0)).bind Axial.normal).bind fun d =>
  (target.positional 0).bind fun p =>
  (piece go (yint 0) c.1).bind fun shift =>
  (piece go (yint 0) c.2.1).bind fun low =>
  (piece go (yop .subtract d (yint 1)) c.2.2).bind fun high =>
  (padSliceGet target.expr p shift low high size).bind fun e =>
  Axial.mk? (target.axes ++ [index]) e

/-- Is the read dropped entirely? (`array_indexing.py:84-86`) -/
def elided (o : Opts F) (t : Expr F) (index : Nat) (c : Clip F) : Bool :=
  o.sliceElision && c.1.isNone && c.2.1.isNone && c.2.2.isNone && o.equiv index (dimExpr t 0)

/-- The recognised form of a position, if reads of this form are compiled to slices
(`array_indexing.py:79-83`). -/
def window (o : Opts F) (t i : Expr F) : Option (Nat × Clip F) :=
  if o.slicePads then
    match matchIndexClip i with
    | some (index, c) => if Sym.idx index ∈ fv t then none else some (index, c)
    | none => none
  else none

/-- `transform_get` (`array_indexing.py:66-109`). `rank` is computed first (`78`). -/
def getCode (o : Opts F) (go : Expr F → Option (Axial F)) (sizes : Nat → Option (YExpr F)) (t i : Expr F) :
    Option (Axial F) :=
  (go t).bind fun target => (rankOf target.expr).bind fun _ =>
  match window o t i with
  | some (index, c) =>
    if elided o t index c then Axial.mk? (target.axes ++ [index]) target.expr
    else windowGet go sizes t target index c
  | none => (go i).bind fun item => itemGet o.takes target item

/-- `aligned` with the sizes of indices as repeats. An axis without a size is not repeated (`axial.py:165-167`): if
`strict`, that is refused. -/
def Axial.repeated (strict : Bool) (x : Axial F) (into : List Nat) (sizes : Nat → Option (YExpr F)) :
    Option (YExpr F) :=
  if strict = true ∧ ∃ i ∈ into, i ∉ x.axes ∧ sizes i = none then none else x.aligned into true sizes

/-- The code of a loop (`phi_to_yarr.py:161-191`) -/
def loopCode (strict : Bool) (go : (Nat → Option (YExpr F)) → (Nat → List Nat) → Expr F → Option (Axial F))
    (sizes : Nat → Option (YExpr F)) (vaxes : Nat → List Nat) (c a : Nat) (n z b : Expr F) : Option (Axial F) :=
  (go sizes vaxes n).bind fun size => size.normal.bind fun n' =>
  (go sizes vaxes z).bind fun init =>
  (go sizes (upd vaxes a init.axes) b).bind fun pre =>
  (go sizes (upd vaxes a pre.axes) b).bind fun body =>
  (init.repeated strict pre.axes sizes).bind fun z' => (body.aligned pre.axes).bind fun b' =>
  Axial.mk? pre.axes (node (.fold c a) [n', z', b'])

/-- The code of a reduction (`phi_to_yarr.py:192-223`). The body is compiled twice: to find its axes, and with the
axis of the batch after them. `vecs[0]` raises if there are no vectors (`216`). -/
def reduceCode (o : Opts F) (go : (Nat → Option (YExpr F)) → (Nat → List Nat) → Expr F → Option (Axial F))
    (sizes : Nat → Option (YExpr F)) (vaxes : Nat → List Nat) (x y : Nat) (z b : Expr F) (vs : List (Expr F)) :
    Option (Axial F) :=
  (go sizes vaxes z).bind fun init => (mapOpt (go sizes vaxes) vs).bind fun vecs =>
  let some_ := alignment (init.axes :: vecs.map Axial.axes)
  (go sizes (upd (upd vaxes x some_) y some_) b).bind fun pre =>
  let xy := pre.axes ++ [o.batch x]
  (go sizes (upd (upd vaxes x xy) y xy) b).bind fun body =>
  if o.strict = true ∧ (body.axes ≠ xy ∨ (sizes (o.batch x)).isSome = true) then none else
  (init.repeated o.strict pre.axes sizes).bind fun z' =>
  (mapOpt (fun v : Axial F => v.repeated o.strict pre.axes sizes) vecs).bind fun vs' =>
  if vs' = [] then none else
  Axial.mk? pre.axes (node (.reduce x y pre.axes.length) [z', body.expr, tupleMaybe vs'])

/-- One node of `_go` (`phi_to_yarr.py:41-295`); `go` compiles with the given sizes of indices and axes of
variables. -/
def compileStep (o : Opts F) (go : (Nat → Option (YExpr F)) → (Nat → List Nat) → Expr F → Option (Axial F))
    (sizes : Nat → Option (YExpr F)) (vaxes : Nat → List Nat) : Phi.Head F → List (Expr F) → Option (Axial F)
  | .const v τ, [] => (constArr τ v).bind fun a => (prim τ).bind fun p =>
      Axial.mk? [] (node (.const (.arr a) p) [])
  | .store (.idx i) _, [] => (sizes i).bind fun n => Axial.mk? [i] (node .range [n])
  | .store (.var v) τ, [] => (prim τ).bind fun p => (deltaTy (vaxes v).length p).bind fun p =>
      Axial.mk? (vaxes v) (node (.var v p) [])
  | .letv v, [b, e] => (go sizes vaxes b).bind fun x =>
      (go sizes (upd vaxes v x.axes) e).bind fun y => y.within v x.expr
  | .assertEq, t :: _ => go sizes vaxes t
  | .dim k, [t] => (go sizes vaxes t).bind fun x => (x.positional k).bind fun p =>
      Axial.mk? [] (node (.dim p) [x.expr])
  | .fold c a, [n, z, b] =>
    match o.plan c a n z b with
    | some p => planCode (fun sizes => go sizes vaxes) sizes p
    | none =>
      loopCode o.strict go sizes vaxes c a n z b
  | .reduce x y, z :: b :: vs => reduceCode o go sizes vaxes x y z b vs
  | .get, [t, i] => getCode o (go sizes vaxes) sizes t i
  | .concat, [a, b] => (go sizes vaxes a).bind fun x => (go sizes vaxes b).bind fun y =>
      let axes := alignment [x.axes, y.axes]
      (x.repeated o.strict axes sizes).bind fun x' => (y.repeated o.strict axes sizes).bind fun y' =>
      Axial.mk? axes (node (.concat axes.length) [x', y'])
  | .vec i, [n, b] => (go sizes vaxes n).bind fun size => size.normal.bind fun n' =>
      (go (upd sizes i (some n')) vaxes b).bind fun y => y.along i n'
  | .op f, ts => (mapOpt (go sizes vaxes) ts).bind fun xs =>
      if f = .castToFloat then
        match xs with
        | [x] => Axial.mk? x.axes (node (.cast .float) [x.expr])
        | _ => none
      else
        let axes := alignment (xs.map Axial.axes)
        (mapOpt (fun x : Axial F => x.aligned axes false) xs).bind fun es =>
        Axial.mk? axes (node (.elem f none) es)
  | .cons, [a, b] => (go sizes vaxes a).bind fun x => (go sizes vaxes b).bind fun y =>
      if o.pairs x.axes y.axes then x.cons y else none
  | .fst, [t] =>
      match typeOf t with
      | some (.pair τ _) => (prim τ).bind fun p => (go sizes vaxes t).bind fun x => x.sliceTuple 0 p.length
      | _ => none
  | .snd, [t] =>
      match typeOf t with
      | some (.pair τ τ') => (prim τ).bind fun p => (prim τ').bind fun q =>
        (go sizes vaxes t).bind fun x => x.sliceTuple p.length (p ++ q).length
      | _ => none
  | .ext fn τ, ts => (mapOpt (go sizes vaxes) ts).bind fun xs =>
      let axes := alignment (xs.map Axial.axes)
      (mapOpt (fun x : Axial F => x.aligned axes false) xs).bind fun es =>
      (prim τ).bind fun p => (deltaTy axes.length p).bind fun p =>
      Axial.mk? axes (node (.ext fn p) es)
  | _, _ => none

theorem compileStep_plan {o : Opts F} {go : (Nat → Option (YExpr F)) → (Nat → List Nat) → Expr F → Option (Axial F)}
    {sizes : Nat → Option (YExpr F)} {vaxes : Nat → List Nat} {c a : Nat} {n z b : Expr F} {p : Plan F}
    (h : o.plan c a n z b = some p) :
    compileStep o go sizes vaxes (.fold c a) [n, z, b] = planCode (fun sizes => go sizes vaxes) sizes p := by
  unfold compileStep
  dsimp only
  rw [h]

theorem compileStep_loop {o : Opts F} {go : (Nat → Option (YExpr F)) → (Nat → List Nat) → Expr F → Option (Axial F)}
    {sizes : Nat → Option (YExpr F)} {vaxes : Nat → List Nat} {c a : Nat} {n z b : Expr F}
    (h : o.plan c a n z b = none) :
    compileStep o go sizes vaxes (.fold c a) [n, z, b] = loopCode o.strict go sizes vaxes c a n z b := by
  unfold compileStep
  dsimp only
  rw [h]

/-- `go` (`phi_to_yarr.py:41-304`) -/
def compile (o : Opts F) : Nat → (Nat → Option (YExpr F)) → (Nat → List Nat) → Expr F → Option (Axial F)
  | 0, _, _, _ => none
  | n + 1, sizes, vaxes, .node h ts => compileStep o (compile o n) sizes vaxes h ts

/-- `go(program, {}, {}).normal` (`phi_to_yarr.py:308`) -/
def compileProgram (o : Opts F) (fuel : Nat) (p : Expr F) : Option (YExpr F) :=
  (compile o fuel (fun _ => none) (fun _ => []) p).bind Axial.normal

end Verif.Codegen
