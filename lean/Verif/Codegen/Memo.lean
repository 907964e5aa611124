import Verif.Codegen.Compile

/-!
The compiler with its memo table (`transformed`, `ein/codegen/phi_to_yarr.py:36`, `297-304`).

The table is keyed by the expression alone: an expression that was compiled once is not compiled again, whatever the
sizes of indices and the axes of variables are then. It is kept during the whole compilation, except that what was
added while the body of a loop or a reduction was compiled to find its axes is removed again
(`phi_to_yarr.py:169-177`, `198-204`).

One node of the compiler is written here as a sequence of requests to compile other expressions (`Ask`), which can be
answered without a table (`Ask.run`; this is `compileStep`, see `run_stepAsk`) or with one (`Ask.runMemo`).

`Index()` is a new object whenever it is called (`phi_to_yarr.py:86`, `209`, `415`): the options, which choose the new
indices, may depend on how many nodes were compiled before.
-/

set_option linter.unusedSectionVars false

namespace Verif.Codegen
open Verif.Phi Verif.Term Verif.Yarr Verif.Arr
variable {F : Type}

/-- A computation that asks for the code of expressions, for given sizes of indices and axes of variables. If not
`keep`, the table is put back afterwards to what it was. -/
inductive Ask (F α : Type) where
  | ret (r : Option α)
  | ask (keep : Bool) (sizes : Nat → Option (YExpr F)) (vaxes : Nat → List Nat) (e : Expr F) (k : Axial F → Ask F α)

namespace Ask
variable {α β : Type}

/-- Sequencing -/
def bind : Ask F α → (α → Ask F β) → Ask F β
  | .ret none, _ => .ret none
  | .ret (some x), f => f x
  | .ask kp s v e k, f => .ask kp s v e fun x => bind (k x) f

/-- A step that asks nothing -/
def pure (x : Option α) : Ask F α := .ret x

/-- One request -/
def one (s : Nat → Option (YExpr F)) (v : Nat → List Nat) (e : Expr F) : Ask F (Axial F) :=
  .ask true s v e fun x => .ret (some x)

/-- One request whose effect on the table is undone -/
def try_ (s : Nat → Option (YExpr F)) (v : Nat → List Nat) (e : Expr F) : Ask F (Axial F) :=
  .ask false s v e fun x => .ret (some x)

/-- One after the other -/
def map (f : β → Ask F α) : List β → Ask F (List α)
  | [] => .ret (some [])
  | x :: l => (f x).bind fun y => (map f l).bind fun ys => .ret (some (y :: ys))

/-- Without a table -/
def run (go : (Nat → Option (YExpr F)) → (Nat → List Nat) → Expr F → Option (Axial F)) : Ask F α → Option α
  | .ret r => r
  | .ask _ s v e k => (go s v e).bind fun x => run go (k x)

/-- With a state, of which `T` is the part that is put back -/
def runMemo {T : Type} (go : T × Nat → (Nat → Option (YExpr F)) → (Nat → List Nat) → Expr F →
    Option (Axial F × (T × Nat))) : T × Nat → Ask F α → Option (α × (T × Nat))
  | t, .ret r => r.map (·, t)
  | t, .ask kp s v e k => (go t s v e).bind fun r => runMemo go (if kp then r.2 else (t.1, r.2.2)) (k r.1)

end Ask

/-- `piece` -/
def pieceAsk (go : Expr F → Ask F (Axial F)) (d : YExpr F) : Option (Expr F) → Ask F (YExpr F)
  | none => .ret (some d)
  | some e => (go e).bind fun x => .ret x.normal

/-- `windowGet` (`array_indexing.py:88-102`) -/
def windowAsk (go : Expr F → Ask F (Axial F)) (sizes : Nat → Option (YExpr F)) (t : Expr F) (target : Axial F)
    (index : Nat) (c : Clip F) : Ask F (Axial F) :=
  (Ask.pure (sizes index)).bind fun size =>
  (go (dimExpr t 0)).bind fun x => (Ask.pure x.normal).bind fun d =>
  (Ask.pure (target.positional 0)).bind fun p =>
  (pieceAsk go (yint 0) c.1).bind fun shift =>
  (pieceAsk go (yint 0) c.2.1).bind fun low =>
  (pieceAsk go (yop .subtract d (yint 1)) c.2.2).bind fun high =>
  .ret ((padSliceGet target.expr p shift low high size).bind fun e => Axial.mk? (target.axes ++ [index]) e)

/-- `getCode` (`array_indexing.py:66-109`) -/
def getAsk (o : Opts F) (go : Expr F → Ask F (Axial F)) (sizes : Nat → Option (YExpr F)) (t i : Expr F) :
    Ask F (Axial F) :=
  (go t).bind fun target => (Ask.pure (rankOf target.expr)).bind fun _ =>
  match window o t i with
  | some (index, c) =>
    if elided o t index c then .ret (Axial.mk? (target.axes ++ [index]) target.expr)
    else windowAsk go sizes t target index c
  | none => (go i).bind fun item => .ret (itemGet o.takes target item)

/-- `loopCode` (`phi_to_yarr.py:161-191`) -/
def loopAsk (strict : Bool) (sizes : Nat → Option (YExpr F)) (vaxes : Nat → List Nat) (c a : Nat) (n z b : Expr F) :
    Ask F (Axial F) :=
  (Ask.one sizes vaxes n).bind fun size => (Ask.pure size.normal).bind fun n' =>
  (Ask.one sizes vaxes z).bind fun init =>
  (Ask.try_ sizes (upd vaxes a init.axes) b).bind fun pre =>
  (Ask.one sizes (upd vaxes a pre.axes) b).bind fun body =>
  .ret ((init.repeated strict pre.axes sizes).bind fun z' => (body.aligned pre.axes).bind fun b' =>
    Axial.mk? pre.axes (node (.fold c a) [n', z', b']))

/-- `reduceCode` (`phi_to_yarr.py:192-223`) -/
def reduceAsk (o : Opts F) (sizes : Nat → Option (YExpr F)) (vaxes : Nat → List Nat) (x y : Nat) (z b : Expr F)
    (vs : List (Expr F)) : Ask F (Axial F) :=
  (Ask.one sizes vaxes z).bind fun init => (Ask.map (Ask.one sizes vaxes) vs).bind fun vecs =>
  let some_ := alignment (init.axes :: vecs.map Axial.axes)
  (Ask.try_ sizes (upd (upd vaxes x some_) y some_) b).bind fun pre =>
  let xy := pre.axes ++ [o.batch x]
  (Ask.one sizes (upd (upd vaxes x xy) y xy) b).bind fun body =>
  .ret (if o.strict = true ∧ (body.axes ≠ xy ∨ (sizes (o.batch x)).isSome = true) then none else
    (init.repeated o.strict pre.axes sizes).bind fun z' =>
    (mapOpt (fun v : Axial F => v.repeated o.strict pre.axes sizes) vecs).bind fun vs' =>
    if vs' = [] then none else
    Axial.mk? pre.axes (node (.reduce x y pre.axes.length) [z', body.expr, tupleMaybe vs']))

/-- `planCode` (`phi_to_yarr.py:80-160`) -/
def planAsk (sizes : Nat → Option (YExpr F)) (vaxes : Nat → List Nat) : Plan F → Ask F (Axial F)
  | .fail => .ret none
  | .bulk _ k _ elems init => (Ask.one sizes vaxes elems).bind fun x => (Ask.one sizes vaxes init).bind fun z =>
    .ret (reductionCode k x z)
  | .dot _ sums products =>
    (Ask.map (fun q : Nat × Expr F => (Ask.one sizes vaxes q.2).bind fun x =>
      .ret (x.normal.map fun n => (q.1, n))) sums).bind fun ns =>
    (Ask.map (fun p : List Nat × List (Expr F) => Ask.map (Ask.one (withSums sizes ns) vaxes) p.2) products).bind
      fun xs => .ret (einsumCode (sums.map Prod.fst) xs)

/-- `compileStep` (`phi_to_yarr.py:41-295`), as a sequence of requests. -/
def stepAsk (o : Opts F) (sizes : Nat → Option (YExpr F)) (vaxes : Nat → List Nat) :
    Phi.Head F → List (Expr F) → Ask F (Axial F)
  | .const v τ, [] => .ret ((constArr τ v).bind fun a => (prim τ).bind fun p =>
      Axial.mk? [] (node (.const (.arr a) p) []))
  | .store (.idx i) _, [] => .ret ((sizes i).bind fun n => Axial.mk? [i] (node .range [n]))
  | .store (.var v) τ, [] => .ret ((prim τ).bind fun p => (deltaTy (vaxes v).length p).bind fun p =>
      Axial.mk? (vaxes v) (node (.var v p) []))
  | .letv v, [b, e] => (Ask.one sizes vaxes b).bind fun x =>
      (Ask.one sizes (upd vaxes v x.axes) e).bind fun y => .ret (y.within v x.expr)
  | .assertEq, t :: _ => Ask.one sizes vaxes t
  | .dim k, [t] => (Ask.one sizes vaxes t).bind fun x => .ret ((x.positional k).bind fun p =>
      Axial.mk? [] (node (.dim p) [x.expr]))
  | .fold c a, [n, z, b] =>
    match o.plan c a n z b with
    | some p => planAsk sizes vaxes p
    | none => loopAsk o.strict sizes vaxes c a n z b
  | .reduce x y, z :: b :: vs => reduceAsk o sizes vaxes x y z b vs
  | .get, [t, i] => getAsk o (Ask.one sizes vaxes) sizes t i
  | .concat, [a, b] => (Ask.one sizes vaxes a).bind fun x => (Ask.one sizes vaxes b).bind fun y =>
      let axes := alignment [x.axes, y.axes]
      .ret ((x.repeated o.strict axes sizes).bind fun x' => (y.repeated o.strict axes sizes).bind fun y' =>
        Axial.mk? axes (node (.concat axes.length) [x', y']))
  | .vec i, [n, b] => (Ask.one sizes vaxes n).bind fun size => (Ask.pure size.normal).bind fun n' =>
      (Ask.one (upd sizes i (some n')) vaxes b).bind fun y => .ret (y.along i n')
  | .op f, ts => (Ask.map (Ask.one sizes vaxes) ts).bind fun xs => .ret (
      if f = .castToFloat then
        match xs with
        | [x] => Axial.mk? x.axes (node (.cast .float) [x.expr])
        | _ => none
      else
        let axes := alignment (xs.map Axial.axes)
        (mapOpt (fun x : Axial F => x.aligned axes false) xs).bind fun es =>
        Axial.mk? axes (node (.elem f none) es))
  | .cons, [a, b] => (Ask.one sizes vaxes a).bind fun x => (Ask.one sizes vaxes b).bind fun y =>
      .ret (if o.pairs x.axes y.axes then x.cons y else none)
  | .fst, [t] =>
      match typeOf t with
      | some (.pair τ _) => (Ask.pure (prim τ)).bind fun p => (Ask.one sizes vaxes t).bind fun x =>
          .ret (x.sliceTuple 0 p.length)
      | _ => .ret none
  | .snd, [t] =>
      match typeOf t with
      | some (.pair τ τ') => (Ask.pure (prim τ)).bind fun p => (Ask.pure (prim τ')).bind fun q =>
        (Ask.one sizes vaxes t).bind fun x => .ret (x.sliceTuple p.length (p ++ q).length)
      | _ => .ret none
  | .ext fn τ, ts => (Ask.map (Ask.one sizes vaxes) ts).bind fun xs =>
      let axes := alignment (xs.map Axial.axes)
      .ret ((mapOpt (fun x : Axial F => x.aligned axes false) xs).bind fun es =>
        (prim τ).bind fun p => (deltaTy axes.length p).bind fun p =>
        Axial.mk? axes (node (.ext fn p) es))
  | _, _ => .ret none

/-! ### The two compilers -/

/-- The memo table. -/
abbrev Table (F : Type) := List (Expr F × Axial F)

/-- The entry of an expression. -/
def Table.get [DecidableEq F] (T : Table F) (e : Expr F) : Option (Axial F) :=
  (T.find? fun q => decide (q.1 = e)).map Prod.snd

/-- `go` (`phi_to_yarr.py:41-304`), with the table and the number of nodes compiled so far. -/
def compileMemo [DecidableEq F] (o : Nat → Opts F) : Nat → Table F × Nat → (Nat → Option (YExpr F)) →
    (Nat → List Nat) → Expr F → Option (Axial F × (Table F × Nat))
  | 0, _, _, _, _ => none
  | n + 1, t, sizes, vaxes, .node h ts =>
    match t.1.get (.node h ts) with
    | some x => some (x, t)
    | none => (Ask.runMemo (compileMemo o n) (t.1, t.2 + 1) (stepAsk (o t.2) sizes vaxes h ts)).map fun r =>
        (r.1, ((.node h ts, r.1) :: r.2.1, r.2.2))

/-- `go(program, {}, {}).normal` (`phi_to_yarr.py:308`), with the table. -/
def compileProgramMemo [DecidableEq F] (o : Nat → Opts F) (fuel : Nat) (p : Expr F) : Option (YExpr F) :=
  (compileMemo o fuel ([], 0) (fun _ => none) (fun _ => []) p).bind fun r => r.1.normal

/-! ### Without the table -/

namespace Ask
variable {α β : Type} {go : (Nat → Option (YExpr F)) → (Nat → List Nat) → Expr F → Option (Axial F)}

theorem run_bind (m : Ask F α) (f : α → Ask F β) : (m.bind f).run go = (m.run go).bind fun x => (f x).run go := by
  induction m with
  | ret r => cases r <;> rfl
  | ask kp s v e k ih =>
    simp only [bind, run, Option.bind_assoc]
    congr 1
    funext x
    exact ih x

theorem run_one (s : Nat → Option (YExpr F)) (v : Nat → List Nat) (e : Expr F) : (one s v e).run go = go s v e := by
  simp [one, run]

theorem run_try (s : Nat → Option (YExpr F)) (v : Nat → List Nat) (e : Expr F) : (try_ s v e).run go = go s v e := by
  simp [try_, run]

theorem run_map (f : β → Ask F α) (l : List β) : (map f l).run go = mapOpt (fun x => (f x).run go) l := by
  induction l with
  | nil => rfl
  | cons x l ih => simp only [map, run_bind, ih, run, mapOpt]

end Ask

theorem run_stepAsk (o : Opts F) (go : (Nat → Option (YExpr F)) → (Nat → List Nat) → Expr F → Option (Axial F))
    (sizes : Nat → Option (YExpr F)) (vaxes : Nat → List Nat) (h : Phi.Head F) (ts : List (Expr F)) :
    (stepAsk o sizes vaxes h ts).run go = compileStep o go sizes vaxes h ts := by
  have piece_run : ∀ d c, (pieceAsk (Ask.one sizes vaxes) d c).run go = piece (go sizes vaxes) d c := by
    intro d c
    cases c with
    | none => rfl
    | some e => simp only [pieceAsk, Ask.run_bind, Ask.run_one, Ask.run, piece]
  unfold stepAsk compileStep
  split <;> simp only [Ask.run, Ask.run_bind, Ask.run_one, Ask.run_map, Ask.pure]
  · split
    · rename_i p hp
      rw [hp]
      cases p <;> simp only [planAsk, planCode, Ask.run, Ask.run_bind, Ask.run_one, Ask.run_map, Option.map_bind]
      rfl
    · rename_i hp
      rw [hp]
      simp only [loopAsk, loopCode, Ask.run, Ask.run_bind, Ask.run_one, Ask.run_try, Ask.pure]
  · simp only [reduceAsk, reduceCode, Ask.run, Ask.run_bind, Ask.run_one, Ask.run_try, Ask.run_map]
  · simp only [getAsk, getCode, Ask.run, Ask.run_bind, Ask.run_one, Ask.pure]
    congr 1; funext x; congr 1; funext r
    split
    · rename_i hw
      rw [hw]
      dsimp only
      split
      · rfl
      · simp only [windowAsk, windowGet, Ask.run, Ask.run_bind, Ask.run_one, Ask.pure, piece_run, Option.bind_assoc]
    · rename_i hw
      rw [hw]
      simp only [Ask.run_bind, Ask.run_one, Ask.run]
  · rfl
  · rename_i t
    rcases Phi.typeOf t with _ | τ
    · rfl
    · cases τ <;> simp only [Ask.run, Ask.run_bind, Ask.run_one]
  · rename_i t
    rcases Phi.typeOf t with _ | τ
    · rfl
    · cases τ <;> simp only [Ask.run, Ask.run_bind, Ask.run_one]

end Verif.Codegen
