import Verif.Phi.Sem
import Verif.Props.C15

/-! Type soundness of the phi calculus: evaluation with two kinds of failure. -/

set_option linter.unusedSectionVars false

namespace Verif.Phi
open Verif.Term
variable {F : Type}

/-- Why evaluation fails: `stuck` is an operation applied to a value of the wrong form (a wrong scalar
kind, a scalar where a vector is needed, a missing variable or component); `raised` are the failures that
depend on the data: ragged rows, reading from an empty vector, unequal sizes in an assertion or a
reduction, a failing external function. -/
inductive Err where
  | stuck | raised
deriving DecidableEq

/-- Results. -/
abbrev Res (α : Type) := Except Err α

/-- The value or a failure of the given kind. -/
def orErr {α : Type} (e : Err) : Option α → Res α
  | some a => .ok a
  | none => .error e

/-- Sequencing. -/
def Res.andThen {α β : Type} (r : Res α) (f : α → Res β) : Res β :=
  match r with
  | .ok a => f a
  | .error e => .error e

/-- `mapOpt` with failures. -/
def mapRes {α β : Type} (f : α → Res β) : List α → Res (List β)
  | [] => .ok []
  | a :: l => (f a).andThen fun b => (mapRes f l).andThen fun bs => .ok (b :: bs)

/-- `loopOpt` with failures. -/
def loopRes {α β : Type} (f : β → α → Res β) : β → List α → Res β
  | b, [] => .ok b
  | b, a :: l => (f b a).andThen fun b' => loopRes f b' l

/-- Length along an axis; a dimension below an empty one is not represented. -/
def dimRes {S : Type} : Nat → Val S → Res Nat
  | 0, .vec vs => .ok vs.length
  | k + 1, .vec (v :: _) => dimRes k v
  | _ + 1, .vec [] => .error .raised
  | _, _ => .error .stuck

/-- The expected form of a value, or stuck. -/
def asIntRes (r : Res (D F)) : Res Int := r.andThen fun v => orErr .stuck v.asInt
@[inherit_doc asIntRes] def asVecRes (r : Res (D F)) : Res (List (D F)) := r.andThen fun v => orErr .stuck v.asVec
@[inherit_doc asIntRes] def asScalRes (r : Res (D F)) : Res (Scal F) := r.andThen fun v => orErr .stuck v.asScal

variable [FloatOps F]

/-- One node of `_interpret` (`naive.py:14-85`), like `runDen`, telling the two kinds of failure apart. -/
def resDen (I : Ext F) : Head F → List (Env (D F) → Res (D F)) → Env (D F) → Res (D F)
  | .const v _, _, _ => .ok v
  | .store s _, _, env => orErr .stuck (env s)
  | .letv v, [f, g], env => (f env).andThen fun x => g (env.set (.var v) (some x))
  | .assertEq, f :: ops, env => (mapRes asIntRes (ops.map (· env))).andThen fun ns =>
      match ns with
      | [] => .error .stuck
      | n :: rest => if rest.all (fun m => decide (m = n)) then f env else .error .raised
  | .dim k, [f], env => (f env).andThen fun v => (dimRes k v).andThen fun n => .ok (.int n)
  | .get, [f, g], env => (asVecRes (f env)).andThen fun vs => (asIntRes (g env)).andThen fun n =>
      orErr .raised (Val.get vs n)
  | .concat, [f, g], env => (asVecRes (f env)).andThen fun vs => (asVecRes (g env)).andThen fun ws =>
      if Val.uniform (vs ++ ws) then .ok (.vec (vs ++ ws)) else .error .raised
  | .cons, [f, g], env => (f env).andThen fun x => (g env).andThen fun y => .ok (.pair x y)
  | .fst, [f], env => (f env).andThen fun v => match v with | .pair x _ => .ok x | _ => .error .stuck
  | .snd, [f], env => (f env).andThen fun v => match v with | .pair _ y => .ok y | _ => .error .stuck
  | .vec i, [n, b], env => (asIntRes (n env)).andThen fun k =>
      (mapRes (fun j : Nat => b (env.set (.idx i) (some (.int j)))) (List.range k.toNat)).andThen fun vs =>
        if Val.uniform vs then .ok (.vec vs) else .error .raised
  | .fold c a, [n, z, b], env => (asIntRes (n env)).andThen fun k => (z env).andThen fun x =>
      loopRes (fun acc (j : Nat) => b ((env.set (.var a) (some acc)).set (.var c) (some (.int j)))) x
        (List.range k.toNat)
  | .reduce x y, z :: b :: vs, env => (mapRes asVecRes (vs.map (· env))).andThen fun ls =>
      match ls with
      | [] => .error .stuck
      | l :: ls' => if ls'.all (fun l' => decide (l'.length = l.length)) then
          (z env).andThen fun a => loopRes (fun acc i => (orErr .stuck (rowAt (l :: ls') i)).andThen fun row =>
            b ((env.set (.var x) (some acc)).set (.var y) (some row))) a (List.range l.length)
        else .error .raised
  | .op o, fs, env => (mapRes asScalRes (fs.map (· env))).andThen fun ss =>
      (orErr .stuck (applyOp o ss)).andThen fun s => .ok (.sc s)
  | .ext fn _, fs, env => (mapRes (fun v => v) (fs.map (· env))).andThen fun vs => orErr .raised (I fn vs)
  | _, _, _ => .error .stuck

/-- The reference meaning with the kind of failure. -/
def runRes (I : Ext F) (e : Expr F) : Env (D F) → Res (D F) := cata (resDen I) e

theorem runRes_node (I : Ext F) (h : Head F) (ts : List (Expr F)) :
    runRes I (node h ts) = resDen I h (ts.map (runRes I)) := cata_node _ _ _

/-! ### The same values as `run` -/

section
variable {α β : Type}

theorem toOption_andThen (r : Res α) (f : α → Res β) :
    (r.andThen f).toOption = r.toOption.bind fun a => (f a).toOption := by
  cases r <;> rfl

theorem toOption_orErr (e : Err) (o : Option α) : (orErr e o).toOption = o := by cases o <;> rfl

theorem toOption_mapRes (f : α → Res β) (l : List α) :
    (mapRes f l).toOption = mapOpt (fun a => (f a).toOption) l := by
  induction l with
  | nil => rfl
  | cons a l ih => simp [mapRes, mapOpt, toOption_andThen, ih]; rfl

theorem toOption_loopRes (f : β → α → Res β) (b : β) (l : List α) :
    (loopRes f b l).toOption = loopOpt (fun b a => (f b a).toOption) b l := by
  induction l generalizing b with
  | nil => rfl
  | cons a l ih => simp [loopRes, loopOpt, toOption_andThen, ih]

theorem toOption_dimRes {S : Type} (k : Nat) (v : Val S) : (dimRes k v).toOption = Val.dim k v := by
  induction k generalizing v with
  | zero => cases v <;> rfl
  | succ k ih =>
    cases v with
    | vec vs =>
      cases vs with
      | nil => rfl
      | cons v vs => exact ih v
    | sc s => rfl
    | pair a b => rfl

theorem toOption_ite {p : Prop} [Decidable p] (x y : Res α) :
    (if p then x else y).toOption = if p then x.toOption else y.toOption := by split <;> rfl
end

theorem toOption_as (r : Res (D F)) :
    (asIntRes r).toOption = r.toOption.bind Val.asInt ∧ (asVecRes r).toOption = r.toOption.bind Val.asVec ∧
      (asScalRes r).toOption = r.toOption.bind Val.asScal := by
  refine ⟨?_, ?_, ?_⟩ <;> cases r <;> simp [asIntRes, asVecRes, asScalRes, Res.andThen, toOption_orErr] <;> rfl

/-- `runRes` has exactly the values of `run`. -/
theorem runRes_toOption (I : Ext F) (e : Expr F) : ∀ env, (runRes I e env).toOption = run I e env := by
  induction e using ind with
  | step h ts ih =>
    intro env
    rw [runRes_node, run_node]
    have hl : ∀ {γ : Type} (p : Res (D F) → Res γ) (q : Option (D F) → Option γ)
        (_ : ∀ r, (p r).toOption = q r.toOption) (l : List (Expr F)) (_ : ∀ t ∈ l, t ∈ ts),
        (mapRes p ((l.map (runRes I)).map (· env))).toOption = mapOpt q ((l.map (run I)).map (· env)) := by
      intro γ p q hpq l hl
      rw [toOption_mapRes, List.map_map, List.map_map, mapOpt_map, mapOpt_map]
      refine mapOpt_congr fun t ht => ?_
      simp only [Function.comp, hpq, ih t (hl t ht)]
    cases h with
    | const v τ => rfl
    | store s τ => exact toOption_orErr _ _
    | letv v =>
      rcases ts with _ | ⟨a, _ | ⟨b, _ | ⟨_, _⟩⟩⟩ <;> try rfl
      simp only [List.map, resDen, runDen, toOption_andThen, ih a (by simp), ih b (by simp)]
    | assertEq =>
      rcases ts with _ | ⟨a, l⟩ <;> try rfl
      simp only [List.map, resDen, runDen, toOption_andThen, assertOf]
      rw [hl asIntRes (fun v => v.bind Val.asInt) (fun r => (toOption_as r).1) l (fun t ht => by simp [ht])]
      congr 1
      funext ns
      cases ns with
      | nil => rfl
      | cons n ns => simp only [toOption_ite, ih a (by simp)]; rfl
    | dim k =>
      rcases ts with _ | ⟨a, _ | ⟨b, l⟩⟩ <;> try rfl
      simp only [List.map, resDen, runDen, toOption_andThen, toOption_dimRes, dimOf, ih a (by simp), Option.bind_assoc]
      rfl
    | get =>
      rcases ts with _ | ⟨a, _ | ⟨b, _ | ⟨_, _⟩⟩⟩ <;> try rfl
      simp only [List.map, resDen, runDen, toOption_andThen, toOption_as, toOption_orErr, getOf, ih a (by simp),
        ih b (by simp)]
    | concat =>
      rcases ts with _ | ⟨a, _ | ⟨b, _ | ⟨_, _⟩⟩⟩ <;> try rfl
      simp only [List.map, resDen, runDen, toOption_andThen, toOption_as, toOption_ite, concatOf, ih a (by simp),
        ih b (by simp)]
      rfl
    | cons =>
      rcases ts with _ | ⟨a, _ | ⟨b, _ | ⟨_, _⟩⟩⟩ <;> try rfl
      simp only [List.map, resDen, runDen, toOption_andThen, consOf, ih a (by simp), ih b (by simp)]
      rfl
    | fst | snd =>
      rcases ts with _ | ⟨a, _ | ⟨b, l⟩⟩ <;> try rfl
      simp only [List.map, resDen, runDen, toOption_andThen, fstOf, sndOf, ih a (by simp)]
      congr 1
      funext v
      cases v <;> rfl
    | vec i =>
      rcases ts with _ | ⟨n, _ | ⟨b, _ | ⟨_, _⟩⟩⟩ <;> try rfl
      simp only [List.map, resDen, runDen, toOption_andThen, toOption_as, toOption_mapRes, toOption_ite, vecOf,
        ih n (by simp), ih b (by simp)]
      rfl
    | fold c a =>
      rcases ts with _ | ⟨n, _ | ⟨z, _ | ⟨b, _ | ⟨_, _⟩⟩⟩⟩ <;> try rfl
      simp only [List.map, resDen, runDen, toOption_andThen, toOption_as, toOption_loopRes, foldOf,
        ih n (by simp), ih z (by simp), ih b (by simp)]
    | reduce x y =>
      rcases ts with _ | ⟨z, _ | ⟨b, vs⟩⟩ <;> try rfl
      simp only [List.map, resDen, runDen, toOption_andThen, reduceOf]
      rw [hl asVecRes (fun v => v.bind Val.asVec) (fun r => (toOption_as r).2.1) vs (fun t ht => by simp [ht])]
      congr 1
      funext ls
      cases ls with
      | nil => rfl
      | cons l ls =>
        simp only [toOption_ite, toOption_andThen, toOption_loopRes, toOption_orErr, ih z (by simp), ih b (by simp)]
        rfl
    | op o =>
      simp only [resDen, runDen, toOption_andThen, opOf, toOption_orErr]
      rw [hl asScalRes (fun v => v.bind Val.asScal) (fun r => (toOption_as r).2.2) ts (fun t ht => ht)]
      rfl
    | ext fn τ =>
      simp only [resDen, runDen, toOption_andThen, extOf, toOption_orErr]
      rw [hl (fun v => v) (fun v => v) (fun r => rfl) ts (fun t ht => ht)]

/-! ### Declared types -/

/-- Types of symbols. -/
abbrev TCtx := Sym → Option Ty

/-- A context with one more symbol. -/
def TCtx.set (Γ : TCtx) (s : Sym) (τ : Option Ty) : TCtx := fun t => if t = s then τ else Γ t

/-- The values have the types of the expressions. -/
def TypedArgs (ts : List (Expr F)) (args : List (D F)) : Prop :=
  List.Forall₂ (fun v t => ∃ σ, typeOf t = some σ ∧ HasType v σ) args ts

omit [FloatOps F] in
theorem typedArgs_congr {ts us : List (Expr F)} (h : us.map typeOf = ts.map typeOf) (args : List (D F)) :
    TypedArgs us args ↔ TypedArgs ts args := by
  have key : ∀ ts : List (Expr F), TypedArgs ts args ↔
      List.Forall₂ (fun v t => ∃ σ, t = some σ ∧ HasType v σ) args (ts.map typeOf) := fun ts => by
    rw [List.forall₂_map_right_iff]; rfl
  rw [key, key, h]

/-- One node of `Declared`. -/
def declStep (I : Ext F) : Head F → List (Expr F × (TCtx → Prop)) → TCtx → Prop
  | .const v τ, _, _ => HasType v τ
  | .store s τ, _, Γ => Γ s = some τ
  | .letv v, [(b, pb), (_, pe)], Γ => pb Γ ∧ pe (Γ.set (.var v) (typeOf b))
  | .vec i, [(_, pn), (_, pb)], Γ => pn Γ ∧ pb (Γ.set (.idx i) (some (.scalar .int)))
  | .fold c a, [(_, pn), (z, pz), (_, pb)], Γ =>
    pn Γ ∧ pz Γ ∧ pb ((Γ.set (.var a) (typeOf z)).set (.var c) (some (.scalar .int)))
  | .reduce x y, (z, pz) :: (_, pb) :: vs, Γ =>
    pz Γ ∧ (∀ p ∈ vs, p.2 Γ) ∧ pb ((Γ.set (.var x) (typeOf z)).set (.var y) (typeOf z))
  | .ext fn τ, ps, Γ => (∀ p ∈ ps, p.2 Γ) ∧
    ∀ args r, TypedArgs (ps.map Prod.fst) args → I fn args = some r → HasType r τ
  | _, ps, Γ => ∀ p ∈ ps, p.2 Γ

/-- Every symbol occurs with the type of its binder (or, if free, of the context); constants and results
of external functions for operands of their types have the types written on them. -/
def Declared (I : Ext F) (e : Expr F) : TCtx → Prop := para (declStep I) e

theorem declared_node (I : Ext F) (h : Head F) (ts : List (Expr F)) :
    Declared I (node h ts) = declStep I h (ts.map (fun t => (t, Declared I t))) := para_node _ _ _

/-- The environment holds values of the types in the context. -/
def EnvTyped (Γ : TCtx) (env : Env (D F)) : Prop := ∀ s τ, Γ s = some τ → ∃ v, env s = some v ∧ HasType v τ

theorem EnvTyped.set {Γ : TCtx} {env : Env (D F)} (h : EnvTyped Γ env) {s : Sym} {τ : Ty} {v : D F}
    (hv : HasType v τ) : EnvTyped (Γ.set s (some τ)) (env.set s (some v)) := by
  intro t σ ht
  simp only [TCtx.set] at ht
  simp only [Env.set]
  split at ht
  · cases ht; rename_i h1; rw [if_pos h1]; exact ⟨v, rfl, hv⟩
  · rename_i h1; rw [if_neg h1]; exact h t σ ht

/-- The number of dimensions of a type. -/
def _root_.Verif.Ty.rank : Ty → Nat
  | .vector τ => τ.rank + 1
  | _ => 0

/-- One node of `Strictly`. -/
def strictStep : Head F → List (Expr F × Prop) → Prop
  | .get, ps => (∀ p ∈ ps, p.2) ∧ ∀ i, (ps[1]?).map Prod.fst = some i → typeOf i = some (.scalar .int)
  | .dim k, ps => (∀ p ∈ ps, p.2) ∧ ∀ a τ, (ps[0]?).map Prod.fst = some a → typeOf a = some τ → k < Ty.rank τ
  | .assertEq, ps => (∀ p ∈ ps, p.2) ∧ 2 ≤ ps.length ∧ ∀ p ∈ ps.drop 1, typeOf p.1 = some (.scalar .int)
  | _, ps => ∀ p ∈ ps, p.2

/-- What the constructors' type checks leave open: positions in reads are integers, axes exist,
assertions are about at least one integer. -/
def Strictly (e : Expr F) : Prop := para strictStep e

theorem strictly_node (h : Head F) (ts : List (Expr F)) :
    Strictly (node h ts) = strictStep h (ts.map (fun t => (t, Strictly t))) := para_node _ _ _

theorem Strictly.children {h : Head F} {ts : List (Expr F)} (hs : Strictly (node h ts)) :
    ∀ t ∈ ts, Strictly t := by
  rw [strictly_node] at hs
  intro t ht
  have : ∀ p ∈ ts.map (fun t => (t, Strictly t)), p.2 := by
    cases h <;> first | exact hs | exact hs.1
  exact this (t, Strictly t) (List.mem_map.2 ⟨t, ht, rfl⟩)

/-! ### Values of a type have its form -/

theorem _root_.Verif.HasType.asInt {v : D F} (h : HasType v (.scalar .int)) : ∃ n, v.asInt = some n := by
  cases v with
  | sc s =>
    cases s with
    | i n => exact ⟨n, rfl⟩
    | b x => cases h
    | f x => cases h
  | vec vs => cases h
  | pair a b => cases h

theorem _root_.Verif.HasType.asVec {v : D F} {τ : Ty} (h : HasType v (.vector τ)) :
    ∃ vs, v.asVec = some vs ∧ v = .vec vs ∧ ∀ w ∈ vs, HasType w τ := by
  cases h with
  | vec h => exact ⟨_, rfl, rfl, h⟩

theorem _root_.Verif.HasType.asScal {v : D F} {k : Kind} (h : HasType v (.scalar k)) :
    ∃ s, v.asScal = some s ∧ s.kind = k := by
  cases h with
  | sc s => exact ⟨s, rfl, rfl⟩

/-- A result whose value satisfies `P` and which, if `s` holds, is not stuck. -/
def Good (s : Prop) {α : Type} (P : α → Prop) : Res α → Prop
  | .ok a => P a
  | .error .stuck => ¬s
  | .error .raised => True

theorem Good.andThen {s : Prop} {α β : Type} {P : α → Prop} {Q : β → Prop} {r : Res α} {f : α → Res β}
    (hr : Good s P r) (hf : ∀ a, P a → Good s Q (f a)) : Good s Q (r.andThen f) := by
  cases r with
  | ok a => exact hf a hr
  | error e => cases e <;> exact hr

theorem Good.orErr {s : Prop} {α : Type} {P : α → Prop} {o : Option α} (h : ∃ a, o = some a ∧ P a) (e : Err) :
    Good s P (orErr e o) := by
  obtain ⟨a, rfl, ha⟩ := h
  exact ha

theorem Good.mapRes {s : Prop} {α β : Type} {R : α → β → Prop} {f : α → Res β} {l : List α}
    (h : ∀ a ∈ l, Good s (R a) (f a)) : Good s (fun bs => List.Forall₂ R l bs) (mapRes f l) := by
  induction l with
  | nil => exact .nil
  | cons a l ih =>
    refine (h a (by simp)).andThen fun b hb => ?_
    refine (ih fun x hx => h x (by simp [hx])).andThen fun bs hbs => ?_
    exact .cons hb hbs

theorem Good.loopRes {s : Prop} {α β : Type} {P : β → Prop} {f : β → α → Res β} {l : List α}
    (h : ∀ a ∈ l, ∀ b, P b → Good s P (f b a)) {b : β} (hb : P b) : Good s P (loopRes f b l) := by
  induction l generalizing b with
  | nil => exact hb
  | cons a l ih => exact (h a (by simp) b hb).andThen fun c hc => ih (fun x hx => h x (by simp [hx])) hc

theorem Good.mono {s : Prop} {α : Type} {P Q : α → Prop} (h : ∀ a, P a → Q a) {r : Res α} (hr : Good s P r) : Good s Q r := by
  cases r with
  | ok a => exact h a hr
  | error e => cases e <;> exact hr

theorem Good.of_not {s : Prop} (h : ¬s) {α : Type} (r : Res α) : Good s (fun _ => True) r := by
  cases r with
  | ok a => trivial
  | error e => cases e <;> first | exact h | trivial

theorem good_dim {s : Prop} {τ : Ty} {k : Nat} (hk : k < Ty.rank τ) {v : D F} (h : HasType v τ) :
    Good s (fun _ => True) (dimRes k v) := by
  induction k generalizing v τ with
  | zero =>
    cases τ with
    | vector σ => obtain ⟨vs, _, rfl, _⟩ := h.asVec; trivial
    | scalar k => simp [Ty.rank] at hk
    | pair a b => simp [Ty.rank] at hk
  | succ k ih =>
    cases τ with
    | vector σ =>
      obtain ⟨vs, _, rfl, hvs⟩ := h.asVec
      cases vs with
      | nil => trivial
      | cons w vs => exact ih (τ := σ) (by simpa [Ty.rank] using hk) (hvs w (by simp))
    | scalar k => simp [Ty.rank] at hk
    | pair a b => simp [Ty.rank] at hk

theorem hasType_foldl {w : D F} {σ : Ty} (h : HasType w σ) {row : List (D F)} {es : List Ty}
    (hr : List.Forall₂ HasType row es) : HasType (row.foldl .pair w) (es.foldl .pair σ) := by
  induction hr generalizing w σ with
  | nil => exact h
  | cons h1 _ ih => exact ih (.pair h h1)

theorem foldl_pairs {es : List (Option Ty)} {a : Option Ty} {τ : Ty}
    (h : es.foldl (fun a b => match a, b with | some a, some b => some (Ty.pair a b) | _, _ => none) a = some τ) :
    ∃ (a' : Ty) (es' : List Ty), a = some a' ∧ es = es'.map some ∧ τ = es'.foldl .pair a' := by
  induction es generalizing a with
  | nil => exact ⟨τ, [], h, rfl, rfl⟩
  | cons e es ih =>
    rw [List.foldl_cons] at h
    obtain ⟨b, es', h1, h2, h3⟩ := ih h
    cases a with
    | none => cases h1
    | some a =>
      cases e with
      | none => cases h1
      | some e => cases h1; exact ⟨a, e :: es', rfl, by rw [h2]; rfl, h3⟩

theorem foldr_some {ops : List (Option Ty × Finset Sym)} {tys : List Ty}
    (h : ops.foldr (fun o acc => match o.1, acc with | some τ, some l => some (τ :: l) | _, _ => none) (some [])
      = some tys) : ops.map Prod.fst = tys.map some := by
  induction ops generalizing tys with
  | nil => cases h; rfl
  | cons o ops ih =>
    rw [List.foldr_cons] at h
    cases ho : o.1 with
    | none => rw [ho] at h; cases h
    | some τ =>
      rw [ho] at h
      cases hr : ops.foldr (fun o acc => match o.1, acc with | some τ, some l => some (τ :: l) | _, _ => none)
        (some []) with
      | none => rw [hr] at h; cases h
      | some l =>
        rw [hr] at h
        cases h
        rw [List.map_cons, ho, ih hr]
        rfl

/-- Well-typed programs do not get stuck, and their values have their type. -/
theorem runRes_good (s : Prop) (I : Ext F) (e : Expr F) : ∀ (Γ : TCtx) (env : Env (D F)) (τ : Ty),
    Declared I e Γ → (s → Strictly e) → typeOf e = some τ → EnvTyped Γ env →
    Good s (fun v => HasType v τ) (runRes I e env) := by
  induction e using ind with
  | step h ts ih =>
    intro Γ env τ hd hstr ht henv
    have hch : ∀ t ∈ ts, s → Strictly t := fun t ht hs => (hstr hs).children t ht
    rw [declared_node] at hd
    rw [typeOf_node] at ht
    rw [strictly_node] at hstr
    rw [runRes_node]
    have asI : ∀ {r : Res (D F)}, Good s (fun v => HasType v (.scalar .int)) r → Good s (fun _ => True) (asIntRes r) :=
      fun hr => hr.andThen fun v hv => .orErr (by obtain ⟨n, hn⟩ := hv.asInt; exact ⟨n, hn, trivial⟩) _
    have asV : ∀ {r : Res (D F)} {σ : Ty}, Good s (fun v => HasType v (.vector σ)) r →
        Good s (fun vs => ∀ w ∈ vs, HasType w σ) (asVecRes r) :=
      fun hr => hr.andThen fun v hv => .orErr (by obtain ⟨n, hn, _, h⟩ := hv.asVec; exact ⟨n, hn, h⟩) _
    cases h with
    | const v σ =>
      rcases ts with _ | ⟨t, ts⟩
      · cases ht; exact hd
      · simp [typeStep] at ht
    | store s σ =>
      rcases ts with _ | ⟨t, ts⟩
      · cases ht
        exact .orErr (henv s _ hd) _
      · simp [typeStep] at ht
    | letv v =>
      rcases ts with _ | ⟨b, _ | ⟨e, _ | ⟨c, ts⟩⟩⟩ <;> try (simp [typeStep] at ht; done)
      cases hb : typeOf b with
      | none => simp [typeStep, hb] at ht
      | some σ =>
        simp only [List.map, typeStep, hb] at ht
        simp only [List.map, declStep, hb] at hd
        exact (ih b (by simp) Γ env σ hd.1 (hch b (by simp)) hb henv).andThen fun x hx =>
          ih e (by simp) _ _ τ hd.2 (hch e (by simp)) ht (henv.set hx)
    | assertEq =>
      rcases ts with _ | ⟨a, l⟩
      · simp [typeStep] at ht
      · have hta : typeOf a = some τ := by
          simp only [List.map, typeStep] at ht
          rcases l with _ | ⟨b, l⟩
          · exact ht
          · simp only [List.map] at ht
            cases hb : typeOf b with
            | none => rw [hb] at ht; cases ht
            | some σ =>
              rw [hb] at ht
              simp only [] at ht
              split at ht
              · exact ht
              · cases ht
        simp only [List.map, declStep] at hd
        refine Good.andThen (P := fun ns => s → ns ≠ []) ?_ ?_
        · by_cases hs : s
          swap
          · exact (Good.of_not hs _).mono fun _ _ h => absurd h hs
          have hstr := hstr hs
          simp only [List.map, strictStep] at hstr
          obtain ⟨_, hlen, hint⟩ := hstr
          have := Good.mapRes (R := fun _ _ => True) (f := asIntRes)
            (l := (l.map (runRes I)).map (· env)) (by
              intro r hr
              simp only [List.mem_map] at hr
              obtain ⟨f, ⟨t, htm, rfl⟩, rfl⟩ := hr
              refine asI (ih t (by simp [htm]) Γ env _ (hd (t, Declared I t) (by simp [htm]))
                (hch t (by simp [htm])) ?_ henv)
              exact hint (t, Strictly t) (by simp [htm]))
          refine this.mono fun ns hns _ hnil => ?_
          subst hnil
          have := hns.length_eq
          simp at this hlen
          subst this
          simp at hlen
        · intro ns hns
          rcases ns with _ | ⟨n, ns⟩
          · exact fun hs => hns hs rfl
          · simp only []
            split
            · exact ih a (by simp) Γ env τ (hd (a, Declared I a) (by simp)) (hch a (by simp)) hta henv
            · trivial
    | dim k =>
      rcases ts with _ | ⟨a, _ | ⟨b, l⟩⟩ <;> try (simp [typeStep] at ht; done)
      cases ha : typeOf a with
      | none => simp [typeStep, ha] at ht
      | some σ =>
        simp only [List.map, typeStep, ha] at ht
        cases ht
        simp only [List.map, declStep] at hd
        refine (ih a (by simp) Γ env σ (hd (a, Declared I a) (by simp)) (hch a (by simp)) ha henv).andThen fun v hv => ?_
        refine Good.andThen (P := fun _ => True) ?_ fun n _ => ?_
        · by_cases hs : s
          · exact good_dim ((hstr hs).2 a σ rfl ha) hv
          · exact .of_not hs _
        exact HasType.sc (.i n)
    | get =>
      rcases ts with _ | ⟨a, _ | ⟨b, _ | ⟨_, _⟩⟩⟩ <;> try (simp [typeStep] at ht; done)
      cases ha : typeOf a with
      | none => simp [typeStep, ha] at ht
      | some σ =>
        cases σ with
        | scalar k => simp [typeStep, ha] at ht
        | pair x y => simp [typeStep, ha] at ht
        | vector σ =>
          have hστ : σ = τ := by
            simp only [List.map, ha] at ht
            generalize typeOf b = tb at ht
            rcases tb with _ | (k | x | ⟨x, y⟩) <;> simp [typeStep] at ht
            exact ht
          subst hστ
          simp only [List.map, declStep] at hd
          refine (asV (ih a (by simp) Γ env _ (hd (a, Declared I a) (by simp)) (hch a (by simp)) ha henv)).andThen
            fun vs hvs => ?_
          refine Good.andThen (P := fun _ => True) ?_ fun n _ => ?_
          · by_cases hs : s
            · exact asI (ih b (by simp) Γ env _ (hd (b, Declared I b) (by simp)) (hch b (by simp))
                ((hstr hs).2 b rfl) henv)
            · exact .of_not hs _
          unfold Val.get
          cases hg : vs[Val.clip vs.length n]? with
          | none => trivial
          | some w => exact hvs w (List.mem_of_getElem? hg)
    | concat =>
      rcases ts with _ | ⟨a, _ | ⟨b, _ | ⟨_, _⟩⟩⟩ <;> try (simp [typeStep] at ht; done)
      cases ha : typeOf a with
      | none => simp [typeStep, ha] at ht
      | some σ =>
        cases σ with
        | scalar k => simp [typeStep, ha] at ht
        | pair x y => simp [typeStep, ha] at ht
        | vector σ =>
          cases hb : typeOf b with
          | none => simp [typeStep, ha, hb] at ht
          | some σ' =>
            simp only [List.map, typeStep, ha, hb] at ht
            split at ht
            · rename_i he
              subst he
              cases ht
              simp only [List.map, declStep] at hd
              refine (asV (ih a (by simp) Γ env _ (hd (a, Declared I a) (by simp)) (hch a (by simp)) ha henv)).andThen
                fun vs hvs => ?_
              refine (asV (ih b (by simp) Γ env _ (hd (b, Declared I b) (by simp)) (hch b (by simp)) hb henv)).andThen
                fun ws hws => ?_
              split
              · refine HasType.vec fun w hw => ?_
                rcases List.mem_append.1 hw with h | h
                · exact hvs w h
                · exact hws w h
              · trivial
            · cases ht
    | cons =>
      rcases ts with _ | ⟨a, _ | ⟨b, _ | ⟨_, _⟩⟩⟩ <;> try (simp [typeStep] at ht; done)
      cases ha : typeOf a with
      | none => simp [typeStep, ha] at ht
      | some σ =>
        cases hb : typeOf b with
        | none => simp [typeStep, ha, hb] at ht
        | some σ' =>
          simp only [List.map, typeStep, ha, hb] at ht
          cases ht
          simp only [List.map, declStep] at hd
          refine (ih a (by simp) Γ env _ (hd (a, Declared I a) (by simp)) (hch a (by simp)) ha henv).andThen
            fun x hx => ?_
          refine (ih b (by simp) Γ env _ (hd (b, Declared I b) (by simp)) (hch b (by simp)) hb henv).andThen
            fun y hy => ?_
          exact HasType.pair hx hy
    | fst =>
      rcases ts with _ | ⟨a, _ | ⟨b, l⟩⟩ <;> try (simp [typeStep] at ht; done)
      cases ha : typeOf a with
      | none => simp [typeStep, ha] at ht
      | some σ =>
        cases σ with
        | scalar k => simp [typeStep, ha] at ht
        | vector x => simp [typeStep, ha] at ht
        | pair x y =>
          simp only [List.map, typeStep, ha] at ht
          cases ht
          simp only [List.map, declStep] at hd
          refine (ih a (by simp) Γ env _ (hd (a, Declared I a) (by simp)) (hch a (by simp)) ha henv).andThen
            fun v hv => ?_
          cases hv with
          | pair h1 h2 => exact h1
    | snd =>
      rcases ts with _ | ⟨a, _ | ⟨b, l⟩⟩ <;> try (simp [typeStep] at ht; done)
      cases ha : typeOf a with
      | none => simp [typeStep, ha] at ht
      | some σ =>
        cases σ with
        | scalar k => simp [typeStep, ha] at ht
        | vector x => simp [typeStep, ha] at ht
        | pair x y =>
          simp only [List.map, typeStep, ha] at ht
          cases ht
          simp only [List.map, declStep] at hd
          refine (ih a (by simp) Γ env _ (hd (a, Declared I a) (by simp)) (hch a (by simp)) ha henv).andThen
            fun v hv => ?_
          cases hv with
          | pair h1 h2 => exact h2
    | vec i =>
      rcases ts with _ | ⟨n, _ | ⟨b, _ | ⟨_, _⟩⟩⟩ <;> try (simp [typeStep] at ht; done)
      cases hn : typeOf n with
      | none => simp [typeStep, hn] at ht
      | some σ =>
        cases hb : typeOf b with
        | none => simp [typeStep, hn, hb] at ht
        | some σ' =>
          have hσ : σ = .scalar .int := by
            simp only [List.map, hn, hb] at ht
            cases σ with
            | scalar k => cases k <;> simp [typeStep] at ht; rfl
            | vector x => simp [typeStep] at ht
            | pair x y => simp [typeStep] at ht
          subst hσ
          simp only [List.map, typeStep, hn, hb] at ht
          split at ht
          · cases ht
            simp only [List.map, declStep] at hd
            refine (asI (ih n (by simp) Γ env _ hd.1 (hch n (by simp)) hn henv)).andThen fun k _ => ?_
            refine (Good.mapRes (R := fun _ v => HasType v σ') fun (j : Nat) _ =>
              ih b (by simp) _ _ _ hd.2 (hch b (by simp)) hb (henv.set (HasType.sc (.i j)))).andThen fun vs hvs => ?_
            split
            · refine HasType.vec fun w hw => ?_
              obtain ⟨k, hk⟩ := List.getElem?_of_mem hw
              rw [List.forall₂_iff_get] at hvs
              obtain ⟨h1, h2⟩ := List.getElem?_eq_some_iff.1 hk
              have := hvs.2 k (by rw [hvs.1]; exact h1) h1
              simpa [h2] using this
            · trivial
          · cases ht
    | fold c a =>
      rcases ts with _ | ⟨n, _ | ⟨z, _ | ⟨b, _ | ⟨_, _⟩⟩⟩⟩ <;> try (simp [typeStep] at ht; done)
      cases hn : typeOf n with
      | none => simp [typeStep, hn] at ht
      | some σ =>
        cases hz : typeOf z with
        | none => simp [typeStep, hn, hz] at ht
        | some σz =>
        cases hb : typeOf b with
        | none => simp [typeStep, hn, hz, hb] at ht
        | some σb =>
          have hσ : σ = .scalar .int := by
            simp only [List.map, hn, hz, hb] at ht
            cases σ with
            | scalar k => cases k <;> simp [typeStep] at ht; rfl
            | vector x => simp [typeStep] at ht
            | pair x y => simp [typeStep] at ht
          subst hσ
          simp only [List.map, typeStep, hn, hz, hb] at ht
          split at ht
          · rename_i he
            subst he
            cases ht
            simp only [List.map, declStep, hz] at hd
            refine (asI (ih n (by simp) Γ env _ hd.1 (hch n (by simp)) hn henv)).andThen fun k _ => ?_
            refine (ih z (by simp) Γ env _ hd.2.1 (hch z (by simp)) hz henv).andThen fun x hx => ?_
            refine Good.loopRes ?_ hx
            intro j _ acc hacc
            exact ih b (by simp) _ _ _ hd.2.2 (hch b (by simp)) hb ((henv.set hacc).set (HasType.sc (.i j)))
          · cases ht
    | reduce x y =>
      rcases ts with _ | ⟨z, _ | ⟨b, vs⟩⟩ <;> try (simp [typeStep] at ht; done)
      cases hz : typeOf z with
      | none => simp [typeStep, hz] at ht
      | some σz =>
      cases hb : typeOf b with
      | none => simp [typeStep, hz, hb] at ht
      | some σb =>
        simp only [List.map_cons, typeStep, hz, hb] at ht
        split at ht
        · cases ht
        · rename_i he
          have he : σz = σb := by simpa using he
          subst he
          rw [List.map_map] at ht
          split at ht
          · cases ht
          · rename_i e es hes
            split at ht
            · rename_i elems hel
              split at ht
              · rename_i hee
                subst hee
                cases ht
                obtain ⟨a', es', rfl, rfl, rfl⟩ := foldl_pairs hel
                have hvt : List.Forall₂ (fun t τ => typeOf t = some (.vector τ)) vs (a' :: es') := by
                  have := hes
                  rw [← List.map_cons] at this
                  clear hes hel
                  generalize a' :: es' = l at this
                  clear hd hb ih hch hstr
                  induction vs generalizing l with
                  | nil => cases l with
                    | nil => exact .nil
                    | cons a l => simp at this
                  | cons t vs ih' => cases l with
                    | nil => simp at this
                    | cons a l =>
                      simp only [List.map_cons, List.cons.injEq, Function.comp] at this
                      refine .cons ?_ (ih' l this.2)
                      have h1 := this.1
                      split at h1
                      · rename_i e he
                        cases h1; exact he
                      · cases h1
                simp only [List.map_cons, declStep, hz] at hd
                obtain ⟨hdz, hdv, hdb⟩ := hd
                refine Good.andThen (P := fun ls => List.Forall₂ (fun l τ => ∀ w ∈ l, HasType w τ) ls (a' :: es')) ?_ ?_
                · have key : ∀ (us : List (Expr F)) (σs : List Ty), (∀ t ∈ us, t ∈ vs) →
                      List.Forall₂ (fun t τ => typeOf t = some (.vector τ)) us σs →
                      Good s (fun ls => List.Forall₂ (fun l τ => ∀ w ∈ l, HasType w τ) ls σs)
                        (mapRes asVecRes ((us.map (runRes I)).map (· env))) := by
                    intro us σs hus h
                    induction h with
                    | nil => exact .nil
                    | @cons t σ us σs h1 h2 ih' =>
                      have htm := hus t (by simp)
                      refine (asV (ih t (by simp [htm]) Γ env _ (hdv (t, Declared I t) (by simp [htm]))
                        (hch t (by simp [htm])) h1 henv)).andThen fun l hl => ?_
                      refine (ih' fun u hu => hus u (by simp [hu])).andThen fun ls hls => ?_
                      exact .cons hl hls
                  exact key vs _ (fun _ h => h) hvt
                · intro ls hls
                  rcases hls with _ | ⟨h1, h2⟩
                  rename_i l ls'
                  simp only []
                  split
                  · rename_i hlen
                    simp only [List.all_eq_true, decide_eq_true_eq] at hlen
                    refine (ih z (by simp) Γ env _ hdz (hch z (by simp)) hz henv).andThen fun a ha => ?_
                    refine Good.loopRes ?_ ha
                    intro i hi acc hacc
                    have hi : i < l.length := by simpa using hi
                    have hrow : ∃ row, rowAt (l :: ls') i = some row ∧ HasType row (es'.foldl .pair a') := by
                      unfold rowAt
                      have : ∃ rs, mapOpt (fun l : List (D F) => l[i]?) ls' = some rs ∧ List.Forall₂ HasType rs es' := by
                        clear hvt hes hel hz hb he hdb ha hacc
                        induction h2 with
                        | nil => exact ⟨[], rfl, .nil⟩
                        | @cons l1 σ1 ls1 σs1 g1 g2 ih' =>
                          obtain ⟨rs, hr1, hr2⟩ := ih' (fun x hx => hlen x (by simp [hx]))
                          have hl1 := hlen l1 (by simp)
                          have hi1 : i < l1.length := by omega
                          refine ⟨l1[i] :: rs, ?_, .cons (g1 _ (List.getElem_mem hi1)) hr2⟩
                          simp [mapOpt, hr1, List.getElem?_eq_getElem hi1]
                      obtain ⟨rs, hr1, hr2⟩ := this
                      refine ⟨rs.foldl .pair l[i], ?_, hasType_foldl (h1 _ (List.getElem_mem hi)) hr2⟩
                      simp [mapOpt, hr1, List.getElem?_eq_getElem hi, pairAll]
                    refine (Good.orErr hrow _).andThen fun row hrow => ?_
                    exact ih b (by simp) _ _ _ hdb (hch b (by simp)) hb ((henv.set hacc).set hrow)
                  · trivial
              · cases ht
            · cases ht
    | op o =>
      simp only [typeStep] at ht
      split at ht
      · rename_i tys htys
        split at ht
        · rename_i hl
          obtain ⟨ks, k, rfl, rfl, hk⟩ := (Props.C15_operator_typing o tys hl τ).1 ht
          have htt := foldr_some htys
          rw [List.map_map, List.map_map] at htt
          simp only [declStep] at hd
          refine Good.andThen (P := fun ss : List (Scal F) => ss.map Scal.kind = ks) ?_ ?_
          · have key : ∀ (us : List (Expr F)) (ks : List Kind), (∀ t ∈ us, t ∈ ts) →
                us.map typeOf = ks.map (fun k => some (Ty.scalar k)) →
                Good s (fun ss : List (Scal F) => ss.map Scal.kind = ks)
                  (mapRes asScalRes ((us.map (runRes I)).map (· env))) := by
              intro us
              induction us with
              | nil => intro ks _ h; cases ks with
                | nil => rfl
                | cons k ks => simp at h
              | cons t us ih' =>
                intro ks hus h
                cases ks with
                | nil => simp at h
                | cons k ks =>
                  simp only [List.map_cons, List.cons.injEq] at h
                  have htm := hus t (by simp)
                  refine Good.andThen (P := fun x : Scal F => x.kind = k) ?_ fun s hs => ?_
                  · exact (ih t htm Γ env _ (hd (t, Declared I t) (by simp [htm])) (hch t htm) h.1 henv).andThen
                      fun v hv => .orErr hv.asScal _
                  · refine (ih' ks (fun u hu => hus u (by simp [hu])) h.2).andThen fun ss hss => ?_
                    show (s :: ss).map Scal.kind = k :: ks
                    simp [hs, hss]
            exact key ts ks (fun _ h => h) htt
          · intro ss hss
            subst hss
            obtain ⟨s, h1, h2⟩ := Props.C15_result_kind o ss k hk
            refine (Good.orErr (P := fun x : Scal F => x.kind = k) ⟨s, h1, h2⟩ _).andThen fun s hs => ?_
            subst hs
            exact HasType.sc s
        · cases ht
      · cases ht
    | ext fn σ =>
      simp only [typeStep] at ht
      split at ht
      · rename_i hall
        cases ht
        simp only [declStep] at hd
        refine Good.andThen (P := TypedArgs ts) ?_ fun vs hvs => ?_
        · have key : ∀ us : List (Expr F), (∀ t ∈ us, t ∈ ts) →
              Good s (TypedArgs us) (mapRes (fun v : Res (D F) => v) ((us.map (runRes I)).map (· env))) := by
            intro us hus
            induction us with
            | nil => exact List.Forall₂.nil
            | cons t us ihus =>
              have htm := hus t (by simp)
              have : (typeOf t).isSome := by
                rw [List.all_eq_true] at hall
                exact hall (typeOf t, freeIndices t) (List.mem_map.2 ⟨t, htm, rfl⟩)
              obtain ⟨σ, hσ⟩ := Option.isSome_iff_exists.1 this
              have h1 := ih t htm Γ env σ (hd.1 (t, Declared I t) (by simp [htm])) (hch t htm) hσ henv
              have h2 := ihus fun u hu => hus u (by simp [hu])
              exact h1.andThen fun v hv => h2.andThen fun vs hvs => .cons ⟨σ, hσ, hv⟩ hvs
          exact key ts fun _ h => h
        · cases hI : I fn vs with
          | none => trivial
          | some r => exact hd.2 _ _ (by simpa [List.map_map, Function.comp_def] using hvs) hI
      · cases ht

end Verif.Phi
