import Verif.Phi.Syntax

/-!
Meaning of phi expressions on nested values.

* `run` is the reference meaning: what `_interpret` (`ein/backend/naive.py:14-85`) computes, with
  lexical environments instead of the destructively updated dictionary (see C19 for that) and `none`
  for every exception. `let` is strict.
* `sem` is the compositional meaning used for the midend passes: `let` is lazy, and sub-terms outside
  the scope of a binder do not see its symbols.
* `run_eval`: on well scoped terms a value computed by `run` is the value given by `sem`.
-/

set_option linter.unusedSectionVars false

namespace Verif.Phi
open Verif.Term

section helpers
variable {α β : Type}

/-- Evaluate all, failing if one fails. -/
def mapOpt (f : α → Option β) : List α → Option (List β)
  | [] => some []
  | a :: l => (f a).bind (fun b => (mapOpt f l).bind (fun bs => some (b :: bs)))

/-- A loop over a list, failing if one step fails. -/
def loopOpt (f : β → α → Option β) : β → List α → Option β
  | b, [] => some b
  | b, a :: l => (f b a).bind (fun b' => loopOpt f b' l)

theorem mapOpt_congr {f g : α → Option β} {l : List α} (h : ∀ a ∈ l, f a = g a) :
    mapOpt f l = mapOpt g l := by
  induction l with
  | nil => rfl
  | cons a l ih =>
    rw [mapOpt, mapOpt, h a List.mem_cons_self, ih (fun x hx => h x (List.mem_cons_of_mem _ hx))]

theorem mapOpt_mono {f g : α → Option β} {l : List α} {bs : List β}
    (h : ∀ a ∈ l, ∀ b, f a = some b → g a = some b) (hf : mapOpt f l = some bs) :
    mapOpt g l = some bs := by
  induction l generalizing bs with
  | nil => exact hf
  | cons a l ih =>
    simp only [mapOpt, Option.bind_eq_some_iff, Option.some.injEq] at hf ⊢
    obtain ⟨b, hb, bs', hbs, rfl⟩ := hf
    exact ⟨b, h a List.mem_cons_self b hb, bs',
      ih (fun x hx => h x (List.mem_cons_of_mem _ hx)) hbs, rfl⟩

theorem loopOpt_mono {f g : β → α → Option β} {l : List α}
    (h : ∀ a ∈ l, ∀ b b', f b a = some b' → g b a = some b') {b r : β}
    (hf : loopOpt f b l = some r) : loopOpt g b l = some r := by
  induction l generalizing b with
  | nil => exact hf
  | cons a l ih =>
    simp only [loopOpt, Option.bind_eq_some_iff] at hf ⊢
    obtain ⟨b', hb, hr⟩ := hf
    exact ⟨b', h a List.mem_cons_self b b' hb, ih (fun x hx => h x (List.mem_cons_of_mem _ hx)) hr⟩

theorem mapOpt_length {f : α → Option β} {l : List α} {bs : List β} (h : mapOpt f l = some bs) :
    bs.length = l.length := by
  induction l generalizing bs with
  | nil => simp only [mapOpt, Option.some.injEq] at h; subst h; rfl
  | cons a l ih =>
    simp only [mapOpt, Option.bind_eq_some_iff, Option.some.injEq] at h
    obtain ⟨b, _, bs', hbs, rfl⟩ := h
    simp [ih hbs]

theorem mapOpt_getElem? {f : α → Option β} {l : List α} {bs : List β} (h : mapOpt f l = some bs)
    (k : Nat) : bs[k]? = (l[k]?).bind f := by
  induction l generalizing bs k with
  | nil => simp only [mapOpt, Option.some.injEq] at h; subst h; simp
  | cons a l ih =>
    simp only [mapOpt, Option.bind_eq_some_iff, Option.some.injEq] at h
    obtain ⟨b, hb, bs', hbs, rfl⟩ := h
    cases k with
    | zero => simp [hb]
    | succ k => simp [ih hbs k]

theorem mapOpt_map {γ : Type} (f : α → Option β) (g : γ → α) (l : List γ) :
    mapOpt f (l.map g) = mapOpt (fun c => f (g c)) l := by
  induction l with
  | nil => rfl
  | cons a l ih => simp [mapOpt, ih]

end helpers

section constructs
variable {F : Type}

/-- `D F`: the values phi expressions range over (`Value`, `ein/value.py:29`). -/
abbrev D (F : Type) := Val (Scal F)

/-- `Vec` (`naive.py:17-26`): one evaluation of the body per index; NumPy rejects ragged rows. A
negative size gives no elements (`range`). Vectors of pairs, on which the interpreter fails unless the
struct-of-arrays pass has removed them, are given their obvious meaning. -/
def vecOf (size : Option (D F)) (body : Int → Option (D F)) : Option (D F) :=
  (size.bind Val.asInt).bind fun n =>
    (mapOpt (fun i : Nat => body i) (List.range n.toNat)).bind fun vs =>
      if Val.uniform vs then some (.vec vs) else none

/-- `Fold` (`naive.py:27-35`): counters `0, …, n-1` in order. -/
def foldOf (size init : Option (D F)) (body : Int → D F → Option (D F)) : Option (D F) :=
  (size.bind Val.asInt).bind fun n => init.bind fun a =>
    loopOpt (fun acc (i : Nat) => body i acc) a (List.range n.toNat)

/-- Left-nested pairs (`functools.reduce(lambda a, b: Value((a, b)), …)`, `naive.py:42-44`). -/
def pairAll : List (D F) → Option (D F)
  | [] => none
  | v :: vs => some (vs.foldl .pair v)

/-- The tuple of the `i`-th elements of the vectors. -/
def rowAt (vs : List (List (D F))) (i : Nat) : Option (D F) :=
  (mapOpt (fun l : List (D F) => l[i]?) vs).bind pairAll

/-- `Reduce` (`naive.py:36-48`): all vectors must have the same length (`(n,) = {…}` raises
otherwise); left to right, starting from the initial value. -/
def reduceOf (init : Option (D F)) (vecs : List (Option (D F))) (body : D F → D F → Option (D F)) :
    Option (D F) :=
  (mapOpt (fun v : Option (D F) => v.bind Val.asVec) vecs).bind fun vs =>
    match vs with
    | [] => none
    | l :: ls =>
      if ls.all (fun l' => decide (l'.length = l.length)) then
        init.bind fun a => loopOpt (fun acc i => (rowAt vs i).bind (fun y => body acc y)) a
          (List.range l.length)
      else none

/-- `AssertEq` (`naive.py:61-63`): the operands must be equal integers, at least one. -/
def assertOf (target : Option (D F)) (ops : List (Option (D F))) : Option (D F) :=
  (mapOpt (fun v : Option (D F) => v.bind Val.asInt) ops).bind fun ns =>
    match ns with
    | [] => none
    | n :: rest => if rest.all (fun m => decide (m = n)) then target else none

/-- `Get` (`naive.py:49-54`), clamped. -/
def getOf (a i : Option (D F)) : Option (D F) :=
  (a.bind Val.asVec).bind fun vs => (i.bind Val.asInt).bind fun n => Val.get vs n

/-- `Concat` (`naive.py:55-60`); the rows must have the same shape. -/
def concatOf (a b : Option (D F)) : Option (D F) :=
  (a.bind Val.asVec).bind fun vs => (b.bind Val.asVec).bind fun ws =>
    if Val.uniform (vs ++ ws) then some (.vec (vs ++ ws)) else none

/-- `Dim` (`naive.py:68-69`) -/
def dimOf (k : Nat) (a : Option (D F)) : Option (D F) :=
  (a.bind (Val.dim k)).bind fun n => some (.int n)

/-- `First` (`naive.py:74-75`) -/
def fstOf (a : Option (D F)) : Option (D F) :=
  a.bind fun v => match v with | .pair x _ => some x | _ => none

/-- `Second` (`naive.py:76-77`) -/
def sndOf (a : Option (D F)) : Option (D F) :=
  a.bind fun v => match v with | .pair _ y => some y | _ => none

/-- `Cons` (`naive.py:72-73`) -/
def consOf (a b : Option (D F)) : Option (D F) := a.bind fun x => b.bind fun y => some (.pair x y)

/-- `AbstractScalarOperator` (`naive.py:78-81`) -/
def opOf [FloatOps F] (o : ScalarOp) (as : List (Option (D F))) : Option (D F) :=
  (mapOpt (fun v : Option (D F) => v.bind Val.asScal) as).bind fun ss =>
    (applyOp o ss).bind fun s => some (.sc s)

/-- The interpretation of `Extrinsic` functions. -/
abbrev Ext (F : Type) := Nat → List (D F) → Option (D F)

/-- `Extrinsic` (`naive.py:82-83`) -/
def extOf (I : Ext F) (fn : Nat) (as : List (Option (D F))) : Option (D F) :=
  (mapOpt (fun v => v) as).bind (I fn)

variable [FloatOps F]

/-- One node of `_interpret` (`naive.py:14-85`), lexically scoped. -/
def runDen (I : Ext F) : Head F → List (Env (D F) → Option (D F)) → Env (D F) → Option (D F)
  | .const v _, _, _ => some v
  | .store s _, _, env => env s
  | .letv v, [f, g], env => (f env).bind fun x => g (env.set (.var v) (some x))
  | .assertEq, f :: ops, env => assertOf (f env) (ops.map (· env))
  | .dim k, [f], env => dimOf k (f env)
  | .get, [f, g], env => getOf (f env) (g env)
  | .concat, [f, g], env => concatOf (f env) (g env)
  | .cons, [f, g], env => consOf (f env) (g env)
  | .fst, [f], env => fstOf (f env)
  | .snd, [f], env => sndOf (f env)
  | .vec i, [n, b], env => vecOf (n env) (fun k => b (env.set (.idx i) (some (.int k))))
  | .fold c a, [n, z, b], env => foldOf (n env) (z env)
      (fun k acc => b ((env.set (.var a) (some acc)).set (.var c) (some (.int k))))
  | .reduce x y, z :: b :: vs, env => reduceOf (z env) (vs.map (· env))
      (fun acc row => b ((env.set (.var x) (some acc)).set (.var y) (some row)))
  | .op o, fs, env => opOf o (fs.map (· env))
  | .ext fn _, fs, env => extOf I fn (fs.map (· env))
  | _, _, _ => none

/-- The reference meaning of an expression. -/
def run (I : Ext F) (e : Expr F) : Env (D F) → Option (D F) := cata (runDen I) e

theorem run_node (I : Ext F) (h : Head F) (ts : List (Expr F)) :
    run I (node h ts) = runDen I h (ts.map (run I)) := cata_node _ _ _

/-- `env` without the symbols in `c`. -/
def hide (c : Finset Sym) (env : Env (D F)) : Env (D F) := env.override c (fun _ => none)

/-- One node of the compositional meaning. -/
def den (I : Ext F) : Head F → List (Env (D F) → Option (D F)) → Env (D F) → Option (D F)
  | .const v _, _, _ => some v
  | .store s _, _, env => env s
  | .letv v, [f, g], env => g (env.set (.var v) (f (env.set (.var v) none)))
  | .assertEq, f :: ops, env => assertOf (f env) (ops.map (· env))
  | .dim k, [f], env => dimOf k (f env)
  | .get, [f, g], env => getOf (f env) (g env)
  | .concat, [f, g], env => concatOf (f env) (g env)
  | .cons, [f, g], env => consOf (f env) (g env)
  | .fst, [f], env => fstOf (f env)
  | .snd, [f], env => sndOf (f env)
  | .vec i, [n, b], env => vecOf (n (hide {.idx i} env))
      (fun k => b (env.set (.idx i) (some (.int k))))
  | .fold c a, [n, z, b], env => foldOf (n (hide {.var c, .var a} env)) (z (hide {.var c, .var a} env))
      (fun k acc => b ((env.set (.var a) (some acc)).set (.var c) (some (.int k))))
  | .reduce x y, z :: b :: vs, env => reduceOf (z (hide {.var x, .var y} env))
      (vs.map (· (hide {.var x, .var y} env)))
      (fun acc row => b ((env.set (.var x) (some acc)).set (.var y) (some row)))
  | .op o, fs, env => opOf o (fs.map (· env))
  | .ext fn _, fs, env => extOf I fn (fs.map (· env))
  | _, _, _ => none

end constructs

section sem
variable {F : Type} [FloatOps F]

theorem override_empty (env ext : Env (D F)) : env.override ∅ ext = env := by
  funext s; simp [Env.override]

theorem set_override (env : Env (D F)) (s : Sym) (x : Option (D F)) :
    env.set s x = env.override {s} (fun _ => x) := by
  funext s'; simp [Env.override, Env.set]

theorem set_set_override (env : Env (D F)) (s t : Sym) (x y : Option (D F)) :
    (env.set s x).set t y = env.override {s, t} (fun s' => if s' = t then y else x) := by
  funext s'
  simp only [Env.override, Env.set, Finset.mem_insert, Finset.mem_singleton]
  by_cases h1 : s' = t <;> by_cases h2 : s' = s <;> simp [h1, h2]

theorem forall₂_map_eq {γ : Type} {R : (Env (D F) → Option (D F)) → (Env (D F) → Option (D F)) → Prop}
    {fs gs : List (Env (D F) → Option (D F))} (h : List.Forall₂ R fs gs)
    (p q : (Env (D F) → Option (D F)) → γ) (hpq : ∀ f g, R f g → p f = q g) :
    fs.map p = gs.map q := by
  induction h with
  | nil => rfl
  | cons h1 _ ih => simp [hpq _ _ h1, ih]

theorem den_local (I : Ext F) (h : Head F) (fs gs : List (Env (D F) → Option (D F)))
    (env env' : Env (D F)) (hs : ∀ s, Head.symbol h = some s → env s = env' s)
    (hf : List.Forall₂ (fun f g => ∀ ext : Env (D F),
      f (env.override h.captured ext) = g (env'.override h.captured ext)) fs gs) :
    den I h fs env = den I h gs env' := by
  cases h with
  | const v τ => rfl
  | store s τ => exact hs s rfl
  | letv v =>
    rcases hf with _ | ⟨h1, _ | ⟨h2, _ | ⟨h3, h4⟩⟩⟩ <;> try rfl
    simp only [den, set_override]
    simp only [Head.captured] at h1 h2
    rw [h1, h2]
  | vec i =>
    rcases hf with _ | ⟨h1, _ | ⟨h2, _ | ⟨h3, h4⟩⟩⟩ <;> try rfl
    simp only [den, set_override, hide]
    simp only [Head.captured] at h1 h2
    rw [h1]
    congr 1
    funext k
    rw [h2]
  | fold c a =>
    rcases hf with _ | ⟨h1, _ | ⟨h2, _ | ⟨h3, _ | ⟨h4, h5⟩⟩⟩⟩ <;> try rfl
    simp only [den, set_set_override, hide]
    simp only [Head.captured] at h1 h2 h3
    rw [h1, h2]
    congr 1
    funext k acc
    rw [Finset.pair_comm, h3]
  | reduce x y =>
    rcases hf with _ | ⟨h1, _ | ⟨h2, h3⟩⟩ <;> try rfl
    simp only [den, set_set_override, hide]
    simp only [Head.captured] at h1 h2 h3
    rw [h1]
    have := forall₂_map_eq h3 (· (env.override {.var x, .var y} fun _ => none))
      (· (env'.override {.var x, .var y} fun _ => none)) (fun f g hfg => hfg _)
    rw [this]
    congr 1
    funext acc row
    rw [h2]
  | assertEq =>
    simp only [Head.captured, override_empty] at hf
    rcases hf with _ | ⟨h1, h2⟩
    · rfl
    · simp only [den]
      rw [h1 env, forall₂_map_eq h2 (· env) (· env') (fun f g hfg => hfg env)]
  | op o =>
    simp only [Head.captured, override_empty] at hf
    simp only [den]
    rw [forall₂_map_eq hf (· env) (· env') (fun f g hfg => hfg env)]
  | ext fn τ =>
    simp only [Head.captured, override_empty] at hf
    simp only [den]
    rw [forall₂_map_eq hf (· env) (· env') (fun f g hfg => hfg env)]
  | dim k | fst | snd =>
    simp only [Head.captured, override_empty] at hf
    rcases hf with _ | ⟨h1, _ | ⟨h2, h3⟩⟩ <;> try rfl
    simp only [den]; rw [h1 env]
  | get | concat | cons =>
    simp only [Head.captured, override_empty] at hf
    rcases hf with _ | ⟨h1, _ | ⟨h2, _ | ⟨h3, h4⟩⟩⟩ <;> try rfl
    simp only [den]; rw [h1 env, h2 env]

/-- The compositional meaning of phi. -/
def sem (I : Ext F) : Sem (Head F) (D F) where
  den := den I
  den_symbol h fs s env hs := by
    change Head.symbol h = some s at hs
    cases h <;> simp only [Head.symbol, reduceCtorEq, Option.some.injEq] at hs
    subst hs; rfl
  den_let v f g env := rfl
  den_local := den_local I

theorem eval_hide (I : Ext F) {t : Expr F} {c : Finset Sym} (h : Disjoint c (fv t))
    (env : Env (D F)) : (sem I).eval t (hide c env) = (sem I).eval t env := by
  refine (sem I).eval_agree t (fun s hs => ?_)
  have : s ∉ c := fun hc => Finset.disjoint_left.1 h hc hs
  simp [hide, Env.override, this]

end sem
end Verif.Phi
