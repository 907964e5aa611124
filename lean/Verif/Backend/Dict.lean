import Verif.Phi.Busy

/-!
Evaluation in a destructively updated dictionary: the loops of the interpreter
(`ein/backend/naive.py`) and of the array backends (`ein/backend/array_backend.py`).
-/

set_option linter.unusedSectionVars false

namespace Verif.Backend
open Verif.Phi Verif.Term
variable {V : Type}

/-- Evaluation in a mutable dictionary: the result and the dictionary afterwards; `none` is an
exception. -/
abbrev Mut (V : Type) := Env V → Option (V × Env V)

/-- Evaluate from left to right. -/
def seqM : List (Mut V) → Env V → Option (List V × Env V)
  | [], env => some ([], env)
  | f :: fs, env => (f env).bind fun r => (seqM fs r.2).bind fun rs => some (r.1 :: rs.1, rs.2)

/-- `del env[s]` and `env.pop(s)`: `KeyError` if `s` is missing. -/
def delKey (s : Sym) (env : Env V) : Option (Env V) :=
  (env s).bind fun _ => some (env.set s none)

/-- A loop that stores the accumulator and a loop value in the dictionary and evaluates the body: the loops
of `Reduce` (`naive.py:40-45`) and of `fold_impl` (`array_backend.py:94-97`, where the loop value is the
counter). -/
def reduceLoop (x y : Nat) (row : Nat → Option V) (body : Mut V) :
    List Nat → V → Env V → Option (V × Env V)
  | [], acc, env => some (acc, env)
  | i :: is, acc, env => (row i).bind fun r =>
      (body ((env.set (.var x) (some acc)).set (.var y) (some r))).bind fun q =>
        reduceLoop x y row body is q.1 q.2

/-- The end of `Reduce` (`naive.py:46-48`). -/
def reduceEnd (x y : Nat) (n : Nat) (r : V × Env V) : Option (V × Env V) :=
  if n ≠ 0 then (delKey (.var x) r.2).bind fun e => (delKey (.var y) e).bind fun e' => some (r.1, e')
  else some r

/-- `fold_impl` (`array_backend.py:92-100`): `init` before `count`, `max(int(count(env)), 0)` iterations. -/
def foldImpl (asInt : V → Option Int) (ofNat : Nat → V) (c a : Nat) (count init body : Mut V) : Mut V :=
  fun env => (init env).bind fun ri => (count ri.2).bind fun rn => (asInt rn.1).bind fun k =>
    (reduceLoop a c (fun i => some (ofNat i)) body (List.range (max k 0).toNat) ri.1 rn.2).bind
      (reduceEnd a c (max k 0).toNat)

/-- `with_let` (`array_backend.py:171-180`); `preprocess_bound` may copy an array, which does not change
its value. -/
def letImpl (v : Nat) (bind body : Mut V) : Mut V := fun env =>
  (bind env).bind fun r => (body (r.2.set (.var v) (some r.1))).bind fun q =>
    (delKey (.var v) q.2).bind fun e => some (q.1, e)

theorem seqM_eq {fs : List (Mut V)} {gs : List (Env V → Option V)} {env : Env V}
    (h : List.Forall₂ (fun f g => f env = (g env).map (·, env)) fs gs) :
    seqM fs env = (mapOpt (fun g => g env) gs).map (·, env) := by
  induction h with
  | nil => rfl
  | @cons f g fs gs h _ ih =>
    rw [seqM, mapOpt, h]
    cases g env with
    | none => rfl
    | some v =>
      simp only [Option.map_some, Option.bind_some, ih]
      cases mapOpt (fun g => g env) gs <;> rfl

theorem mapOpt_bind {α β γ : Type} (f : α → Option β) (g : β → Option γ) (l : List α) :
    mapOpt (fun a => (f a).bind g) l = (mapOpt f l).bind (mapOpt g) := by
  induction l with
  | nil => rfl
  | cons a l ih =>
    rw [mapOpt, mapOpt, ih]
    cases f a with
    | none => rfl
    | some b =>
      simp only [Option.bind_some]
      cases mapOpt f l with
      | none => simp
      | some bs => rfl

theorem mapOpt_pure {α : Type} (l : List α) : mapOpt (fun a => some a) l = some l := by
  induction l with
  | nil => rfl
  | cons a l ih => simp [mapOpt, ih]

section sets

theorem set_set (e : Env V) (s : Sym) (u w : Option V) : (e.set s u).set s w = e.set s w := by
  funext t; simp only [Env.set]; split_ifs <;> rfl

theorem set_comm (e : Env V) {s t : Sym} (h : s ≠ t) (u w : Option V) :
    (e.set s u).set t w = (e.set t w).set s u := by
  funext x; simp only [Env.set]
  by_cases h1 : x = s <;> by_cases h2 : x = t
  · exact absurd (h1.symm.trans h2) h
  all_goals simp [h1, h2, h, Ne.symm h]

theorem set_none (e : Env V) {s : Sym} (h : e s = none) : e.set s none = e := by
  funext x; simp only [Env.set]; split_ifs with h1
  · rw [h1, h]
  · rfl

theorem get_set (e : Env V) (s : Sym) (u : Option V) : (e.set s u) s = u := by simp [Env.set]

theorem get_set_ne (e : Env V) {s t : Sym} (h : t ≠ s) (u : Option V) : (e.set s u) t = e t := by
  simp [Env.set, h]

end sets

theorem reduceLoop_eq {x y : Nat} (hxy : x ≠ y) (row : Nat → Option V) (body : Mut V)
    (g : Env V → Option V) (env : Env V)
    (hb : ∀ acc r : V, body ((env.set (.var x) (some acc)).set (.var y) (some r)) =
      (g ((env.set (.var x) (some acc)).set (.var y) (some r))).map
        (·, (env.set (.var x) (some acc)).set (.var y) (some r))) :
    ∀ (l : List Nat) (acc : V) (o p : Option V), ∃ o' p' : V → Option V,
      (l = [] → o' = (fun _ => o) ∧ p' = fun _ => p) ∧ (l ≠ [] → ∀ r, (o' r).isSome ∧ (p' r).isSome) ∧
      reduceLoop x y row body l acc ((env.set (.var x) o).set (.var y) p) =
        (loopOpt (fun acc i => (row i).bind fun r =>
            g ((env.set (.var x) (some acc)).set (.var y) (some r))) acc l).map
          (fun r => (r, (env.set (.var x) (o' r)).set (.var y) (p' r))) := by
  have hne : Sym.var x ≠ Sym.var y := fun h => hxy (Sym.var.inj h)
  intro l
  induction l with
  | nil => intro acc o p; exact ⟨_, _, fun _ => ⟨rfl, rfl⟩, fun h => absurd rfl h, rfl⟩
  | cons i l ih =>
    intro acc o p
    cases hr : row i with
    | none =>
      exact ⟨fun _ => some acc, fun _ => some acc, by simp, by simp, by simp [reduceLoop, loopOpt, hr]⟩
    | some r =>
      have e : (((env.set (.var x) o).set (.var y) p).set (.var x) (some acc)).set (.var y) (some r) =
          (env.set (.var x) (some acc)).set (.var y) (some r) := by
        rw [set_comm _ hne.symm, set_set, set_set]
      simp only [reduceLoop, loopOpt, hr, Option.bind_some, e, hb]
      cases hg : g ((env.set (.var x) (some acc)).set (.var y) (some r)) with
      | none => exact ⟨fun _ => some acc, fun _ => some acc, by simp, by simp, by simp⟩
      | some acc' =>
        simp only [Option.map_some, Option.bind_some]
        obtain ⟨o', p', h1, h2, h3⟩ := ih acc' (some acc) (some r)
        refine ⟨o', p', by simp, fun _ q => ?_, h3⟩
        by_cases hl : l = []
        · obtain ⟨rfl, rfl⟩ := h1 hl; simp
        · exact h2 hl q

theorem reduceEnd_eq {x y : Nat} (hxy : x ≠ y) {n : Nat} (env : Env V) (r : V) {o p : Option V}
    (hx : env (.var x) = none) (hy : env (.var y) = none) (h0 : n = 0 → o = none ∧ p = none)
    (h1 : n ≠ 0 → o.isSome ∧ p.isSome) :
    reduceEnd x y n (r, (env.set (.var x) o).set (.var y) p) = some (r, env) := by
  have hne : Sym.var x ≠ Sym.var y := fun h => hxy (Sym.var.inj h)
  unfold reduceEnd
  by_cases hn : n = 0
  · obtain ⟨rfl, rfl⟩ := h0 hn
    rw [if_neg (by simpa using hn), set_none _ hx, set_none _ hy]
  · obtain ⟨hox, hpy⟩ := h1 hn
    obtain ⟨u, rfl⟩ := Option.isSome_iff_exists.1 hox
    obtain ⟨w, rfl⟩ := Option.isSome_iff_exists.1 hpy
    rw [if_pos hn]
    simp only [delKey]
    rw [set_comm _ hne, get_set, Option.bind_some, Option.bind_some, set_set,
      set_comm _ hne.symm, get_set, Option.bind_some, Option.bind_some, set_set,
      set_none _ hx, set_none _ hy]

/-- `fold_impl` on a body that restores the dictionary. -/
theorem foldImpl_eq {asInt : V → Option Int} {ofNat : Nat → V} {c a : Nat} (hca : c ≠ a)
    {count init body : Mut V} {cg ig g : Env V → Option V} {env : Env V}
    (hc : env (.var c) = none) (ha : env (.var a) = none)
    (hcount : count env = (cg env).map (·, env)) (hinit : init env = (ig env).map (·, env))
    (hb : ∀ acc r : V, body ((env.set (.var a) (some acc)).set (.var c) (some r)) =
      (g ((env.set (.var a) (some acc)).set (.var c) (some r))).map
        (·, (env.set (.var a) (some acc)).set (.var c) (some r))) :
    foldImpl asInt ofNat c a count init body env =
      ((ig env).bind fun z => ((cg env).bind asInt).bind fun k =>
        loopOpt (fun acc (i : Nat) => g ((env.set (.var a) (some acc)).set (.var c) (some (ofNat i))))
          z (List.range k.toNat)).map (·, env) := by
  unfold foldImpl
  rw [hinit]
  cases ig env with
  | none => rfl
  | some z =>
    simp only [Option.map_some, Option.bind_some]
    rw [hcount]
    cases cg env with
    | none => rfl
    | some kv =>
      simp only [Option.map_some, Option.bind_some]
      cases asInt kv with
      | none => rfl
      | some k =>
        simp only [Option.bind_some]
        have hk : (max k 0).toNat = k.toNat := by omega
        rw [hk]
        obtain ⟨o', p', h1, h2, h3⟩ := reduceLoop_eq (Ne.symm hca) (fun i => some (ofNat i)) body g env hb
          (List.range k.toNat) z none none
        rw [set_none _ ha, set_none _ hc] at h3
        rw [h3]
        simp only [Option.bind_some]
        cases loopOpt (fun acc (i : Nat) =>
            g ((env.set (.var a) (some acc)).set (.var c) (some (ofNat i)))) z (List.range k.toNat) with
        | none => rfl
        | some r =>
          simp only [Option.map_some, Option.bind_some]
          refine reduceEnd_eq (Ne.symm hca) env r ha hc (fun h => ?_) (fun h => ?_)
          · obtain ⟨rfl, rfl⟩ := h1 (by simp [h]); exact ⟨rfl, rfl⟩
          · exact h2 (by simpa using h) r

/-- `with_let` on a body that restores the dictionary. -/
theorem letImpl_eq {v : Nat} {bind body : Mut V} {f g : Env V → Option V} {env : Env V}
    (hv : env (.var v) = none) (hf : bind env = (f env).map (·, env))
    (hg : ∀ x, body (env.set (.var v) (some x)) =
      (g (env.set (.var v) (some x))).map (·, env.set (.var v) (some x))) :
    letImpl v bind body env = ((f env).bind fun x => g (env.set (.var v) (some x))).map (·, env) := by
  unfold letImpl
  rw [hf]
  cases f env with
  | none => rfl
  | some x =>
    simp only [Option.map_some, Option.bind_some, hg]
    cases g (env.set (.var v) (some x)) with
    | none => rfl
    | some r => simp [delKey, get_set, set_set, set_none _ hv]

end Verif.Backend
