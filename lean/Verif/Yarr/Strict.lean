import Verif.Yarr.Rank
import Verif.Phi.Busy

/-! Array code as a strict evaluator, so that the results on the midend passes apply to it. -/

set_option linter.unusedSectionVars false

namespace Verif.Yarr
open Verif.Term Verif.Phi Verif.Arr Verif.Midend
variable {F : Type}

theorem override_empty (env ext : Env (YVal F)) : env.override ∅ ext = env := by
  funext s; simp [Env.override]

theorem set_override (env : Env (YVal F)) (s : Sym) (x : Option (YVal F)) :
    env.set s x = env.override {s} (fun _ => x) := by
  funext s'; simp [Env.override, Env.set]

theorem set_set_override (env : Env (YVal F)) (s t : Sym) (x y : Option (YVal F)) :
    (env.set s x).set t y = env.override {s, t} (fun s' => if s' = t then y else x) := by
  funext s'
  simp only [Env.override, Env.set, Finset.mem_insert, Finset.mem_singleton]
  by_cases h1 : s' = t <;> by_cases h2 : s' = s <;> simp [h1, h2]

/-- Pointwise comparison of the children, inside and outside the scope. -/
def ChildLe (h : Head F) (fs gs : List (Env (YVal F) → Option (YVal F))) (env env' : Env (YVal F)) : Prop :=
  ∀ (k : Nat) f g, fs[k]? = some f → gs[k]? = some g →
      (outside h k = true → Le (f env) (g env')) ∧
      (outside h k = false → ∀ ext : Env (YVal F),
        Le (f (env.override h.captured ext)) (g (env'.override h.captured ext)))

theorem arr1_le {f : A F → Option (A F)} {a b : Option (YVal F)} (h : Le a b) : Le (arr1 f a) (arr1 f b) :=
  (h.bind (fun _ _ => Le.rfl)).bind (fun _ _ => Le.rfl)

theorem maps_le {γ : Type} {l m : List (Env (YVal F) → Option (YVal F))} {env env' : Env (YVal F)}
    (h : List.Forall₂ (fun f g => Le (f env) (g env')) l m) (p : YVal F → Option γ) :
    Le (mapOpt (fun v : Option (YVal F) => v.bind p) (l.map (· env)))
      (mapOpt (fun v : Option (YVal F) => v.bind p) (m.map (· env'))) := by
  simp only [mapOpt_map]
  exact mapOpt_le (h.imp (fun _ _ hfg => hfg.bind (fun _ _ => Le.rfl)))

theorem arrs_le {l m : List (Env (YVal F) → Option (YVal F))} {env env' : Env (YVal F)}
    (h : List.Forall₂ (fun f g => Le (f env) (g env')) l m) :
    Le (arrsOf (l.map (· env))) (arrsOf (m.map (· env'))) := maps_le h _

theorem redLoop_le {xy xy' : List (A F) → List (A F) → Option (List (A F))} {axis : Nat}
    (h : ∀ l r, Le (xy l r) (xy' l r)) (fuel n : Nat) (acc vals : List (A F)) :
    Le (redLoop xy axis fuel n acc vals) (redLoop xy' axis fuel n acc vals) := by
  induction fuel generalizing n acc vals with
  | zero => exact Le.rfl
  | succ fuel ih =>
    unfold redLoop
    split
    · refine Le.bind ?_ (fun _ _ => Le.bind Le.rfl (fun _ _ => Le.bind Le.rfl (fun _ _ =>
        (h _ _).bind (fun _ _ => ih _ _ _))))
      split
      · exact Le.bind Le.rfl (fun _ _ => h _ _)
      · exact Le.rfl
    · split
      · exact Le.bind Le.rfl (fun _ _ => h _ _)
      · exact Le.rfl

theorem reduceOf_le {axis : Nat} {init vecs : YVal F} {xy xy' : YVal F → YVal F → Option (YVal F)}
    (h : ∀ l r, Le (xy l r) (xy' l r)) : Le (reduceOf axis init vecs xy) (reduceOf axis init vecs xy') := by
  unfold reduceOf
  refine Le.bind Le.rfl (fun acc _ => ?_)
  split
  · refine Le.bind Le.rfl (fun _ _ => Le.bind (redLoop_le (fun l r => ?_) _ _ _ _) (fun _ _ => Le.rfl))
    exact Le.bind Le.rfl (fun _ _ => Le.bind Le.rfl (fun _ _ => (h _ _).bind (fun _ _ => Le.rfl)))
  · exact Le.rfl

variable [FloatOps F]

theorem den_mono (J : YExt F) (h : Head F) (fs gs : List (Env (YVal F) → Option (YVal F)))
    (env env' : Env (YVal F)) (hl : fs.length = gs.length)
    (hs : ∀ s, h.symbol = some s → Le (env s) (env' s)) (hc : ChildLe h fs gs env env') :
    Le (den J h fs env) (den J h gs env') := by
  have hall : h.captured = ∅ → outside h = (fun _ => false) →
      List.Forall₂ (fun f g => Le (f env) (g env')) fs gs := by
    intro hcap hout
    refine forall₂_of_get hl (fun k f g hf hg => ?_)
    have := (hc k f g hf hg).2 (by rw [hout]) env
    rwa [hcap, override_empty, override_empty] at this
  cases h with
  | const v τ => exact Le.rfl
  | var v τ => exact hs _ rfl
  | letv v =>
    rcases fs with _ | ⟨f1, _ | ⟨f2, _ | ⟨f3, fs⟩⟩⟩ <;> rcases gs with _ | ⟨g1, _ | ⟨g2, _ | ⟨g3, gs⟩⟩⟩ <;>
      simp at hl <;> try exact Le.rfl
    have a := (hc 0 f1 g1 rfl rfl).1 rfl
    have b := (hc 1 f2 g2 rfl rfl).2 rfl
    simp only [Head.captured] at b
    simp only [den, set_override]
    exact a.bind (fun x _ => b _)
  | fold c a =>
    rcases fs with _ | ⟨f1, _ | ⟨f2, _ | ⟨f3, _ | ⟨f4, fs⟩⟩⟩⟩ <;>
      rcases gs with _ | ⟨g1, _ | ⟨g2, _ | ⟨g3, _ | ⟨g4, gs⟩⟩⟩⟩ <;> simp at hl <;> try exact Le.rfl
    have ha := (hc 0 f1 g1 rfl rfl).1 rfl
    have hz := (hc 1 f2 g2 rfl rfl).1 rfl
    have b := (hc 2 f3 g3 rfl rfl).2 rfl
    simp only [Head.captured, Finset.pair_comm (Sym.var c)] at b
    simp only [den, set_set_override]
    exact ((ha.bind (fun _ _ => Le.rfl)).bind (fun _ _ => Le.rfl)).bind (fun k _ => hz.bind (fun _ _ =>
      loopOpt_le (fun j acc => b _)))
  | reduce x y axis =>
    rcases fs with _ | ⟨f1, _ | ⟨f2, _ | ⟨f3, _ | ⟨f4, fs⟩⟩⟩⟩ <;>
      rcases gs with _ | ⟨g1, _ | ⟨g2, _ | ⟨g3, _ | ⟨g4, gs⟩⟩⟩⟩ <;> simp at hl <;> try exact Le.rfl
    have ha := (hc 0 f1 g1 rfl rfl).1 rfl
    have hz := (hc 2 f3 g3 rfl rfl).1 rfl
    have b := (hc 1 f2 g2 rfl rfl).2 rfl
    simp only [Head.captured] at b
    simp only [den, set_set_override]
    exact ha.bind (fun _ _ => hz.bind (fun _ _ => reduceOf_le (fun l r => b _)))
  | concat _ | elem _ _ | tuple | einsum _ _ =>
    have ha := hall rfl (by funext k; rfl)
    exact (arrs_le ha).bind (fun _ _ => Le.rfl)
  | ext fn τ =>
    have ha := hall rfl (by funext k; rfl)
    simp only [den, mapOpt_map]
    exact (mapOpt_le ha).bind (fun _ _ => Le.rfl)
  | take _ | slice _ _ | pad _ _ =>
    have ha := hall rfl (by funext k; rfl)
    rcases ha with _ | ⟨h1, h2⟩
    · exact Le.rfl
    · exact (arrs_le h2).bind (fun _ _ => arr1_le h1)
  | gather axis =>
    have ha := hall rfl (by funext k; rfl)
    rcases ha with _ | ⟨h1, _ | ⟨h2, _ | ⟨h3, h4⟩⟩⟩ <;> try exact Le.rfl
    exact (h1.bind (fun _ _ => Le.rfl)).bind (fun _ _ => arr1_le h2)
  | repeat_ axis =>
    have ha := hall rfl (by funext k; rfl)
    rcases ha with _ | ⟨h1, _ | ⟨h2, _ | ⟨h3, h4⟩⟩⟩ <;> try exact Le.rfl
    exact ((h1.bind (fun _ _ => Le.rfl)).bind (fun _ _ => Le.rfl)).bind (fun _ _ => arr1_le h2)
  | untuple i k =>
    have ha := hall rfl (by funext k; rfl)
    rcases ha with _ | ⟨h1, _ | ⟨h2, h3⟩⟩ <;> try exact Le.rfl
    exact h1.bind (fun _ _ => Le.rfl)
  | dim _ | range | transpose _ | squeeze _ | unsqueeze _ | reduceAxis _ _ | cast _ =>
    have ha := hall rfl (by funext k; rfl)
    rcases ha with _ | ⟨h1, _ | ⟨h2, h3⟩⟩ <;> try exact Le.rfl
    exact arr1_le h1

/-- Array code as a strict evaluator. -/
def strict (J : YExt F) : Strict (Head F) (YVal F) where
  den := den J
  den_symbol h s env hs := by
    change Head.symbol h = some s at hs
    cases h <;> simp only [Head.symbol, reduceCtorEq, Option.some.injEq] at hs
    subst hs; rfl
  den_symbol_le h fs s env hs := by
    change Head.symbol h = some s at hs
    cases h <;> simp only [Head.symbol, reduceCtorEq, Option.some.injEq] at hs
    subst hs
    exact Le.rfl
  den_let v f g env := rfl
  mono := den_mono J

/-! ### Every loop runs at least once -/

/-- `den`, failing also on loops without iterations. -/
def busyDen (J : YExt F) : Head F → List (Env (YVal F) → Option (YVal F)) → Env (YVal F) → Option (YVal F)
  | .const _ _, _ :: _, _ => none
  | .var _ _, _ :: _, _ => none
  | .fold c a, [n, z, b], env => (((n env).bind YVal.asArr).bind asSize).bind fun k =>
      if 1 ≤ k then den J (.fold c a) [n, z, b] env else none
  | .reduce x y axis, [z, b, vs], env => (vs env).bind fun vecs =>
      if (vecs.arrs.any fun a => a.shape[axis]? = some 0) then none
      else den J (.reduce x y axis) [z, b, vs] env
  | h, fs, env => den J h fs env

/-- The value of array code, provided every loop executed has at least one iteration. -/
def evalBusy (J : YExt F) (e : YExpr F) : Env (YVal F) → Option (YVal F) := cata (busyDen J) e

theorem busyDen_le (J : YExt F) (h : Head F) (fs : List (Env (YVal F) → Option (YVal F)))
    (env : Env (YVal F)) : Le (busyDen J h fs env) (den J h fs env) := by
  unfold busyDen
  split
  · rintro _ ⟨⟩
  · rintro _ ⟨⟩
  · intro v hv
    obtain ⟨k, _, hk⟩ := Option.bind_eq_some_iff.1 hv
    split_ifs at hk; exact hk
  · intro v hv
    obtain ⟨k, _, hk⟩ := Option.bind_eq_some_iff.1 hv
    split_ifs at hk; exact hk
  · exact Le.rfl

theorem busyDen_mono (J : YExt F) (h : Head F) (fs gs : List (Env (YVal F) → Option (YVal F)))
    (env env' : Env (YVal F)) (hl : fs.length = gs.length)
    (hs : ∀ s, h.symbol = some s → Le (env s) (env' s)) (hc : ChildLe h fs gs env env') :
    Le (busyDen J h fs env) (busyDen J h gs env') := by
  have hr := den_mono J h fs gs env env' hl hs hc
  cases h with
  | const v τ | var s τ =>
    rcases fs with _ | ⟨f, fs⟩
    · rcases gs with _ | ⟨g, gs⟩
      · exact hr
      · simp at hl
    · rintro _ ⟨⟩
  | fold c a =>
    rcases fs with _ | ⟨f1, _ | ⟨f2, _ | ⟨f3, _ | ⟨f4, fs⟩⟩⟩⟩ <;>
      rcases gs with _ | ⟨g1, _ | ⟨g2, _ | ⟨g3, _ | ⟨g4, gs⟩⟩⟩⟩ <;> simp at hl <;> try exact hr
    have ha := (hc 0 f1 g1 rfl rfl).1 rfl
    simp only [busyDen]
    refine ((ha.bind (fun _ _ => Le.rfl)).bind (fun _ _ => Le.rfl)).bind (fun k _ => ?_)
    split_ifs
    · exact hr
    · exact Le.rfl
  | reduce x y axis =>
    rcases fs with _ | ⟨f1, _ | ⟨f2, _ | ⟨f3, _ | ⟨f4, fs⟩⟩⟩⟩ <;>
      rcases gs with _ | ⟨g1, _ | ⟨g2, _ | ⟨g3, _ | ⟨g4, gs⟩⟩⟩⟩ <;> simp at hl <;> try exact hr
    have ha := (hc 2 f3 g3 rfl rfl).1 rfl
    simp only [busyDen]
    refine ha.bind (fun k _ => ?_)
    split_ifs
    · exact Le.rfl
    · exact hr
  | _ => exact hr

theorem redLoop_calls {xy : List (A F) → List (A F) → Option (List (A F))} {axis fuel n : Nat}
    {acc vals : List (A F)} (hn : 1 ≤ n) (h : (redLoop xy axis fuel n acc vals).isSome) :
    ∃ l r, (xy l r).isSome := by
  cases fuel with
  | zero => cases h
  | succ fuel =>
    unfold redLoop at h
    split at h
    · obtain ⟨_, _, h⟩ := bind_isSome h
      obtain ⟨_, _, h⟩ := bind_isSome h
      obtain ⟨_, _, h⟩ := bind_isSome h
      exact ⟨_, _, bind_isSome_left h⟩
    · rw [if_pos (by omega)] at h
      obtain ⟨_, _, h⟩ := bind_isSome h
      exact ⟨_, _, h⟩

theorem reduceOf_calls {axis : Nat} {init vecs : YVal F} {xy : YVal F → YVal F → Option (YVal F)}
    (hn : ¬ (vecs.arrs.any fun a => a.shape[axis]? = some 0))
    (h : (reduceOf axis init vecs xy).isSome) : ∃ l r, (xy l r).isSome := by
  unfold reduceOf at h
  obtain ⟨acc, _, h⟩ := bind_isSome h
  split at h
  swap
  · cases h
  rename_i n hd
  have hmem : some n ∈ vecs.arrs.map (fun a : A F => a.shape[axis]?) := by
    rw [← List.mem_dedup, hd]; simp
  rw [List.mem_map] at hmem
  obtain ⟨a, ha, han⟩ := hmem
  have hn1 : 1 ≤ n := by
    rcases n with _ | n
    · exact absurd (List.any_eq_true.2 ⟨a, ha, by simpa using han⟩) hn
    · omega
  obtain ⟨_, _, h⟩ := bind_isSome h
  obtain ⟨l, r, h⟩ := redLoop_calls hn1 (bind_isSome_left h)
  obtain ⟨x, _, h⟩ := bind_isSome h
  obtain ⟨y, _, h⟩ := bind_isSome h
  exact ⟨x, y, bind_isSome_left h⟩

theorem arrsOf_isSome {fs : List (Env (YVal F) → Option (YVal F))} {env : Env (YVal F)}
    (h : (arrsOf (fs.map (· env))).isSome) {k : Nat} {f : Env (YVal F) → Option (YVal F)}
    (hf : fs[k]? = some f) : (f env).isSome := by
  unfold arrsOf at h
  rw [mapOpt_map] at h
  exact bind_isSome_left (mapOpt_isSome h f (List.mem_of_getElem? hf))

theorem arr1_isSome {f : A F → Option (A F)} {v : Option (YVal F)} (h : (arr1 f v).isSome) : v.isSome :=
  bind_isSome_left (bind_isSome_left h)

theorem busyDen_demand (J : YExt F) (h : Head F) (fs : List (Env (YVal F) → Option (YVal F)))
    (env : Env (YVal F)) (hv : (busyDen J h fs env).isSome) (k : Nat)
    (f : Env (YVal F) → Option (YVal F)) (hf : fs[k]? = some f) :
    (outside h k = true → (f env).isSome) ∧
    (outside h k = false → ∃ ext : Env (YVal F), (f (env.override h.captured ext)).isSome) := by
  suffices H : outside h k = true ∨ h.captured = ∅ → (f env).isSome by
    refine ⟨fun ho => H (Or.inl ho), fun ho => ?_⟩
    by_cases hcap : h.captured = ∅
    · exact ⟨env, by rw [hcap, override_empty]; exact H (Or.inr hcap)⟩
    · clear H
      cases h with
      | letv v =>
        rcases fs with _ | ⟨f1, _ | ⟨f2, _ | ⟨f3, fs⟩⟩⟩ <;> try (simp [busyDen, den] at hv; done)
        rcases k with _ | _ | k
        · simp [outside] at ho
        · cases hf
          simp only [busyDen, den] at hv
          obtain ⟨x, _, hx⟩ := bind_isSome hv
          refine ⟨fun _ => some x, ?_⟩
          rw [set_override] at hx
          exact hx
        · simp at hf
      | fold c a =>
        rcases fs with _ | ⟨f1, _ | ⟨f2, _ | ⟨f3, _ | ⟨f4, fs⟩⟩⟩⟩ <;> try (simp [busyDen, den] at hv; done)
        rcases k with _ | _ | _ | k
        · simp [outside] at ho
        · simp [outside] at ho
        · cases hf
          simp only [busyDen] at hv
          obtain ⟨n, hn, hx⟩ := bind_isSome hv
          by_cases h1 : 1 ≤ n
          swap
          · simp [h1] at hx
          rw [if_pos h1] at hx
          simp only [den, hn, Option.bind_some] at hx
          obtain ⟨z, hz, hx⟩ := bind_isSome hx
          obtain ⟨l, hl⟩ := range_pos (n := n.toNat) (by omega)
          rw [hl] at hx
          have := loopOpt_first hx
          rw [set_set_override, Finset.pair_comm] at this
          exact ⟨_, this⟩
        · simp at hf
      | reduce x y axis =>
        rcases fs with _ | ⟨f1, _ | ⟨f2, _ | ⟨f3, _ | ⟨f4, fs⟩⟩⟩⟩ <;> try (simp [busyDen, den] at hv; done)
        rcases k with _ | _ | _ | k
        · simp [outside] at ho
        · cases hf
          simp only [busyDen] at hv
          obtain ⟨vecs, hvecs, hx⟩ := bind_isSome hv
          split at hx
          · cases hx
          rename_i hn
          simp only [den, hvecs] at hx
          obtain ⟨z, hz, hx⟩ := bind_isSome hx
          obtain ⟨l, r, hlr⟩ := reduceOf_calls hn hx
          rw [set_set_override] at hlr
          exact ⟨_, hlr⟩
        · simp [outside] at ho
        · simp at hf
      | _ => exact absurd rfl hcap
  intro hoc
  have hv' : (den J h fs env).isSome := (busyDen_le J h fs env).isSome hv
  cases h with
  | const v τ | var s τ =>
    rcases fs with _ | ⟨f1, fs⟩
    · simp at hf
    · cases hv
  | letv v =>
    clear hv
    rcases fs with _ | ⟨f1, _ | ⟨f2, _ | ⟨f3, fs⟩⟩⟩ <;> try (simp [den] at hv'; done)
    rcases k with _ | k
    · cases hf
      exact bind_isSome_left hv'
    · rcases hoc with h | h
      · simp [outside] at h
      · simp [Head.captured] at h
  | fold c a =>
    clear hv
    rcases fs with _ | ⟨f1, _ | ⟨f2, _ | ⟨f3, _ | ⟨f4, fs⟩⟩⟩⟩ <;> try (simp [den] at hv'; done)
    rcases k with _ | _ | k
    · cases hf
      exact bind_isSome_left (bind_isSome_left (bind_isSome_left hv'))
    · cases hf
      obtain ⟨x, _, hx⟩ := bind_isSome hv'
      exact bind_isSome_left hx
    · rcases hoc with h | h
      · simp [outside] at h; omega
      · simp [Head.captured] at h
  | reduce x y axis =>
    clear hv
    rcases fs with _ | ⟨f1, _ | ⟨f2, _ | ⟨f3, _ | ⟨f4, fs⟩⟩⟩⟩ <;> try (simp [den] at hv'; done)
    rcases k with _ | _ | _ | k
    · cases hf
      exact bind_isSome_left hv'
    · rcases hoc with h | h
      · simp [outside] at h
      · simp [Head.captured] at h
    · cases hf
      obtain ⟨x, _, hx⟩ := bind_isSome hv'
      exact bind_isSome_left hx
    · simp at hf
  | concat _ | elem _ _ | tuple | einsum _ _ => exact arrsOf_isSome (bind_isSome_left hv') hf
  | ext fn τ =>
    have := bind_isSome_left hv'
    rw [mapOpt_map] at this
    exact mapOpt_isSome this f (List.mem_of_getElem? hf)
  | take _ | slice _ _ | pad _ _ =>
    clear hv
    rcases fs with _ | ⟨f1, fs⟩ <;> try (simp [den] at hv'; done)
    rcases k with _ | k
    · cases hf
      obtain ⟨_, _, hx⟩ := bind_isSome hv'
      exact arr1_isSome hx
    · exact arrsOf_isSome (k := k) (bind_isSome_left hv') (by simpa using hf)
  | gather axis =>
    clear hv
    rcases fs with _ | ⟨f1, _ | ⟨f2, _ | ⟨f3, fs⟩⟩⟩ <;> try (simp [den] at hv'; done)
    rcases k with _ | _ | k
    · cases hf
      exact bind_isSome_left (bind_isSome_left hv')
    · cases hf
      obtain ⟨_, _, hx⟩ := bind_isSome hv'
      exact arr1_isSome hx
    · simp at hf
  | repeat_ axis =>
    clear hv
    rcases fs with _ | ⟨f1, _ | ⟨f2, _ | ⟨f3, fs⟩⟩⟩ <;> try (simp [den] at hv'; done)
    rcases k with _ | _ | k
    · cases hf
      exact bind_isSome_left (bind_isSome_left (bind_isSome_left hv'))
    · cases hf
      obtain ⟨_, _, hx⟩ := bind_isSome hv'
      exact arr1_isSome hx
    · simp at hf
  | untuple i n =>
    clear hv
    rcases fs with _ | ⟨f1, _ | ⟨f2, fs⟩⟩ <;> try (simp [den] at hv'; done)
    rcases k with _ | k
    · cases hf
      exact bind_isSome_left hv'
    · simp at hf
  | dim _ | range | transpose _ | squeeze _ | unsqueeze _ | reduceAxis _ _ | cast _ =>
    clear hv
    rcases fs with _ | ⟨f1, _ | ⟨f2, fs⟩⟩ <;> try (simp [den] at hv'; done)
    rcases k with _ | k
    · cases hf
      exact arr1_isSome hv'
    · simp at hf

/-- `evalBusy` as a strict evaluator. -/
def busy (J : YExt F) : Strict (Head F) (YVal F) where
  den := busyDen J
  den_symbol h s env hs := by
    change Head.symbol h = some s at hs
    cases h <;> simp only [Head.symbol, reduceCtorEq, Option.some.injEq] at hs
    subst hs; rfl
  den_symbol_le h fs s env hs := by
    change Head.symbol h = some s at hs
    cases h <;> simp only [Head.symbol, reduceCtorEq, Option.some.injEq] at hs
    subst hs
    exact busyDen_le J _ fs env
  den_let v f g env := rfl
  mono := busyDen_mono J

theorem busy_demanding (J : YExt F) : (busy J).Demanding := busyDen_demand J

theorem evalBusy_eval (J : YExt F) (e : YExpr F) : ∀ env, Le (evalBusy J e env) (eval J e env) := by
  induction e using ind with
  | step h ts ih =>
    intro env
    unfold evalBusy
    rw [cata_node, eval_node]
    intro v hv
    refine den_mono J h _ _ env env (by simp) (fun _ _ => Le.rfl) ?_ v (busyDen_le J _ _ _ v hv)
    intro k f g hf hg
    rw [List.getElem?_map, Option.map_eq_some_iff] at hf hg
    obtain ⟨t, ht, rfl⟩ := hf
    obtain ⟨u, hu, rfl⟩ := hg
    rw [ht] at hu; cases hu
    exact ⟨fun _ => ih t (List.mem_of_getElem? ht) env,
      fun _ ext => ih t (List.mem_of_getElem? ht) _⟩

end Verif.Yarr
