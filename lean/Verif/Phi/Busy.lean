import Verif.Phi.Run

/-! Strict evaluation of phi in which every loop must run at least once. -/

set_option linter.unusedSectionVars false

namespace Verif.Phi
open Verif.Term Verif.Midend
variable {F : Type} [FloatOps F]

/-- `x`, provided the loop count is at least one. -/
def needTrip (n : Option (D F)) (x : Option (D F)) : Option (D F) :=
  (n.bind Val.asInt).bind fun k => if 1 ≤ k then x else none

/-- `x`, provided the first vector is not empty. -/
def needRow (vs : List (Option (D F))) (x : Option (D F)) : Option (D F) :=
  match vs with
  | [] => none
  | v :: _ => (v.bind Val.asVec).bind fun l => if l = [] then none else x

/-- `runDen`, failing also on loops without iterations. -/
def busyDen (I : Ext F) : Head F → List (Env (D F) → Option (D F)) → Env (D F) → Option (D F)
  | .const _ _, _ :: _, _ => none
  | .store _ _, _ :: _, _ => none
  | .vec i, [n, b], env => needTrip (n env) (runDen I (.vec i) [n, b] env)
  | .fold c a, [n, z, b], env => needTrip (n env) (runDen I (.fold c a) [n, z, b] env)
  | .reduce x y, z :: b :: vs, env =>
    needRow (vs.map (· env)) (runDen I (.reduce x y) (z :: b :: vs) env)
  | h, fs, env => runDen I h fs env

/-- `run`, failing also if some loop has no iterations. -/
def runBusy (I : Ext F) (e : Expr F) : Env (D F) → Option (D F) := cata (busyDen I) e

theorem needTrip_le {n : Option (D F)} {x : Option (D F)} : Le (needTrip n x) x := by
  intro v hv
  obtain ⟨k, _, hk⟩ := Option.bind_eq_some_iff.1 hv
  split_ifs at hk; exact hk

theorem needRow_le {vs : List (Option (D F))} {x : Option (D F)} : Le (needRow vs x) x := by
  intro v hv
  cases vs with
  | nil => cases hv
  | cons w ws =>
    obtain ⟨l, _, hl⟩ := Option.bind_eq_some_iff.1 hv
    split_ifs at hl; exact hl

theorem busyDen_le (I : Ext F) (h : Head F) (fs : List (Env (D F) → Option (D F))) (env : Env (D F)) :
    Le (busyDen I h fs env) (runDen I h fs env) := by
  unfold busyDen
  split
  · rintro _ ⟨⟩
  · rintro _ ⟨⟩
  · exact needTrip_le
  · exact needTrip_le
  · exact needRow_le
  · exact Le.rfl

/-- Pointwise comparison of the children, inside and outside the scope. -/
def ChildLe (h : Head F) (fs gs : List (Env (D F) → Option (D F))) (env env' : Env (D F)) : Prop :=
  ∀ (k : Nat) f g, fs[k]? = some f → gs[k]? = some g →
      (outside h k = true → Le (f env) (g env')) ∧
      (outside h k = false → ∀ ext : Env (D F),
        Le (f (env.override h.captured ext)) (g (env'.override h.captured ext)))

theorem forall₂_of_get {α β : Type} {R : α → β → Prop} {l : List α} {m : List β}
    (hl : l.length = m.length) (h : ∀ (k : Nat) a b, l[k]? = some a → m[k]? = some b → R a b) :
    List.Forall₂ R l m := by
  induction l generalizing m with
  | nil => cases m with
    | nil => exact .nil
    | cons b m => simp at hl
  | cons a l ih => cases m with
    | nil => simp at hl
    | cons b m =>
      refine .cons (h 0 a b rfl rfl) (ih (by simpa using hl) (fun k x y hx hy => ?_))
      exact h (k + 1) x y (by simpa using hx) (by simpa using hy)

theorem forall₂_map_le {γ : Type} {l m : List (Env (D F) → Option (D F))} {env env' : Env (D F)}
    (h : List.Forall₂ (fun f g => Le (f env) (g env')) l m) (p : D F → Option γ) :
    Le (mapOpt (fun v : Option (D F) => v.bind p) (l.map (· env)))
      (mapOpt (fun v : Option (D F) => v.bind p) (m.map (· env'))) := by
  simp only [mapOpt_map]
  exact mapOpt_le (h.imp (fun _ _ hfg => hfg.bind (fun _ _ => Le.rfl)))

theorem runDen_mono (I : Ext F) (h : Head F) (fs gs : List (Env (D F) → Option (D F)))
    (env env' : Env (D F)) (hl : fs.length = gs.length)
    (hs : ∀ s, h.symbol = some s → Le (env s) (env' s)) (hc : ChildLe h fs gs env env') :
    Le (runDen I h fs env) (runDen I h gs env') := by
  have h1 : ∀ f g, fs = [f] → gs = [g] → h.captured = ∅ → outside h = (fun _ => false) →
      Le (f env) (g env') := by
    rintro f g rfl rfl hcap hout
    have := (hc 0 f g rfl rfl).2 (by rw [hout]) env
    rwa [hcap, override_empty, override_empty] at this
  have hall : h.captured = ∅ → outside h = (fun _ => false) →
      ∀ (k : Nat) f g, fs[k]? = some f → gs[k]? = some g → Le (f env) (g env') := by
    intro hcap hout k f g hf hg
    have := (hc k f g hf hg).2 (by rw [hout]) env
    rwa [hcap, override_empty, override_empty] at this
  cases h with
  | const v τ => exact Le.rfl
  | store s τ => exact hs s rfl
  | letv v =>
    rcases fs with _ | ⟨f1, _ | ⟨f2, _ | ⟨f3, fs⟩⟩⟩ <;> rcases gs with _ | ⟨g1, _ | ⟨g2, _ | ⟨g3, gs⟩⟩⟩ <;>
      simp at hl <;> try exact Le.rfl
    have a := (hc 0 f1 g1 rfl rfl).1 rfl
    have b := (hc 1 f2 g2 rfl rfl).2 rfl
    simp only [Head.captured] at b
    simp only [runDen, set_override]
    exact a.bind (fun x _ => b _)
  | assertEq =>
    have ha := hall rfl (by funext k; rfl)
    rcases fs with _ | ⟨f1, fs⟩ <;> rcases gs with _ | ⟨g1, gs⟩ <;> simp at hl <;> try exact Le.rfl
    simp only [runDen, assertOf]
    refine Le.bind (forall₂_map_le (forall₂_of_get hl (fun k a b h1 h2 =>
      ha (k + 1) a b (by simpa using h1) (by simpa using h2))) _) (fun ns _ => ?_)
    rcases ns with _ | ⟨n, ns⟩
    · exact Le.rfl
    · dsimp only
      split_ifs
      · exact ha 0 f1 g1 rfl rfl
      · exact Le.rfl
  | dim k =>
    rcases fs with _ | ⟨f1, _ | ⟨f2, fs⟩⟩ <;> rcases gs with _ | ⟨g1, _ | ⟨g2, gs⟩⟩ <;>
      simp at hl <;> try exact Le.rfl
    exact ((h1 f1 g1 rfl rfl rfl (by funext k; rfl)).bind (fun _ _ => Le.rfl)).bind
      (fun _ _ => Le.rfl)
  | fst | snd =>
    rcases fs with _ | ⟨f1, _ | ⟨f2, fs⟩⟩ <;> rcases gs with _ | ⟨g1, _ | ⟨g2, gs⟩⟩ <;>
      simp at hl <;> try exact Le.rfl
    exact (h1 f1 g1 rfl rfl rfl (by funext k; rfl)).bind (fun _ _ => Le.rfl)
  | get | concat =>
    have ha := hall rfl (by funext k; rfl)
    rcases fs with _ | ⟨f1, _ | ⟨f2, _ | ⟨f3, fs⟩⟩⟩ <;> rcases gs with _ | ⟨g1, _ | ⟨g2, _ | ⟨g3, gs⟩⟩⟩ <;>
      simp at hl <;> try exact Le.rfl
    exact ((ha 0 f1 g1 rfl rfl).bind (fun _ _ => Le.rfl)).bind (fun _ _ =>
      ((ha 1 f2 g2 rfl rfl).bind (fun _ _ => Le.rfl)).bind (fun _ _ => Le.rfl))
  | cons =>
    have ha := hall rfl (by funext k; rfl)
    rcases fs with _ | ⟨f1, _ | ⟨f2, _ | ⟨f3, fs⟩⟩⟩ <;> rcases gs with _ | ⟨g1, _ | ⟨g2, _ | ⟨g3, gs⟩⟩⟩ <;>
      simp at hl <;> try exact Le.rfl
    exact (ha 0 f1 g1 rfl rfl).bind (fun _ _ => (ha 1 f2 g2 rfl rfl).bind (fun _ _ => Le.rfl))
  | vec i =>
    rcases fs with _ | ⟨f1, _ | ⟨f2, _ | ⟨f3, fs⟩⟩⟩ <;> rcases gs with _ | ⟨g1, _ | ⟨g2, _ | ⟨g3, gs⟩⟩⟩ <;>
      simp at hl <;> try exact Le.rfl
    have a := (hc 0 f1 g1 rfl rfl).1 rfl
    have b := (hc 1 f2 g2 rfl rfl).2 rfl
    simp only [Head.captured] at b
    simp only [runDen, set_override, vecOf]
    refine (a.bind (fun _ _ => Le.rfl)).bind (fun k _ => ?_)
    refine Le.bind (mapOpt_le ?_) (fun _ _ => Le.rfl)
    rw [List.forall₂_same]
    intro j _
    exact b _
  | fold c a =>
    rcases fs with _ | ⟨f1, _ | ⟨f2, _ | ⟨f3, _ | ⟨f4, fs⟩⟩⟩⟩ <;>
      rcases gs with _ | ⟨g1, _ | ⟨g2, _ | ⟨g3, _ | ⟨g4, gs⟩⟩⟩⟩ <;> simp at hl <;> try exact Le.rfl
    have ha := (hc 0 f1 g1 rfl rfl).1 rfl
    have hz := (hc 1 f2 g2 rfl rfl).1 rfl
    have b := (hc 2 f3 g3 rfl rfl).2 rfl
    simp only [Head.captured, Finset.pair_comm (Sym.var c)] at b
    simp only [runDen, set_set_override, foldOf]
    refine (ha.bind (fun _ _ => Le.rfl)).bind (fun k _ => hz.bind (fun _ _ =>
      loopOpt_le (fun j acc => b _)))
  | reduce x y =>
    rcases fs with _ | ⟨f1, _ | ⟨f2, fs⟩⟩ <;> rcases gs with _ | ⟨g1, _ | ⟨g2, gs⟩⟩ <;>
      simp at hl <;> try exact Le.rfl
    have hz := (hc 0 f1 g1 rfl rfl).1 rfl
    have b := (hc 1 f2 g2 rfl rfl).2 rfl
    simp only [Head.captured] at b
    simp only [runDen, set_set_override, reduceOf]
    refine Le.bind (forall₂_map_le (forall₂_of_get hl (fun k a b h1 h2 =>
      (hc (k + 2) a b (by simpa using h1) (by simpa using h2)).1 (by simp [outside]))) _) (fun ls _ => ?_)
    rcases ls with _ | ⟨l, ls⟩
    · exact Le.rfl
    · dsimp only
      split_ifs
      · refine hz.bind (fun _ _ => loopOpt_le (fun j acc => Le.bind Le.rfl (fun row _ => b _)))
      · exact Le.rfl
  | op o =>
    have ha := hall rfl (by funext k; rfl)
    exact Le.bind (forall₂_map_le (forall₂_of_get hl ha) _) (fun _ _ => Le.rfl)
  | ext fn τ =>
    have ha := hall rfl (by funext k; rfl)
    have := forall₂_map_le (forall₂_of_get hl ha) (fun v => some v)
    have hid : (fun v : Option (D F) => v.bind fun v => some v) = fun v => v := by
      funext v; cases v <;> rfl
    rw [hid] at this
    exact this.bind (fun _ _ => Le.rfl)

theorem needTrip_mono {n n' x x' : Option (D F)} (hn : Le n n') (hx : Le x x') :
    Le (needTrip n x) (needTrip n' x') := by
  refine (hn.bind (fun _ _ => Le.rfl)).bind (fun k _ => ?_)
  split_ifs
  · exact hx
  · exact Le.rfl

theorem busyDen_mono (I : Ext F) (h : Head F) (fs gs : List (Env (D F) → Option (D F)))
    (env env' : Env (D F)) (hl : fs.length = gs.length)
    (hs : ∀ s, h.symbol = some s → Le (env s) (env' s)) (hc : ChildLe h fs gs env env') :
    Le (busyDen I h fs env) (busyDen I h gs env') := by
  have hr := runDen_mono I h fs gs env env' hl hs hc
  cases h with
  | vec i =>
    rcases fs with _ | ⟨f1, _ | ⟨f2, _ | ⟨f3, fs⟩⟩⟩ <;> rcases gs with _ | ⟨g1, _ | ⟨g2, _ | ⟨g3, gs⟩⟩⟩ <;>
      simp at hl <;> try exact hr
    exact needTrip_mono ((hc 0 f1 g1 rfl rfl).1 rfl) hr
  | fold c a =>
    rcases fs with _ | ⟨f1, _ | ⟨f2, _ | ⟨f3, _ | ⟨f4, fs⟩⟩⟩⟩ <;>
      rcases gs with _ | ⟨g1, _ | ⟨g2, _ | ⟨g3, _ | ⟨g4, gs⟩⟩⟩⟩ <;> simp at hl <;> try exact hr
    exact needTrip_mono ((hc 0 f1 g1 rfl rfl).1 rfl) hr
  | reduce x y =>
    rcases fs with _ | ⟨f1, _ | ⟨f2, fs⟩⟩ <;> rcases gs with _ | ⟨g1, _ | ⟨g2, gs⟩⟩ <;>
      simp at hl <;> try exact hr
    rcases fs with _ | ⟨f3, fs⟩ <;> rcases gs with _ | ⟨g3, gs⟩ <;> simp at hl
    · exact Le.rfl
    · have a := (hc 2 f3 g3 rfl rfl).1 rfl
      simp only [busyDen, needRow, List.map_cons]
      refine (a.bind (fun _ _ => Le.rfl)).bind (fun l _ => ?_)
      split_ifs
      · exact Le.rfl
      · exact hr
  | const v τ =>
    rcases fs with _ | ⟨f, fs⟩
    · rcases gs with _ | ⟨g, gs⟩
      · exact hr
      · simp at hl
    · rintro _ ⟨⟩
  | store s τ =>
    rcases fs with _ | ⟨f, fs⟩
    · rcases gs with _ | ⟨g, gs⟩
      · exact hr
      · simp at hl
    · rintro _ ⟨⟩
  | _ => exact hr

theorem mapOpt_isSome {α β : Type} {f : α → Option β} {l : List α} (h : (mapOpt f l).isSome) :
    ∀ a ∈ l, (f a).isSome := by
  induction l with
  | nil => simp
  | cons a l ih =>
    simp only [mapOpt] at h
    cases hf : f a with
    | none => simp [hf] at h
    | some b =>
      simp only [hf, Option.bind_some] at h
      cases hm : mapOpt f l with
      | none => simp [hm] at h
      | some bs =>
        intro x hx
        rcases List.mem_cons.1 hx with rfl | hx
        · simp [hf]
        · exact ih (by simp [hm]) x hx

theorem bind_isSome_left {α β : Type} {a : Option α} {f : α → Option β} (h : (a.bind f).isSome) :
    a.isSome := by cases a <;> simp_all

theorem bind_isSome {α β : Type} {a : Option α} {f : α → Option β} (h : (a.bind f).isSome) :
    ∃ x, a = some x ∧ (f x).isSome := by cases a <;> simp_all

theorem mapOpt_bind_isSome {γ : Type} {fs : List (Env (D F) → Option (D F))} {env : Env (D F)}
    {p : D F → Option γ}
    (h : (mapOpt (fun v : Option (D F) => v.bind p) (fs.map (· env))).isSome) {k : Nat}
    {f : Env (D F) → Option (D F)} (hf : fs[k]? = some f) : (f env).isSome := by
  rw [mapOpt_map] at h
  exact bind_isSome_left (mapOpt_isSome h f (List.mem_of_getElem? hf))

theorem loopOpt_first {α β : Type} {f : β → α → Option β} {b : β} {a : α} {l : List α}
    (h : (loopOpt f b (a :: l)).isSome) : (f b a).isSome := bind_isSome_left h

theorem range_pos {n : Nat} (h : 0 < n) : ∃ l, List.range n = 0 :: l := by
  cases n with
  | zero => omega
  | succ n => exact ⟨_, List.range_succ_eq_map⟩

theorem busyDen_demand (I : Ext F) (h : Head F) (fs : List (Env (D F) → Option (D F)))
    (env : Env (D F)) (hv : (busyDen I h fs env).isSome) (k : Nat) (f : Env (D F) → Option (D F))
    (hf : fs[k]? = some f) :
    (outside h k = true → (f env).isSome) ∧
    (outside h k = false → ∃ ext : Env (D F), (f (env.override h.captured ext)).isSome) := by
  suffices H : outside h k = true ∨ h.captured = ∅ → (f env).isSome by
    refine ⟨fun ho => H (Or.inl ho), fun ho => ?_⟩
    by_cases hcap : h.captured = ∅
    · exact ⟨env, by rw [hcap, override_empty]; exact H (Or.inr hcap)⟩
    · clear H
      cases h with
      | letv v =>
        rcases fs with _ | ⟨f1, _ | ⟨f2, _ | ⟨f3, fs⟩⟩⟩ <;> try (simp [busyDen, runDen] at hv; done)
        rcases k with _ | _ | k
        · simp [outside] at ho
        · cases hf
          simp only [busyDen, runDen] at hv
          obtain ⟨x, _, hx⟩ := bind_isSome hv
          refine ⟨fun _ => some x, ?_⟩
          rw [set_override] at hx
          exact hx
        · simp at hf
      | vec i =>
        rcases fs with _ | ⟨f1, _ | ⟨f2, _ | ⟨f3, fs⟩⟩⟩ <;> try (simp [busyDen, runDen] at hv; done)
        rcases k with _ | _ | k
        · simp [outside] at ho
        · cases hf
          simp only [busyDen, needTrip] at hv
          obtain ⟨n, hn, hx⟩ := bind_isSome hv
          by_cases h1 : 1 ≤ n
          swap
          · simp [h1] at hx
          rw [if_pos h1] at hx
          simp only [runDen, vecOf, hn, Option.bind_some] at hx
          have := mapOpt_isSome (bind_isSome_left hx) 0 (by simp; omega)
          rw [set_override] at this
          exact ⟨_, this⟩
        · simp at hf
      | fold c a =>
        rcases fs with _ | ⟨f1, _ | ⟨f2, _ | ⟨f3, _ | ⟨f4, fs⟩⟩⟩⟩ <;> try (simp [busyDen, runDen] at hv; done)
        rcases k with _ | _ | _ | k
        · simp [outside] at ho
        · simp [outside] at ho
        · cases hf
          simp only [busyDen, needTrip] at hv
          obtain ⟨n, hn, hx⟩ := bind_isSome hv
          by_cases h1 : 1 ≤ n
          swap
          · simp [h1] at hx
          rw [if_pos h1] at hx
          simp only [runDen, foldOf, hn, Option.bind_some] at hx
          obtain ⟨z, hz, hx⟩ := bind_isSome hx
          obtain ⟨l, hl⟩ := range_pos (n := n.toNat) (by omega)
          rw [hl] at hx
          have := loopOpt_first hx
          rw [set_set_override, Finset.pair_comm] at this
          exact ⟨_, this⟩
        · simp at hf
      | reduce x y =>
        rcases fs with _ | ⟨f1, _ | ⟨f2, fs⟩⟩ <;> try (simp [busyDen, runDen] at hv; done)
        rcases k with _ | _ | k
        · simp [outside] at ho
        · cases hf
          rcases fs with _ | ⟨f3, fs⟩
          · cases hv
          simp only [busyDen, needRow, List.map_cons] at hv
          obtain ⟨l, hl, hx⟩ := bind_isSome hv
          by_cases hne : l = []
          · simp [hne] at hx
          rw [if_neg hne] at hx
          simp only [runDen, reduceOf, List.map_cons] at hx
          obtain ⟨ls, hls, hx⟩ := bind_isSome hx
          simp only [mapOpt, hl, Option.bind_some, Option.bind_eq_some_iff, Option.some.injEq] at hls
          obtain ⟨ls', _, rfl⟩ := hls
          dsimp only at hx
          split at hx
          swap
          · cases hx
          obtain ⟨z, hz, hx⟩ := bind_isSome hx
          obtain ⟨r, hr⟩ := range_pos (n := l.length) (List.length_pos_iff.2 hne)
          rw [hr] at hx
          have hfirst := loopOpt_first hx
          obtain ⟨row, _, hx⟩ := bind_isSome hfirst
          rw [set_set_override] at hx
          exact ⟨_, hx⟩
        · simp [outside] at ho
      | _ => exact absurd rfl hcap
  intro hoc
  have hv' : (runDen I h fs env).isSome := (busyDen_le I h fs env).isSome hv
  cases h with
  | const v τ | store s τ =>
    rcases fs with _ | ⟨f1, fs⟩
    · simp at hf
    · cases hv
  | letv v =>
    clear hv
    rcases fs with _ | ⟨f1, _ | ⟨f2, _ | ⟨f3, fs⟩⟩⟩ <;> try (simp [runDen] at hv'; done)
    rcases k with _ | k
    · cases hf
      exact bind_isSome_left hv'
    · rcases hoc with h | h
      · simp [outside] at h
      · simp [Head.captured] at h
  | assertEq =>
    clear hv
    rcases fs with _ | ⟨f1, fs⟩ <;> try (simp [runDen] at hv'; done)
    simp only [runDen, assertOf] at hv'
    obtain ⟨ns, hns, hx⟩ := bind_isSome hv'
    rcases k with _ | k
    · cases hf
      rcases ns with _ | ⟨n, ns⟩
      · cases hx
      · dsimp only at hx
        split at hx
        · exact hx
        · cases hx
    · exact mapOpt_bind_isSome (k := k) (bind_isSome_left hv') (by simpa using hf)
  | dim a =>
    clear hv
    rcases fs with _ | ⟨f1, _ | ⟨f2, fs⟩⟩ <;> try (simp [runDen] at hv'; done)
    rcases k with _ | k
    · cases hf
      exact bind_isSome_left (bind_isSome_left hv')
    · simp at hf
  | fst | snd =>
    clear hv
    rcases fs with _ | ⟨f1, _ | ⟨f2, fs⟩⟩ <;> try (simp [runDen] at hv'; done)
    rcases k with _ | k
    · cases hf
      exact bind_isSome_left hv'
    · simp at hf
  | get | concat =>
    clear hv
    rcases fs with _ | ⟨f1, _ | ⟨f2, _ | ⟨f3, fs⟩⟩⟩ <;> try (simp [runDen] at hv'; done)
    rcases k with _ | _ | k
    · cases hf
      exact bind_isSome_left (bind_isSome_left hv')
    · cases hf
      obtain ⟨x, _, hx⟩ := bind_isSome hv'
      exact bind_isSome_left (bind_isSome_left hx)
    · simp at hf
  | cons =>
    clear hv
    rcases fs with _ | ⟨f1, _ | ⟨f2, _ | ⟨f3, fs⟩⟩⟩ <;> try (simp [runDen] at hv'; done)
    rcases k with _ | _ | k
    · cases hf
      exact bind_isSome_left hv'
    · cases hf
      obtain ⟨x, _, hx⟩ := bind_isSome hv'
      exact bind_isSome_left hx
    · simp at hf
  | vec i =>
    clear hv
    rcases fs with _ | ⟨f1, _ | ⟨f2, _ | ⟨f3, fs⟩⟩⟩ <;> try (simp [runDen] at hv'; done)
    rcases k with _ | k
    · cases hf
      exact bind_isSome_left (bind_isSome_left hv')
    · rcases hoc with h | h
      · simp [outside] at h
      · simp [Head.captured] at h
  | fold c a =>
    clear hv
    rcases fs with _ | ⟨f1, _ | ⟨f2, _ | ⟨f3, _ | ⟨f4, fs⟩⟩⟩⟩ <;> try (simp [runDen] at hv'; done)
    rcases k with _ | _ | k
    · cases hf
      exact bind_isSome_left (bind_isSome_left hv')
    · cases hf
      obtain ⟨x, _, hx⟩ := bind_isSome hv'
      exact bind_isSome_left hx
    · rcases hoc with h | h
      · simp [outside] at h; omega
      · simp [Head.captured] at h
  | reduce x y =>
    clear hv
    rcases fs with _ | ⟨f1, _ | ⟨f2, fs⟩⟩ <;> try (simp [runDen] at hv'; done)
    simp only [runDen, reduceOf] at hv'
    rcases k with _ | _ | k
    · cases hf
      obtain ⟨ls, _, hx⟩ := bind_isSome hv'
      rcases ls with _ | ⟨l, ls⟩
      · cases hx
      · dsimp only at hx
        split at hx
        · exact bind_isSome_left hx
        · cases hx
    · rcases hoc with h | h
      · simp [outside] at h
      · simp [Head.captured] at h
    · exact mapOpt_bind_isSome (k := k) (bind_isSome_left hv') (by simpa using hf)
  | op o =>
    exact mapOpt_bind_isSome (k := k) (bind_isSome_left hv') hf
  | ext fn τ =>
    have := bind_isSome_left hv'
    rw [mapOpt_map] at this
    exact mapOpt_isSome this f (List.mem_of_getElem? hf)

/-- `run` as a strict evaluator. -/
def strict (I : Ext F) : Strict (Head F) (D F) where
  den := runDen I
  den_symbol h s env hs := by
    change Head.symbol h = some s at hs
    cases h <;> simp only [Head.symbol, reduceCtorEq, Option.some.injEq] at hs
    subst hs; rfl
  den_symbol_le h fs s env hs := by
    change Head.symbol h = some s at hs
    cases h <;> simp only [Head.symbol, reduceCtorEq, Option.some.injEq] at hs
    subst hs
    exact Le.rfl
  den_let v f g env := rfl
  mono := runDen_mono I

/-- `runBusy` as a strict evaluator. -/
def busy (I : Ext F) : Strict (Head F) (D F) where
  den := busyDen I
  den_symbol h s env hs := by
    change Head.symbol h = some s at hs
    cases h <;> simp only [Head.symbol, reduceCtorEq, Option.some.injEq] at hs
    subst hs; rfl
  den_symbol_le h fs s env hs := by
    change Head.symbol h = some s at hs
    cases h <;> simp only [Head.symbol, reduceCtorEq, Option.some.injEq] at hs
    subst hs
    exact busyDen_le I _ fs env
  den_let v f g env := rfl
  mono := busyDen_mono I

theorem busy_demanding (I : Ext F) : (busy I).Demanding := busyDen_demand I

theorem runBusy_run (I : Ext F) (e : Expr F) : ∀ env, Le (runBusy I e env) (run I e env) := by
  induction e using ind with
  | step h ts ih =>
    intro env
    unfold runBusy
    rw [cata_node, run_node]
    intro v hv
    refine runDen_mono I h _ _ env env (by simp) (fun _ _ => Le.rfl) ?_ v (busyDen_le I _ _ _ v hv)
    intro k f g hf hg
    rw [List.getElem?_map, Option.map_eq_some_iff] at hf hg
    obtain ⟨t, ht, rfl⟩ := hf
    obtain ⟨u, hu, rfl⟩ := hg
    rw [ht] at hu; cases hu
    exact ⟨fun _ => ih t (List.mem_of_getElem? ht) env,
      fun _ ext => ih t (List.mem_of_getElem? ht) _⟩

end Verif.Phi
