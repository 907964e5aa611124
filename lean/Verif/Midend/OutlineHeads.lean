import Verif.Midend.OutlineOk

/-! The nodes of an outlined program are those of the source, new lets and references to new variables. -/

set_option linter.unusedSectionVars false

namespace Verif.Midend
open Term
variable {H V : Type} [Lang H] [DecidableEq H]

/-- All nodes of the term are of this kind. -/
def AllHeads (P : H → Prop) (t : Term H) : Prop := ∀ u, Occurs u t → P u.head

theorem AllHeads.node {P : H → Prop} {h : H} {ts : List (Term H)} (h1 : P h) (h2 : ∀ t ∈ ts, AllHeads P t) :
    AllHeads P (node h ts) := by
  intro u hu
  cases hu with
  | refl => exact h1
  | child ht ho => exact h2 _ ht _ ho

theorem AllHeads.head {P : H → Prop} {h : H} {ts : List (Term H)} (p : AllHeads P (Term.node h ts)) : P h := p _ (.refl _)

theorem AllHeads.children {P : H → Prop} {h : H} {ts : List (Term H)} (p : AllHeads P (Term.node h ts)) :
    ∀ t ∈ ts, AllHeads P t := fun _ ht _ hu => p _ (.child ht hu)

theorem inlineGo_heads {P : H → Prop} (pred : Term H → Bool) (t : Term H) : AllHeads P t →
    ∀ bound : List (Nat × Term H), (∀ q ∈ bound, AllHeads P q.2) → AllHeads P (inlineGo pred bound t) := by
  induction t using ind with
  | step h ts ih =>
    intro hp bound hb
    by_cases hl : InlinedLet pred h ts
    · obtain ⟨v, bind, body, rfl, rfl, hpr⟩ := hl
      rw [inlineGo_let hpr]
      refine ih body (by simp) (hp.children _ (by simp)) _ fun q hq => ?_
      rcases List.mem_cons.1 hq with rfl | hq
      · exact ih bind (by simp) (hp.children _ (by simp)) bound hb
      · exact hb q hq
    · rw [inlineGo_rest hl]
      have hn : AllHeads P (Term.node h (ts.map (inlineGo pred bound))) := by
        refine .node hp.head fun t ht => ?_
        obtain ⟨u, hu, rfl⟩ := List.mem_map.1 ht
        exact ih u hu (hp.children _ hu) bound hb
      split
      · split
        · rename_i u hu
          exact hb _ (lookup_mem hu)
        · exact hn
      · exact hn

theorem letAll_heads {P : H → Prop} (hlet : ∀ v, P (Lang.letHead v)) :
    ∀ (l : List (Nat × Term H)) (e : Term H), (∀ q ∈ l, AllHeads P q.2) → AllHeads P e → AllHeads P (letAll l e) := by
  intro l
  induction l with
  | nil => exact fun e _ he => he
  | cons q l ih =>
    intro e hl he
    obtain ⟨v, b⟩ := q
    refine .node (hlet v) fun t ht => ?_
    simp only [List.mem_cons, List.not_mem_nil, or_false] at ht
    rcases ht with rfl | rfl
    · exact hl (v, t) (by simp)
    · exact ih e (fun q hq => hl q (by simp [hq])) he

theorem bindAll_heads {P : H → Prop} {go : List (Term H × Nat) → Term H → Option (Term H)} :
    ∀ (l : List (Nat × Term H)) (B : List (Term H × Nat)) r, (∀ q ∈ l, ∀ B t, go B q.2 = some t → AllHeads P t) →
      bindAll go B l = some r → ∀ q ∈ r.1, AllHeads P q.2 := by
  intro l
  induction l with
  | nil => intro B r _ hr; cases hr; simp
  | cons q l ih =>
    intro B r hg hr
    obtain ⟨v, b⟩ := q
    obtain ⟨b', r', h1, h2, rfl⟩ := bindAll_cons hr
    intro q hq
    rcases List.mem_cons.1 hq with rfl | hq
    · exact hg (v, b) (by simp) B b' h1
    · exact ih _ r' (fun q hq => hg q (by simp [hq])) h2 q hq

theorem applyGo_heads {P : H → Prop} (hlet : ∀ v, P (Lang.letHead v)) (hvar : ∀ (t : Term H) v, P (Lang.varHead t v))
    {ins : Term H → List (Nat × Term H)} (hi : InsOk ins) :
    ∀ (n : Nat) (B : List (Term H × Nat)) (e e' : Term H), AllHeads P e → applyGo ins n B e = some e' →
      AllHeads P e' := by
  intro n
  induction n with
  | zero => intro B e e' _ h; cases h
  | succ n ih =>
    intro B e e' he h
    unfold applyGo at h
    split at h
    · cases h
      exact .node (hvar _ _) fun t ht => by cases ht
    · simp only [Option.bind_eq_bind, Option.bind_eq_some_iff, Option.pure_def] at h
      obtain ⟨r, hr, ts, hts, h⟩ := h
      cases h
      refine letAll_heads hlet _ _ (bindAll_heads (ins e) B r (fun q hq B t ht => ?_) hr) ?_
      · exact ih B q.2 t (fun u hu => he u (hu.trans (hi.occurs e q.1 q.2 hq).1)) ht
      · obtain ⟨hd, us⟩ := e
        refine .node he.head fun t ht => ?_
        have := mapAll_forall₂ hts
        obtain ⟨u, hu, hut⟩ := forall₂_mem_right this ht
        exact ih _ u t (he.children _ hu) hut

/-- Whatever holds of the nodes of the source, of lets and of references, holds of the nodes of the outlined
program. -/
theorem outline_heads {P : H → Prop} (hlet : ∀ v, P (Lang.letHead v)) (hvar : ∀ (t : Term H) v, P (Lang.varHead t v))
    {p p' : Term H} (hu : UniqueBinders p) (hns : NoShadow p) (ha : LetArity p) (h : outline p = some p')
    (hp : AllHeads P p) : AllHeads P p' := by
  obtain ⟨p1, p2, h1, h2, rfl, hu0, hns0, s1, s2, _, _, _⟩ := outline_spec hu hns ha h
  have g0 : AllHeads P (inline false p) := inlineGo_heads _ p hp [] (by simp)
  have g1 : AllHeads P p1 := applyGo_heads hlet hvar (cse_insOk hu0) _ _ _ _ g0 h1
  have g2 : AllHeads P p2 := applyGo_heads hlet hvar (licm_insOk p1) _ _ _ _ g1 h2
  exact inlineGo_heads _ p2 g2 [] (by simp)

theorem UniqueBinders.noShadow_scoped {p : Term H} (hu : UniqueBinders p) (hs : Scoped p) :
    NoShadow p := by
  have : ∀ t, Occurs t p → NoShadow t := by
    intro t
    induction t using ind with
    | step h ts ih =>
      intro ho
      refine .node ?_ ?_ ?_
      · intro t ht
        rw [Finset.disjoint_left]
        intro s hc hb
        obtain ⟨k, us, ho', hc'⟩ := mem_binders_iff.1 hb
        have he := hu.uniq h ts k us s ho ((ho'.trans (.child ht (.refl _))).trans ho) hc hc'
        have h1 := ho'.size_le
        have h2 := size_lt_of_mem (h := h) ht
        rw [← he] at h1; omega
      · rintro v bind body hv rfl
        cases Lang.letVar_inj h v hv
        exact Finset.disjoint_left.1 ((Scoped.occurs ho hs).out 0 bind rfl (by simp [Lang.outside_let]))
          (by simp [Lang.captured_let])
      · intro t ht
        exact ih t ht ((Occurs.child ht (.refl _)).trans ho)
  exact this p (.refl _)

end Verif.Midend
