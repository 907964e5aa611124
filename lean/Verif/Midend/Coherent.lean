import Verif.Midend.Cse

/-!
`_apply_insertions` treats every sub-term the same way wherever it meets it: the replacements in force
at a sub-term are determined by the sub-term alone. Consequently binders stay unique.
-/

set_option linter.unusedSectionVars false

namespace Verif.Midend
open Term
variable {H V : Type} [Lang H] [DecidableEq H]

/-- Proper sub-term. -/
def Below (b e : Term H) : Prop := Occurs b e ∧ b ≠ e

theorem Below.child {h : H} {ts : List (Term H)} {b t : Term H} (ht : t ∈ ts) (ho : Occurs b t) :
    Below b (node h ts) := by
  refine ⟨.child ht ho, ?_⟩
  rintro rfl
  have := ho.size_le
  have := size_lt_of_mem (h := h) ht
  omega

theorem Below.cases {b e : Term H} (hb : Below b e) : ∃ t ∈ e.subs, Occurs b t := by
  obtain ⟨ho, hne⟩ := hb
  cases ho with
  | refl => exact absurd rfl hne
  | child ht ho => exact ⟨_, ht, ho⟩

theorem Below.size_lt {b e : Term H} (hb : Below b e) : b.size < e.size := by
  obtain ⟨t, ht, ho⟩ := hb.cases
  obtain ⟨h, ts⟩ := e
  exact lt_of_le_of_lt ho.size_le (size_lt_of_mem ht)

/-- The replacements after the insertions `l`. -/
def addIns (B : List (Term H × Nat)) : List (Nat × Term H) → List (Term H × Nat)
  | [] => B
  | (v, b) :: l => addIns ((b, v) :: B) l

theorem mem_addIns {B : List (Term H × Nat)} {l : List (Nat × Term H)} {q : Term H × Nat} :
    q ∈ addIns B l ↔ q ∈ B ∨ (q.2, q.1) ∈ l := by
  induction l generalizing B with
  | nil => simp [addIns]
  | cons p l ih =>
    obtain ⟨v, b⟩ := p
    obtain ⟨x, y⟩ := q
    rw [addIns, ih]
    simp only [List.mem_cons, Prod.mk.injEq]
    tauto

theorem bindAll_snd {go : List (Term H × Nat) → Term H → Option (Term H)}
    {l : List (Nat × Term H)} : ∀ {B : List (Term H × Nat)}
    {r : List (Nat × Term H) × List (Term H × Nat)}, bindAll go B l = some r → r.2 = addIns B l := by
  induction l with
  | nil => intro B r h; simp only [bindAll, Option.some.injEq] at h; subst h; rfl
  | cons p l ih =>
    obtain ⟨v, b⟩ := p
    intro B r h
    obtain ⟨b', r', _, hr, rfl⟩ := bindAll_cons h
    have := ih hr
    exact this

/-- The terms expanded by `_apply_insertions`, with the replacements in force. -/
inductive Visit (ins : Term H → List (Nat × Term H)) (p : Term H) :
    Term H → List (Term H × Nat) → Prop
  | root : Visit ins p p []
  | child {e t : Term H} {B : List (Term H × Nat)} : Visit ins p e B → t ∈ e.subs →
      lookupTerm t (addIns B (ins e)) = none → Visit ins p t (addIns B (ins e))
  | bind {e b : Term H} {v : Nat} {B : List (Term H × Nat)} {l l' : List (Nat × Term H)} :
      Visit ins p e B → ins e = l ++ (v, b) :: l' → lookupTerm b (addIns B l) = none →
      Visit ins p b (addIns B l)

section
variable {ins : Term H → List (Nat × Term H)} {p : Term H}

theorem Visit.occurs (hi : InsOk ins) {e : Term H} {B : List (Term H × Nat)}
    (h : Visit ins p e B) : Occurs e p := by
  induction h with
  | root => exact .refl _
  | @child e t B _ ht _ ih =>
    obtain ⟨hd, ts⟩ := e
    exact (Occurs.child ht (.refl _)).trans ih
  | @bind e b v B l l' _ hl _ ih =>
    exact (hi.occurs e v b (by rw [hl]; simp)).1.trans ih

theorem Visit.lookup {e : Term H} {B : List (Term H × Nat)} (h : Visit ins p e B) :
    lookupTerm e B = none := by
  cases h with
  | root => rfl
  | child _ _ h => exact h
  | bind _ _ h => exact h

/-- Replacements in force were inserted at a larger term. -/
theorem Visit.entry (hi : InsOk ins) {e : Term H} {B : List (Term H × Nat)} (h : Visit ins p e B) :
    ∀ b v, (b, v) ∈ B → ∃ s, (v, b) ∈ ins s ∧ e.size < s.size := by
  induction h with
  | root => intro b v hm; cases hm
  | @child e t B _ ht _ ih =>
    intro b v hm
    have hlt : t.size < e.size := by
      obtain ⟨hd, ts⟩ := e; exact size_lt_of_mem ht
    rcases mem_addIns.1 hm with hm | hm
    · obtain ⟨s, h1, h2⟩ := ih b v hm
      exact ⟨s, h1, by omega⟩
    · exact ⟨e, hm, hlt⟩
  | @bind e b' v' B l l' _ hl _ ih =>
    intro b v hm
    have hlt := hi.size_lt (site := e) (b := b') (v := v') (by rw [hl]; simp)
    rcases mem_addIns.1 hm with hm | hm
    · obtain ⟨s, h1, h2⟩ := ih b v hm
      exact ⟨s, h1, by omega⟩
    · exact ⟨e, by rw [hl]; exact List.mem_append_left _ hm, hlt⟩

/-- Conditions under which expansion is the same wherever a term is met. -/
structure InsCoherent (ins : Term H → List (Nat × Term H)) (p : Term H) : Prop where
  /-- each expression is bound once -/
  once : ∀ s s' v v' b, (v, b) ∈ ins s → (v', b) ∈ ins s' → v = v'
  /-- a site above an expression cannot be side-stepped on the way down … -/
  child : ∀ e t s v b, Occurs e p → t ∈ e.subs → (v, b) ∈ ins s → Below b t → ¬ Occurs s t →
    Occurs s e → s = e
  /-- … nor by jumping to a bound expression, before which its own parts are bound -/
  bind : ∀ e l l' v' b' s v b, Occurs e p → ins e = l ++ (v', b') :: l' → (v, b) ∈ ins s →
    Below b b' → ¬ Occurs s b' → Occurs s e → s = e ∧ (v, b) ∈ l
  /-- sites are in the program -/
  site : ∀ s v b, (v, b) ∈ ins s → Occurs s p

theorem lookupTerm_isSome {e : Term H} {v : Nat} {B : List (Term H × Nat)} (h : (e, v) ∈ B) :
    ∃ w, lookupTerm e B = some w := by
  induction B with
  | nil => cases h
  | cons q B ih =>
    obtain ⟨b, w⟩ := q
    unfold lookupTerm
    split_ifs with he
    · exact ⟨w, rfl⟩
    · rcases List.mem_cons.1 h with h | h
      · cases h; exact absurd rfl he
      · exact ih h

/-- Whatever is bound outside is replaced. -/
theorem Visit.complete (hi : InsOk ins) (hc : InsCoherent ins p) {e : Term H}
    {B : List (Term H × Nat)} (h : Visit ins p e B) :
    ∀ s v b, (v, b) ∈ ins s → Below b e → ¬ Occurs s e → (b, v) ∈ B := by
  induction h with
  | root => intro s v b hm _ hn; exact absurd (hc.site s v b hm) hn
  | @child e t B hv ht _ ih =>
    intro s v b hm hb hn
    have hbe : Below b e := by
      obtain ⟨hd, ts⟩ := e; exact Below.child ht hb.1
    by_cases hs : Occurs s e
    · have := hc.child e t s v b (hv.occurs hi) ht hm hb hn hs
      subst this
      exact mem_addIns.2 (Or.inr hm)
    · exact mem_addIns.2 (Or.inl (ih s v b hm hbe hs))
  | @bind e b' v' B l l' hv hl _ ih =>
    intro s v b hm hb hn
    have hin : (v', b') ∈ ins e := by rw [hl]; simp
    by_cases hs : Occurs s e
    · exact mem_addIns.2 (Or.inr (hc.bind e l l' v' b' s v b (hv.occurs hi) hl hm hb hn hs).2)
    · refine mem_addIns.2 (Or.inl (ih s v b hm ⟨hb.1.trans (hi.occurs _ _ _ hin).1, ?_⟩ hs))
      rintro rfl
      have h1 := hb.size_lt
      have h2 := hi.size_lt hin
      omega

/-- The replacements of the parts of a term do not depend on how the term was reached. -/
theorem Visit.agree (hi : InsOk ins) (hc : InsCoherent ins p) {e : Term H}
    {B B' : List (Term H × Nat)} (h : Visit ins p e B) (h' : Visit ins p e B') {b : Term H}
    (hb : Occurs b e) : lookupTerm b B = lookupTerm b B' := by
  by_cases hbe : b = e
  · subst hbe; rw [h.lookup, h'.lookup]
  · have key : ∀ {B B' : List (Term H × Nat)}, Visit ins p e B → Visit ins p e B' → ∀ w,
        lookupTerm b B = some w → lookupTerm b B' = some w := by
      intro B B' h h' w hw
      obtain ⟨s, hm, hlt⟩ := h.entry hi b w (lookupTerm_mem hw)
      have hn : ¬ Occurs s e := fun ho => by have := ho.size_le; omega
      have hm' := h'.complete hi hc s w b hm ⟨hb, hbe⟩ hn
      obtain ⟨w', hw'⟩ := lookupTerm_isSome hm'
      obtain ⟨s', hm'', _⟩ := h'.entry hi b w' (lookupTerm_mem hw')
      rw [hw', hc.once _ _ _ _ _ hm hm'']
    cases h1 : lookupTerm b B with
    | some w => rw [key h h' w h1]
    | none =>
      cases h2 : lookupTerm b B' with
      | none => rfl
      | some w => rw [key h' h w h2] at h1; cases h1

theorem lookupTerm_addIns_congr {B B' : List (Term H × Nat)} {b : Term H}
    (h : lookupTerm b B = lookupTerm b B') (l : List (Nat × Term H)) :
    lookupTerm b (addIns B l) = lookupTerm b (addIns B' l) := by
  induction l generalizing B B' with
  | nil => exact h
  | cons q l ih =>
    obtain ⟨v, c⟩ := q
    refine ih ?_
    unfold lookupTerm
    rw [h]

/-- Expansion depends only on the replacements of the parts; more fuel does not matter. -/
theorem applyGo_congr (hi : InsOk ins) (n : Nat) : ∀ (m : Nat) (e : Term H)
    (B B' : List (Term H × Nat)) (x y : Term H),
    (∀ b, Occurs b e → lookupTerm b B = lookupTerm b B') →
    applyGo ins n B e = some x → applyGo ins m B' e = some y → x = y := by
  induction n with
  | zero => intro m e B B' x y _ hx; simp [applyGo] at hx
  | succ n ih =>
    intro m e B B' x y hag hx hy
    cases m with
    | zero => simp [applyGo] at hy
    | succ m =>
      unfold applyGo at hx hy
      rw [← hag e (.refl _)] at hy
      cases hl : lookupTerm e B with
      | some v => rw [hl] at hx hy; cases hx; cases hy; rfl
      | none =>
        rw [hl] at hx hy
        simp only [Option.bind_eq_bind, Option.bind_eq_some_iff, Option.pure_def] at hx hy
        obtain ⟨r, hr, ts, hts, he⟩ := hx
        obtain ⟨r', hr', ts', hts', he'⟩ := hy
        cases he; cases he'
        have hbind : ∀ (l : List (Nat × Term H)) (B B' : List (Term H × Nat))
            (r r' : List (Nat × Term H) × List (Term H × Nat)), (∀ q ∈ l, q ∈ ins e) →
            (∀ b, Occurs b e → lookupTerm b B = lookupTerm b B') →
            bindAll (applyGo ins n) B l = some r → bindAll (applyGo ins m) B' l = some r' →
            r.1 = r'.1 := by
          intro l
          induction l with
          | nil =>
            intro B B' r r' _ _ h1 h2
            simp only [bindAll, Option.some.injEq] at h1 h2
            subst h1; subst h2; rfl
          | cons q l ihl =>
            obtain ⟨v, b⟩ := q
            intro B B' r r' hl hag h1 h2
            obtain ⟨c, s, hc, hs, rfl⟩ := bindAll_cons h1
            obtain ⟨c', s', hc', hs', rfl⟩ := bindAll_cons h2
            have hocc := (hi.occurs e v b (hl _ List.mem_cons_self)).1
            have hcc := ih m b B B' c c' (fun x hx => hag x (hx.trans hocc)) hc hc'
            have hss := ihl _ _ _ _ (fun q hq => hl q (List.mem_cons_of_mem _ hq))
              (fun x hx => by unfold lookupTerm; rw [hag x hx]) hs hs'
            simp only [hcc, hss]
        have h1 := hbind (ins e) B B' r r' (fun _ h => h) hag hr hr'
        rw [h1]
        congr 2
        rw [bindAll_snd hr] at hts
        rw [bindAll_snd hr'] at hts'
        have hmap : ∀ (us : List (Term H)) (zs ws : List (Term H)), (∀ u ∈ us, u ∈ e.subs) →
            mapAll (applyGo ins n (addIns B (ins e))) us = some zs →
            mapAll (applyGo ins m (addIns B' (ins e))) us = some ws → zs = ws := by
          intro us
          induction us with
          | nil => intro zs ws _ h1 h2; simp [mapAll] at h1 h2; subst h1; subst h2; rfl
          | cons u us ihu =>
            intro zs ws hu h1 h2
            simp only [mapAll, Option.bind_eq_bind, Option.bind_eq_some_iff, Option.pure_def] at h1 h2
            obtain ⟨z, hz, zs', hzs, he1⟩ := h1
            obtain ⟨w, hw, ws', hws, he2⟩ := h2
            cases he1; cases he2
            have hue : Occurs u e := by
              have := hu u List.mem_cons_self
              obtain ⟨hd, es⟩ := e
              exact .child this (.refl _)
            rw [ih m u _ _ z w (fun b hb => lookupTerm_addIns_congr (hag b (hb.trans hue)) _) hz hw,
              ihu zs' ws' (fun x hx => hu x (List.mem_cons_of_mem _ hx)) hzs hws]
        exact hmap e.subs ts ts' (fun _ h => h) hts hts'

/-- The expansion of a visited term: the bindings inserted there, and the node itself. -/
def Expands (ins : Term H → List (Nat × Term H)) (B : List (Term H × Nat)) (e : Term H)
    (bs : List (Nat × Term H)) (ts : List (Term H)) : Prop :=
  ∃ n r, bindAll (applyGo ins n) B (ins e) = some r ∧ mapAll (applyGo ins n r.2) e.subs = some ts ∧
    r.1 = bs

theorem letAll_drop_inj {bs : List (Nat × Term H)} {x : Term H} : ∀ {bs' x'},
    bs.length = bs'.length → letAll bs x = letAll bs' x' → bs = bs' ∧ x = x' := by
  induction bs with
  | nil =>
    intro bs' x' hl h
    cases bs' with
    | nil => exact ⟨rfl, h⟩
    | cons => simp at hl
  | cons q bs ih =>
    intro bs' x' hl h
    cases bs' with
    | nil => simp at hl
    | cons q' bs' =>
      obtain ⟨v, b⟩ := q
      obtain ⟨v', b'⟩ := q'
      simp only [letAll, wrapLet, node.injEq, List.cons.injEq, and_true] at h
      obtain ⟨h1, h2, h3⟩ := h
      have hv : v = v' := by
        have := congrArg Lang.letVar h1
        rw [Lang.letVar_letHead, Lang.letVar_letHead] at this
        exact Option.some.inj this
      obtain ⟨h4, h5⟩ := ih (by simpa using hl) h3
      subst hv; subst h2; subst h4
      exact ⟨rfl, h5⟩

theorem bindAll_vars {go : List (Term H × Nat) → Term H → Option (Term H)}
    {l : List (Nat × Term H)} : ∀ {B : List (Term H × Nat)}
    {r : List (Nat × Term H) × List (Term H × Nat)}, bindAll go B l = some r →
    r.1.map Prod.fst = l.map Prod.fst := by
  induction l with
  | nil => intro B r h; simp only [bindAll, Option.some.injEq] at h; subst h; rfl
  | cons q l ih =>
    obtain ⟨v, b⟩ := q
    intro B r h
    obtain ⟨b', r', _, hr, rfl⟩ := bindAll_cons h
    simp [ih hr]

theorem Expands.vars {B : List (Term H × Nat)} {e : Term H} {bs : List (Nat × Term H)}
    {ts : List (Term H)} (h : Expands ins B e bs ts) : bs.map Prod.fst = (ins e).map Prod.fst := by
  obtain ⟨n, r, hr, _, rfl⟩ := h
  exact bindAll_vars hr

theorem Expands.go {B : List (Term H × Nat)} {e : Term H} {bs : List (Nat × Term H)}
    {ts : List (Term H)} (h : Expands ins B e bs ts) (hl : lookupTerm e B = none) :
    ∃ n, applyGo ins n B e = some (letAll bs (node e.head ts)) := by
  obtain ⟨n, r, hr, hts, rfl⟩ := h
  refine ⟨n + 1, ?_⟩
  unfold applyGo
  simp [hl, hr, hts]

/-- The same term is expanded to the same result everywhere. -/
theorem Expands.unique (hi : InsOk ins) (hc : InsCoherent ins p) {e : Term H}
    {B B' : List (Term H × Nat)} (h : Visit ins p e B) (h' : Visit ins p e B')
    {bs bs' : List (Nat × Term H)} {ts ts' : List (Term H)} (hx : Expands ins B e bs ts)
    (hx' : Expands ins B' e bs' ts') : bs = bs' ∧ ts = ts' := by
  obtain ⟨n, hn⟩ := hx.go h.lookup
  obtain ⟨m, hm⟩ := hx'.go h'.lookup
  have he := applyGo_congr hi n m e B B' _ _ (fun b hb => h.agree hi hc h' hb) hn hm
  have hlen : bs.length = bs'.length := by
    have := congrArg List.length (hx.vars.trans hx'.vars.symm)
    simpa using this
  obtain ⟨h1, h2⟩ := letAll_drop_inj hlen he
  cases h2
  exact ⟨h1, rfl⟩

/-- Every node of the result comes from the expansion of a visited term, or refers to an inserted
variable. -/
theorem applyGo_occurs (n : Nat) : ∀ (B : List (Term H × Nat)) (e e' : Term H),
    (lookupTerm e B = none → Visit ins p e B) → applyGo ins n B e = some e' → ∀ x, Occurs x e' →
    (∃ b v, x = wrapVar b v) ∨
      ∃ e₀ B₀ bs ts k, Visit ins p e₀ B₀ ∧ Expands ins B₀ e₀ bs ts ∧
        x = letAll (bs.drop k) (node e₀.head ts) := by
  induction n with
  | zero => intro B e e' _ h; simp [applyGo] at h
  | succ n ih =>
    intro B e e' hv h x hx
    unfold applyGo at h
    split at h
    · cases h
      cases hx with
      | refl => exact Or.inl ⟨_, _, rfl⟩
      | child ht _ => cases ht
    · rename_i hl
      simp only [Option.bind_eq_bind, Option.bind_eq_some_iff, Option.pure_def] at h
      obtain ⟨r, hr, ts, hts, he⟩ := h
      cases he
      have hvis := hv hl
      have hexp : Expands ins B e r.1 ts := ⟨n, r, hr, hts, rfl⟩
      -- the definitions
      have hdefs : ∀ (l done : List (Nat × Term H)) (r : List (Nat × Term H) × List (Term H × Nat)),
          ins e = done ++ l → bindAll (applyGo ins n) (addIns B done) l = some r →
          ∀ q ∈ r.1, ∃ b B', applyGo ins n B' b = some q.2 ∧
            (lookupTerm b B' = none → Visit ins p b B') := by
        intro l
        induction l with
        | nil =>
          intro done r _ h q hq
          simp only [bindAll, Option.some.injEq] at h
          subst h; cases hq
        | cons q0 l ihl =>
          obtain ⟨v, b⟩ := q0
          intro done r hd h q hq
          obtain ⟨b', r', hgo, hr', rfl⟩ := bindAll_cons h
          rcases List.mem_cons.1 hq with rfl | hq
          · exact ⟨b, addIns B done, hgo, fun hn => .bind hvis hd hn⟩
          · refine ihl (done ++ [(v, b)]) r' (by simp [hd]) ?_ q hq
            have : addIns B (done ++ [(v, b)]) = (b, v) :: addIns B done := by
              have aux : ∀ (l : List (Nat × Term H)) (B : List (Term H × Nat)),
                  addIns B (l ++ [(v, b)]) = (b, v) :: addIns B l := by
                intro l
                induction l with
                | nil => intro B; rfl
                | cons q l ih => intro B; obtain ⟨w, c⟩ := q; exact ih _
              exact aux done B
            rw [this]; exact hr'
      have hd := hdefs (ins e) [] r rfl hr
      rw [bindAll_snd hr] at hts
      have hF := mapAll_forall₂ hts
      -- descend through the inserted lets
      have hlet : ∀ k, k ≤ r.1.length → Occurs x (letAll (r.1.drop k) (node e.head ts)) →
          (∃ b v, x = wrapVar b v) ∨ ∃ e₀ B₀ bs ts k, Visit ins p e₀ B₀ ∧
            Expands ins B₀ e₀ bs ts ∧ x = letAll (bs.drop k) (node e₀.head ts) := by
        intro k hk
        induction hj : r.1.length - k generalizing k with
        | zero =>
          have hke : k = r.1.length := by omega
          subst hke
          intro ho
          rw [List.drop_length] at ho
          simp only [letAll] at ho
          cases ho with
          | refl => exact Or.inr ⟨e, B, r.1, ts, r.1.length, hvis, hexp, by simp [letAll]⟩
          | child ht ho =>
            obtain ⟨t, ht', hgo⟩ := forall₂_mem_right hF ht
            exact ih _ _ _ (fun hn => .child hvis ht' hn) hgo x ho
        | succ j ihj =>
          intro ho
          have hlt : k < r.1.length := by omega
          have hdrop := List.drop_eq_getElem_cons hlt
          rw [hdrop] at ho
          have hq : r.1[k] ∈ r.1 := List.getElem_mem hlt
          obtain ⟨b, B', hgo, hvb⟩ := hd _ hq
          obtain ⟨v, c, hrk⟩ : ∃ v c, r.1[k] = (v, c) := ⟨_, _, rfl⟩
          rw [hrk] at ho hgo hdrop
          simp only [letAll, wrapLet] at ho
          cases ho with
          | refl =>
            refine Or.inr ⟨e, B, r.1, ts, k, hvis, hexp, ?_⟩
            rw [hdrop]; rfl
          | child ht ho =>
            simp only [List.mem_cons, List.not_mem_nil, or_false] at ht
            rcases ht with rfl | rfl
            · exact ih _ _ _ hvb hgo x ho
            · exact ihj (k + 1) (by omega) (by omega) ho
      exact hlet 0 (by omega) (by simpa using hx)

theorem symbols_occurs {t : Term H} (h : Occurs t p) :
    binders t ∪ fv t ⊆ binders p ∪ fv p := by
  intro s hs
  rcases Finset.mem_union.1 hs with hs | hs
  · exact Finset.mem_union_left _ (binders_occurs h hs)
  · by_cases hp : s ∈ fv p
    · exact Finset.mem_union_right _ hp
    · obtain ⟨k, us, _, ho, hc, _⟩ := h.capture hs hp
      exact Finset.mem_union_left _ (mem_binders_iff.2 ⟨k, us, ho, hc⟩)

/-- Free symbols of the expanded sub-terms. -/
theorem Expands.fv_child (hi : InsOk ins) (hfr : InsFresh ins (binders p ∪ fv p)) (hns : NoShadow p)
    {e : Term H} {B : List (Term H × Nat)} {bs : List (Nat × Term H)} {ts : List (Term H)}
    (hv : Visit ins p e B) (hx : Expands ins B e bs ts) {s : Sym} (hs : s ∈ Lang.captured e.head)
    {i : Nat} {a : Term H} (hia : ts[i]? = some a) (hsa : s ∈ fv a) :
    ∃ a0, e.subs[i]? = some a0 ∧ s ∈ fv a0 := by
  obtain ⟨n, r, hr, hts, _⟩ := hx
  rw [bindAll_snd hr] at hts
  have hF := mapAll_forall₂ hts
  have hlt := (List.getElem?_eq_some_iff.1 hia).1
  have hlen := hF.length_eq
  have hlt0 : i < e.subs.length := by omega
  have hgo := List.forall₂_iff_get.1 hF |>.2 i hlt0 hlt
  simp only [List.get_eq_getElem] at hgo
  have hie : ts[i] = a := (List.getElem?_eq_some_iff.1 hia).2
  rw [hie] at hgo
  refine ⟨e.subs[i], List.getElem?_eq_getElem hlt0, ?_⟩
  have ht : e.subs[i] ∈ e.subs := List.getElem_mem hlt0
  have hocc0 : Occurs e.subs[i] e := by
    obtain ⟨d, es⟩ := e
    exact .child ht (.refl _)
  have hsz : (e.subs[i]).size < e.size := by
    obtain ⟨d, es⟩ := e
    exact size_lt_of_mem ht
  have hop := hocc0.trans (hv.occurs hi)
  have hB : BOk ins (e.subs[i]).size (addIns B (ins e)) := by
    intro b v hm
    rcases mem_addIns.1 hm with hm | hm
    · obtain ⟨s', h1, h2⟩ := hv.entry hi b v hm
      exact ⟨s', b, h1, by omega⟩
    · exact ⟨e, b, hm, hsz⟩
  have hout := applyGo_out hi n _ _ _
    (fun s' v b hm hx => hfr s' v b hm (symbols_occurs hop hx)) (hns.occurs hop) hB hgo
  rcases Finset.mem_union.1 (hout.fv hsa) with h1 | h1
  · exact h1
  · exfalso
    obtain ⟨b, v, hm, rfl⟩ := mem_bvars.1 h1
    obtain ⟨s', b', h2, _⟩ := hB b v hm
    refine hfr _ _ _ h2 (Finset.mem_union_left _ ?_)
    obtain ⟨hd, es⟩ := e
    exact mem_binders_iff.2 ⟨hd, es, hv.occurs hi, hs⟩

/-- Nothing moves into a scope. -/
theorem applyInsertions_scoped (hi : InsOk ins) (hfr : InsFresh ins (binders p ∪ fv p))
    (hns : NoShadow p) (hsc : Scoped p) {p' : Term H} (hns' : NoShadow p')
    (h : applyInsertions ins p = some p') : Scoped p' := by
  have hocc := applyGo_occurs (ins := ins) (p := p) p.size [] p p' (fun _ => .root) h
  refine scoped_of_occurs ?_
  intro hd ts i a ho hia hout
  rcases hocc _ ho with ⟨b, v, he⟩ | ⟨e, B, bs, us, k, hv, hx, he⟩
  · unfold wrapVar at he
    cases he
    rw [Lang.captured_symbol _ _ (Lang.symbol_var b v)]
    simp
  · by_cases hk : k < bs.length
    · obtain ⟨v, b, hvb⟩ : ∃ v b, bs[k] = (v, b) := ⟨_, _, rfl⟩
      rw [List.drop_eq_getElem_cons hk, hvb] at he
      simp only [letAll, wrapLet] at he
      cases he
      rw [Lang.outside_let, decide_eq_true_eq] at hout
      subst hout
      simp only [List.getElem?_cons_zero, Option.some.injEq] at hia
      subst hia
      rw [Lang.captured_let, Finset.disjoint_singleton_left]
      exact (hns'.occurs ho).letOk
    · rw [List.drop_eq_nil_of_le (by omega)] at he
      simp only [letAll] at he
      cases he
      rw [Finset.disjoint_left]
      intro s hc hs
      obtain ⟨a0, h1, h2⟩ := hx.fv_child hi hfr hns hv hc hia hs
      obtain ⟨d, es⟩ := e
      exact Finset.disjoint_left.1 ((hsc.occurs (hv.occurs hi)).out i a0 h1 hout) hc h2

/-- Binders stay unique. -/
theorem applyInsertions_unique (hi : InsOk ins) (hc : InsCoherent ins p)
    (hfr : InsFresh ins (binders p ∪ fv p)) (hns : NoShadow p) (hu : UniqueBinders p) {p' : Term H}
    (hcl : Disjoint (binders p') (fv p')) (hns' : NoShadow p')
    (h : applyInsertions ins p = some p') : UniqueBinders p' := by
  have hocc := applyGo_occurs (ins := ins) (p := p) p.size [] p p' (fun _ => .root) h
  -- nodes with a captured symbol
  have hform : ∀ (hd : H) ts s, Occurs (node hd ts) p' → s ∈ Lang.captured hd →
      ∃ e B bs us, Visit ins p e B ∧ Expands ins B e bs us ∧
        ((∃ k v b, bs[k]? = some (v, b) ∧ s = .var v ∧ hd = Lang.letHead v ∧
            node hd ts = letAll (bs.drop k) (node e.head us)) ∨
          (hd = e.head ∧ ts = us)) := by
    intro hd ts s ho hs
    rcases hocc _ ho with ⟨b, v, he⟩ | ⟨e, B, bs, us, k, hv, hx, he⟩
    · unfold wrapVar at he
      cases he
      rw [Lang.captured_symbol _ _ (Lang.symbol_var b v)] at hs
      simp at hs
    · refine ⟨e, B, bs, us, hv, hx, ?_⟩
      by_cases hk : k < bs.length
      · left
        obtain ⟨v, b, hvb⟩ : ∃ v b, bs[k] = (v, b) := ⟨_, _, rfl⟩
        have he' := he
        rw [List.drop_eq_getElem_cons hk, hvb] at he
        simp only [letAll, wrapLet] at he
        cases he
        rw [Lang.captured_let, Finset.mem_singleton] at hs
        exact ⟨k, v, b, by rw [List.getElem?_eq_getElem hk, hvb], hs, rfl, he'⟩
      · right
        rw [List.drop_eq_nil_of_le (by omega)] at he
        simp only [letAll] at he
        cases he
        exact ⟨rfl, rfl⟩
  have hvar : ∀ {e : Term H} {B bs us} {k v : Nat} {b : Term H}, Expands ins B e bs us →
      bs[k]? = some (v, b) → ((ins e).map Prod.fst)[k]? = some v := by
    intro e B bs us k v b hx hk
    rw [← hx.vars, List.getElem?_map, hk]; rfl
  have hin : ∀ {e : Term H} {k v : Nat}, ((ins e).map Prod.fst)[k]? = some v →
      ∃ b, (v, b) ∈ ins e := by
    intro e k v hk
    obtain ⟨⟨v', b⟩, hm, rfl⟩ := List.mem_map.1 (List.mem_of_getElem? hk)
    exact ⟨b, hm⟩
  have hcapt : ∀ {e : Term H} {B s}, Visit ins p e B → s ∈ Lang.captured e.head →
      s ∈ binders p := by
    intro e B s hv hs
    obtain ⟨hd, es⟩ := e
    exact mem_binders_iff.2 ⟨hd, es, hv.occurs hi, hs⟩
  refine ⟨?_, hcl, ?_⟩
  · intro h1 ts1 h2 ts2 s ho1 ho2 hs1 hs2
    obtain ⟨e1, B1, bs1, us1, hv1, hx1, hf1⟩ := hform h1 ts1 s ho1 hs1
    obtain ⟨e2, B2, bs2, us2, hv2, hx2, hf2⟩ := hform h2 ts2 s ho2 hs2
    rcases hf1 with ⟨k1, v1, b1, hk1, rfl, hl1, heq1⟩ | ⟨rfl, rfl⟩ <;>
      rcases hf2 with ⟨k2, v2, b2, hk2, hs, hl2, heq2⟩ | ⟨rfl, rfl⟩
    · cases hs
      have hm1 := hvar hx1 hk1
      have hm2 := hvar hx2 hk2
      obtain ⟨c1, hc1⟩ := hin hm1
      obtain ⟨c2, hc2⟩ := hin hm2
      have := hi.inj _ _ _ _ _ hc1 hc2
      subst this
      obtain ⟨rfl, rfl⟩ := hx1.unique hi hc hv1 hv2 hx2
      have hkk : k1 = k2 := by
        have hlt1 := (List.getElem?_eq_some_iff.1 hm1).1
        refine (List.getElem?_inj hlt1 (hi.nodup e1)).1 ?_
        rw [hm1, hm2]
      subst hkk
      rw [heq1, heq2]
    · exfalso
      obtain ⟨c1, hc1⟩ := hin (hvar hx1 hk1)
      exact hfr _ _ _ hc1 (Finset.mem_union_left _ (hcapt hv2 hs2))
    · exfalso
      subst hs
      obtain ⟨c2, hc2⟩ := hin (hvar hx2 hk2)
      exact hfr _ _ _ hc2 (Finset.mem_union_left _ (hcapt hv1 hs1))
    · obtain ⟨d1, es1⟩ := e1
      obtain ⟨d2, es2⟩ := e2
      have := hu.uniq d1 es1 d2 es2 s (hv1.occurs hi) (hv2.occurs hi) hs1 hs2
      cases this
      obtain ⟨_, rfl⟩ := hx1.unique hi hc hv1 hv2 hx2
      rfl
  · intro hd ts s ho hs i j a b hia hjb hsa hsb
    obtain ⟨e, B, bs, us, hv, hx, hf⟩ := hform hd ts s ho hs
    rcases hf with ⟨k, v, c, hk, rfl, rfl, heq⟩ | ⟨rfl, rfl⟩
    · have hk' : k < bs.length := (List.getElem?_eq_some_iff.1 hk).1
      rw [List.drop_eq_getElem_cons hk'] at heq
      obtain ⟨v', c', hvc⟩ : ∃ v c, bs[k] = (v, c) := ⟨_, _, rfl⟩
      rw [hvc] at heq
      simp only [letAll, wrapLet, node.injEq] at heq
      obtain ⟨hh, rfl⟩ := heq
      have hno := (hns'.occurs ho).letOk
      have key : ∀ (i : Nat) (a : Term H),
          [c', letAll (bs.drop (k + 1)) (node e.head us)][i]? = some a →
          Sym.var v ∈ fv a → i = 1 := by
        intro i a hi ha
        match i with
        | 0 =>
          simp only [List.getElem?_cons_zero, Option.some.injEq] at hi
          subst hi
          exact absurd ha hno
        | 1 => rfl
        | i + 2 => simp at hi
      rw [key i a hia hsa, key j b hjb hsb]
    · obtain ⟨a0, h1, h2⟩ := hx.fv_child hi hfr hns hv hs hia hsa
      obtain ⟨b0, h3, h4⟩ := hx.fv_child hi hfr hns hv hs hjb hsb
      obtain ⟨d, es⟩ := e
      exact hu.single d es s (hv.occurs hi) hs i j a0 b0 h1 h3 h2 h4

end

/-! ### Numbered insertions -/

theorem number_pairwise {base : Nat} {pairs : List (Term H × Term H)} {R : Term H → Term H → Prop}
    (hp : pairs.Pairwise (fun x y => R x.2 y.2)) (site : Term H) :
    (number base pairs site).Pairwise (fun x y => R x.2 y.2) := by
  unfold number
  have : pairs.zipIdx.Pairwise (fun x y => R x.1.2 y.1.2) := by
    have h2 : (pairs.zipIdx.map Prod.fst).Pairwise (fun x y => R x.2 y.2) := by
      rw [List.zipIdx_map_fst]; exact hp
    rw [List.pairwise_map] at h2
    exact h2
  refine this.filterMap _ ?_
  intro a a' hr b hb b' hb'
  split_ifs at hb hb'
  cases hb; cases hb'
  exact hr

/-- What is left to check when no expression is listed twice, parts are listed before the whole. -/
theorem number_coherent {base : Nat} {pairs : List (Term H × Term H)} {p : Term H}
    (hnd : (pairs.map Prod.snd).Nodup)
    (hord : pairs.Pairwise (fun x y => ¬ Below y.2 x.2))
    (hchild : ∀ e t s b, Occurs e p → t ∈ e.subs → (s, b) ∈ pairs → Below b t → ¬ Occurs s t →
      Occurs s e → s = e)
    (hbind : ∀ e b' s b, Occurs e p → (e, b') ∈ pairs → (s, b) ∈ pairs → Below b b' →
      ¬ Occurs s b' → Occurs s e → s = e)
    (hsite : ∀ s b, (s, b) ∈ pairs → Occurs s p) : InsCoherent (number base pairs) p := by
  have hm : ∀ {s v b}, (v, b) ∈ number base pairs s → (s, b) ∈ pairs := by
    intro s v b h
    obtain ⟨k, hk, _⟩ := mem_number.1 h
    exact List.mem_of_getElem? hk
  refine ⟨?_, ?_, ?_, ?_⟩
  · intro s s' v v' b h1 h2
    obtain ⟨k, hk, rfl⟩ := mem_number.1 h1
    obtain ⟨k', hk', rfl⟩ := mem_number.1 h2
    have e1 : (pairs.map Prod.snd)[k]? = some b := by rw [List.getElem?_map, hk]; rfl
    have e2 : (pairs.map Prod.snd)[k']? = some b := by rw [List.getElem?_map, hk']; rfl
    have : k = k' := (List.getElem?_inj (List.getElem?_eq_some_iff.1 e1).1 hnd).1 (by rw [e1, e2])
    rw [this]
  · intro e t s v b h1 h2 h3 h4 h5 h6
    exact hchild e t s b h1 h2 (hm h3) h4 h5 h6
  · intro e l l' v' b' s v b h1 h2 h3 h4 h5 h6
    have he : s = e := hbind e b' s b h1 (hm (v := v') (by rw [h2]; simp)) (hm h3) h4 h5 h6
    refine ⟨he, ?_⟩
    subst he
    have hpw := number_pairwise (base := base) (R := fun x y => ¬ Below y x) hord s
    rw [h2] at h3 hpw
    rw [List.pairwise_append, List.pairwise_cons] at hpw
    rcases List.mem_append.1 h3 with h | h
    · exact h
    · rcases List.mem_cons.1 h with h | h
      · cases h
        exact absurd rfl h4.2
      · exact absurd h4 (hpw.2.1.1 _ h)
  · intro s v b h
    exact hsite s b (hm h)

/-! ### Common sub-expressions -/

theorem order_pairwise (p : Term H) : (order p).Pairwise (fun a b => ¬ Below b a) := by
  have key : ∀ (e : Term H) (o : List (Term H)), SubClosed o → o.Pairwise (fun a b => ¬ Below b a) →
      (buildOrder e o).Pairwise (fun a b => ¬ Below b a) := by
    intro e
    induction e using ind with
    | step h ts ih =>
      intro o ho hn
      rw [buildOrder_node]
      split_ifs with hm
      · exact hn
      · have key : ∀ (l : List (Term H)) o, (∀ t ∈ l, t ∈ ts) → SubClosed o →
            o.Pairwise (fun a b => ¬ Below b a) →
            (l.foldl (fun o t => buildOrder t o) o).Pairwise (fun a b => ¬ Below b a) ∧
            SubClosed (l.foldl (fun o t => buildOrder t o) o) ∧
            (∀ x ∈ l.foldl (fun o t => buildOrder t o) o, x ∈ o ∨ ∃ t ∈ l, Occurs x t) := by
          intro l
          induction l with
          | nil => intro o _ ho hn; exact ⟨hn, ho, fun x hx => Or.inl hx⟩
          | cons t l ihl =>
            intro o hl ho hn
            obtain ⟨h1, h2⟩ := buildOrder_spec t o ho
            obtain ⟨h3, h3', h4⟩ := ihl _ (fun x hx => hl x (List.mem_cons_of_mem _ hx)) h1
              (ih t (hl t List.mem_cons_self) o ho hn)
            refine ⟨h3, h3', fun x hx => ?_⟩
            rcases h4 x hx with h5 | ⟨t', ht', h5⟩
            · rcases (h2 x).1 h5 with h6 | h6
              · exact Or.inl h6
              · exact Or.inr ⟨t, List.mem_cons_self, h6⟩
            · exact Or.inr ⟨t', List.mem_cons_of_mem _ ht', h5⟩
        obtain ⟨h1, h1', h2⟩ := key ts o (fun _ h => h) ho hn
        rw [List.pairwise_append]
        refine ⟨h1, by simp, ?_⟩
        intro a ha b hb
        rw [List.mem_singleton] at hb
        subst hb
        intro hb
        rcases h2 _ (h1' a ha _ hb.1) with h3 | ⟨t, ht, h3⟩
        · exact hm h3
        · have := h3.size_le
          have := size_lt_of_mem (h := h) ht
          omega
  exact key p [] (by intro u hu; cases hu) (by simp)

theorem Avoid.above {d e p : Term H} (ho : Occurs e p) (hs : d.size < e.size) : Avoid d e p := by
  induction ho with
  | refl => exact .here (by rintro rfl; omega)
  | @child t h ts ht ho ih =>
    have h1 := size_lt_of_mem (h := h) ht
    have h2 := ho.size_le
    exact .child (by rintro rfl; omega) ht ih

theorem Avoid.notOccurs {d b t : Term H} (ho : Occurs b t) (hn : ¬ Occurs d t) : Avoid d b t := by
  induction ho with
  | refl => exact .here (by rintro rfl; exact hn (.refl _))
  | @child t h ts ht ho ih =>
    exact .child (by rintro rfl; exact hn (.refl _)) ht (ih (fun h => hn (.child ht h)))

theorem mem_csePairs {p s b : Term H} (h : (s, b) ∈ csePairs p) :
    Occurs b p ∧ idom p b = some s := by
  unfold csePairs at h
  rw [List.mem_filterMap] at h
  obtain ⟨sub, hsub, hq⟩ := h
  split_ifs at hq with hc
  rw [Option.map_eq_some_iff] at hq
  obtain ⟨site, hid, he⟩ := hq
  cases he
  exact ⟨mem_order.1 hsub, hid⟩

theorem cse_coherent (base : Nat) (p : Term H) : InsCoherent (number base (csePairs p)) p := by
  refine number_coherent ?_ ?_ ?_ ?_ ?_
  · unfold csePairs
    rw [List.Nodup, List.pairwise_map]
    refine List.Pairwise.filterMap _ ?_ (order_nodup p)
    intro a a' hne b hb b' hb'
    split_ifs at hb hb'
    rw [Option.map_eq_some_iff] at hb hb'
    obtain ⟨_, _, rfl⟩ := hb
    obtain ⟨_, _, rfl⟩ := hb'
    exact hne
  · unfold csePairs
    refine List.Pairwise.filterMap _ ?_ (order_pairwise p)
    intro a a' hne b hb b' hb'
    split_ifs at hb hb'
    rw [Option.map_eq_some_iff] at hb hb'
    obtain ⟨_, _, rfl⟩ := hb
    obtain ⟨_, _, rfl⟩ := hb'
    exact hne
  · intro e t s b he ht hp hb hnt hse
    obtain ⟨hbp, hid⟩ := mem_csePairs hp
    obtain ⟨_, hdom, _⟩ := idom_spec hbp hid
    by_contra hne
    refine hdom ((Avoid.above he (Below.size_lt ⟨hse, hne⟩)).trans ?_)
    obtain ⟨hd, es⟩ := e
    exact .child (fun h => hne h.symm) ht (Avoid.notOccurs hb.1 hnt)
  · intro e b' s b he hp' hp hb hnb hse
    obtain ⟨hbp, hid⟩ := mem_csePairs hp
    obtain ⟨hbp', hid'⟩ := mem_csePairs hp'
    obtain ⟨_, hdom, _⟩ := idom_spec hbp hid
    obtain ⟨_, _, himm⟩ := idom_spec hbp' hid'
    by_cases hd : Dominates p s b'
    · have := himm s (by rintro rfl; exact hnb (.refl _)) hd
      exact hse.antisymm (this.between he).1
    · exfalso
      unfold Dominates at hd
      rw [not_not] at hd
      exact hdom (hd.trans (Avoid.notOccurs hb.1 hnb))
  · intro s b hp
    obtain ⟨hbp, hid⟩ := mem_csePairs hp
    exact ((idom_spec hbp hid).2.1.between hbp).2

end Verif.Midend
