import Verif.Midend.OutlineOk

/-!
`_apply_insertions` makes a tree: if every expression that occurs at two places is bound once, then nothing but
atoms occurs twice in the result, as `outline` asserts (`ein/midend/lining.py:120,137,140`).
-/

set_option linter.unusedSectionVars false

namespace Verif.Midend
open Term
variable {H V : Type} [Lang H] [DecidableEq H]

/-- Atoms are constants and references to symbols; a `let` is not an atom (`ein/term.py:65-68`, `phi.py`, `yarr.py`). -/
class Atoms (H : Type) [Lang H] : Prop where
  let_ : ∀ v, Lang.isAtom (Lang.letHead (H := H) v) = false
  symbol : ∀ (h : H) s, Lang.symbol h = some s → Lang.isAtom h = true

/-- Atoms have no sub-terms. -/
def AtomLeaves (t : Term H) : Prop := ∀ h ts, Occurs (node h ts) t → Lang.isAtom h = true → ts = []

theorem AtomLeaves.occurs {t u : Term H} (ho : Occurs t u) (h : AtomLeaves u) : AtomLeaves t :=
  fun k us hk => h k us (hk.trans ho)

theorem tree_node {h : H} {ts : List (Term H)} (hc : ∀ t ∈ ts, Tree t)
    (hd : ts.Pairwise (fun a b => ∀ x, x ∈ post a → x ∉ post b)) : Tree (node h ts) := by
  unfold Tree
  rw [post_node, List.nodup_append]
  refine ⟨?_, ?_, ?_⟩
  · rw [List.nodup_flatten]
    refine ⟨?_, ?_⟩
    · intro l hl
      obtain ⟨t, ht, rfl⟩ := List.mem_map.1 hl
      exact hc t ht
    · rw [List.pairwise_map]
      exact hd.imp fun h x hx hy => h x hx hy
  · split_ifs <;> simp
  · intro a ha b hb
    rintro rfl
    split_ifs at hb with hA
    · cases hb
    · rw [List.mem_singleton] at hb
      obtain ⟨l, hl, hx⟩ := List.mem_flatten.1 ha
      obtain ⟨t, ht, rfl⟩ := List.mem_map.1 hl
      have h1 := (mem_post.1 hx).1.size_le
      have h2 := size_lt_of_mem (h := h) ht
      rw [hb] at h1
      omega

theorem isTree_of_tree {t : Term H} (h : Tree t) : isTree t = true := by
  unfold isTree
  rw [decide_eq_true_eq]
  exact (post_perm t).nodup_iff.1 h

theorem post_atom {h : H} (ha : Lang.isAtom h = true) : post (node h ([] : List (Term H))) = [] := by
  rw [post_node]; simp [ha]

/-- The term is an argument at one place only. -/
def OneParent (p t : Term H) : Prop :=
  ∀ (a b : Term H) (i j : Nat), Occurs a p → Occurs b p → a.subs[i]? = some t → b.subs[j]? = some t → a = b ∧ i = j

theorem Tree.oneParent {p t : Term H} (hp : Tree p) (ht : Lang.isAtom t.head = false) : OneParent p t := by
  intro a b i j ha hb hi hj
  have hia := List.mem_of_getElem? hi
  have hjb := List.mem_of_getElem? hj
  have hta : Occurs t a := by obtain ⟨h, ts⟩ := a; exact .child hia (.refl _)
  have htb : Occurs t b := by obtain ⟨h, ts⟩ := b; exact .child hjb (.refl _)
  have key : ∀ (e e' : Term H), Occurs e' p → t ∈ e.subs → t ∈ e'.subs → Occurs e e' → e = e' := by
    intro e e' ho' ht1 ht2 ho
    by_contra hne
    obtain ⟨u, hu, hou⟩ := Below.cases ⟨ho, hne⟩
    have hte : Occurs t e := by obtain ⟨hd, es⟩ := e; exact .child ht1 (.refl _)
    have hsz : t.size < e.size := by obtain ⟨hd, es⟩ := e; exact size_lt_of_mem ht1
    obtain ⟨hd', es'⟩ := e'
    have : u = t := (hp.occurs ho').child_unique hu ht2 (hte.trans hou) (.refl _) ht
    subst this
    have := hou.size_le
    omega
  have hab : a = b := by
    rcases hp.chain ha hb hta htb ht with ho | ho
    · exact key a b hb hia hjb ho
    · exact (key b a ha hjb hia ho).symm
  subst hab
  refine ⟨rfl, ?_⟩
  by_contra hne
  obtain ⟨h, ts⟩ := a
  have hpw := (hp.occurs ha).children.2
  have hx := mem_post.2 ⟨Occurs.refl t, ht⟩
  have h1 := (List.getElem?_eq_some_iff.1 hi)
  have h2 := (List.getElem?_eq_some_iff.1 hj)
  obtain ⟨hl1, he1⟩ := h1
  obtain ⟨hl2, he2⟩ := h2
  simp only [Term.subs] at hl1 hl2 he1 he2
  rw [List.pairwise_iff_getElem] at hpw
  rcases Nat.lt_or_gt_of_ne hne with hlt | hlt
  · have := hpw i j hl1 hl2 hlt t
    rw [he1, he2] at this
    exact this hx hx
  · have := hpw j i hl2 hl1 hlt t
    rw [he1, he2] at this
    exact this hx hx

section
variable {ins : Term H → List (Nat × Term H)} {p : Term H}

/-- The expression is bound somewhere. -/
def BoundBy (ins : Term H → List (Nat × Term H)) (t : Term H) : Prop := ∃ s v, (v, t) ∈ ins s

/-- The conditions on the insertions under which the result is a tree. -/
structure TreeIns (ins : Term H → List (Nat × Term H)) (p : Term H) : Prop where
  ok : InsOk ins
  coherent : InsCoherent ins p
  fresh : InsFresh ins (binders p ∪ fv p)
  leaves : AtomLeaves p
  /-- no atom is bound -/
  nonatom : ∀ s v b, (v, b) ∈ ins s → Lang.isAtom b.head = false
  /-- the site is on every path to a bound expression -/
  above : ∀ e t s v, Occurs e p → t ∈ e.subs → (v, t) ∈ ins s → Occurs s e → s = e
  /-- what is not bound occurs at one place -/
  single : ∀ t, Occurs t p → Lang.isAtom t.head = false → ¬ BoundBy ins t → OneParent p t

/-- The expansion of a term that is visited. -/
def Xp (ins : Term H → List (Nat × Term H)) (p e : Term H) (bs : List (Nat × Term H)) (ts : List (Term H)) : Prop :=
  ∃ B, Visit ins p e B ∧ Expands ins B e bs ts

/-- What the recursive call on a term returns: a reference to a variable, or an expansion. -/
def Res (ins : Term H → List (Nat × Term H)) (p t x : Term H) : Prop :=
  (∃ s w, (w, t) ∈ ins s ∧ x = wrapVar t w) ∨
    (¬ BoundBy ins t ∧ ∃ bs ts, Xp ins p t bs ts ∧ x = letAll bs (node t.head ts))

/-- What is inserted: variables with expansions. -/
def Def (ins : Term H → List (Nat × Term H)) (p : Term H) (q q' : Nat × Term H) : Prop :=
  q'.1 = q.1 ∧ ∃ bs ts, Xp ins p q.2 bs ts ∧ q'.2 = letAll bs (node q.2.head ts)

theorem addIns_append (B : List (Term H × Nat)) (l l' : List (Nat × Term H)) :
    addIns B (l ++ l') = addIns (addIns B l) l' := by
  induction l generalizing B with
  | nil => rfl
  | cons q l ih => obtain ⟨v, b⟩ := q; exact ih _

/-- An expression that is being bound is not replaced. -/
theorem TreeIns.bind_none (hT : TreeIns ins p) {e b : Term H} {B : List (Term H × Nat)} {v : Nat}
    {l l' : List (Nat × Term H)} (hv : Visit ins p e B) (hl : ins e = l ++ (v, b) :: l') :
    lookupTerm b (addIns B l) = none := by
  cases h : lookupTerm b (addIns B l) with
  | none => rfl
  | some w =>
    exfalso
    have hin : (v, b) ∈ ins e := by rw [hl]; simp
    rcases mem_addIns.1 (lookupTerm_mem h) with hm | hm
    · obtain ⟨s, h1, h2⟩ := hv.entry hT.ok _ _ hm
      have := hT.coherent.once _ _ _ _ _ hin h1
      subst this
      have := hT.ok.inj _ _ _ _ _ hin h1
      subst this
      omega
    · have h1 : (w, b) ∈ ins e := by rw [hl]; exact List.mem_append_left _ hm
      have := hT.coherent.once _ _ _ _ _ hin h1
      subst this
      have hn := hT.ok.nodup e
      rw [hl, List.map_append, List.nodup_append] at hn
      exact hn.2.2 v (List.mem_map.2 ⟨_, hm, rfl⟩) v (by simp) rfl

/-- A bound expression is replaced wherever it is an argument. -/
theorem TreeIns.child_some (hT : TreeIns ins p) {e t : Term H} {B : List (Term H × Nat)} (hv : Visit ins p e B)
    (ht : t ∈ e.subs) (hb : BoundBy ins t) : ∃ s w, (w, t) ∈ ins s ∧ lookupTerm t (addIns B (ins e)) = some w := by
  obtain ⟨s, v, hm⟩ := hb
  have hmem : (t, v) ∈ addIns B (ins e) := by
    by_cases hs : Occurs s e
    · have := hT.above e t s v (hv.occurs hT.ok) ht hm hs
      subst this
      exact mem_addIns.2 (Or.inr hm)
    · refine mem_addIns.2 (Or.inl (hv.complete hT.ok hT.coherent s v t hm ?_ hs))
      obtain ⟨h, es⟩ := e
      exact Below.child ht (.refl _)
  obtain ⟨w, hw⟩ := lookupTerm_isSome hmem
  rcases mem_addIns.1 (lookupTerm_mem hw) with h1 | h1
  · obtain ⟨s', h2, _⟩ := hv.entry hT.ok _ _ h1
    exact ⟨s', w, h2, hw⟩
  · exact ⟨e, w, h1, hw⟩

theorem Xp.parts (hT : TreeIns ins p) {e : Term H} {bs : List (Nat × Term H)} {ts : List (Term H)}
    (h : Xp ins p e bs ts) : List.Forall₂ (Def ins p) (ins e) bs ∧ List.Forall₂ (Res ins p) e.subs ts := by
  obtain ⟨B, hv, n, r, hr, hts, rfl⟩ := h
  have hexp : ∀ {m : Nat} {B' : List (Term H × Nat)} {t x : Term H}, lookupTerm t B' = none →
      applyGo ins m B' t = some x → Visit ins p t B' → ∃ bs ts, Xp ins p t bs ts ∧ x = letAll bs (node t.head ts) := by
    intro m B' t x hl hgo hv
    cases m with
    | zero => simp [applyGo] at hgo
    | succ m =>
      unfold applyGo at hgo
      rw [hl] at hgo
      simp only [Option.bind_eq_bind, Option.bind_eq_some_iff, Option.pure_def] at hgo
      obtain ⟨r, hr, ts, hts, he⟩ := hgo
      cases he
      exact ⟨r.1, ts, ⟨B', hv, m, r, hr, hts, rfl⟩, rfl⟩
  constructor
  · have key : ∀ (l done : List (Nat × Term H)) (r : List (Nat × Term H) × List (Term H × Nat)), ins e = done ++ l →
        bindAll (applyGo ins n) (addIns B done) l = some r → List.Forall₂ (Def ins p) l r.1 := by
      intro l
      induction l with
      | nil =>
        intro done r _ h
        simp only [bindAll, Option.some.injEq] at h
        subst h; exact .nil
      | cons q l ih =>
        obtain ⟨v, b⟩ := q
        intro done r hd h
        obtain ⟨b', r', hgo, hr', rfl⟩ := bindAll_cons h
        have hn := hT.bind_none hv hd
        obtain ⟨bs, ts, hx, rfl⟩ := hexp hn hgo (.bind hv hd hn)
        refine .cons ⟨rfl, bs, ts, hx, rfl⟩ (ih (done ++ [(v, b)]) r' (by simp [hd]) ?_)
        rw [addIns_append]
        exact hr'
    exact key (ins e) [] r rfl hr
  · rw [bindAll_snd hr] at hts
    have hF := mapAll_forall₂ hts
    have : ∀ (us ts : List (Term H)), (∀ t ∈ us, t ∈ e.subs) →
        List.Forall₂ (fun t t' => applyGo ins n (addIns B (ins e)) t = some t') us ts →
        List.Forall₂ (Res ins p) us ts := by
      intro us ts hus hF
      induction hF with
      | nil => exact .nil
      | @cons t x us ts hgo _ ih =>
        refine .cons ?_ (ih fun t ht => hus t (List.mem_cons_of_mem _ ht))
        have ht := hus t List.mem_cons_self
        by_cases hb : BoundBy ins t
        · obtain ⟨s, w, hm, hw⟩ := hT.child_some hv ht hb
          refine Or.inl ⟨s, w, hm, ?_⟩
          cases n with
          | zero => simp [applyGo] at hgo
          | succ n =>
            unfold applyGo at hgo
            rw [hw] at hgo
            exact (Option.some.inj hgo).symm
        · refine Or.inr ⟨hb, ?_⟩
          have hn : lookupTerm t (addIns B (ins e)) = none := by
            cases hl : lookupTerm t (addIns B (ins e)) with
            | none => rfl
            | some w =>
              exfalso
              apply hb
              rcases mem_addIns.1 (lookupTerm_mem hl) with h1 | h1
              · obtain ⟨s', h2, _⟩ := hv.entry hT.ok _ _ h1
                exact ⟨s', w, h2⟩
              · exact ⟨e, w, h1⟩
          exact hexp hn hgo (.child hv ht hn)
    exact this _ _ (fun _ h => h) hF

theorem Xp.occurs (hT : TreeIns ins p) {e : Term H} {bs : List (Nat × Term H)} {ts : List (Term H)}
    (h : Xp ins p e bs ts) : Occurs e p := by
  obtain ⟨B, hv, _⟩ := h
  exact hv.occurs hT.ok

theorem Xp.unique (hT : TreeIns ins p) {e : Term H} {bs bs' : List (Nat × Term H)} {ts ts' : List (Term H)}
    (h : Xp ins p e bs ts) (h' : Xp ins p e bs' ts') : bs = bs' ∧ ts = ts' := by
  obtain ⟨B, hv, hx⟩ := h
  obtain ⟨B', hv', hx'⟩ := h'
  exact hx.unique hT.ok hT.coherent hv hv' hx'

theorem Xp.vars (h : Xp ins p e bs ts) : bs.map Prod.fst = (ins e).map Prod.fst := by
  obtain ⟨B, hv, hx⟩ := h
  exact hx.vars

/-! ### The result determines the term -/

theorem letAll_cons_head {v : Nat} {b x : Term H} {bs : List (Nat × Term H)} :
    letAll ((v, b) :: bs) x = node (Lang.letHead v) [b, letAll bs x] := rfl

theorem letHead_inj {v w : Nat} (h : Lang.letHead (H := H) v = Lang.letHead w) : v = w := by
  have := congrArg Lang.letVar h
  rw [Lang.letVar_letHead, Lang.letVar_letHead] at this
  exact Option.some.inj this

theorem InsOk.same (hi : InsOk ins) {s s' b b' : Term H} {v : Nat} (h : (v, b) ∈ ins s) (h' : (v, b') ∈ ins s') :
    s = s' ∧ b = b' := by
  have := hi.inj _ _ _ _ _ h h'
  subst this
  refine ⟨rfl, ?_⟩
  have hn := hi.nodup s
  have key : ∀ l : List (Nat × Term H), (l.map Prod.fst).Nodup → (v, b) ∈ l → (v, b') ∈ l → b = b' := by
    intro l
    induction l with
    | nil => intro _ h; cases h
    | cons q l ih =>
      intro hn h1 h2
      simp only [List.map_cons, List.nodup_cons] at hn
      rcases List.mem_cons.1 h1 with h1 | h1 <;> rcases List.mem_cons.1 h2 with h2 | h2
      · rw [← h1] at h2; exact (Prod.mk.inj h2).2.symm
      · exact absurd (List.mem_map.2 ⟨_, h2, by rw [← h1]⟩) hn.1
      · exact absurd (List.mem_map.2 ⟨_, h1, by rw [← h2]⟩) hn.1
      · exact ih hn.2 h1 h2
  exact key _ hn h h'

/-- An expansion is not a reference to a new variable. -/
theorem Xp.not_var (hT : TreeIns ins p) {e : Term H} {bs : List (Nat × Term H)} {ts : List (Term H)}
    (h : Xp ins p e bs ts) {s b : Term H} {w : Nat} (hm : (w, b) ∈ ins s) {k : Nat} {hd : H} {us : List (Term H)}
    (he : letAll (bs.drop k) (node e.head ts) = node hd us) : Lang.symbol hd ≠ some (.var w) := by
  intro hs
  cases hb : bs.drop k with
  | cons q l =>
    obtain ⟨v, c⟩ := q
    rw [hb, letAll_cons_head] at he
    cases he
    rw [Lang.symbol_let] at hs
    cases hs
  | nil =>
    rw [hb] at he
    simp only [letAll] at he
    cases he
    have ho := h.occurs hT
    obtain ⟨d, es⟩ := e
    refine hT.fresh _ _ _ hm (symbols_occurs ho (Finset.mem_union_right _ ?_))
    simp only [Term.head] at hs
    rw [mem_fv, Lang.captured_symbol _ _ hs]
    exact ⟨Or.inl hs, by simp⟩

theorem Xp.inj (hT : TreeIns ins p) (n : Nat) : ∀ {e e' : Term H} {bs bs' : List (Nat × Term H)}
    {ts ts' : List (Term H)} {k k' : Nat}, e.size ≤ n → Xp ins p e bs ts → Xp ins p e' bs' ts' →
    k ≤ bs.length → k' ≤ bs'.length →
    letAll (bs.drop k) (node e.head ts) = letAll (bs'.drop k') (node e'.head ts') → e = e' ∧ k = k' := by
  induction n with
  | zero =>
    intro e e' bs bs' ts ts' k k' hn
    obtain ⟨h, es⟩ := e
    rw [size_node] at hn; omega
  | succ n ih =>
    intro e e' bs bs' ts ts' k k' hn h h' hk hk' heq
    have hvar : ∀ {e : Term H} {bs ts} {k v : Nat} {b : Term H} {l}, Xp ins p e bs ts → bs.drop k = (v, b) :: l →
        ∃ b0, (v, b0) ∈ ins e ∧ ((ins e).map Prod.fst)[k]? = some v := by
      intro e bs ts k v b l hx hd
      have h1 : bs[k]? = some (v, b) := by
        have := congrArg (·[0]?) hd
        simpa using this
      have h2 : ((ins e).map Prod.fst)[k]? = some v := by
        rw [← hx.vars, List.getElem?_map, h1]; rfl
      obtain ⟨⟨v', b0⟩, hm, rfl⟩ := List.mem_map.1 (List.mem_of_getElem? h2)
      exact ⟨b0, hm, h2⟩
    have hnot : ∀ {e e' : Term H} {bs ts bs' ts'} {k k' v : Nat} {b : Term H} {l}, Xp ins p e bs ts → Xp ins p e' bs' ts' →
        bs.drop k = (v, b) :: l → bs'.drop k' = [] →
        letAll (bs.drop k) (node e.head ts) = letAll (bs'.drop k') (node e'.head ts') → False := by
      intro e e' bs ts bs' ts' k k' v b l hx hx' hd hd' heq
      rw [hd, hd', letAll_cons_head] at heq
      simp only [letAll] at heq
      obtain ⟨b0, hm, _⟩ := hvar hx hd
      have ho := hx'.occurs hT
      obtain ⟨d, es⟩ := e'
      simp only [Term.head, node.injEq] at heq
      refine hT.fresh _ _ _ hm (Finset.mem_union_left _ (mem_binders_iff.2 ⟨d, es, ho, ?_⟩))
      rw [← heq.1, Lang.captured_let]
      simp
    cases hd : bs.drop k with
    | cons q l =>
      obtain ⟨v, b⟩ := q
      cases hd' : bs'.drop k' with
      | nil => exact (hnot h h' hd hd' heq).elim
      | cons q' l' =>
        obtain ⟨v', b'⟩ := q'
        obtain ⟨b0, hm, hk0⟩ := hvar h hd
        obtain ⟨b0', hm', hk0'⟩ := hvar h' hd'
        rw [hd, hd', letAll_cons_head, letAll_cons_head] at heq
        have hvv := letHead_inj (node.inj heq).1
        subst hvv
        have := (hT.ok.same hm hm').1
        subst this
        refine ⟨rfl, ?_⟩
        have hlt := (List.getElem?_eq_some_iff.1 hk0).1
        refine (List.getElem?_inj hlt (hT.ok.nodup e)).1 ?_
        rw [hk0, hk0']
    | nil =>
      cases hd' : bs'.drop k' with
      | cons q' l' => exact (hnot h' h hd' hd heq.symm).elim
      | nil =>
        have hkl : k = bs.length := by
          have := List.drop_eq_nil_iff.1 hd; omega
        have hkl' : k' = bs'.length := by
          have := List.drop_eq_nil_iff.1 hd'; omega
        rw [hd, hd'] at heq
        simp only [letAll] at heq
        obtain ⟨h1, h2⟩ := node.inj heq
        have hF := (h.parts hT).2
        have hF' := (h'.parts hT).2
        have hsub : e.subs = e'.subs := by
          have key : ∀ (us us' ts ts' : List (Term H)), (∀ t ∈ us, t.size ≤ n) → List.Forall₂ (Res ins p) us ts →
              List.Forall₂ (Res ins p) us' ts' → ts = ts' → us = us' := by
            intro us us' ts ts' hus hF
            induction hF generalizing us' ts' with
            | nil => intro hF' he; subst he; cases hF'; rfl
            | @cons t x us ts hr _ ih1 =>
              intro hF' he
              subst he
              cases hF' with
              | @cons t' _ us' _ hr' hF' =>
                have ht : t = t' := by
                  rcases hr with ⟨s, w, hm, rfl⟩ | ⟨hb, cs, xs, hx, rfl⟩ <;>
                    rcases hr' with ⟨s', w', hm', he⟩ | ⟨hb', cs', xs', hx', he⟩
                  · have : w = w' := by
                      have h3 := Lang.symbol_var t w
                      have h4 := Lang.symbol_var t' w'
                      rw [(node.inj he).1, h4] at h3
                      cases h3; rfl
                    subst this
                    exact (hT.ok.same hm hm').2
                  · exact absurd (Lang.symbol_var t w) (hx'.not_var hT hm (k := 0) he.symm)
                  · exact absurd (Lang.symbol_var t' w') (hx.not_var hT hm' (k := 0) he)
                  · exact (ih (hus t List.mem_cons_self) hx hx' (Nat.zero_le _) (Nat.zero_le _) he).1
                rw [ht, ih1 _ _ (fun t ht => hus t (List.mem_cons_of_mem _ ht)) hF' rfl]
          refine key _ _ _ _ (fun t ht => ?_) hF hF' h2
          obtain ⟨d, es⟩ := e
          have : t.size < (node d es).size := size_lt_of_mem ht
          omega
        have hee : e = e' := by
          obtain ⟨d, es⟩ := e
          obtain ⟨d', es'⟩ := e'
          simp only [Term.head, Term.subs] at h1 hsub
          rw [h1, hsub]
        subst hee
        refine ⟨rfl, ?_⟩
        obtain ⟨hbs, _⟩ := h.unique hT h'
        rw [hkl, hkl', hbs]

/-! ### Who expands what -/

/-- `u` expands `t`: it binds it, or has it as an argument that is not bound. -/
def Calls (ins : Term H → List (Nat × Term H)) (p u t : Term H) : Prop :=
  Occurs u p ∧ ((∃ v, (v, t) ∈ ins u) ∨ (t ∈ u.subs ∧ ¬ BoundBy ins t))

/-- Chains of calls. -/
inductive Reach (ins : Term H → List (Nat × Term H)) (p a : Term H) : Term H → Prop
  | refl : Reach ins p a a
  | step {u t : Term H} : Reach ins p a u → Calls ins p u t → Reach ins p a t

theorem Reach.trans {a b c : Term H} (h : Reach ins p a b) (h' : Reach ins p b c) : Reach ins p a c := by
  induction h' with
  | refl => exact h
  | step _ hc ih => exact .step ih hc

theorem Calls.below (hT : TreeIns ins p) {u t : Term H} (h : Calls ins p u t) : Below t u := by
  obtain ⟨_, ⟨v, hm⟩ | ⟨hm, _⟩⟩ := h
  · exact hT.ok.occurs _ _ _ hm
  · obtain ⟨d, es⟩ := u
    exact Below.child hm (.refl _)

theorem Reach.size_le (hT : TreeIns ins p) {a t : Term H} (h : Reach ins p a t) : t.size ≤ a.size := by
  induction h with
  | refl => exact le_refl _
  | step _ hc ih => have := (hc.below hT).size_lt; omega

theorem Calls.unique (hT : TreeIns ins p) {u u' t : Term H} (ht : Lang.isAtom t.head = false) (h : Calls ins p u t)
    (h' : Calls ins p u' t) : u = u' := by
  have ho : Occurs t p := (h.below hT).1.trans h.1
  obtain ⟨h0, ⟨v, hm⟩ | ⟨hm, hn⟩⟩ := h <;> obtain ⟨h0', ⟨v', hm'⟩ | ⟨hm', hn'⟩⟩ := h'
  · have := hT.coherent.once _ _ _ _ _ hm hm'
    subst this
    exact hT.ok.inj _ _ _ _ _ hm hm'
  · exact absurd ⟨_, _, hm⟩ hn'
  · exact absurd ⟨_, _, hm'⟩ hn
  · obtain ⟨i, hi⟩ := List.mem_iff_getElem?.1 hm
    obtain ⟨j, hj⟩ := List.mem_iff_getElem?.1 hm'
    exact (hT.single t ho ht hn u u' i j h0 h0' hi hj).1

/-- Callers are not atoms. -/
theorem Calls.nonatom (hT : TreeIns ins p) {u t : Term H} (h : Calls ins p u t) : Lang.isAtom u.head = false := by
  obtain ⟨c, hc, _⟩ := (h.below hT).cases
  obtain ⟨d, es⟩ := u
  cases ha : Lang.isAtom d with
  | false => exact ha
  | true =>
    have := hT.leaves d es h.1 ha
    subst this
    cases hc

theorem Reach.nonatom (hT : TreeIns ins p) {a x : Term H} (h : Reach ins p a x) :
    Lang.isAtom x.head = false → Lang.isAtom a.head = false := by
  induction h with
  | refl => exact id
  | step _ hc ih => exact fun _ => ih (hc.nonatom hT)

theorem Reach.linear (hT : TreeIns ins p) {a b x : Term H} (hx : Lang.isAtom x.head = false) (h : Reach ins p a x) :
    Reach ins p b x → Reach ins p a b ∨ Reach ins p b a := by
  induction h with
  | refl => exact fun h => Or.inr h
  | @step u t hr hc ih =>
    intro h'
    cases h' with
    | refl => exact Or.inl (.step hr hc)
    | @step u' _ hr' hc' =>
      have := hc.unique hT hx hc'
      subst this
      exact ih (hc.nonatom hT) hr'

/-- What two calls of a term both reach shows that they are the same. -/
theorem Calls.eq_of_reach (hT : TreeIns ins p) {e a b x : Term H} (ha : Calls ins p e a) (hb : Calls ins p e b)
    (hx : Lang.isAtom x.head = false) (h1 : Reach ins p a x) (h2 : Reach ins p b x) : a = b := by
  have key : ∀ {a b : Term H}, Calls ins p e a → Calls ins p e b → Reach ins p a b → Reach ins p b x → a = b := by
    intro a b ha hb h hbx
    have hbn := hbx.nonatom hT hx
    cases h with
    | refl => rfl
    | @step u _ hr hc =>
      exfalso
      have := hc.unique hT hbn hb
      subst this
      have h3 := hr.size_le hT
      have h4 := (ha.below hT).size_lt
      omega
  rcases h1.linear hT hx h2 with h | h
  · exact key ha hb h h2
  · exact (key hb ha h h1).symm

/-- Non-atoms in an expansion come from expansions of terms that are reached. -/
theorem Xp.decode (hT : TreeIns ins p) (n : Nat) : ∀ {e : Term H} {bs : List (Nat × Term H)} {ts : List (Term H)},
    e.size ≤ n → Xp ins p e bs ts → ∀ k, k ≤ bs.length → ∀ y, Occurs y (letAll (bs.drop k) (node e.head ts)) →
    Lang.isAtom y.head = false → ∃ e0 bs0 ts0 k0, Xp ins p e0 bs0 ts0 ∧ k0 ≤ bs0.length ∧
      y = letAll (bs0.drop k0) (node e0.head ts0) ∧ (e0 = e ∧ k ≤ k0 ∨
        (∃ i q, k ≤ i ∧ (ins e)[i]? = some q ∧ Reach ins p q.2 e0) ∨
        ∃ t ∈ e.subs, ¬ BoundBy ins t ∧ Reach ins p t e0) := by
  induction n with
  | zero =>
    intro e bs ts hn
    obtain ⟨h, es⟩ := e
    rw [size_node] at hn; omega
  | succ n ih =>
    intro e bs ts hn h k hk y hy hya
    have hsz : ∀ t ∈ e.subs, t.size ≤ n := by
      intro t ht
      obtain ⟨d, es⟩ := e
      have : t.size < (node d es).size := size_lt_of_mem ht
      omega
    have hsz' : ∀ q ∈ ins e, q.2.size ≤ n := by
      intro q hq
      have := hT.ok.size_lt (site := e) (b := q.2) (v := q.1) hq
      omega
    have hoc := h.occurs hT
    obtain ⟨hD, hR⟩ := h.parts hT
    have hlen := hD.length_eq
    -- what is reached from a call
    have hcall : ∀ {t : Term H} {bs1 ts1}, t.size ≤ n → Xp ins p t bs1 ts1 →
        Occurs y (letAll bs1 (node t.head ts1)) → ∃ e0 bs0 ts0 k0, Xp ins p e0 bs0 ts0 ∧ k0 ≤ bs0.length ∧
          y = letAll (bs0.drop k0) (node e0.head ts0) ∧ Reach ins p t e0 := by
      intro t bs1 ts1 ht hx ho
      obtain ⟨e0, bs0, ts0, k0, h1, h2, h3, h4⟩ := ih ht hx 0 (Nat.zero_le _) y ho hya
      refine ⟨e0, bs0, ts0, k0, h1, h2, h3, ?_⟩
      rcases h4 with ⟨rfl, _⟩ | ⟨i, q, _, hq, hr⟩ | ⟨u, hu, hnb, hr⟩
      · exact .refl
      · exact (Reach.step .refl ⟨hx.occurs hT, Or.inl ⟨q.1, List.mem_of_getElem? hq⟩⟩).trans hr
      · exact (Reach.step .refl ⟨hx.occurs hT, Or.inr ⟨hu, hnb⟩⟩).trans hr
    induction hj : bs.length - k generalizing k with
    | zero =>
      have hke : k = bs.length := by omega
      subst hke
      rw [List.drop_length] at hy
      simp only [letAll] at hy
      cases hy with
      | refl => exact ⟨e, bs, ts, bs.length, h, le_refl _, by simp [letAll], Or.inl ⟨rfl, le_refl _⟩⟩
      | child hx hy =>
        obtain ⟨t, ht, hres⟩ := forall₂_mem_right hR hx
        rcases hres with ⟨s, w, _, rfl⟩ | ⟨hnb, bs1, ts1, hx1, rfl⟩
        · exfalso
          cases hy with
          | refl =>
            have := Lang.isAtom_var t w
            simp only [wrapVar, Term.head] at hya
            rw [this] at hya; cases hya
          | child hc _ => cases hc
        · obtain ⟨e0, bs0, ts0, k0, h1, h2, h3, h4⟩ := hcall (hsz t ht) hx1 hy
          exact ⟨e0, bs0, ts0, k0, h1, h2, h3, Or.inr (Or.inr ⟨t, ht, hnb, h4⟩)⟩
    | succ j ihj =>
      have hlt : k < bs.length := by omega
      have hdrop := List.drop_eq_getElem_cons hlt
      rw [hdrop] at hy
      have hq := List.forall₂_iff_get.1 hD |>.2 k (by omega) hlt
      simp only [List.get_eq_getElem] at hq
      obtain ⟨v, c, hvc⟩ : ∃ v c, bs[k] = (v, c) := ⟨_, _, rfl⟩
      rw [hvc] at hy hq hdrop
      rw [letAll_cons_head] at hy
      cases hy with
      | refl => exact ⟨e, bs, ts, k, h, hk, by rw [hdrop]; rfl, Or.inl ⟨rfl, le_refl _⟩⟩
      | child hm hy =>
        simp only [List.mem_cons, List.not_mem_nil, or_false] at hm
        rcases hm with rfl | rfl
        · obtain ⟨_, bs1, ts1, hx1, he1⟩ := hq
          simp only at he1
          rw [he1] at hy
          have hin : (ins e)[k]'(by omega) ∈ ins e := List.getElem_mem _
          obtain ⟨e0, bs0, ts0, k0, h1, h2, h3, h4⟩ := hcall (hsz' _ hin) hx1 hy
          exact ⟨e0, bs0, ts0, k0, h1, h2, h3, Or.inr (Or.inl ⟨k, _, le_refl _, List.getElem?_eq_getElem _, h4⟩)⟩
        · obtain ⟨e0, bs0, ts0, k0, h1, h2, h3, h4⟩ := ihj (k + 1) (by omega) hy (by omega)
          refine ⟨e0, bs0, ts0, k0, h1, h2, h3, ?_⟩
          rcases h4 with ⟨rfl, h5⟩ | ⟨i, q, h5, h6⟩ | h5
          · exact Or.inl ⟨rfl, by omega⟩
          · exact Or.inr (Or.inl ⟨i, q, by omega, h6⟩)
          · exact Or.inr (Or.inr h5)

/-- The expansion is a tree. -/
theorem Xp.tree (hT : TreeIns ins p) (n : Nat) : ∀ {e : Term H} {bs : List (Nat × Term H)} {ts : List (Term H)},
    e.size ≤ n → Xp ins p e bs ts → Tree (letAll bs (node e.head ts)) := by
  induction n with
  | zero =>
    intro e bs ts hn
    obtain ⟨h, es⟩ := e
    rw [size_node] at hn; omega
  | succ n ih =>
    intro e bs ts hn h
    have hsz : ∀ t ∈ e.subs, t.size < e.size := by
      intro t ht
      obtain ⟨d, es⟩ := e
      exact size_lt_of_mem ht
    have hsz' : ∀ q ∈ ins e, q.2.size < e.size := by
      intro q hq
      exact hT.ok.size_lt (site := e) (b := q.2) (v := q.1) hq
    have hoc := h.occurs hT
    obtain ⟨hD, hR⟩ := h.parts hT
    have hlen := hD.length_eq
    have hlenR := hR.length_eq
    -- a node that is in the expansion of a call
    have hcall : ∀ {t y : Term H} {bs1 ts1}, Xp ins p t bs1 ts1 → y ∈ post (letAll bs1 (node t.head ts1)) →
        ∃ e0 bs0 ts0 k0, Xp ins p e0 bs0 ts0 ∧ k0 ≤ bs0.length ∧ y = letAll (bs0.drop k0) (node e0.head ts0) ∧
          Reach ins p t e0 ∧ Lang.isAtom e0.head = false := by
      intro t y bs1 ts1 hx hy
      obtain ⟨ho, hya⟩ := mem_post.1 hy
      obtain ⟨e0, bs0, ts0, k0, h1, h2, h3, h4⟩ := hx.decode hT _ (le_refl _) 0 (Nat.zero_le _) y ho hya
      refine ⟨e0, bs0, ts0, k0, h1, h2, h3, ?_, ?_⟩
      · rcases h4 with ⟨rfl, _⟩ | ⟨i, q, _, hq, hr⟩ | ⟨u, hu, hnb, hr⟩
        · exact .refl
        · exact (Reach.step .refl ⟨hx.occurs hT, Or.inl ⟨q.1, List.mem_of_getElem? hq⟩⟩).trans hr
        · exact (Reach.step .refl ⟨hx.occurs hT, Or.inr ⟨hu, hnb⟩⟩).trans hr
      · cases hb : bs0.drop k0 with
        | nil => rw [h3, hb] at hya; exact hya
        | cons q l =>
          -- a site is not an atom
          have hq : ins e0 ≠ [] := by
            intro hnil
            have := h1.vars
            rw [hnil] at this
            simp only [List.map_nil, List.map_eq_nil_iff] at this
            rw [this] at hb
            simp at hb
          obtain ⟨q', l', hql⟩ := List.exists_cons_of_ne_nil hq
          exact Calls.nonatom hT (u := e0) (t := q'.2) ⟨h1.occurs hT, Or.inl ⟨q'.1, by rw [hql]; simp⟩⟩
    -- two calls share nothing
    have hdis : ∀ {t t' y : Term H} {bs1 ts1 bs2 ts2}, Xp ins p t bs1 ts1 → Xp ins p t' bs2 ts2 → Calls ins p e t →
        Calls ins p e t' → y ∈ post (letAll bs1 (node t.head ts1)) → y ∈ post (letAll bs2 (node t'.head ts2)) →
        t = t' := by
      intro t t' y bs1 ts1 bs2 ts2 hx hx' hc hc' hy hy'
      obtain ⟨e0, bs0, ts0, k0, h1, h2, h3, h4, h5⟩ := hcall hx hy
      obtain ⟨e0', bs0', ts0', k0', h1', h2', h3', h4', h5'⟩ := hcall hx' hy'
      have := (Xp.inj hT _ (le_refl _) h1 h1' h2 h2' (h3.symm.trans h3')).1
      subst this
      exact hc.eq_of_reach hT hc' h5 h4 h4'
    have hnode : Tree (node e.head ts) := by
      refine tree_node ?_ ?_
      · intro x hx
        obtain ⟨t, ht, hres⟩ := forall₂_mem_right hR hx
        rcases hres with ⟨s, w, _, rfl⟩ | ⟨hnb, bs1, ts1, hx1, rfl⟩
        · unfold Tree wrapVar
          rw [post_atom (Lang.isAtom_var t w)]
          exact List.nodup_nil
        · have := hsz t ht
          exact ih (by omega) hx1
      · rw [List.pairwise_iff_getElem]
        intro i j hi hj hij y hyi hyj
        have hgi := List.forall₂_iff_get.1 hR |>.2 i (by omega) hi
        have hgj := List.forall₂_iff_get.1 hR |>.2 j (by omega) hj
        simp only [List.get_eq_getElem] at hgi hgj
        have hpa : ∀ (t : Term H) w, post (wrapVar t w) = [] := fun t w => post_atom (Lang.isAtom_var t w)
        rcases hgi with ⟨s, w, _, he⟩ | ⟨hnb, bs1, ts1, hx1, he⟩
        · rw [he, hpa] at hyi; cases hyi
        rcases hgj with ⟨s, w, _, he'⟩ | ⟨hnb', bs2, ts2, hx2, he'⟩
        · rw [he', hpa] at hyj; cases hyj
        rw [he] at hyi
        rw [he'] at hyj
        have hti : e.subs[i]'(by omega) ∈ e.subs := List.getElem_mem _
        have htj : e.subs[j]'(by omega) ∈ e.subs := List.getElem_mem _
        have heq := hdis hx1 hx2 ⟨hoc, Or.inr ⟨hti, hnb⟩⟩ ⟨hoc, Or.inr ⟨htj, hnb'⟩⟩ hyi hyj
        obtain ⟨e0, bs0, ts0, k0, h1, h2, h3, h4, h5⟩ := hcall hx1 hyi
        have hna := h4.nonatom hT h5
        have := (hT.single _ (hx1.occurs hT) hna hnb e e i j hoc hoc (List.getElem?_eq_getElem _)
          (by rw [heq]; exact List.getElem?_eq_getElem _)).2
        omega
    have hlets : ∀ k, k ≤ bs.length → Tree (letAll (bs.drop k) (node e.head ts)) := by
      intro k hk
      induction hj : bs.length - k generalizing k with
      | zero =>
        have hke : k = bs.length := by omega
        subst hke
        rw [List.drop_length]
        exact hnode
      | succ j ihj =>
        have hlt : k < bs.length := by omega
        have hdrop := List.drop_eq_getElem_cons hlt
        have hq := List.forall₂_iff_get.1 hD |>.2 k (by omega) hlt
        simp only [List.get_eq_getElem] at hq
        obtain ⟨v, c, hvc⟩ : ∃ v c, bs[k] = (v, c) := ⟨_, _, rfl⟩
        rw [hvc] at hdrop hq
        obtain ⟨hv, bs1, ts1, hx1, he1⟩ := hq
        simp only at he1
        have hin : (ins e)[k]'(by omega) ∈ ins e := List.getElem_mem _
        have hck : Calls ins p e ((ins e)[k]'(by omega)).2 := ⟨hoc, Or.inl ⟨_, hin⟩⟩
        rw [hdrop, letAll_cons_head]
        refine tree_node ?_ ?_
        · intro x hx
          simp only [List.mem_cons, List.not_mem_nil, or_false] at hx
          rcases hx with rfl | rfl
          · rw [he1]
            have := hsz' _ hin
            exact ih (by omega) hx1
          · exact ihj (k + 1) (by omega) (by omega)
        · refine List.pairwise_cons.2 ⟨?_, List.pairwise_singleton _ _⟩
          intro x hx y hy hy'
          rw [List.mem_singleton] at hx
          subst hx
          rw [he1] at hy
          obtain ⟨e0, bs0, ts0, k0, h1, h2, h3, h4, h5⟩ := hcall hx1 hy
          obtain ⟨ho, hya⟩ := mem_post.1 hy'
          obtain ⟨e0', bs0', ts0', k0', h1', h2', h3', h4'⟩ := h.decode hT _ (le_refl _) (k + 1) (by omega) y ho hya
          have := (Xp.inj hT _ (le_refl _) h1 h1' h2 h2' (h3.symm.trans h3')).1
          subst this
          rcases h4' with ⟨rfl, _⟩ | ⟨i, q, h6, h7, h8⟩ | ⟨t, ht, hnb, h8⟩
          · have h9 := h4.size_le hT
            have := hsz' _ hin
            omega
          · have hc := hck.eq_of_reach hT ⟨hoc, Or.inl ⟨q.1, List.mem_of_getElem? h7⟩⟩ h5 h4 h8
            have hv' := hT.coherent.once e e _ q.1 q.2 (by rw [← hc]; exact hin) (List.mem_of_getElem? h7)
            have : k = i := by
              have hk' : k < ((ins e).map Prod.fst).length := by simp; omega
              refine (List.getElem?_inj hk' (hT.ok.nodup e)).1 ?_
              rw [List.getElem?_map, List.getElem?_map, h7, List.getElem?_eq_getElem (by omega)]
              exact congrArg some hv'
            omega
          · have hc := hck.eq_of_reach hT ⟨hoc, Or.inr ⟨ht, hnb⟩⟩ h5 h4 h8
            exact hnb ⟨e, _, by rw [← hc]; exact hin⟩
    exact hlets 0 (Nat.zero_le _)

/-- The result of `_apply_insertions` is the expansion of the program. -/
theorem applyInsertions_xp {p' : Term H} (h : applyInsertions ins p = some p') :
    ∃ bs ts, Xp ins p p bs ts ∧ p' = letAll bs (node p.head ts) := by
  unfold applyInsertions at h
  cases hn : p.size with
  | zero => rw [hn] at h; simp [applyGo] at h
  | succ n =>
    rw [hn] at h
    unfold applyGo at h
    simp only [lookupTerm, Option.bind_eq_bind, Option.bind_eq_some_iff, Option.pure_def] at h
    obtain ⟨r, hr, ts, hts, he⟩ := h
    cases he
    exact ⟨r.1, ts, ⟨[], .root, n, r, hr, hts, rfl⟩, rfl⟩

theorem applyInsertions_tree (hT : TreeIns ins p) {p' : Term H} (h : applyInsertions ins p = some p') : Tree p' := by
  obtain ⟨bs, ts, hx, rfl⟩ := applyInsertions_xp h
  exact hx.tree hT _ (le_refl _)

end

end Verif.Midend
