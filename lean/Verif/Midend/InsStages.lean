import Verif.Midend.InsTree

/-!
Sharing and loop-invariant code motion make trees, keep the free symbols, and bind no atoms.
-/

set_option linter.unusedSectionVars false

namespace Verif.Midend
open Term
variable {H V : Type} [Lang H] [DecidableEq H]

/-! ### No free symbol is lost -/

section
variable {ins : Term H → List (Nat × Term H)} {p : Term H}

/-- The symbol is free in the result, or in an expression that the result refers to. -/
def KeptFree (B : List (Term H × Nat)) (s : Sym) (x : Term H) : Prop :=
  s ∈ fv x ∨ ∃ b v, (b, v) ∈ B ∧ Sym.var v ∈ fv x ∧ s ∈ fv b

theorem applyGo_kept (hi : InsOk ins) (hfr : InsFresh ins (binders p ∪ fv p)) (n : Nat) :
    ∀ (B : List (Term H × Nat)) (e e' : Term H), Occurs e p → BOk ins e.size B → applyGo ins n B e = some e' →
      ∀ s ∈ fv e, KeptFree B s e' := by
  induction n with
  | zero => intro B e e' _ _ h; simp [applyGo] at h
  | succ n ih =>
    intro B e e' ho hB h s hs
    unfold applyGo at h
    split at h
    · rename_i v hl
      cases h
      exact Or.inr ⟨e, v, lookupTerm_mem hl, wrapVar_fv.2 rfl, hs⟩
    · simp only [Option.bind_eq_bind, Option.bind_eq_some_iff, Option.pure_def] at h
      obtain ⟨r, hr, ts, hts, he⟩ := h
      cases he
      have hsp : s ∈ binders p ∪ fv p := symbols_occurs ho (Finset.mem_union_right _ hs)
      -- the insertion loop
      suffices key : ∀ (l : List (Nat × Term H)) (B : List (Term H × Nat))
          (r : List (Nat × Term H) × List (Term H × Nat)), (∀ q ∈ l, q ∈ ins e) → (l.map Prod.fst).Nodup →
          BOk' ins e l B → bindAll (applyGo ins n) B l = some r → mapAll (applyGo ins n r.2) e.subs = some ts →
          KeptFree B s (letAll r.1 (node e.head ts)) from
        key (ins e) B r (fun _ h => h) (hi.nodup e) (hB.start hi) hr hts
      intro l
      induction l with
      | nil =>
        intro B r _ _ hB' hr hts
        simp only [bindAll, Option.some.injEq] at hr
        subst hr
        simp only [letAll]
        obtain ⟨hd, es⟩ := e
        simp only [Term.head, Term.subs] at hts ⊢
        rw [mem_fv] at hs
        obtain ⟨hs, hc⟩ := hs
        rcases hs with hs | ⟨t, ht, hst⟩
        · exact Or.inl (mem_fv.2 ⟨Or.inl hs, hc⟩)
        · have hF := mapAll_forall₂ hts
          obtain ⟨i, hi'⟩ := List.mem_iff_getElem.1 ht
          obtain ⟨hlt, hie⟩ := hi'
          have hlt' : i < ts.length := by rw [← hF.length_eq]; exact hlt
          have hgo := List.forall₂_iff_get.1 hF |>.2 i hlt hlt'
          simp only [List.get_eq_getElem] at hgo
          rw [hie] at hgo
          have hsz : t.size < (node hd es).size := size_lt_of_mem ht
          have hto : Occurs t p := (Occurs.child ht (.refl _)).trans ho
          have hm : ts[i] ∈ ts := List.getElem_mem _
          rcases ih B t _ hto (hB'.child hsz) hgo s hst with h1 | ⟨b, v, h1, h2, h3⟩
          · exact Or.inl (mem_fv.2 ⟨Or.inr ⟨_, hm, h1⟩, hc⟩)
          · refine Or.inr ⟨b, v, h1, mem_fv.2 ⟨Or.inr ⟨_, hm, h2⟩, ?_⟩, h3⟩
            intro hcv
            obtain ⟨⟨s', b', h4, _⟩, _⟩ := hB' b v h1
            exact hfr _ _ _ h4 (Finset.mem_union_left _ (mem_binders_iff.2 ⟨hd, es, ho, hcv⟩))
      | cons q l ihl =>
        obtain ⟨v, b⟩ := q
        intro B r hl hnd hB' hr hts
        obtain ⟨b', r', hgo, hr', rfl⟩ := bindAll_cons hr
        have hin := hl (v, b) List.mem_cons_self
        have hstep := hB'.step hin hnd
        have hne : s ≠ .var v := fun h => hfr _ _ _ hin (h ▸ hsp)
        have hrec := ihl ((b, v) :: B) r' (fun q hq => hl q (List.mem_cons_of_mem _ hq))
          (by simp only [List.map_cons, List.nodup_cons] at hnd; exact hnd.2) hstep hr' hts
        have hfvb : ∀ x, x ∈ fv b' → x ≠ .var v → x ∈ fv (letAll ((v, b') :: r'.1) (node e.head ts)) :=
          fun x hx hxv => wrapLet_fv.2 ⟨Or.inl hx, hxv⟩
        have hfvr : ∀ x, x ∈ fv (letAll r'.1 (node e.head ts)) → x ≠ .var v →
            x ∈ fv (letAll ((v, b') :: r'.1) (node e.head ts)) := fun x hx hxv => wrapLet_fv.2 ⟨Or.inr hx, hxv⟩
        have hnotv : ∀ c w, (c, w) ∈ B → Sym.var w ≠ .var v := by
          intro c w hm hvw
          exact (hB' c w hm).2 (by rw [Sym.var.inj hvw]; simp)
        rcases hrec with h1 | ⟨c, w, h1, h2, h3⟩
        · exact Or.inl (hfvr s h1 hne)
        · rcases List.mem_cons.1 h1 with h4 | h4
          · cases h4
            have hbo := (hi.occurs _ _ _ hin).1.trans ho
            rcases ih B b b' hbo (hB'.child (hi.size_lt hin)) hgo s h3 with h5 | ⟨c', w', h5, h6, h7⟩
            · exact Or.inl (hfvb s h5 hne)
            · exact Or.inr ⟨c', w', h5, hfvb _ h6 (hnotv c' w' h5), h7⟩
          · exact Or.inr ⟨c, w, h4, hfvr _ h2 (hnotv c w h4), h3⟩

theorem applyInsertions_fv (hi : InsOk ins) (hfr : InsFresh ins (binders p ∪ fv p)) (hns : NoShadow p) {p' : Term H}
    (h : applyInsertions ins p = some p') : fv p' = fv p := by
  apply Finset.Subset.antisymm (applyInsertions_out hi hfr hns h).1
  intro s hs
  rcases applyGo_kept hi hfr _ [] p p' (.refl _) (fun b v hm => nomatch hm) h s hs with h1 | ⟨b, v, h1, _⟩
  · exact h1
  · cases h1

/-! ### Atoms of the result -/

theorem Xp.leaves [Atoms H] (hT : TreeIns ins p) {p' : Term H} (h : applyInsertions ins p = some p') : AtomLeaves p' := by
  intro hd ts ho ha
  have hocc := applyGo_occurs (ins := ins) (p := p) p.size [] p p' (fun _ => .root) h
  rcases hocc _ ho with ⟨b, v, he⟩ | ⟨e, B, bs, us, k, hv, hx, he⟩
  · unfold wrapVar at he
    cases he; rfl
  · cases hb : bs.drop k with
    | cons q l =>
      obtain ⟨v, c⟩ := q
      rw [hb, letAll_cons_head] at he
      cases he
      rw [Atoms.let_] at ha; cases ha
    | nil =>
      rw [hb] at he
      simp only [letAll] at he
      cases he
      have hF := (Xp.parts hT ⟨B, hv, hx⟩).2
      obtain ⟨d, es⟩ := e
      have := hT.leaves d es (hv.occurs hT.ok) ha
      subst this
      cases hF
      rfl

theorem letAll_nonatom [Atoms H] {h : H} (ha : Lang.isAtom h = false) (bs : List (Nat × Term H)) (ts : List (Term H)) :
    Lang.isAtom (letAll bs (node h ts)).head = false := by
  cases bs with
  | nil => exact ha
  | cons q bs => exact Atoms.let_ _

/-- An expansion that is an atom is the expansion of an atom. -/
theorem Xp.atom [Atoms H] {e : Term H} {bs : List (Nat × Term H)} {ts : List (Term H)}
    (ha : Lang.isAtom (letAll bs (node e.head ts)).head = true) : Lang.isAtom e.head = true := by
  cases he : Lang.isAtom e.head with
  | true => rfl
  | false => rw [letAll_nonatom he] at ha; cases ha

end

/-! ### Sharing -/

theorem le_sum_of_mem' {l : List Nat} {x : Nat} (h : x ∈ l) : x ≤ l.sum := by
  induction l with
  | nil => cases h
  | cons y l ih =>
    rw [List.sum_cons]
    rcases List.mem_cons.1 h with rfl | h
    · omega
    · have := ih h
      omega

theorem two_le_count {l : List (Term H)} {t : Term H} {i j : Nat} (h : i < j) (hi : l[i]? = some t)
    (hj : l[j]? = some t) : 2 ≤ l.count t := by
  rw [← List.take_append_drop j l, List.count_append]
  have h1 : t ∈ l.take j := by
    refine List.mem_of_getElem? (i := i) ?_
    rw [List.getElem?_take, if_pos h, hi]
  have h2 : t ∈ l.drop j := by
    refine List.mem_of_getElem? (i := 0) ?_
    rw [List.getElem?_drop, Nat.add_zero, hj]
  have := List.count_pos_iff.2 h1
  have := List.count_pos_iff.2 h2
  omega

theorem oneParent_of_inDegree {p t : Term H} (h : inDegree p t ≤ 1) : OneParent p t := by
  intro a b i j ha hb hi hj
  have hta := List.mem_of_getElem? hi
  have htb := List.mem_of_getElem? hj
  have hma := mem_order.2 ha
  have hmb := mem_order.2 hb
  have hpos : ∀ u : Term H, t ∈ u.subs → 1 ≤ u.subs.count t := fun u hu => List.count_pos_iff.2 hu
  have hab : a = b := by
    by_contra hne
    have key : ∀ l : List (Term H), l.Nodup → a ∈ l → b ∈ l → 2 ≤ (l.map (fun u => u.subs.count t)).sum := by
      intro l
      induction l with
      | nil => intro _ h; cases h
      | cons u l ih =>
        intro hn h1 h2
        rw [List.nodup_cons] at hn
        rw [List.map_cons, List.sum_cons]
        have hone : ∀ x ∈ l, t ∈ x.subs → 1 ≤ (l.map (fun u => u.subs.count t)).sum := by
          intro x hx hxt
          have := hpos x hxt
          have h3 := le_sum_of_mem' (l := l.map (fun u => u.subs.count t)) (List.mem_map.2 ⟨x, hx, rfl⟩)
          omega
        rcases List.mem_cons.1 h1 with h3 | h3 <;> rcases List.mem_cons.1 h2 with h4 | h4
        · exact absurd (h3.trans h4.symm) hne
        · have h5 := hpos a hta
          have h6 := hone b h4 htb
          rw [← h3]
          omega
        · have h5 := hpos b htb
          have h6 := hone a h3 hta
          rw [← h4]
          omega
        · have := ih hn.2 h3 h4
          omega
    have := key (order p) (order_nodup p) hma hmb
    unfold inDegree at h
    omega
  subst hab
  refine ⟨rfl, ?_⟩
  by_contra hne
  have h2 : 2 ≤ a.subs.count t := by
    rcases Nat.lt_or_gt_of_ne hne with hlt | hlt
    · exact two_le_count hlt hi hj
    · exact two_le_count hlt hj hi
  have h3 := le_sum_of_mem' (l := (order p).map (fun u => u.subs.count t)) (List.mem_map.2 ⟨a, hma, rfl⟩)
  unfold inDegree at h
  omega

theorem csePairs_nonatom {p s b : Term H} (h : (s, b) ∈ csePairs p) : Lang.isAtom b.head = false := by
  unfold csePairs at h
  rw [List.mem_filterMap] at h
  obtain ⟨sub, hsub, hq⟩ := h
  split_ifs at hq with hc
  rw [Option.map_eq_some_iff] at hq
  obtain ⟨site, hid, he⟩ := hq
  cases he
  exact hc.2

theorem inDegree_root (p : Term H) : inDegree p p = 0 := by
  unfold inDegree
  rw [List.sum_eq_zero]
  intro x hx
  obtain ⟨u, hu, rfl⟩ := List.mem_map.1 hx
  rw [List.count_eq_zero]
  intro hm
  have h1 := (mem_order.1 hu).size_le
  obtain ⟨d, es⟩ := u
  have : p.size < (node d es).size := size_lt_of_mem hm
  omega

theorem cse_treeIns {p : Term H} (hu : UniqueBinders p) (hl : AtomLeaves p) :
    TreeIns (number (freshBase (symbols p)) (csePairs p)) p where
  ok := cse_insOk hu
  coherent := cse_coherent _ p
  fresh := number_fresh (le_refl _)
  leaves := hl
  nonatom := by
    intro s v b hm
    obtain ⟨k, hk, rfl⟩ := mem_number.1 hm
    exact csePairs_nonatom (List.mem_of_getElem? hk)
  above := by
    intro e t s v he ht hm hse
    obtain ⟨k, hk, rfl⟩ := mem_number.1 hm
    obtain ⟨hbp, hid⟩ := mem_csePairs (List.mem_of_getElem? hk)
    obtain ⟨hne', hdom, _⟩ := idom_spec hbp hid
    by_contra hne
    refine hdom ((Avoid.above he (Below.size_lt ⟨hse, hne⟩)).trans ?_)
    obtain ⟨hd, es⟩ := e
    exact .child (fun h => hne h.symm) ht (.here fun h => hne' h.symm)
  single := by
    intro t ho ha hb
    apply oneParent_of_inDegree
    by_contra hlt
    have hne : p ≠ t := by
      rintro rfl
      rw [inDegree_root] at hlt; omega
    obtain ⟨site, hsite⟩ := Option.isSome_iff_exists.1 (idom_isSome ho hne)
    have hmem : (site, t) ∈ csePairs p := by
      unfold csePairs
      rw [List.mem_filterMap]
      refine ⟨t, mem_order.2 ho, ?_⟩
      rw [if_pos ⟨by omega, ha⟩, hsite]
      rfl
    obtain ⟨k, hk⟩ := List.getElem?_of_mem hmem
    exact hb ⟨site, _, mem_number.2 ⟨k, hk, rfl⟩⟩

/-! ### Loop-invariant code motion -/

theorem licmPairs_nonatom {p s b : Term H} (h : (s, b) ∈ licmPairs p) : Lang.isAtom b.head = false := by
  obtain ⟨st, _, h2, _⟩ := licmVisit_lv p [] none .root _ h
  exact h2

theorem licm_treeIns {p : Term H} (hp : Tree p) (hns : NoShadow p) (hl : AtomLeaves p) :
    TreeIns (number (freshBase (symbols p)) (licmPairs p)) p where
  ok := licm_insOk p
  coherent := licm_coherent _ hp hns
  fresh := number_fresh (le_refl _)
  leaves := hl
  nonatom := by
    intro s v b hm
    obtain ⟨k, hk, rfl⟩ := mem_number.1 hm
    exact licmPairs_nonatom (List.mem_of_getElem? hk)
  above := by
    intro e t s v he ht hm hse
    obtain ⟨k, hk, rfl⟩ := mem_number.1 hm
    have hpair := List.mem_of_getElem? hk
    obtain ⟨hts, hne', _⟩ := licmPairs_ok p _ hpair
    by_contra hne
    obtain ⟨u, hu, hsu⟩ := Below.cases ⟨hse, hne⟩
    obtain ⟨hd, es⟩ := e
    have := (hp.occurs he).child_unique hu ht (hts.trans hsu) (.refl _) (licmPairs_nonatom hpair)
    subst this
    exact hne' (hts.antisymm hsu)
  single := fun t _ ha _ => hp.oneParent ha

end Verif.Midend
