import Verif.Midend.Renames

/-!
`outline` (`ein/midend/lining.py:113-143`) returns: none of its assertions fails on a program without `let`s whose
binders are unique.
-/

set_option linter.unusedSectionVars false

namespace Verif.Midend
open Term
variable {H V : Type} [Lang H] [DecidableEq H]

section
variable {ins : Term H → List (Nat × Term H)} {p : Term H}

/-- What occurs in an expansion: references to the new variables, and expansions. -/
theorem Xp.all_occurs (hT : TreeIns ins p) (n : Nat) : ∀ {e : Term H} {bs : List (Nat × Term H)} {ts : List (Term H)},
    e.size ≤ n → Xp ins p e bs ts → ∀ y, Occurs y (letAll bs (node e.head ts)) →
    (∃ s v b, (v, b) ∈ ins s ∧ y = wrapVar b v) ∨
      ∃ e0 bs0 ts0 k0, Xp ins p e0 bs0 ts0 ∧ y = letAll (bs0.drop k0) (node e0.head ts0) := by
  induction n with
  | zero =>
    intro e bs ts hn
    obtain ⟨h, es⟩ := e
    rw [size_node] at hn; omega
  | succ n ih =>
    intro e bs ts hn h y hy
    have hsz : ∀ t ∈ e.subs, t.size ≤ n := by
      intro t ht
      obtain ⟨d, es⟩ := e
      have : t.size < (node d es).size := size_lt_of_mem ht
      omega
    have hsz' : ∀ q ∈ ins e, q.2.size ≤ n := by
      intro q hq
      have := hT.ok.size_lt (site := e) (b := q.2) (v := q.1) hq
      omega
    obtain ⟨hD, hR⟩ := h.parts hT
    have key : ∀ (l : List (Nat × Term H)) (k : Nat), bs.drop k = l → Occurs y (letAll l (node e.head ts)) →
        (∃ s v b, (v, b) ∈ ins s ∧ y = wrapVar b v) ∨
          ∃ e0 bs0 ts0 k0, Xp ins p e0 bs0 ts0 ∧ y = letAll (bs0.drop k0) (node e0.head ts0) := by
      intro l
      induction l with
      | nil =>
        intro k hk hy
        simp only [letAll] at hy
        cases hy with
        | refl => exact Or.inr ⟨e, bs, ts, k, h, by rw [hk]; rfl⟩
        | child hx hy =>
          obtain ⟨t, ht, hres⟩ := forall₂_mem_right hR hx
          rcases hres with ⟨s, w, hw, rfl⟩ | ⟨_, bs1, ts1, hx1, rfl⟩
          · cases hy with
            | refl => exact Or.inl ⟨s, w, t, hw, rfl⟩
            | child hc _ => cases hc
          · exact ih (hsz t ht) hx1 y hy
      | cons q l ihl =>
        obtain ⟨v, b⟩ := q
        intro k hk hy
        rw [letAll_cons_head] at hy
        cases hy with
        | refl => exact Or.inr ⟨e, bs, ts, k, h, by rw [hk]; rfl⟩
        | child hx hy =>
          simp only [List.mem_cons, List.not_mem_nil, or_false] at hx
          rcases hx with hx | hx <;> rw [hx] at hy
          · have hm : (v, b) ∈ bs := List.mem_of_mem_drop (i := k) (by rw [hk]; exact List.mem_cons_self)
            obtain ⟨q, hq, _, bs1, ts1, hx1, hb⟩ := forall₂_mem_right hD hm
            simp only at hb
            rw [hb] at hy
            exact ih (hsz' q hq) hx1 y hy
          · refine ihl (k + 1) ?_ hy
            rw [← List.drop_drop, hk]; rfl
    exact key bs 0 rfl hy

theorem applyInsertions_occurs (hT : TreeIns ins p) {p' y : Term H} (h : applyInsertions ins p = some p')
    (hy : Occurs y p') : (∃ s v b, (v, b) ∈ ins s ∧ y = wrapVar b v) ∨
      ∃ e0 bs0 ts0 k0, Xp ins p e0 bs0 ts0 ∧ y = letAll (bs0.drop k0) (node e0.head ts0) := by
  obtain ⟨bs, ts, hx, rfl⟩ := applyInsertions_xp h
  exact hx.all_occurs hT _ (le_refl _) y hy

variable [Atoms H]

/-- Something is bound only at non-atoms. -/
theorem TreeIns.site_nonatom (hT : TreeIns ins p) {e b : Term H} {v : Nat} (ho : Occurs e p) (hm : (v, b) ∈ ins e) :
    Lang.isAtom e.head = false := by
  cases ha : Lang.isAtom e.head with
  | false => rfl
  | true =>
    exfalso
    obtain ⟨h, es⟩ := e
    have := hT.leaves h es ho ha
    subst this
    have h1 := hT.ok.size_lt hm
    obtain ⟨h', es'⟩ := b
    rw [size_node, size_node] at h1
    simp only [List.map_nil, List.sum_nil] at h1
    omega

/-- A `let` in the result is new, or comes from the program. -/
theorem applyInsertions_let (hT : TreeIns ins p) {p' b c : Term H} {v : Nat} (h : applyInsertions ins p = some p')
    (ho : Occurs (node (Lang.letHead v) [b, c]) p') :
    ((∃ s b0, (v, b0) ∈ ins s) ∧ Lang.isAtom b.head = false ∧ Lang.isAtom c.head = false) ∨
      ∃ b0 c0, Occurs (node (Lang.letHead v) [b0, c0]) p ∧ Res ins p b0 b ∧ Res ins p c0 c := by
  rcases applyInsertions_occurs hT h ho with ⟨s, w, t, _, he⟩ | ⟨e, bs, ts, k, hx, he⟩
  · exfalso
    unfold wrapVar at he
    have := (node.inj he).2
    cases this
  · obtain ⟨hD, hR⟩ := hx.parts hT
    have hoe := hx.occurs hT
    cases hb : bs.drop k with
    | cons q l =>
      left
      obtain ⟨w, c'⟩ := q
      rw [hb, letAll_cons_head] at he
      obtain ⟨h1, h2⟩ := node.inj he
      have := letHead_inj h1
      subst this
      simp only [List.cons.injEq, and_true] at h2
      obtain ⟨rfl, rfl⟩ := h2
      have hm : (v, b) ∈ bs := List.mem_of_mem_drop (i := k) (by rw [hb]; exact List.mem_cons_self)
      obtain ⟨⟨v', b0⟩, hq, hv, bs1, ts1, hx1, hbe⟩ := forall₂_mem_right hD hm
      simp only at hv hbe
      subst hv
      refine ⟨⟨e, b0, hq⟩, ?_, ?_⟩
      · rw [hbe]; exact letAll_nonatom (hT.nonatom _ _ _ hq) _ _
      · exact letAll_nonatom (hT.site_nonatom hoe hq) _ _
    | nil =>
      right
      rw [hb] at he
      simp only [letAll] at he
      obtain ⟨h1, h2⟩ := node.inj he
      subst h2
      obtain ⟨d, es⟩ := e
      simp only [Term.head, Term.subs] at h1 hR
      subst h1
      cases hR with
      | cons r1 hR =>
        cases hR with
        | cons r2 hR =>
          cases hR with
          | nil => exact ⟨_, _, hoe, r1, r2⟩

/-- A reference to a variable in the result is new, or comes from the program. -/
theorem applyInsertions_symbol (hT : TreeIns ins p) {p' x : Term H} {v : Nat} (h : applyInsertions ins p = some p')
    (ho : Occurs x p') (hs : Lang.symbol x.head = some (.var v)) :
    (∃ s b, (v, b) ∈ ins s ∧ x = wrapVar b v) ∨ Occurs x p := by
  rcases applyInsertions_occurs hT h ho with ⟨s, w, t, hm, rfl⟩ | ⟨e, bs, ts, k, hx, rfl⟩
  · left
    have : Lang.symbol (wrapVar t w).head = some (.var w) := Lang.symbol_var t w
    rw [this] at hs
    cases hs
    exact ⟨s, t, hm, rfl⟩
  · right
    cases hb : bs.drop k with
    | cons q l =>
      obtain ⟨w, c'⟩ := q
      rw [hb, letAll_cons_head] at hs
      simp only [Term.head] at hs
      rw [Lang.symbol_let] at hs
      cases hs
    | nil =>
      rw [hb] at hs
      simp only [letAll, Term.head] at hs ⊢
      have hoe := hx.occurs hT
      have hR := (hx.parts hT).2
      obtain ⟨d, es⟩ := e
      have := hT.leaves d es hoe (Atoms.symbol _ _ hs)
      subst this
      cases hR
      exact hoe

theorem wrapVar_symbol (t : Term H) (v : Nat) : Lang.symbol (wrapVar t v).head = some (.var v) := Lang.symbol_var t v

/-- After sharing and loop-invariant code motion. -/
theorem renamable {ins2 : Term H → List (Nat × Term H)} {p1 p2 : Term H} (hT : TreeIns ins p) (hlf : LetFree p)
    (h1 : applyInsertions ins p = some p1) (hT2 : TreeIns ins2 p1) (ht1 : Tree p1)
    (h2 : applyInsertions ins2 p1 = some p2) : Renamable (fun w => ∃ s b, (w, b) ∈ ins2 s) p2 := by
  -- the `let`s of the program after sharing
  have hlet1 : ∀ {v : Nat} {b c : Term H}, Occurs (node (Lang.letHead v) [b, c]) p1 →
      (∃ s b0, (v, b0) ∈ ins s) ∧ Lang.isAtom b.head = false ∧ Lang.isAtom c.head = false := by
    intro v b c ho
    rcases applyInsertions_let hT h1 ho with h | ⟨b0, c0, ho0, _⟩
    · exact h
    · have := hlf _ _ ho0
      rw [Lang.letVar_letHead] at this
      cases this
  -- the renaming `let`s
  have hlet2 : ∀ {v : Nat} {b c : Term H}, Occurs (node (Lang.letHead v) [b, c]) p2 → Lang.isAtom b.head = true →
      ∃ b0 c0, Occurs (node (Lang.letHead v) [b0, c0]) p1 ∧ Res ins2 p1 b0 b ∧ Res ins2 p1 c0 c := by
    intro v b c ho ha
    rcases applyInsertions_let hT2 h2 ho with ⟨_, h, _⟩ | h
    · rw [ha] at h; cases h
    · exact h
  have hres : ∀ {t x : Term H}, Res ins2 p1 t x → Lang.isAtom t.head = false → Lang.isAtom x.head = true →
      ∃ w, (∃ s b, (w, b) ∈ ins2 s) ∧ Lang.symbol x.head = some (.var w) := by
    intro t x hr hta hxa
    rcases hr with ⟨s, w, hm, rfl⟩ | ⟨_, bs, ts, _, rfl⟩
    · exact ⟨w, ⟨s, t, hm⟩, wrapVar_symbol t w⟩
    · rw [Xp.atom hxa] at hta; cases hta
  have hfinal : ∀ v b c, Occurs (node (Lang.letHead v) [b, c]) p2 → Lang.isAtom b.head = true →
      ¬ ∃ s b, (v, b) ∈ ins2 s := by
    rintro v b c ho ha ⟨s, t, hm⟩
    obtain ⟨b0, c0, ho1, _⟩ := hlet2 ho ha
    refine hT2.fresh _ _ _ hm (Finset.mem_union_left _ (mem_binders_iff.2 ⟨_, _, ho1, ?_⟩))
    rw [Lang.captured_let]; simp
  refine ⟨applyInsertions_tree hT2 h2, Xp.leaves hT2 h2, ?_, ?_, ?_, hfinal, ?_⟩
  · intro v b c ho ha
    obtain ⟨b0, c0, ho1, r1, _⟩ := hlet2 ho ha
    exact hres r1 (hlet1 ho1).2.1 ha
  · intro v b c ho ha hc
    obtain ⟨b0, c0, ho1, _, r2⟩ := hlet2 ho ha
    exact hres r2 (hlet1 ho1).2.2 hc
  · rintro w ⟨s, t, hm⟩ a b i j x y ha hb hi hj hx hy
    have key : ∀ {a : Term H} {i : Nat} {x : Term H}, Occurs a p2 → a.subs[i]? = some x →
        Lang.symbol x.head = some (.var w) →
        ∃ e bs ts, Xp ins2 p1 e bs ts ∧ a = node e.head ts ∧ e.subs[i]? = some t := by
      intro a i x ha hi hx
      have hxa := Atoms.symbol _ _ hx
      rcases applyInsertions_occurs hT2 h2 ha with ⟨_, w', t', _, rfl⟩ | ⟨e, bs, ts, k, hxp, rfl⟩
      · simp [wrapVar, Term.subs] at hi
      · obtain ⟨hD, hR⟩ := hxp.parts hT2
        cases hbk : bs.drop k with
        | cons q l =>
          exfalso
          obtain ⟨v, c'⟩ := q
          rw [hbk, letAll_cons_head] at ha
          rw [hbk, letAll_cons_head] at hi
          have hm := List.mem_of_getElem? hi
          simp only [Term.subs, List.mem_cons, List.not_mem_nil, or_false] at hm
          have hcm : (v, c') ∈ bs := List.mem_of_mem_drop (i := k) (by rw [hbk]; exact List.mem_cons_self)
          obtain ⟨⟨v', b0⟩, hq, hv, bs1, ts1, hx1, hbe⟩ := forall₂_mem_right hD hcm
          simp only at hv hbe
          rcases hm with rfl | rfl
          · rw [hbe, letAll_nonatom (hT2.nonatom _ _ _ hq)] at hxa; cases hxa
          · rw [letAll_nonatom (hT2.site_nonatom (hxp.occurs hT2) hq)] at hxa; cases hxa
        | nil =>
          rw [hbk] at hi
          refine ⟨e, bs, ts, hxp, rfl, ?_⟩
          simp only [letAll, Term.subs] at hi
          obtain ⟨hlt, hie⟩ := List.getElem?_eq_some_iff.1 hi
          have hlt' : i < e.subs.length := by rw [hR.length_eq]; exact hlt
          have hr := List.forall₂_iff_get.1 hR |>.2 i hlt' hlt
          simp only [List.get_eq_getElem] at hr
          rw [hie] at hr
          rw [List.getElem?_eq_getElem hlt']
          rcases hr with ⟨s', w', hm', he⟩ | ⟨_, bs1, ts1, hx1, he⟩
          · rw [he, wrapVar_symbol] at hx
            cases hx
            rw [(hT2.ok.same hm hm').2]
          · exfalso
            rw [he] at hx
            cases hl : letAll bs1 (node (e.subs[i]).head ts1) with
            | node hd us =>
              rw [hl] at hx
              exact Xp.not_var hT2 hx1 hm (k := 0) hl hx
    obtain ⟨e, bs, ts, hxp, rfl, he⟩ := key ha hi hx
    obtain ⟨e', bs', ts', hxp', rfl, he'⟩ := key hb hj hy
    obtain ⟨h3, h4⟩ := ht1.oneParent (hT2.nonatom _ _ _ hm) e e' i j (hxp.occurs hT2) (hxp'.occurs hT2) he he'
    subst h3
    exact ⟨by rw [(hxp.unique hT2 hxp').2], h4⟩
  · intro v b c ho ha x y hx hy hsx hsy
    obtain ⟨b0, c0, ho1, _⟩ := hlet2 ho ha
    obtain ⟨⟨s, t, hm⟩, _⟩ := hlet1 ho1
    have key : ∀ {x : Term H}, Occurs x p2 → Lang.symbol x.head = some (.var v) → x = wrapVar t v := by
      intro x hx hsx
      rcases applyInsertions_symbol hT2 h2 hx hsx with ⟨s', b', hm', _⟩ | hx1
      · exact absurd ⟨s', b', hm'⟩ (hfinal v b c ho ha)
      · rcases applyInsertions_symbol hT h1 hx1 hsx with ⟨s', b', hm', rfl⟩ | hx0
        · rw [(hT.ok.same hm hm').2]
        · exfalso
          obtain ⟨k, us⟩ := x
          refine hT.fresh _ _ _ hm (symbols_occurs hx0 (Finset.mem_union_right _ ?_))
          simp only [Term.head] at hsx
          rw [mem_fv, Lang.captured_symbol _ _ hsx]
          exact ⟨Or.inl hsx, by simp⟩
    rw [key hx hsx, key hy hsy]

end

variable [Atoms H]

/-- Inlining keeps atoms leaves. -/
theorem inlineGo_leaves (pred : Term H → Bool) (t : Term H) : ∀ bound : List (Nat × Term H), AtomLeaves t →
    (∀ v u, (v, u) ∈ bound → AtomLeaves u) → AtomLeaves (inlineGo pred bound t) := by
  induction t using ind with
  | step h ts ih =>
    intro bound hl hb
    by_cases hr : InlinedLet pred h ts
    · obtain ⟨v, b, c, rfl, rfl, hpr⟩ := hr
      rw [inlineGo_let hpr]
      refine ih c (by simp) _ (hl.occurs (.child (by simp) (.refl _))) ?_
      intro v' u' hm
      rcases List.mem_cons.1 hm with he | hm
      · cases he
        exact ih b (by simp) _ (hl.occurs (.child (by simp) (.refl _))) hb
      · exact hb _ _ hm
    · rcases inlineGo_cases hr bound with ⟨v, u, _, h2, h3⟩ | ⟨_, h3⟩
      · rw [h3]; exact hb v u (lookup_mem_bound h2)
      · rw [h3]
        intro k us ho ha
        cases ho with
        | refl =>
          have := hl h ts (.refl _) ha
          subst this; rfl
        | child hm ho =>
          obtain ⟨t, ht, rfl⟩ := List.mem_map.1 hm
          exact ih t ht bound (hl.occurs (.child ht (.refl _))) hb k us ho ha

theorem check_isSome {free : Finset Sym} {tree : Bool} {q : Term H} (ht : tree = true → Tree q) (hf : free = fv q) :
    check free tree q = some () := by
  unfold check
  rw [if_pos ⟨fun h => isTree_of_tree (ht h), hf⟩]

/-- `outline` returns exactly when no `let` is dead, that is, when inlining loses no free symbol. -/
theorem outline_isSome_iff {p : Term H} (hu : UniqueBinders p) (hns : NoShadow p) (ha : LetArity p)
    (hl : AtomLeaves p) : (outline p).isSome ↔ fv (inline false p) = fv p := by
  constructor
  · intro h
    obtain ⟨p', hp'⟩ := Option.isSome_iff_exists.1 h
    unfold outline at hp'
    simp only [Option.bind_eq_bind, Option.bind_eq_some_iff] at hp'
    obtain ⟨_, hc, _⟩ := hp'
    rw [inlineMemo_eq hu hns] at hc
    exact (check_spec hc).2.symm
  · intro hfv
    have hu0 := inline_uniqueBinders hu hns false
    have hlf := inline_letFree ha
    have hns0 : NoShadow (inline false p) := hu0.noShadow hlf
    have hl0 : AtomLeaves (inline false p) := inlineGo_leaves _ p [] hl (by intro v u h; cases h)
    obtain ⟨p1, h1⟩ := Option.isSome_iff_exists.1 (cse_isSome hu0)
    have hT := cse_treeIns hu0 hl0
    have s1 := cse_ok hu0 hns0 h1
    have ht1 := applyInsertions_tree hT h1
    have hl1 := Xp.leaves hT h1
    have hf1 := applyInsertions_fv hT.ok hT.fresh hns0 h1
    obtain ⟨p2, h2⟩ := Option.isSome_iff_exists.1 (licm_isSome p1)
    have hT2 := licm_treeIns ht1 s1.noShadow hl1
    have s2 := licm_ok s1.unique s1.noShadow ht1 h2
    have ht2 := applyInsertions_tree hT2 h2
    have hf2 := applyInsertions_fv hT2.ok hT2.fresh s1.noShadow h2
    have hR := renamable hT hlf h1 hT2 ht1 h2
    have ht3 : Tree (inline true p2) := hR.inline_tree p2 [] (.refl _) (by intro v u h; cases h)
    have hf3 : fv (inline true p2) = fv p2 := by
      apply Finset.Subset.antisymm
      · intro s hs
        have := fv_inlineGo (inlinePred true) p2 s2.noShadow [] hs
        simpa [boundKeys, rangeFv] using this
      · intro s hs
        refine hR.inline_fv p2 [] (.refl _) (by intro v u h; cases h) s hs ?_ (by intro v u h; cases h)
        rintro w ⟨st, b, hm⟩ rfl
        rw [hf2] at hs
        exact hT2.fresh _ _ _ hm (Finset.mem_union_right _ hs)
    unfold outline
    simp only [inlineMemo_eq hu hns]
    rw [check_isSome (by intro h; cases h) hfv.symm, h1]
    simp only [Option.bind_eq_bind, Option.bind_some]
    rw [check_isSome (fun _ => ht1) (by rw [hf1, hfv]), h2]
    simp only [Option.bind_some, inlineMemo_eq s2.unique s2.noShadow]
    rw [check_isSome (fun _ => ht2) (by rw [hf2, hf1, hfv]), Option.bind_some,
      check_isSome (fun _ => ht3) (by rw [hf3, hf2, hf1, hfv])]
    rfl

theorem inline_of_letFree {p : Term H} (h : LetFree p) (r : Bool) : inline r p = p := by
  unfold inline
  exact inlineGo_nil_of_letFree _ p h

/-- Without `let`s, `outline` returns. -/
theorem outline_isSome {p : Term H} (hlf : LetFree p) (hu : UniqueBinders p) (hl : AtomLeaves p) : (outline p).isSome :=
  (outline_isSome_iff hu (hu.noShadow hlf) hlf.letArity hl).2 (by rw [inline_of_letFree hlf])

end Verif.Midend
