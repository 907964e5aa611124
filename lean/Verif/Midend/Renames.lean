import Verif.Midend.InsStages

/-!
The last step of `outline`, `inline(program, only_renames=True)` (`ein/midend/lining.py:142-143`), keeps a tree a tree:
a hoisted definition `let v = w` is replaced by its variable `w`, which is used nowhere else.
-/

set_option linter.unusedSectionVars false

namespace Verif.Midend
open Term
variable {H V : Type} [Lang H] [DecidableEq H]

/-- A `let` that only renames. -/
def Renames (t : Term H) : Prop := InlinedLet (inlinePred true) t.head t.subs

theorem inlinePred_true (b : Term H) : inlinePred true b = Lang.isAtom b.head := by
  simp [inlinePred]

/-- What is known of the program after loop-invariant code motion; `W` are the variables of hoisted expressions. -/
structure Renamable (W : Nat → Prop) (p : Term H) : Prop where
  tree : Tree p
  leaves : AtomLeaves p
  /-- variables are renamed to those of hoisted expressions, … -/
  bind : ∀ v b c, Occurs (node (Lang.letHead v) [b, c]) p → Lang.isAtom b.head = true →
    ∃ w, W w ∧ Lang.symbol b.head = some (.var w)
  /-- a body that is an atom stands for a hoisted expression, … -/
  body : ∀ v b c, Occurs (node (Lang.letHead v) [b, c]) p → Lang.isAtom b.head = true → Lang.isAtom c.head = true →
    ∃ w, W w ∧ Lang.symbol c.head = some (.var w)
  /-- which have one place, … -/
  parent : ∀ w, W w → ∀ (a b : Term H) (i j : Nat) (x y : Term H), Occurs a p → Occurs b p → a.subs[i]? = some x →
    b.subs[j]? = some y → Lang.symbol x.head = some (.var w) → Lang.symbol y.head = some (.var w) → a = b ∧ i = j
  /-- … and are not renamed themselves. -/
  final : ∀ v b c, Occurs (node (Lang.letHead v) [b, c]) p → Lang.isAtom b.head = true → ¬ W v
  /-- All references to a variable that is renamed are the same. -/
  vars : ∀ v b c, Occurs (node (Lang.letHead v) [b, c]) p → Lang.isAtom b.head = true →
    ∀ x y, Occurs x p → Occurs y p → Lang.symbol x.head = some (.var v) → Lang.symbol y.head = some (.var v) → x = y

/-- The replacements in force: definitions that rename. -/
def BoundOk (p : Term H) (bound : List (Nat × Term H)) : Prop :=
  ∀ v u, (v, u) ∈ bound → ∃ c, Occurs (node (Lang.letHead v) [u, c]) p ∧ Lang.isAtom u.head = true

theorem lookup_mem_bound {v : Nat} {u : Term H} {bound : List (Nat × Term H)} (h : lookup v bound = some u) :
    (v, u) ∈ bound := by
  induction bound with
  | nil => cases h
  | cons q bound ih =>
    obtain ⟨w, x⟩ := q
    simp only [lookup] at h
    split_ifs at h with hw
    · cases h; rw [hw]; exact List.mem_cons_self
    · exact List.mem_cons_of_mem _ (ih h)

section
variable [Atoms H] {W : Nat → Prop} {p : Term H}

theorem notInlined_of_atom {h : H} {ts : List (Term H)} (ha : Lang.isAtom h = true) (pred : Term H → Bool) :
    ¬ InlinedLet pred h ts := by
  rintro ⟨v, b, c, rfl, _, _⟩
  rw [Atoms.let_] at ha; cases ha

/-- What becomes of an atom. -/
theorem Renamable.atom (hp : Renamable W p) {t : Term H} (ho : Occurs t p) (ha : Lang.isAtom t.head = true)
    (bound : List (Nat × Term H)) : inlineGo (inlinePred true) bound t = t ∨
      ∃ v u, Lang.symbol t.head = some (.var v) ∧ (v, u) ∈ bound ∧ inlineGo (inlinePred true) bound t = u := by
  obtain ⟨h, ts⟩ := t
  have := hp.leaves h ts ho ha
  subst this
  rcases inlineGo_cases (notInlined_of_atom ha _) bound with ⟨v, u, h1, h2, h3⟩ | ⟨_, h3⟩
  · exact Or.inr ⟨v, u, h1, lookup_mem_bound h2, h3⟩
  · exact Or.inl h3

/-- Variables of hoisted expressions stay. -/
theorem Renamable.stays (hp : Renamable W p) {t : Term H} (ho : Occurs t p) {w : Nat} (hw : W w)
    (hs : Lang.symbol t.head = some (.var w)) {bound : List (Nat × Term H)} (hb : BoundOk p bound) :
    inlineGo (inlinePred true) bound t = t := by
  rcases hp.atom ho (Atoms.symbol _ _ hs) bound with h | ⟨v, u, h1, h2, _⟩
  · exact h
  · rw [hs] at h1
    cases h1
    obtain ⟨c, h3, h4⟩ := hb _ _ h2
    exact absurd hw (hp.final _ _ _ h3 h4)

theorem Renamable.push (hp : Renamable W p) {v : Nat} {b c : Term H} (ho : Occurs (node (Lang.letHead v) [b, c]) p)
    (ha : Lang.isAtom b.head = true) {bound : List (Nat × Term H)} (hb : BoundOk p bound) :
    BoundOk p ((v, inlineGo (inlinePred true) bound b) :: bound) := by
  obtain ⟨w, hw, hs⟩ := hp.bind v b c ho ha
  have hbo : Occurs b p := (Occurs.child (by simp) (.refl _)).trans ho
  rw [hp.stays hbo hw hs hb]
  intro v' u' hm
  rcases List.mem_cons.1 hm with h | h
  · cases h; exact ⟨c, ho, ha⟩
  · exact hb v' u' h

theorem inlineGo_nonatom {t : Term H} (ha : Lang.isAtom t.head = false) (hr : ¬ Renames t)
    (bound : List (Nat × Term H)) :
    inlineGo (inlinePred true) bound t = node t.head (t.subs.map (inlineGo (inlinePred true) bound)) := by
  obtain ⟨h, ts⟩ := t
  rcases inlineGo_cases hr bound with ⟨v, u, h1, _, _⟩ | ⟨_, h3⟩
  · rw [Atoms.symbol _ _ h1] at ha; cases ha
  · exact h3

/-- `d` under a number of renaming `let`s. -/
inductive Chain (d : Term H) : Term H → Prop
  | refl : Chain d d
  | up {v : Nat} {b s : Term H} : Chain d s → Lang.isAtom b.head = true → Chain d (node (Lang.letHead v) [b, s])

theorem Chain.occurs {d s : Term H} (h : Chain d s) : Occurs d s := by
  induction h with
  | refl => exact .refl _
  | up _ _ ih => exact .child (by simp) ih

theorem Chain.bottom {d s : Term H} (h : Chain d s) : d = s ∨
    ∃ v b, Lang.isAtom b.head = true ∧ Chain (node (Lang.letHead v) [b, d]) s := by
  induction h with
  | refl => exact Or.inl rfl
  | @up v b s _ hb ih =>
    right
    rcases ih with rfl | ⟨v', b', h1, h2⟩
    · exact ⟨v, b, hb, .refl⟩
    · exact ⟨v', b', h1, .up h2 hb⟩

theorem Renamable.peel (hp : Renamable W p) (s : Term H) : ∀ bound, Occurs s p → BoundOk p bound →
    ∃ d bound', Chain d s ∧ ¬ Renames d ∧ BoundOk p bound' ∧
      inlineGo (inlinePred true) bound s = inlineGo (inlinePred true) bound' d := by
  induction s using ind with
  | step h ts ih =>
    intro bound ho hb
    by_cases hr : InlinedLet (inlinePred true) h ts
    · obtain ⟨v, b, c, rfl, rfl, hpr⟩ := hr
      have ha : Lang.isAtom b.head = true := by rw [← inlinePred_true]; exact hpr
      obtain ⟨d, bound', h1, h2, h3, h4⟩ := ih c (by simp) _ ((Occurs.child (by simp) (.refl _)).trans ho)
        (hp.push ho ha hb)
      exact ⟨d, bound', .up h1 ha, h2, h3, by rw [inlineGo_let hpr, h4]⟩
    · exact ⟨_, bound, .refl, hr, hb, rfl⟩

theorem Renamable.chain_parent (hp : Renamable W p) {d s : Term H} (hd : OneParent p d) (h : Chain d s) :
    OneParent p s := by
  cases h with
  | refl => exact hd
  | up _ _ => exact hp.tree.oneParent (Atoms.let_ _)

theorem Renamable.linear (hp : Renamable W p) {d s s' : Term H} (hd : OneParent p d) (h : Chain d s) (h' : Chain d s')
    (ho : Occurs s p) (ho' : Occurs s' p) : Chain s s' ∨ Chain s' s := by
  induction h with
  | refl => exact Or.inl h'
  | @up v b s h hb ih =>
    rcases ih ((Occurs.child (by simp) (.refl _)).trans ho) with h1 | h1
    · rcases h1.bottom with rfl | ⟨v', b', hb', h2⟩
      · exact Or.inr (.up .refl hb)
      · have h3 := (hp.chain_parent hd h _ _ 1 1 ho (h2.occurs.trans ho') rfl rfl).1
        rw [← h3] at h2
        exact Or.inl h2
    · exact Or.inr (.up h1 hb)

/-- A chain hangs at one place. -/
theorem Renamable.same_parent (hp : Renamable W p) {d s s' y y' : Term H} {i j : Nat} (hd : OneParent p d)
    (h : Chain d s) (h' : Chain d s') (hy : Occurs y p) (hy' : Occurs y' p) (hi : y.subs[i]? = some s)
    (hj : y'.subs[j]? = some s') (hr : ¬ Renames y) (hr' : ¬ Renames y') : y = y' := by
  have key : ∀ {s s' y y' : Term H} {i j : Nat}, OneParent p s → Chain s s' → Occurs y p → Occurs y' p →
      y.subs[i]? = some s → y'.subs[j]? = some s' → ¬ Renames y → y = y' := by
    intro s s' y y' i j hs h hy hy' hi hj hr
    have ho' : Occurs s' p := by
      have := List.mem_of_getElem? hj
      obtain ⟨d, es⟩ := y'
      exact (Occurs.child this (.refl _)).trans hy'
    rcases h.bottom with rfl | ⟨v, b, hb, h1⟩
    · exact (hs _ _ _ _ hy hy' hi hj).1
    · exfalso
      have := (hs _ _ i 1 hy (h1.occurs.trans ho') hi rfl).1
      subst this
      exact hr ⟨v, b, s, rfl, rfl, by rw [inlinePred_true]; exact hb⟩
  have hos : Occurs s p := by
    have := List.mem_of_getElem? hi
    obtain ⟨d, es⟩ := y
    exact (Occurs.child this (.refl _)).trans hy
  have hos' : Occurs s' p := by
    have := List.mem_of_getElem? hj
    obtain ⟨d, es⟩ := y'
    exact (Occurs.child this (.refl _)).trans hy'
  rcases hp.linear hd h h' hos hos' with h1 | h1
  · exact key (hp.chain_parent hd h) h1 hy hy' hi hj hr
  · exact (key (hp.chain_parent hd h') h1 hy' hy hj hi hr').symm

theorem Renamable.oneParent_var (hp : Renamable W p) {w : Nat} (hw : W w) {d : Term H}
    (hs : Lang.symbol d.head = some (.var w)) : OneParent p d :=
  fun a b i j ha hb hi hj => hp.parent w hw a b i j d d ha hb hi hj hs hs

/-- Renaming is injective. -/
theorem Renamable.inj (hp : Renamable W p) (n : Nat) : ∀ {y y' : Term H} {bound bound' : List (Nat × Term H)},
    y.size ≤ n → Occurs y p → Occurs y' p → Lang.isAtom y.head = false → Lang.isAtom y'.head = false →
    ¬ Renames y → ¬ Renames y' → BoundOk p bound → BoundOk p bound' →
    inlineGo (inlinePred true) bound y = inlineGo (inlinePred true) bound' y' → y = y' := by
  induction n with
  | zero =>
    intro y y' bound bound' hn
    obtain ⟨h, ts⟩ := y
    rw [size_node] at hn; omega
  | succ n ih =>
    intro y y' bound bound' hn hy hy' ha ha' hr hr' hb hb' heq
    by_contra hne
    rw [inlineGo_nonatom ha hr, inlineGo_nonatom ha' hr'] at heq
    obtain ⟨hh, hts⟩ := node.inj heq
    have hlen : y.subs.length = y'.subs.length := by
      have := congrArg List.length hts
      simpa using this
    apply hne
    have hsubs : y.subs = y'.subs := by
      refine List.ext_getElem hlen fun i hi hi' => ?_
      have hget := congrArg (·[i]?) hts
      simp only [List.getElem?_map, List.getElem?_eq_getElem hi, List.getElem?_eq_getElem hi', Option.map_some,
        Option.some.injEq] at hget
      have hsi : y.subs[i]? = some y.subs[i] := List.getElem?_eq_getElem hi
      have hsi' : y'.subs[i]? = some y'.subs[i] := List.getElem?_eq_getElem hi'
      generalize y.subs[i] = s at *
      generalize y'.subs[i] = s' at *
      have hos : Occurs s p := by
        have := List.mem_of_getElem? hsi
        obtain ⟨d, es⟩ := y
        exact (Occurs.child this (.refl _)).trans hy
      have hos' : Occurs s' p := by
        have := List.mem_of_getElem? hsi'
        obtain ⟨d, es⟩ := y'
        exact (Occurs.child this (.refl _)).trans hy'
      have hss : s.size ≤ n := by
        have := List.mem_of_getElem? hsi
        obtain ⟨d, es⟩ := y
        have : s.size < (node d es).size := size_lt_of_mem this
        omega
      obtain ⟨d, bd, hc, hnr, hbd, hout⟩ := hp.peel s bound hos hb
      obtain ⟨d', bd', hc', hnr', hbd', hout'⟩ := hp.peel s' bound' hos' hb'
      rw [hout, hout'] at hget
      have hod := hc.occurs.trans hos
      have hod' := hc'.occurs.trans hos'
      -- an atom is not mapped to what a non-atom is mapped to
      have hmix : ∀ {d d' : Term H} {bd bd' : List (Nat × Term H)}, Occurs d p → BoundOk p bd →
          Lang.isAtom d.head = true → Lang.isAtom d'.head = false → ¬ Renames d' →
          inlineGo (inlinePred true) bd d = inlineGo (inlinePred true) bd' d' → False := by
        intro d d' bd bd' hod hbd h1 h2 h3 h4
        rw [inlineGo_nonatom h2 h3] at h4
        rcases hp.atom hod h1 bd with h5 | ⟨v, u, _, h6, h7⟩
        · rw [h5] at h4
          rw [h4] at h1
          simp only [Term.head] at h1 h2
          rw [h2] at h1; cases h1
        · obtain ⟨c, _, h8⟩ := hbd _ _ h6
          rw [← h7, h4] at h8
          simp only [Term.head] at h8 h2
          rw [h2] at h8; cases h8
      cases hda : Lang.isAtom d.head with
      | false =>
        cases hda' : Lang.isAtom d'.head with
        | true => exact (hmix hod' hbd' hda' hda hnr hget.symm).elim
        | false =>
          have hsz : d.size ≤ n := le_trans hc.occurs.size_le hss
          have := ih hsz hod hod' hda hda' hnr hnr' hbd hbd' hget
          subst this
          exact absurd (hp.same_parent (hp.tree.oneParent hda) hc hc' hy hy' hsi hsi' hr hr') hne
      | true =>
        cases hda' : Lang.isAtom d'.head with
        | false => exact (hmix hod hbd hda hda' hnr' hget).elim
        | true =>
          -- a variable below a renaming `let`
          have hW : ∀ {d s : Term H}, Chain d s → Occurs s p → Lang.isAtom d.head = true → d ≠ s →
              ∃ w v b, W w ∧ Lang.symbol d.head = some (.var w) ∧ Occurs (node (Lang.letHead v) [b, d]) p ∧
                Lang.isAtom b.head = true := by
            intro d s hc hos hda hds
            rcases hc.bottom with h | ⟨v, b, hb, h1⟩
            · exact absurd h hds
            · have ho := h1.occurs.trans hos
              obtain ⟨w, hw, hs⟩ := hp.body v b d ho hb hda
              exact ⟨w, v, b, hw, hs, ho, hb⟩
          -- one of them is below a `let`, the other is not
          have hone : ∀ {d d' s y' : Term H} {bd bd' : List (Nat × Term H)} {i : Nat}, Chain d s → Occurs s p → d ≠ s →
              Lang.isAtom d.head = true → Lang.isAtom d'.head = true → Occurs d' p → Occurs y' p → ¬ Renames y' →
              y'.subs[i]? = some d' → BoundOk p bd → BoundOk p bd' →
              inlineGo (inlinePred true) bd d = inlineGo (inlinePred true) bd' d' → False := by
            intro d d' s y' bd bd' i hc hos hds hda hda' hod' hy' hr' hi hbd hbd' hget
            obtain ⟨w, v, b, hw, hs, ho, hb⟩ := hW hc hos hda hds
            have hod := hc.occurs.trans hos
            rw [hp.stays hod hw hs hbd] at hget
            rcases hp.atom hod' hda' bd' with h5 | ⟨v', u, _, h6, h7⟩
            · rw [h5] at hget
              subst hget
              have := (hp.parent w hw _ _ 1 i d d ho hy' rfl hi hs hs).1
              rw [← this] at hr'
              exact hr' ⟨v, b, d, rfl, rfl, by rw [inlinePred_true]; exact hb⟩
            · obtain ⟨c, h8, _⟩ := hbd' _ _ h6
              rw [h7] at hget
              subst hget
              have := (hp.parent w hw _ _ 1 0 d d ho h8 rfl rfl hs hs).2
              omega
          by_cases hds : d = s <;> by_cases hds' : d' = s'
          · subst hds; subst hds'
            rcases hp.atom hod hda bd with h1 | ⟨v, u, h0, h1, h2⟩ <;>
              rcases hp.atom hod' hda' bd' with h3 | ⟨v', u', h0', h3, h4⟩
            · rw [h1, h3] at hget; exact hget
            · exfalso
              obtain ⟨c, h5, h6⟩ := hbd' _ _ h3
              obtain ⟨w, hw, hs⟩ := hp.bind _ _ _ h5 h6
              rw [h1, h4] at hget
              subst hget
              have := (hp.parent w hw _ _ 0 i d d h5 hy rfl hsi hs hs).1
              rw [← this] at hr
              exact hr ⟨v', d, c, rfl, rfl, by rw [inlinePred_true]; exact h6⟩
            · exfalso
              obtain ⟨c, h5, h6⟩ := hbd _ _ h1
              obtain ⟨w, hw, hs⟩ := hp.bind _ _ _ h5 h6
              rw [h2, h3] at hget
              subst hget
              have := (hp.parent w hw _ _ 0 i u u h5 hy' rfl hsi' hs hs).1
              rw [← this] at hr'
              exact hr' ⟨v, u, c, rfl, rfl, by rw [inlinePred_true]; exact h6⟩
            · obtain ⟨c, h5, h6⟩ := hbd _ _ h1
              obtain ⟨c', h5', h6'⟩ := hbd' _ _ h3
              obtain ⟨w, hw, hs⟩ := hp.bind _ _ _ h5 h6
              rw [h2, h4] at hget
              subst hget
              have h7 := (hp.parent w hw _ _ 0 0 u u h5 h5' rfl rfl hs hs).1
              have h8 := letHead_inj (node.inj h7).1
              subst h8
              exact hp.vars _ _ _ h5 h6 d d' hod hod' h0 h0'
          · exact (hone hc' hos' hds' hda' hda hod hy hr (by rw [hds]; exact hsi) hbd' hbd hget.symm).elim
          · exact (hone hc hos hds hda hda' hod' hy' hr' (by rw [hds']; exact hsi') hbd hbd' hget).elim
          · exfalso
            obtain ⟨w, v, b, hw, hs, _, _⟩ := hW hc hos hda hds
            obtain ⟨w', v', b', hw', hs', _, _⟩ := hW hc' hos' hda' hds'
            rw [hp.stays hod hw hs hbd, hp.stays hod' hw' hs' hbd'] at hget
            subst hget
            exact hne (hp.same_parent (hp.oneParent_var hw hs) hc hc' hy hy' hsi hsi' hr hr')
    obtain ⟨h1, ts1⟩ := y
    obtain ⟨h2, ts2⟩ := y'
    simp only [Term.head, Term.subs] at hh hsubs
    rw [hh, hsubs]

/-- Non-atoms of the result come from non-atoms that are not renamings. -/
theorem Renamable.decode (hp : Renamable W p) (t : Term H) : ∀ bound, Occurs t p → BoundOk p bound → ∀ y,
    Occurs y (inlineGo (inlinePred true) bound t) → Lang.isAtom y.head = false → ∃ y0 bd, Occurs y0 t ∧
      Lang.isAtom y0.head = false ∧ ¬ Renames y0 ∧ BoundOk p bd ∧ y = inlineGo (inlinePred true) bd y0 := by
  induction t using ind with
  | step h ts ih =>
    intro bound ho hb y hy hya
    by_cases hr : InlinedLet (inlinePred true) h ts
    · obtain ⟨v, b, c, rfl, rfl, hpr⟩ := hr
      have ha : Lang.isAtom b.head = true := by rw [← inlinePred_true]; exact hpr
      rw [inlineGo_let hpr] at hy
      obtain ⟨y0, bd, h1, h2⟩ := ih c (by simp) _ ((Occurs.child (by simp) (.refl _)).trans ho)
        (hp.push ho ha hb) y hy hya
      exact ⟨y0, bd, .child (by simp) h1, h2⟩
    · cases ha : Lang.isAtom h with
      | true =>
        exfalso
        have hts := hp.leaves h ts ho ha
        subst hts
        have hleaf : ∀ {u : Term H}, Occurs u p → Lang.isAtom u.head = true → ¬ Occurs y u := by
          intro u hu hua hyu
          obtain ⟨k, us⟩ := u
          have := hp.leaves k us hu hua
          subst this
          cases hyu with
          | refl => rw [hua] at hya; cases hya
          | child hm _ => cases hm
        rcases hp.atom ho ha bound with h1 | ⟨v, u, _, h1, h2⟩
        · rw [h1] at hy
          exact hleaf ho ha hy
        · obtain ⟨c, h3, h4⟩ := hb _ _ h1
          rw [h2] at hy
          exact hleaf ((Occurs.child (by simp) (.refl _)).trans h3) h4 hy
      | false =>
        have hn := inlineGo_nonatom (t := node h ts) ha hr bound
        rw [hn] at hy
        cases hy with
        | refl => exact ⟨node h ts, bound, .refl _, ha, hr, hb, hn.symm⟩
        | child hm hy =>
          simp only [Term.subs] at hm
          obtain ⟨t, ht, rfl⟩ := List.mem_map.1 hm
          obtain ⟨y0, bd, h1, h2⟩ := ih t ht bound ((Occurs.child ht (.refl _)).trans ho) hb y hy hya
          exact ⟨y0, bd, .child ht h1, h2⟩

/-- Renaming keeps a tree. -/
theorem Renamable.inline_tree (hp : Renamable W p) (t : Term H) : ∀ bound, Occurs t p → BoundOk p bound →
    Tree (inlineGo (inlinePred true) bound t) := by
  induction t using ind with
  | step h ts ih =>
    intro bound ho hb
    by_cases hr : InlinedLet (inlinePred true) h ts
    · obtain ⟨v, b, c, rfl, rfl, hpr⟩ := hr
      have ha : Lang.isAtom b.head = true := by rw [← inlinePred_true]; exact hpr
      rw [inlineGo_let hpr]
      exact ih c (by simp) _ ((Occurs.child (by simp) (.refl _)).trans ho) (hp.push ho ha hb)
    · cases ha : Lang.isAtom h with
      | true =>
        have hleaf : ∀ {u : Term H}, Occurs u p → Lang.isAtom u.head = true → Tree u := by
          intro u hu hua
          obtain ⟨k, us⟩ := u
          have := hp.leaves k us hu hua
          subst this
          unfold Tree
          rw [show post (node k ([] : List (Term H))) = [] from post_atom hua]
          exact List.nodup_nil
        rcases hp.atom ho ha bound with h1 | ⟨v, u, _, h1, h2⟩
        · rw [h1]; exact hleaf ho ha
        · obtain ⟨c, h3, h4⟩ := hb _ _ h1
          rw [h2]
          exact hleaf ((Occurs.child (by simp) (.refl _)).trans h3) h4
      | false =>
        rw [inlineGo_nonatom (t := node h ts) ha hr bound]
        simp only [Term.head, Term.subs]
        have hco : ∀ t ∈ ts, Occurs t p := fun t ht => (Occurs.child ht (.refl _)).trans ho
        refine tree_node ?_ ?_
        · intro x hx
          obtain ⟨t, ht, rfl⟩ := List.mem_map.1 hx
          exact ih t ht bound (hco t ht) hb
        · rw [List.pairwise_map]
          refine List.Pairwise.imp_of_mem ?_ (hp.tree.occurs ho).children.2
          intro a b hma hmb hab y hya hyb
          obtain ⟨h1, h2⟩ := mem_post.1 hya
          obtain ⟨h3, _⟩ := mem_post.1 hyb
          obtain ⟨y0, bd, g1, g2, g3, g4, g5⟩ := hp.decode a bound (hco a hma) hb y h1 h2
          obtain ⟨y0', bd', g1', g2', g3', g4', g5'⟩ := hp.decode b bound (hco b hmb) hb y h3 h2
          have := hp.inj _ (le_refl _) (g1.trans (hco a hma)) (g1'.trans (hco b hmb)) g2 g2' g3 g3' g4 g4'
            (g5.symm.trans g5')
          subst this
          exact hab y0 (mem_post.2 ⟨g1, g2⟩) (mem_post.2 ⟨g1', g2⟩)

/-- Renaming keeps the free symbols that are not variables of hoisted expressions or renamed. -/
theorem Renamable.inline_fv (hp : Renamable W p) (t : Term H) : ∀ bound, Occurs t p → BoundOk p bound → ∀ s ∈ fv t,
    (∀ w, W w → s ≠ .var w) → (∀ v u, (v, u) ∈ bound → s ≠ .var v) → s ∈ fv (inlineGo (inlinePred true) bound t) := by
  induction t using ind with
  | step h ts ih =>
    intro bound ho hb s hs hw hk
    by_cases hr : InlinedLet (inlinePred true) h ts
    · obtain ⟨v, b, c, rfl, rfl, hpr⟩ := hr
      have ha : Lang.isAtom b.head = true := by rw [← inlinePred_true]; exact hpr
      rw [inlineGo_let hpr]
      rw [mem_fv, Lang.captured_let, Lang.symbol_let, Finset.mem_singleton] at hs
      obtain ⟨hs, hsv⟩ := hs
      have hsc : s ∈ fv c := by
        rcases hs with h | ⟨t, ht, hst⟩
        · cases h
        · simp only [List.mem_cons, List.not_mem_nil, or_false] at ht
          rcases ht with rfl | rfl
          · exfalso
            obtain ⟨w, hW, hsy⟩ := hp.bind _ _ _ ho ha
            have hbo : Occurs t p := (Occurs.child (by simp) (.refl _)).trans ho
            obtain ⟨k, us⟩ := t
            have := hp.leaves k us hbo ha
            subst this
            rw [mem_fv] at hst
            simp only [Term.head] at hsy
            rw [hsy] at hst
            rcases hst.1 with h | ⟨_, hm, _⟩
            · exact hw w hW (Option.some.inj h).symm
            · cases hm
          · exact hst
      refine ih c (by simp) _ ((Occurs.child (by simp) (.refl _)).trans ho) (hp.push ho ha hb) s hsc hw ?_
      intro v' u' hm
      rcases List.mem_cons.1 hm with h | h
      · cases h; exact hsv
      · exact hk v' u' h
    · rw [mem_fv] at hs
      obtain ⟨hs, hc⟩ := hs
      rcases inlineGo_cases hr bound with ⟨v, u, h1, h2, h3⟩ | ⟨_, h3⟩
      · exfalso
        have hts := hp.leaves h ts ho (Atoms.symbol _ _ h1)
        subst hts
        rcases hs with h | ⟨_, hm, _⟩
        · rw [h1] at h
          exact hk v u (lookup_mem_bound h2) (Option.some.inj h).symm
        · cases hm
      · rw [h3, mem_fv]
        refine ⟨?_, hc⟩
        rcases hs with h | ⟨t, ht, hst⟩
        · exact Or.inl h
        · exact Or.inr ⟨_, List.mem_map.2 ⟨t, ht, rfl⟩,
            ih t ht bound ((Occurs.child ht (.refl _)).trans ho) hb s hst hw hk⟩

end

end Verif.Midend
