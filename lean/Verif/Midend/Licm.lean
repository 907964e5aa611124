import Mathlib.Data.Finset.Lattice.Fold
import Verif.Midend.Insertions

/-! Model of `_loop_invariant_code_motion` (`ein/midend/lining.py:66-95`), and of the creation of
fresh variables for insertions. -/

set_option linter.unusedSectionVars false

namespace Verif.Midend
open Term
variable {H V : Type} [Lang H] [DecidableEq H]

/-- Sites and expressions in the order they are inserted, with variables numbered from `base`:
`insertions.setdefault(site, {})[Variable()] = expr` (`lining.py:61`, `lining.py:92`). -/
def number (base : Nat) (pairs : List (Term H × Term H)) (site : Term H) : List (Nat × Term H) :=
  pairs.zipIdx.filterMap (fun p => if p.1.1 = site then some (base + p.2, p.1.2) else none)

/-- A number larger than that of every variable in `X`: `Variable()` creates a new object
(`ein/symbols.py:4-16`). -/
def freshBase (X : Finset Sym) : Nat :=
  X.sup (fun s => match s with | .var n => n + 1 | .idx _ => 0)

theorem freshBase_spec {X : Finset Sym} {n : Nat} (h : freshBase X ≤ n) : Sym.var n ∉ X := by
  intro hm
  have := Finset.le_sup (f := fun s => match s with | .var n => n + 1 | .idx _ => 0) hm
  simp only at this
  unfold freshBase at h
  omega

theorem mem_number {base : Nat} {pairs : List (Term H × Term H)} {site : Term H} {v : Nat}
    {b : Term H} : (v, b) ∈ number base pairs site ↔
      ∃ k, pairs[k]? = some (site, b) ∧ v = base + k := by
  unfold number
  simp only [List.mem_filterMap, Prod.exists]
  constructor
  · rintro ⟨s, e, k, hm, h⟩
    split_ifs at h with hs
    cases h
    subst hs
    exact ⟨k, List.mem_zipIdx_iff_getElem?.1 hm, rfl⟩
  · rintro ⟨k, hk, rfl⟩
    exact ⟨site, b, k, List.mem_zipIdx_iff_getElem?.2 hk, by simp⟩

theorem nodup_number_aux (base : Nat) (site : Term H) (pairs : List (Term H × Term H)) :
    ∀ k, ((pairs.zipIdx k).filterMap
      (fun p => if p.1.1 = site then some (base + p.2, p.1.2) else none)).map Prod.fst |>.Nodup := by
  induction pairs with
  | nil => intro k; simp
  | cons p ps ih =>
    intro k
    rw [List.zipIdx_cons, List.filterMap_cons]
    split
    · exact ih (k + 1)
    · rename_i q hq
      split_ifs at hq with hs
      cases hq
      rw [List.map_cons, List.nodup_cons]
      refine ⟨?_, ih (k + 1)⟩
      intro hm
      simp only [List.mem_map, List.mem_filterMap, Prod.exists] at hm
      obtain ⟨v, b, ⟨s, e, j, hj, h⟩, hv⟩ := hm
      split_ifs at h with hs'
      cases h
      have := List.le_snd_of_mem_zipIdx hj
      omega

/-- Numbered insertions are harmless if each pair moves an expression to an enclosing site that
has all its free symbols. -/
theorem number_insOk (base : Nat) (pairs : List (Term H × Term H))
    (h : ∀ p ∈ pairs, Occurs p.2 p.1 ∧ p.2 ≠ p.1 ∧ fv p.2 ⊆ fv p.1) :
    InsOk (number base pairs) where
  occurs := by
    intro site v b hm
    obtain ⟨k, hk, rfl⟩ := mem_number.1 hm
    have := h _ (List.mem_of_getElem? hk)
    exact ⟨this.1, this.2.1⟩
  scope := by
    intro site v b hm
    obtain ⟨k, hk, rfl⟩ := mem_number.1 hm
    exact (h _ (List.mem_of_getElem? hk)).2.2
  inj := by
    intro s₁ s₂ v b₁ b₂ h1 h2
    obtain ⟨k, hk, rfl⟩ := mem_number.1 h1
    obtain ⟨k', hk', he⟩ := mem_number.1 h2
    have : k' = k := by omega
    subst this
    rw [hk] at hk'
    cases hk'; rfl
  nodup := fun s => nodup_number_aux base s pairs 0

theorem number_fresh {base : Nat} {pairs : List (Term H × Term H)} {X : Finset Sym}
    (hb : freshBase X ≤ base) : InsFresh (number base pairs) X := by
  intro s v b hm
  obtain ⟨k, _, rfl⟩ := mem_number.1 hm
  exact freshBase_spec (by omega)

/-- The binder stack (`BinderStack`, `lining.py:13`), innermost loop first. -/
abbrev Stack (H : Type) := List (Term H × Finset Sym)

/-- `lining.py:80-84`: walk outwards while no symbol of `fvs` is bound. -/
def hoist (fvs : Finset Sym) : Option (Term H) → Stack H → Option (Term H)
  | prev, [] => prev
  | prev, (site, bound) :: rest =>
    if (bound ∩ fvs).Nonempty then prev else hoist fvs (some site) rest

/-- `lining.py:73-77`: the innermost entry records the symbols captured. -/
def bump (c : Finset Sym) : Stack H → Stack H
  | [] => []
  | (site, bound) :: rest => (site, bound ∪ c) :: rest

/-- `lining.py:72-77`: the stack seen by the sub-terms of `e`. -/
def pushBinder (e : Term H) (stack : Stack H) : Stack H :=
  bump (Lang.captured e.head) (if Lang.isLoop e.head then (e, ∅) :: stack else stack)

/-- `lining.py:79-84` -/
def prevSite (e : Term H) (stack : Stack H) : Option (Term H) :=
  if Lang.isAtom e.head then none else hoist (fv e) none stack

/-- `lining.py:91-92`. `prev_site is not parent_site` compares objects on the path from the root,
where identity and equality coincide. -/
def selfPair (prev parent : Option (Term H)) (e : Term H) : List (Term H × Term H) :=
  match prev with
  | some site => if parent = some site then [] else [(site, e)]
  | none => []

/-- One step of `visit` (`lining.py:69-92`). -/
def licmAlg (h : H) (fs : List (Term H × (Stack H → Option (Term H) → List (Term H × Term H))))
    (stack : Stack H) (parent : Option (Term H)) : List (Term H × Term H) :=
  (fs.map (fun f => f.2 (pushBinder (node h (fs.map Prod.fst)) stack)
    (prevSite (node h (fs.map Prod.fst)) stack))).flatten ++
    selfPair (prevSite (node h (fs.map Prod.fst)) stack) parent (node h (fs.map Prod.fst))

/-- `visit` (`lining.py:69-92`): the insertions in order. -/
def licmVisit (stack : Stack H) (parent : Option (Term H)) (e : Term H) : List (Term H × Term H) :=
  para licmAlg e stack parent

/-- `_loop_invariant_code_motion(program)` (`lining.py:66-95`). -/
def licmPairs (p : Term H) : List (Term H × Term H) := licmVisit [] none p

theorem licmVisit_node (stack : Stack H) (parent : Option (Term H)) (h : H) (ts : List (Term H)) :
    licmVisit stack parent (node h ts) =
      (ts.map (fun t => licmVisit (pushBinder (node h ts) stack) (prevSite (node h ts) stack)
        t)).flatten ++ selfPair (prevSite (node h ts) stack) parent (node h ts) := by
  have hm : (List.map Prod.fst
      (ts.map fun t => (t, para (A := Stack H → Option (Term H) → List (Term H × Term H))
        licmAlg t))) = ts := by
    rw [List.map_map]; exact List.map_id' ts
  unfold licmVisit
  rw [para_node]
  generalize hg : (fun t => (t, para (A := Stack H → Option (Term H) → List (Term H × Term H))
        licmAlg t)) = g at *
  unfold licmAlg
  rw [hm, List.map_map]
  subst hg
  rfl

/-- The invariant of the stack at `e`: below a site, a free symbol of `e` is free in the site or
bound between the site and `e`. -/
def StackOk (e : Term H) : Stack H → Prop
  | [] => True
  | stack => ∀ pre site bound post, stack = pre ++ (site, bound) :: post →
      Occurs e site ∧ e ≠ site ∧
      ∀ s ∈ fv e, s ∈ fv site ∨ s ∈ bound ∨ ∃ q ∈ pre, s ∈ q.2

theorem stackOk_iff {e : Term H} {stack : Stack H} : StackOk e stack ↔
    ∀ pre site bound post, stack = pre ++ (site, bound) :: post →
      Occurs e site ∧ e ≠ site ∧
      ∀ s ∈ fv e, s ∈ fv site ∨ s ∈ bound ∨ ∃ q ∈ pre, s ∈ q.2 := by
  cases stack with
  | nil =>
    simp only [StackOk, true_iff]
    intro pre site bound post h
    cases pre <;> cases h
  | cons p ps => rfl

/-- Going to a child, when the stack does not gain a loop. -/
theorem StackOk.child {h : H} {ts : List (Term H)} {t : Term H} (ht : t ∈ ts) {stack : Stack H}
    (hs : StackOk (node h ts) stack) : StackOk t (pushBinder (node h ts) stack) := by
  have hlt : t ≠ node h ts := by
    intro e
    have := size_lt_of_mem (h := h) ht
    rw [← e] at this; omega
  have hfv : ∀ s ∈ fv t, s ∈ fv (node h ts) ∨ s ∈ Lang.captured h := by
    intro s hs
    have := fv_child_subset ht (Finset.Subset.refl (fv (node h ts))) hs
    exact Finset.mem_union.1 this
  rw [stackOk_iff]
  rw [stackOk_iff] at hs
  intro pre site bound post heq
  unfold pushBinder at heq
  simp only [Term.head] at heq
  have hneq : ∀ site : Term H, Occurs (node h ts) site → t ≠ site := by
    intro site ho he
    subst he
    have := ho.size_le
    have := size_lt_of_mem (h := h) ht
    omega
  by_cases hl : Lang.isLoop h = true
  · -- a new loop entry
    simp only [hl, if_true, bump] at heq
    cases pre with
    | nil =>
      simp only [List.nil_append, List.cons.injEq, Prod.mk.injEq] at heq
      obtain ⟨⟨rfl, rfl⟩, rfl⟩ := heq
      refine ⟨.child ht (.refl _), hlt, fun s hsv => ?_⟩
      rcases hfv s hsv with h1 | h1
      · exact Or.inl h1
      · exact Or.inr (Or.inl (by simp [h1]))
    | cons q pre =>
      simp only [List.cons_append, List.cons.injEq] at heq
      obtain ⟨rfl, heq⟩ := heq
      obtain ⟨h1, h2, h3⟩ := hs pre site bound post heq
      refine ⟨Occurs.trans (.child ht (.refl _)) h1, hneq _ h1, fun s hsv => ?_⟩
      rcases hfv s hsv with h4 | h4
      · rcases h3 s h4 with h5 | h5 | ⟨q, hq, h5⟩
        · exact Or.inl h5
        · exact Or.inr (Or.inl h5)
        · exact Or.inr (Or.inr ⟨q, List.mem_cons_of_mem _ hq, h5⟩)
      · exact Or.inr (Or.inr ⟨_, List.mem_cons_self, by simp [h4]⟩)
  · simp only [hl, if_false, Bool.false_eq_true] at heq
    cases stack with
    | nil => cases pre <;> cases heq
    | cons p stack =>
      obtain ⟨s0, b0⟩ := p
      simp only [bump] at heq
      cases pre with
      | nil =>
        simp only [List.nil_append, List.cons.injEq, Prod.mk.injEq] at heq
        obtain ⟨⟨rfl, rfl⟩, rfl⟩ := heq
        obtain ⟨h1, h2, h3⟩ := hs [] s0 b0 stack rfl
        refine ⟨Occurs.trans (.child ht (.refl _)) h1, hneq _ h1, fun s hsv => ?_⟩
        rcases hfv s hsv with h4 | h4
        · rcases h3 s h4 with h5 | h5 | ⟨q, hq, h5⟩
          · exact Or.inl h5
          · exact Or.inr (Or.inl (by simp [h5]))
          · cases hq
        · exact Or.inr (Or.inl (by simp [h4]))
      | cons q pre =>
        simp only [List.cons_append, List.cons.injEq] at heq
        obtain ⟨rfl, heq⟩ := heq
        obtain ⟨h1, h2, h3⟩ := hs ((s0, b0) :: pre) site bound post (by rw [heq]; rfl)
        refine ⟨Occurs.trans (.child ht (.refl _)) h1, hneq _ h1, fun s hsv => ?_⟩
        rcases hfv s hsv with h4 | h4
        · rcases h3 s h4 with h5 | h5 | ⟨q, hq, h5⟩
          · exact Or.inl h5
          · exact Or.inr (Or.inl h5)
          · rcases List.mem_cons.1 hq with rfl | hq
            · exact Or.inr (Or.inr ⟨_, List.mem_cons_self, by simp only at h5; simp [h5]⟩)
            · exact Or.inr (Or.inr ⟨q, List.mem_cons_of_mem _ hq, h5⟩)
        · exact Or.inr (Or.inr ⟨_, List.mem_cons_self, by simp [h4]⟩)

/-- The chosen site is on the stack and nothing between it and the expression binds a free
symbol of the expression. -/
theorem hoist_spec {fvs : Finset Sym} {site : Term H} : ∀ (stack : Stack H) (prev : Option (Term H)),
    hoist fvs prev stack = some site → prev = some site ∨
      ∃ pre bound post, stack = pre ++ (site, bound) :: post ∧ Disjoint bound fvs ∧
        ∀ q ∈ pre, Disjoint q.2 fvs := by
  intro stack
  induction stack with
  | nil => intro prev h; exact Or.inl h
  | cons p rest ih =>
    obtain ⟨s, b⟩ := p
    intro prev h
    unfold hoist at h
    split_ifs at h with hb
    · exact Or.inl h
    · rw [Finset.not_nonempty_iff_eq_empty, ← Finset.disjoint_iff_inter_eq_empty] at hb
      rcases ih (some s) h with h1 | ⟨pre, bound, post, h1, h2, h3⟩
      · cases h1
        exact Or.inr ⟨[], b, rest, rfl, hb, by simp⟩
      · refine Or.inr ⟨(s, b) :: pre, bound, post, by rw [h1]; rfl, h2, ?_⟩
        intro q hq
        rcases List.mem_cons.1 hq with rfl | hq
        · exact hb
        · exact h3 q hq

theorem licmVisit_ok (e : Term H) : ∀ (stack : Stack H) (parent : Option (Term H)),
    StackOk e stack → ∀ p ∈ licmVisit stack parent e,
      Occurs p.2 p.1 ∧ p.2 ≠ p.1 ∧ fv p.2 ⊆ fv p.1 := by
  induction e using ind with
  | step h ts ih =>
    intro stack parent hs p hp
    rw [licmVisit_node, List.mem_append] at hp
    rcases hp with hp | hp
    · rw [List.mem_flatten] at hp
      obtain ⟨l, hl, hp⟩ := hp
      obtain ⟨t, ht, rfl⟩ := List.mem_map.1 hl
      exact ih t ht _ _ (hs.child ht) p hp
    · cases hsite : prevSite (node h ts) stack with
      | none => rw [hsite] at hp; cases hp
      | some site =>
        rw [hsite] at hp
        simp only [selfPair] at hp
        split_ifs at hp with hpar
        · cases hp
        · rw [List.mem_singleton] at hp
          subst hp
          unfold prevSite at hsite
          split_ifs at hsite
          rcases hoist_spec _ _ hsite with h1 | ⟨pre, bound, post, h1, h2, h3⟩
          · cases h1
          · obtain ⟨h4, h5, h6⟩ := stackOk_iff.1 hs pre site bound post h1
            refine ⟨h4, h5, fun s hsv => ?_⟩
            rcases h6 s hsv with h7 | h7 | ⟨q, hq, h7⟩
            · exact h7
            · exact absurd hsv (Finset.disjoint_left.1 h2 h7)
            · exact absurd hsv (Finset.disjoint_left.1 (h3 q hq) h7)

theorem licmPairs_ok (p : Term H) : ∀ q ∈ licmPairs p,
    Occurs q.2 q.1 ∧ q.2 ≠ q.1 ∧ fv q.2 ⊆ fv q.1 :=
  licmVisit_ok p [] none trivial

end Verif.Midend
