import Verif.Midend.Coherent
import Verif.Midend.Outline

/-!
Loop-invariant code motion keeps binders unique, on programs in which only atoms occur twice (which
`outline` asserts, `ein/midend/lining.py:120,137`).
-/

set_option linter.unusedSectionVars false

namespace Verif.Midend
open Term
variable {H V : Type} [Lang H] [DecidableEq H]

/-- Occurrences that are not atoms, in post-order. -/
def post : Term H → List (Term H) :=
  para (fun h fs => (fs.map Prod.snd).flatten ++
    (if Lang.isAtom h then [] else [node h (fs.map Prod.fst)]))

theorem post_node (h : H) (ts : List (Term H)) :
    post (node h ts) = (ts.map post).flatten ++ (if Lang.isAtom h then [] else [node h ts]) := by
  unfold post
  rw [para_node, map_fst_para, List.map_map]
  rfl

theorem occurrences_node (h : H) (ts : List (Term H)) :
    occurrences (node h ts) = node h ts :: (ts.map occurrences).flatten := by
  unfold occurrences
  rw [para_node, map_fst_para, List.map_map]
  rfl

theorem perm_flatten {α β : Type} {f g : β → List α} {l : List β}
    (h : ∀ x ∈ l, (f x).Perm (g x)) : ((l.map f).flatten).Perm ((l.map g).flatten) := by
  induction l with
  | nil => exact .refl _
  | cons x l ih =>
    simp only [List.map_cons, List.flatten_cons]
    exact (h x List.mem_cons_self).append (ih (fun y hy => h y (List.mem_cons_of_mem _ hy)))

theorem post_perm (t : Term H) :
    (post t).Perm ((occurrences t).filter (fun u => !Lang.isAtom u.head)) := by
  induction t using ind with
  | step h ts ih =>
    rw [post_node, occurrences_node, List.filter_cons]
    have hflat : ((ts.map occurrences).flatten).filter (fun u => !Lang.isAtom u.head) =
        (ts.map (fun t => (occurrences t).filter (fun u => !Lang.isAtom u.head))).flatten := by
      rw [List.filter_flatten, List.map_map]; rfl
    rw [hflat]
    have hp := perm_flatten ih
    cases hA : Lang.isAtom h with
    | true => simpa [hA, Term.head] using hp
    | false =>
      simp only [hA, Term.head, Bool.false_eq_true, if_false, Bool.not_false, if_true]
      exact (List.perm_append_singleton _ _).trans (hp.cons _)

/-- Only atoms occur more than once. -/
def Tree (t : Term H) : Prop := (post t).Nodup

theorem tree_of_isTree {t : Term H} (h : isTree t = true) : Tree t := by
  unfold isTree at h
  rw [decide_eq_true_eq] at h
  exact (post_perm t).nodup_iff.2 h

theorem mem_post {x t : Term H} : x ∈ post t ↔ Occurs x t ∧ Lang.isAtom x.head = false := by
  induction t using ind with
  | step h ts ih =>
    rw [post_node, List.mem_append, List.mem_flatten]
    constructor
    · rintro (⟨l, hl, hx⟩ | hx)
      · obtain ⟨t, ht, rfl⟩ := List.mem_map.1 hl
        obtain ⟨h1, h2⟩ := (ih t ht).1 hx
        exact ⟨.child ht h1, h2⟩
      · split_ifs at hx with hA
        · cases hx
        · rw [List.mem_singleton] at hx
          subst hx
          exact ⟨.refl _, by simpa [Term.head] using hA⟩
    · rintro ⟨ho, hA⟩
      cases ho with
      | refl =>
        right
        simp only [Term.head] at hA
        simp [hA]
      | child ht ho =>
        left
        exact ⟨_, List.mem_map.2 ⟨_, ht, rfl⟩, (ih _ ht).2 ⟨ho, hA⟩⟩

theorem Tree.children {h : H} {ts : List (Term H)} (ht : Tree (node h ts)) :
    (∀ t ∈ ts, Tree t) ∧ ts.Pairwise (fun a b => ∀ x, x ∈ post a → x ∉ post b) := by
  unfold Tree at ht
  rw [post_node] at ht
  have h1 := (List.nodup_append.1 ht).1
  rw [List.nodup_flatten] at h1
  refine ⟨fun t ht => h1.1 _ (List.mem_map.2 ⟨t, ht, rfl⟩), ?_⟩
  have h2 := h1.2
  rw [List.pairwise_map] at h2
  exact h2.imp (fun hd x hx hy => hd hx hy)

theorem Tree.occurs {t u : Term H} (ho : Occurs t u) (hu : Tree u) : Tree t := by
  induction ho with
  | refl => exact hu
  | child ht _ ih => exact ih (hu.children.1 _ ht)

/-- Different arguments share no non-atom. -/
theorem Tree.child_unique {h : H} {ts : List (Term H)} (ht : Tree (node h ts)) {a b x : Term H}
    (ha : a ∈ ts) (hb : b ∈ ts) (hxa : Occurs x a) (hxb : Occurs x b)
    (hx : Lang.isAtom x.head = false) : a = b := by
  by_contra hne
  have hp := ht.children.2
  have key : ∀ l : List (Term H), l.Pairwise (fun a b => ∀ x, x ∈ post a → x ∉ post b) →
      a ∈ l → b ∈ l → False := by
    intro l
    induction l with
    | nil => intro _ h; cases h
    | cons c l ih =>
      intro hl ha hb
      rw [List.pairwise_cons] at hl
      have hxa' := mem_post.2 ⟨hxa, hx⟩
      have hxb' := mem_post.2 ⟨hxb, hx⟩
      rcases List.mem_cons.1 ha with rfl | ha
      · rcases List.mem_cons.1 hb with rfl | hb
        · exact hne rfl
        · exact hl.1 b hb x hxa' hxb'
      · rcases List.mem_cons.1 hb with hbc | hb
        · rw [hbc] at hxb'
          exact hl.1 a ha x hxb' hxa'
        · exact ih hl.2 ha hb
  exact key ts hp ha hb

/-- Ancestors of a non-atom form a chain. -/
theorem Tree.chain {p x y b : Term H} (hp : Tree p) (hx : Occurs x p) (hy : Occurs y p)
    (hbx : Occurs b x) (hby : Occurs b y) (hb : Lang.isAtom b.head = false) :
    Occurs x y ∨ Occurs y x := by
  induction p using ind with
  | step h ts ih =>
    cases hx with
    | refl => exact Or.inr hy
    | child htx hx =>
      cases hy with
      | refl => exact Or.inl (.child htx hx)
      | child hty hy =>
        have := hp.child_unique htx hty (hbx.trans hx) (hby.trans hy) hb
        subst this
        exact ih _ htx (hp.children.1 _ htx) hx hy

/-- The stacks `visit` passes down (`lining.py:69-90`). -/
inductive LV (p : Term H) : Term H → Stack H → Prop
  | root : LV p p []
  | child {e t : Term H} {st : Stack H} : LV p e st → t ∈ e.subs → LV p t (pushBinder e st)

theorem LV.occurs {p e : Term H} {st : Stack H} (h : LV p e st) : Occurs e p := by
  induction h with
  | root => exact .refl _
  | @child e t st _ ht ih =>
    obtain ⟨hd, es⟩ := e
    exact (Occurs.child ht (.refl _)).trans ih

theorem LV.unique {p x b : Term H} (hp : Tree p) (hb : Lang.isAtom b.head = false) :
    ∀ {st : Stack H}, LV p x st → Occurs b x → ∀ {st'}, LV p x st' → st = st' := by
  intro st h
  induction h with
  | root =>
    intro _ st' h'
    generalize hq : p = q at h'
    cases h' with
    | root => rfl
    | @child e _ st'' h' ht =>
      exfalso
      have h1 := h'.occurs.size_le
      obtain ⟨hd, es⟩ := e
      have h2 := size_lt_of_mem (h := hd) ht
      simp only [Term.subs] at h2
      subst hq
      omega
  | @child e t st h ht ih =>
    intro hbt st' h'
    generalize hq : t = q at h'
    cases h' with
    | root =>
      exfalso
      have h1 := h.occurs.size_le
      obtain ⟨hd, es⟩ := e
      have h2 := size_lt_of_mem (h := hd) ht
      simp only [Term.subs] at h2
      subst hq
      omega
    | @child e' _ st'' h'' ht' =>
      subst hq
      have hbe : Occurs b e := by
        obtain ⟨hd, es⟩ := e; exact .child ht hbt
      have hbe' : Occurs b e' := by
        obtain ⟨hd, es⟩ := e'; exact .child ht' hbt
      -- the two parents are the same
      have key : ∀ (e e' : Term H), Occurs e' p → t ∈ e.subs → t ∈ e'.subs → Occurs e e' → e = e' := by
        intro e e' ho' ht ht' ho
        by_contra hne
        obtain ⟨u, hu, hou⟩ := Below.cases ⟨ho, hne⟩
        have hte : Occurs t e := by
          obtain ⟨hd, es⟩ := e; exact .child ht (.refl _)
        have hsz : t.size < e.size := by
          obtain ⟨hd, es⟩ := e; exact size_lt_of_mem ht
        obtain ⟨hd', es'⟩ := e'
        have : u = t := (hp.occurs ho').child_unique hu ht'
          (hbt.trans (hte.trans hou)) hbt hb
        subst this
        have := hou.size_le
        omega
      have hee : e = e' := by
        rcases hp.chain h.occurs h''.occurs hbe hbe' hb with ho | ho
        · exact key e e' h''.occurs ht ht' ho
        · exact (key e' e h.occurs ht' ht ho).symm
      subst hee
      rw [ih hbe h'']

theorem bump_bump (c d : Finset Sym) (st : Stack H) : bump d (bump c st) = bump (c ∪ d) st := by
  cases st with
  | nil => rfl
  | cons q st => obtain ⟨a, b⟩ := q; simp [bump, Finset.union_assoc]

/-- Below `b'`, the stack grows by loops inside `b'`, and only its innermost old entry changes. -/
theorem LV.extend {p b b' : Term H} (ho : Occurs b b') : ∀ {st' : Stack H}, LV p b' st' → b ≠ b' →
    ∃ ext c, LV p b (ext ++ bump c st') ∧ ∀ q ∈ ext, Occurs q.1 b' := by
  induction ho with
  | refl => intro _ _ h; exact absurd rfl h
  | @child t h ts ht ho ih =>
    intro st' hv hne
    have hvt : LV p t (pushBinder (node h ts) st') := hv.child ht
    by_cases hbt : b = t
    · subst hbt
      unfold pushBinder at hvt
      simp only [Term.head] at hvt
      by_cases hl : Lang.isLoop h = true
      · simp only [hl, if_true, bump] at hvt
        refine ⟨[(node h ts, ∅ ∪ Lang.captured h)], ∅, ?_, ?_⟩
        · have : bump ∅ st' = st' := by
            cases st' with
            | nil => rfl
            | cons q st => obtain ⟨a, b⟩ := q; simp [bump]
          rw [this]; exact hvt
        · intro q hq
          rw [List.mem_singleton] at hq
          subst hq
          exact .refl _
      · simp only [hl, if_false, Bool.false_eq_true] at hvt
        exact ⟨[], Lang.captured h, hvt, by simp⟩
    · obtain ⟨ext, c, h1, h2⟩ := ih hvt hbt
      unfold pushBinder at h1
      simp only [Term.head] at h1
      by_cases hl : Lang.isLoop h = true
      · simp only [hl, if_true, bump] at h1
        refine ⟨ext ++ [(node h ts, ∅ ∪ Lang.captured h ∪ c)], ∅, ?_, ?_⟩
        · have : bump ∅ st' = st' := by
            cases st' with
            | nil => rfl
            | cons q st => obtain ⟨a, b⟩ := q; simp [bump]
          rw [this, List.append_assoc]
          exact h1
        · intro q hq
          rcases List.mem_append.1 hq with hq | hq
          · exact .child ht (h2 q hq)
          · rw [List.mem_singleton] at hq
            subst hq
            exact .refl _
      · simp only [hl, if_false, Bool.false_eq_true] at h1
        rw [bump_bump] at h1
        exact ⟨ext, _, h1, fun q hq => .child ht (h2 q hq)⟩

/-- The loops on the stack are nested. -/
theorem LV.nested {p e : Term H} {st : Stack H} (h : LV p e st) :
    (∀ q ∈ st, Below e q.1) ∧ st.Pairwise (fun a b => Below a.1 b.1) := by
  induction h with
  | root => simp
  | @child e t st _ ht ih =>
    have hte : Below t e := by
      obtain ⟨hd, es⟩ := e
      exact Below.child ht (.refl _)
    have htr : ∀ q ∈ st, Below t q.1 := by
      intro q hq
      have h1 := ih.1 q hq
      refine ⟨hte.1.trans h1.1, ?_⟩
      intro he
      have h2 := hte.size_lt
      have h3 := h1.size_lt
      rw [he] at h2; omega
    have hb : ∀ (c : Finset Sym) (st : Stack H) (P : Term H → Prop), (∀ q ∈ st, P q.1) →
        ∀ q ∈ bump c st, P q.1 := by
      intro c st P hP q hq
      cases st with
      | nil => cases hq
      | cons r st =>
        obtain ⟨a, b⟩ := r
        rcases List.mem_cons.1 hq with rfl | hq
        · exact hP (a, b) List.mem_cons_self
        · exact hP q (List.mem_cons_of_mem _ hq)
    have hpb : ∀ (c : Finset Sym) (st : Stack H), st.Pairwise (fun a b => Below a.1 b.1) →
        (bump c st).Pairwise (fun a b => Below a.1 b.1) := by
      intro c st hP
      cases st with
      | nil => exact .nil
      | cons r st =>
        obtain ⟨a, b⟩ := r
        rw [List.pairwise_cons] at hP
        simp only [bump]
        rw [List.pairwise_cons]
        exact hP
    unfold pushBinder
    split_ifs with hl
    · refine ⟨hb _ _ _ ?_, hpb _ _ ?_⟩
      · intro q hq
        rcases List.mem_cons.1 hq with rfl | hq
        · exact hte
        · exact htr q hq
      · rw [List.pairwise_cons]
        exact ⟨ih.1, ih.2⟩
    · exact ⟨hb _ _ _ htr, hpb _ _ ih.2⟩

/-- Symbols on the stack are not rebound further down. -/
theorem LV.bound {p e : Term H} {st : Stack H} (hns : NoShadow p) (h : LV p e st) :
    ∀ q ∈ st, Disjoint q.2 (binders e) := by
  induction h with
  | root => simp
  | @child e t st hv ht ih =>
    have hne := hns.occurs hv.occurs
    obtain ⟨hd, es⟩ := e
    have hsub : binders t ⊆ binders (node hd es) := binders_child_subset ht
    have hcap := hne.disjoint t ht
    have hb : ∀ (st : Stack H), (∀ q ∈ st, Disjoint q.2 (binders t)) →
        ∀ q ∈ bump (Lang.captured hd) st, Disjoint q.2 (binders t) := by
      intro st hP q hq
      cases st with
      | nil => cases hq
      | cons r st =>
        obtain ⟨a, b⟩ := r
        rcases List.mem_cons.1 hq with rfl | hq
        · exact Finset.disjoint_union_left.2 ⟨hP (a, b) List.mem_cons_self, hcap⟩
        · exact hP q (List.mem_cons_of_mem _ hq)
    unfold pushBinder
    simp only [Term.head]
    refine hb _ ?_
    intro q hq
    by_cases hl : Lang.isLoop hd = true
    · simp only [hl, if_true] at hq
      rcases List.mem_cons.1 hq with rfl | hq
      · simp
      · exact Finset.disjoint_of_subset_right hsub (ih q hq)
    · simp only [hl, if_false, Bool.false_eq_true] at hq
      exact Finset.disjoint_of_subset_right hsub (ih q hq)

/-- `hoist` stops only at a binder of a free symbol. -/
theorem hoist_max {fvs : Finset Sym} {site : Term H} : ∀ (stack : Stack H) (prev : Option (Term H)),
    hoist fvs prev stack = some site →
      (prev = some site ∧ ∀ q ∈ stack.head?, ¬ Disjoint q.2 fvs) ∨
      ∃ pre bound post, stack = pre ++ (site, bound) :: post ∧ Disjoint bound fvs ∧
        (∀ q ∈ pre, Disjoint q.2 fvs) ∧ ∀ q ∈ post.head?, ¬ Disjoint q.2 fvs := by
  intro stack
  induction stack with
  | nil => intro prev h; exact Or.inl ⟨h, by simp⟩
  | cons p rest ih =>
    obtain ⟨s, b⟩ := p
    intro prev h
    unfold hoist at h
    split_ifs at h with hb
    · refine Or.inl ⟨h, ?_⟩
      simp only [List.head?_cons, Option.mem_some_iff]
      rintro q rfl
      rw [Finset.disjoint_iff_inter_eq_empty, ← Finset.not_nonempty_iff_eq_empty, not_not]
      exact hb
    · rw [Finset.not_nonempty_iff_eq_empty, ← Finset.disjoint_iff_inter_eq_empty] at hb
      rcases ih (some s) h with ⟨h1, h2⟩ | ⟨pre, bound, post, h1, h2, h3, h4⟩
      · cases h1
        exact Or.inr ⟨[], b, rest, rfl, hb, by simp, h2⟩
      · refine Or.inr ⟨(s, b) :: pre, bound, post, by rw [h1]; rfl, h2, ?_, h4⟩
        intro q hq
        rcases List.mem_cons.1 hq with rfl | hq
        · exact hb
        · exact h3 q hq

theorem licmVisit_lv {p : Term H} (e : Term H) : ∀ (st : Stack H) (parent : Option (Term H)),
    LV p e st → ∀ q ∈ licmVisit st parent e,
      ∃ st', LV p q.2 st' ∧ Lang.isAtom q.2.head = false ∧ hoist (fv q.2) none st' = some q.1 := by
  induction e using ind with
  | step h ts ih =>
    intro st parent hv q hq
    rw [licmVisit_node, List.mem_append] at hq
    rcases hq with hq | hq
    · rw [List.mem_flatten] at hq
      obtain ⟨l, hl, hq⟩ := hq
      obtain ⟨t, ht, rfl⟩ := List.mem_map.1 hl
      exact ih t ht _ _ (hv.child ht) q hq
    · cases hsite : prevSite (node h ts) st with
      | none => rw [hsite] at hq; cases hq
      | some site =>
        rw [hsite] at hq
        simp only [selfPair] at hq
        split_ifs at hq with hpar
        · cases hq
        · rw [List.mem_singleton] at hq
          subst hq
          unfold prevSite at hsite
          split_ifs at hsite with hA
          exact ⟨st, hv, by simpa using hA, hsite⟩

/-- Expressions are moved in post-order, each at most once. -/
theorem licmVisit_sublist (e : Term H) : ∀ (st : Stack H) (parent : Option (Term H)),
    ((licmVisit st parent e).map Prod.snd).Sublist (post e) := by
  induction e using ind with
  | step h ts ih =>
    intro st parent
    rw [licmVisit_node, post_node, List.map_append]
    refine List.Sublist.append ?_ ?_
    · rw [List.map_flatten, List.map_map]
      have : ∀ (l : List (Term H)), (∀ t ∈ l, t ∈ ts) →
          ((l.map (List.map Prod.snd ∘ fun t => licmVisit (pushBinder (node h ts) st)
            (prevSite (node h ts) st) t)).flatten).Sublist ((l.map post).flatten) := by
        intro l
        induction l with
        | nil => intro _; simp
        | cons t l ihl =>
          intro hl
          simp only [List.map_cons, List.flatten_cons, Function.comp]
          exact (ih t (hl t List.mem_cons_self) _ _).append
            (ihl (fun x hx => hl x (List.mem_cons_of_mem _ hx)))
      exact this ts (fun _ h => h)
    · cases hsite : prevSite (node h ts) st with
      | none => simp [selfPair]
      | some site =>
        unfold prevSite at hsite
        split_ifs at hsite with hA
        simp only [Term.head] at hA
        simp only [selfPair, hA, if_false, Bool.false_eq_true]
        split_ifs <;> simp

theorem post_pairwise {t : Term H} (ht : Tree t) : (post t).Pairwise (fun a b => ¬ Below b a) := by
  induction t using ind with
  | step h ts ih =>
    rw [post_node, List.pairwise_append]
    obtain ⟨h1, h2⟩ := ht.children
    refine ⟨?_, ?_, ?_⟩
    · rw [List.pairwise_flatten]
      refine ⟨?_, ?_⟩
      · intro l hl
        obtain ⟨t, ht', rfl⟩ := List.mem_map.1 hl
        exact ih t ht' (h1 t ht')
      · rw [List.pairwise_map]
        refine h2.imp ?_
        intro a b hd x hx y hy hyx
        have hy' := mem_post.1 hy
        exact hd y (mem_post.2 ⟨hyx.1.trans (mem_post.1 hx).1, hy'.2⟩) hy
    · split_ifs <;> simp
    · intro a ha b hb
      split_ifs at hb with hA
      · cases hb
      · rw [List.mem_singleton] at hb
        subst hb
        intro hba
        obtain ⟨l, hl, hal⟩ := List.mem_flatten.1 ha
        obtain ⟨t, ht', rfl⟩ := List.mem_map.1 hl
        have h3 := (mem_post.1 hal).1.size_le
        have h4 := hba.size_lt
        have h5 := size_lt_of_mem (h := h) ht'
        omega

theorem licm_coherent (base : Nat) {p : Term H} (hp : Tree p) (hns : NoShadow p) :
    InsCoherent (number base (licmPairs p)) p := by
  have hsub : ((licmPairs p).map Prod.snd).Sublist (post p) := licmVisit_sublist p [] none
  have hlv : ∀ {s b : Term H}, (s, b) ∈ licmPairs p → ∃ st, LV p b st ∧
      Lang.isAtom b.head = false ∧ hoist (fv b) none st = some s :=
    fun h => licmVisit_lv p [] none .root _ h
  have hstack : ∀ {s b : Term H}, (s, b) ∈ licmPairs p → ∃ st pre bound post, LV p b st ∧
      Lang.isAtom b.head = false ∧ st = pre ++ (s, bound) :: post ∧ Disjoint bound (fv b) ∧
        (∀ q ∈ pre, Disjoint q.2 (fv b)) ∧ ∀ q ∈ post.head?, ¬ Disjoint q.2 (fv b) := by
    intro s b h
    obtain ⟨st, h1, h2, h3⟩ := hlv h
    rcases hoist_max st none h3 with ⟨h4, _⟩ | ⟨pre, bound, post, h4⟩
    · cases h4
    · exact ⟨st, pre, bound, post, h1, h2, h4⟩
  have hocc : ∀ {e : Term H} {st}, LV p e st → ∀ q ∈ st, Occurs q.1 p := by
    intro e st h
    induction h with
    | root => simp
    | @child e t st hv ht ih =>
      have hb : ∀ (c : Finset Sym) (st : Stack H), (∀ q ∈ st, Occurs q.1 p) →
          ∀ q ∈ bump c st, Occurs q.1 p := by
        intro c st hP q hq
        cases st with
        | nil => cases hq
        | cons r st =>
          obtain ⟨a, b⟩ := r
          rcases List.mem_cons.1 hq with rfl | hq
          · exact hP (a, b) List.mem_cons_self
          · exact hP q (List.mem_cons_of_mem _ hq)
      unfold pushBinder
      refine hb _ _ ?_
      intro q hq
      split_ifs at hq
      · rcases List.mem_cons.1 hq with rfl | hq
        · exact hv.occurs
        · exact ih q hq
      · exact ih q hq
  refine number_coherent (hsub.nodup hp) ?_ ?_ ?_ ?_
  · have := (post_pairwise hp).sublist hsub
    rw [List.pairwise_map] at this
    exact this
  · intro e t s b he ht hpair hb hnt hse
    obtain ⟨st, h1, h2, _⟩ := hlv hpair
    have hbs : Occurs b s := (licmPairs_ok p _ hpair).1
    by_contra hne
    obtain ⟨u, hu, hsu⟩ := Below.cases ⟨hse, hne⟩
    obtain ⟨hd, es⟩ := e
    have := (hp.occurs he).child_unique hu ht (hbs.trans hsu) hb.1 h2
    subst this
    exact hnt hsu
  · intro e b' s b he hpair' hpair hb hnb hse
    obtain ⟨st', pre', bd', post', hv', hA', hst', hd', hpre', _⟩ := hstack hpair'
    obtain ⟨st, pre, bd, post, hv, hA, hst, hd, hpre, hpost⟩ := hstack hpair
    by_contra hne
    -- the stack of `b` extends that of `b'`
    obtain ⟨ext, c, hv2, hext⟩ := hv'.extend hb.1 hb.2
    have heq := hv.unique hp hA (.refl _) hv2
    -- `s` is among the loops around `b'`
    obtain ⟨pre2, bd2, hs2⟩ : ∃ pre2 bd2, bump c st' = pre2 ++ (s, bd2) :: post := by
      rw [hst] at heq
      rcases List.append_eq_append_iff.1 heq with ⟨l, h1, h2⟩ | ⟨l, h1, h2⟩
      · cases l with
        | nil => exact ⟨[], bd, by simpa using h2.symm⟩
        | cons q l =>
          exfalso
          simp only [List.cons_append, List.cons.injEq] at h2
          obtain ⟨rfl, _⟩ := h2
          exact hnb (hext (s, bd) (by rw [h1]; simp))
      · exact ⟨l, bd, h2⟩
    obtain ⟨pre3, bd3, hs3⟩ : ∃ pre3 bd3, st' = pre3 ++ (s, bd3) :: post := by
      cases hc : st' with
      | nil => rw [hc] at hs2; simp [bump] at hs2
      | cons q st2 =>
        obtain ⟨a, bb⟩ := q
        rw [hc] at hs2
        simp only [bump] at hs2
        cases pre2 with
        | nil =>
          simp only [List.nil_append, List.cons.injEq, Prod.mk.injEq] at hs2
          obtain ⟨⟨rfl, _⟩, rfl⟩ := hs2
          exact ⟨[], bb, rfl⟩
        | cons q' pre2 =>
          simp only [List.cons_append, List.cons.injEq] at hs2
          obtain ⟨_, rfl⟩ := hs2
          exact ⟨(a, bb) :: pre2, bd2, rfl⟩
    -- `e` is further out than `s`
    have hnest := hv'.nested.2
    have hmid : ∃ mid, post = mid ++ (e, bd') :: post' ∧ ∀ q ∈ mid, q ∈ pre' := by
      have h5 : pre3 ++ (s, bd3) :: post = pre' ++ (e, bd') :: post' := hs3.symm.trans hst'
      rcases List.append_eq_append_iff.1 h5 with ⟨l, h1, h2⟩ | ⟨l, h1, h2⟩
      · cases l with
        | nil =>
          simp only [List.nil_append, List.cons.injEq, Prod.mk.injEq] at h2
          exact absurd h2.1.1 hne
        | cons q l =>
          simp only [List.cons_append, List.cons.injEq] at h2
          exact ⟨l, h2.2, fun x hx => by rw [h1]; simp [hx]⟩
      · exfalso
        have hes : Below e s := by
          cases l with
          | nil =>
            simp only [List.nil_append, List.cons.injEq, Prod.mk.injEq] at h2
            exact absurd h2.1.1.symm hne
          | cons q l =>
            simp only [List.cons_append, List.cons.injEq] at h2
            obtain ⟨rfl, _⟩ := h2
            rw [hs3, h1, List.append_assoc, List.pairwise_append] at hnest
            have := hnest.2.1
            simp only [List.cons_append, List.pairwise_cons] at this
            exact this.1 (s, bd3) (by simp)
        have h6 := hes.size_lt
        have h7 := hse.size_le
        omega
    obtain ⟨mid, hmid, hmem⟩ := hmid
    -- the entry just outside `s` binds a free symbol of `b` but none of `b'`
    obtain ⟨q, hq, hqst, hqd⟩ : ∃ q, q ∈ post.head? ∧ q ∈ st' ∧ Disjoint q.2 (fv b') := by
      cases mid with
      | nil =>
        refine ⟨(e, bd'), by rw [hmid]; simp, by rw [hst']; simp, hd'⟩
      | cons q mid =>
        have := hmem q List.mem_cons_self
        exact ⟨q, by rw [hmid]; simp, by rw [hst']; simp [this], hpre' q this⟩
    have hnd := hpost q hq
    rw [Finset.not_disjoint_iff] at hnd
    obtain ⟨x, hxq, hxb⟩ := hnd
    have hxb' : x ∉ fv b' := fun h => Finset.disjoint_left.1 hqd hxq h
    obtain ⟨k, us, _, hk, hck, _⟩ := hb.1.capture hxb hxb'
    exact Finset.disjoint_left.1 (hv'.bound hns q hqst) hxq (mem_binders_iff.2 ⟨k, us, hk, hck⟩)
  · intro s b hpair
    obtain ⟨st, pre, bd, post, hv, _, hst, _⟩ := hstack hpair
    exact hocc hv (s, bd) (by rw [hst]; simp)

end Verif.Midend
