import Mathlib.Data.List.Duplicate
import Verif.Midend.Licm

/-! Model of `_bind_common_subexpressions` (`ein/midend/lining.py:40-63`). -/

set_option linter.unusedSectionVars false

namespace Verif.Midend
open Term
variable {H V : Type} [Lang H] [DecidableEq H]

/-- `build` (`lining.py:44-51`): visit a term, appending each new term after its sub-terms. A term
that is in the graph but not yet in `order` is an ancestor of the current one, so `expr in graph`
and `expr in order` agree when tested. -/
def buildOrder (e : Term H) (order : List (Term H)) : List (Term H) :=
  para (fun h (fs : List (Term H × (List (Term H) → List (Term H)))) (order : List (Term H)) =>
    if node h (fs.map Prod.fst) ∈ order then order
    else (fs.foldl (fun o f => f.2 o) order) ++ [node h (fs.map Prod.fst)]) e order

/-- `order` (`lining.py:42-53`): the distinct sub-terms, children first. -/
def order (p : Term H) : List (Term H) := buildOrder p []

/-- `graph.in_degree(sub)` (`lining.py:59`): edges of the multigraph, one per argument position of
each distinct term. -/
def inDegree (p sub : Term H) : Nat := ((order p).map (fun u => u.subs.count sub)).sum

/-- There is a path from the term to `sub` that does not visit `d`. -/
def avoids (d sub : Term H) : Term H → Bool :=
  para (fun h fs => decide (node h (fs.map Prod.fst) ≠ d) &&
    (decide (node h (fs.map Prod.fst) = sub) || fs.any Prod.snd))

/-- Terms other than `sub` through which every path from `p` to `sub` goes. -/
def strictDoms (p sub : Term H) : List (Term H) :=
  (order p).filter (fun d => decide (d ≠ sub) && !avoids d sub p)

/-- Smallest term of a list. -/
def smallest : List (Term H) → Option (Term H)
  | [] => none
  | t :: ts => match smallest ts with
    | none => some t
    | some u => if u.size < t.size then some u else some t

/-- `networkx.immediate_dominators(graph, program)[sub]` (`lining.py:55`): the strict dominator
closest to `sub`. `networkx` itself is not modelled; `idom_spec` shows that this is the immediate
dominator in the textbook sense. -/
def idom (p sub : Term H) : Option (Term H) := smallest (strictDoms p sub)

/-- `_bind_common_subexpressions(program)` (`lining.py:40-63`): (site, expression) in order. -/
def csePairs (p : Term H) : List (Term H × Term H) :=
  (order p).filterMap (fun sub =>
    if 1 < inDegree p sub ∧ Lang.isAtom sub.head = false then
      (idom p sub).map (fun site => (site, sub))
    else none)

/-! ### The traversal order -/

theorem map_fst_para {A : Type} (alg : H → List (Term H × A) → A) (ts : List (Term H)) :
    (ts.map (fun t => (t, para alg t))).map Prod.fst = ts := by
  rw [List.map_map]; exact List.map_id' ts

theorem buildOrder_node (h : H) (ts : List (Term H)) (o : List (Term H)) :
    buildOrder (node h ts) o =
      if node h ts ∈ o then o else (ts.foldl (fun o t => buildOrder t o) o) ++ [node h ts] := by
  unfold buildOrder
  rw [para_node, map_fst_para, List.foldl_map]

/-- Closed under sub-terms. -/
def SubClosed (o : List (Term H)) : Prop := ∀ u ∈ o, ∀ t, Occurs t u → t ∈ o

theorem buildOrder_spec (e : Term H) : ∀ o, SubClosed o →
    SubClosed (buildOrder e o) ∧ ∀ x, x ∈ buildOrder e o ↔ x ∈ o ∨ Occurs x e := by
  induction e using ind with
  | step h ts ih =>
    intro o ho
    rw [buildOrder_node]
    split_ifs with hm
    · refine ⟨ho, fun x => ⟨Or.inl, ?_⟩⟩
      rintro (hx | hx)
      · exact hx
      · exact ho _ hm x hx
    · have key : ∀ (l : List (Term H)) o, (∀ t ∈ l, t ∈ ts) → SubClosed o →
          SubClosed (l.foldl (fun o t => buildOrder t o) o) ∧
          ∀ x, x ∈ l.foldl (fun o t => buildOrder t o) o ↔ x ∈ o ∨ ∃ t ∈ l, Occurs x t := by
        intro l
        induction l with
        | nil => intro o _ ho; exact ⟨ho, by simp⟩
        | cons t l ihl =>
          intro o hl ho
          obtain ⟨h1, h2⟩ := ih t (hl t List.mem_cons_self) o ho
          obtain ⟨h3, h4⟩ := ihl _ (fun x hx => hl x (List.mem_cons_of_mem _ hx)) h1
          refine ⟨h3, fun x => ?_⟩
          rw [List.foldl_cons, h4, h2]
          simp only [List.mem_cons, exists_eq_or_imp, or_assoc]
      obtain ⟨h1, h2⟩ := key ts o (fun _ h => h) ho
      have hmem : ∀ x, x ∈ ts.foldl (fun o t => buildOrder t o) o ++ [node h ts] ↔
          x ∈ o ∨ Occurs x (node h ts) := by
        intro x
        rw [List.mem_append, h2, List.mem_singleton]
        constructor
        · rintro ((hx | ⟨t, ht, hx⟩) | rfl)
          · exact Or.inl hx
          · exact Or.inr (.child ht hx)
          · exact Or.inr (.refl _)
        · rintro (hx | hx)
          · exact Or.inl (Or.inl hx)
          · cases hx with
            | refl => exact Or.inr rfl
            | child ht hx => exact Or.inl (Or.inr ⟨_, ht, hx⟩)
      refine ⟨?_, hmem⟩
      intro u hu t htu
      rw [hmem] at hu ⊢
      rcases hu with hu | hu
      · exact Or.inl (ho u hu t htu)
      · exact Or.inr (htu.trans hu)

theorem mem_order {p x : Term H} : x ∈ order p ↔ Occurs x p := by
  have := (buildOrder_spec p [] (by intro u hu; cases hu)).2 x
  unfold order
  simpa using this

theorem buildOrder_nodup (e : Term H) : ∀ o, SubClosed o → o.Nodup → (buildOrder e o).Nodup := by
  induction e using ind with
  | step h ts ih =>
    intro o ho hn
    rw [buildOrder_node]
    split_ifs with hm
    · exact hn
    · have key : ∀ (l : List (Term H)) o, (∀ t ∈ l, t ∈ ts) → SubClosed o → o.Nodup →
          (l.foldl (fun o t => buildOrder t o) o).Nodup ∧
          (∀ x ∈ l.foldl (fun o t => buildOrder t o) o, x ∈ o ∨ ∃ t ∈ l, Occurs x t) := by
        intro l
        induction l with
        | nil => intro o _ _ hn; exact ⟨hn, fun x hx => Or.inl hx⟩
        | cons t l ihl =>
          intro o hl ho hn
          obtain ⟨h1, h2⟩ := buildOrder_spec t o ho
          obtain ⟨h3, h4⟩ := ihl _ (fun x hx => hl x (List.mem_cons_of_mem _ hx)) h1
            (ih t (hl t List.mem_cons_self) o ho hn)
          refine ⟨h3, fun x hx => ?_⟩
          rcases h4 x hx with h5 | ⟨t', ht', h5⟩
          · rcases (h2 x).1 h5 with h6 | h6
            · exact Or.inl h6
            · exact Or.inr ⟨t, List.mem_cons_self, h6⟩
          · exact Or.inr ⟨t', List.mem_cons_of_mem _ ht', h5⟩
      obtain ⟨h1, h2⟩ := key ts o (fun _ h => h) ho hn
      rw [List.nodup_append]
      refine ⟨h1, by simp, ?_⟩
      intro a ha b hb
      rw [List.mem_singleton] at hb
      subst hb
      rintro rfl
      rcases h2 _ ha with h3 | ⟨t, ht, h3⟩
      · exact hm h3
      · have := h3.size_le
        have := size_lt_of_mem (h := h) ht
        omega

theorem order_nodup (p : Term H) : (order p).Nodup :=
  buildOrder_nodup p [] (by intro u hu; cases hu) (by simp)

/-! ### Dominators -/

/-- A path from `p` to `sub` avoiding `d`. -/
inductive Avoid (d sub : Term H) : Term H → Prop
  | here : sub ≠ d → Avoid d sub sub
  | child {h : H} {ts : List (Term H)} {t : Term H} :
      node h ts ≠ d → t ∈ ts → Avoid d sub t → Avoid d sub (node h ts)

theorem avoids_node (d sub : Term H) (h : H) (ts : List (Term H)) :
    avoids d sub (node h ts) =
      (decide (node h ts ≠ d) && (decide (node h ts = sub) || ts.any (avoids d sub))) := by
  unfold avoids
  rw [para_node, map_fst_para, List.any_map]
  rfl

theorem avoids_iff {d sub p : Term H} : avoids d sub p = true ↔ Avoid d sub p := by
  induction p using ind with
  | step h ts ih =>
    rw [avoids_node]
    simp only [Bool.and_eq_true, decide_eq_true_eq, Bool.or_eq_true, List.any_eq_true]
    constructor
    · rintro ⟨h1, h2 | ⟨t, ht, h2⟩⟩
      · rw [← h2]; exact .here h1
      · exact .child h1 ht ((ih t ht).1 h2)
    · intro ha
      cases ha with
      | here hd => exact ⟨hd, Or.inl rfl⟩
      | child hd ht ha => exact ⟨hd, Or.inr ⟨_, ht, (ih _ ht).2 ha⟩⟩

/-- Every path from `p` to `sub` goes through `d`. -/
def Dominates (p d sub : Term H) : Prop := ¬ Avoid d sub p

theorem Avoid.occurs {d sub p : Term H} (h : Avoid d sub p) : Occurs sub p := by
  induction h with
  | here => exact .refl _
  | child _ ht _ ih => exact .child ht ih

/-- A dominator lies between. -/
theorem Dominates.between {p d sub : Term H} (ho : Occurs sub p) (hd : Dominates p d sub) :
    Occurs sub d ∧ Occurs d p := by
  induction ho with
  | refl =>
    by_cases h : sub = d
    · subst h; exact ⟨.refl _, .refl _⟩
    · exact absurd (.here h) hd
  | @child t h ts ht ho ih =>
    by_cases he : node h ts = d
    · subst he; exact ⟨.child ht ho, .refl _⟩
    · obtain ⟨h1, h2⟩ := ih (fun ha => hd (.child he ht ha))
      exact ⟨h1, .child ht h2⟩

theorem mem_strictDoms {p sub d : Term H} (hs : Occurs sub p) :
    d ∈ strictDoms p sub ↔ d ≠ sub ∧ Dominates p d sub := by
  unfold strictDoms Dominates
  rw [List.mem_filter, mem_order]
  simp only [Bool.and_eq_true, decide_eq_true_eq, Bool.not_eq_true', ← avoids_iff,
    Bool.not_eq_true]
  constructor
  · exact fun h => h.2
  · intro h
    refine ⟨?_, h⟩
    have : Dominates p d sub := by
      unfold Dominates; rw [← avoids_iff]; simp [h.2]
    exact (this.between hs).2

theorem smallest_spec {l : List (Term H)} {d : Term H} (h : smallest l = some d) :
    d ∈ l ∧ ∀ x ∈ l, d.size ≤ x.size := by
  induction l generalizing d with
  | nil => cases h
  | cons t ts ih =>
    unfold smallest at h
    cases hs : smallest ts with
    | none =>
      rw [hs] at h
      cases h
      cases ts with
      | nil => simp
      | cons a b =>
        exfalso
        unfold smallest at hs
        revert hs
        split
        · simp
        · split_ifs <;> simp
    | some u =>
      rw [hs] at h
      obtain ⟨h1, h2⟩ := ih hs
      simp only at h
      split_ifs at h with hlt
      · cases h
        refine ⟨List.mem_cons_of_mem _ h1, fun x hx => ?_⟩
        rcases List.mem_cons.1 hx with rfl | hx
        · omega
        · exact h2 x hx
      · cases h
        refine ⟨List.mem_cons_self, fun x hx => ?_⟩
        rcases List.mem_cons.1 hx with rfl | hx
        · exact le_refl _
        · have := h2 x hx; omega

theorem smallest_isSome {l : List (Term H)} (h : l ≠ []) : (smallest l).isSome := by
  cases l with
  | nil => exact absurd rfl h
  | cons t ts =>
    unfold smallest
    split
    · simp
    · split_ifs <;> simp

/-- Paths can be composed. -/
theorem Avoid.trans {d' d sub p : Term H} (h1 : Avoid d' d p) (h2 : Avoid d' sub d) :
    Avoid d' sub p := by
  induction h1 with
  | here => exact h2
  | child hd ht _ ih => exact .child hd ht ih

/-- Below a smaller term there is nothing larger to go through. -/
theorem Avoid.of_size {d sub x : Term H} (ho : Occurs sub x) (hs : x.size < d.size) :
    Avoid d sub x := by
  induction ho with
  | refl => exact .here (by rintro rfl; omega)
  | @child t h ts ht ho ih =>
    have := size_lt_of_mem (h := h) ht
    exact .child (by rintro rfl; omega) ht (ih (by omega))

/-- A path from `x` to `sub` avoiding `d` if no strict sub-term of `x` above `sub` is `d`. -/
theorem idom_spec {p sub d : Term H} (ho : Occurs sub p) (h : idom p sub = some d) :
    d ≠ sub ∧ Dominates p d sub ∧ ∀ d', d' ≠ sub → Dominates p d' sub → Dominates p d' d := by
  obtain ⟨hm, hmin⟩ := smallest_spec h
  rw [mem_strictDoms ho] at hm
  refine ⟨hm.1, hm.2, ?_⟩
  intro d' hne hd' hav
  have hsz : d.size ≤ d'.size := hmin d' ((mem_strictDoms ho).2 ⟨hne, hd'⟩)
  have hdd : d' ≠ d := by
    rintro rfl
    -- a path to `d'` avoiding `d'`
    have : ∀ x, Avoid d' d' x → False := by
      intro x hx
      induction hx with
      | here h => exact h rfl
      | child _ _ _ ih => exact ih
    exact this _ hav
  refine hd' (hav.trans ?_)
  obtain ⟨hsd, _⟩ := hm.2.between ho
  -- from `d` to `sub`, sizes are at most that of `d`, so only `d` itself could be `d'`
  cases hsd with
  | refl => exact absurd rfl hm.1
  | child ht ho' =>
    refine .child (fun e => hdd e.symm) ht (Avoid.of_size ho' ?_)
    have := size_lt_of_mem (h := by assumption) ht
    omega

theorem idom_isSome {p sub : Term H} (ho : Occurs sub p) (hne : p ≠ sub) :
    (idom p sub).isSome := by
  refine smallest_isSome ?_
  intro he
  have : p ∈ strictDoms p sub := by
    rw [mem_strictDoms ho]
    refine ⟨hne, ?_⟩
    intro ha
    cases ha with
    | here h => exact h rfl
    | child h _ _ => exact h rfl
  rw [he] at this; cases this

/-! ### Scoping -/

/-- Every symbol is bound by at most one sub-term (which may be shared), no bound symbol is free in
the whole program, and a symbol bound by a node is used in at most one of its arguments. This is what
construction through the frontend guarantees: every `Index`/`Variable` is created fresh for the one
node binding it. -/
structure UniqueBinders (p : Term H) : Prop where
  uniq : ∀ (h : H) ts (k : H) us s, Occurs (node h ts) p → Occurs (node k us) p →
    s ∈ Lang.captured h → s ∈ Lang.captured k → node h ts = node k us
  closed : Disjoint (binders p) (fv p)
  single : ∀ (h : H) ts s, Occurs (node h ts) p → s ∈ Lang.captured h →
    ∀ (i j : Nat) (a b : Term H), ts[i]? = some a → ts[j]? = some b → s ∈ fv a → s ∈ fv b → i = j

theorem mem_binders_iff {s : Sym} {p : Term H} :
    s ∈ binders p ↔ ∃ h ts, Occurs (node h ts) p ∧ s ∈ Lang.captured h := by
  induction p using ind with
  | step h ts ih =>
    rw [mem_binders]
    constructor
    · rintro (hc | ⟨t, ht, hs⟩)
      · exact ⟨h, ts, .refl _, hc⟩
      · obtain ⟨k, us, ho, hc⟩ := (ih t ht).1 hs
        exact ⟨k, us, .child ht ho, hc⟩
    · rintro ⟨k, us, ho, hc⟩
      cases ho with
      | refl => exact Or.inl hc
      | child ht ho => exact Or.inr ⟨_, ht, (ih _ ht).2 ⟨k, us, ho, hc⟩⟩

theorem UniqueBinders.noShadow {p : Term H} (hu : UniqueBinders p) (hl : LetFree p) :
    NoShadow p := by
  have : ∀ t, Occurs t p → NoShadow t := by
    intro t
    induction t using ind with
    | step h ts ih =>
      intro ho
      refine .node ?_ ?_ ?_
      · intro t ht
        rw [Finset.disjoint_left]
        intro s hc hb
        obtain ⟨k, us, ho', hc'⟩ := mem_binders_iff.1 hb
        have he := hu.uniq h ts k us s ho ((ho'.trans (.child ht (.refl _))).trans ho) hc hc'
        have h1 := ho'.size_le
        have h2 := size_lt_of_mem (h := h) ht
        rw [← he] at h1; omega
      · intro v bind body hv _
        rw [hl h ts ho] at hv; cases hv
      · intro t ht
        exact ih t ht ((Occurs.child ht (.refl _)).trans ho)
  exact this p (.refl _)

/-- On a path avoiding `d` from `q` (where `s` is not free) down to `sub` (where it is), some node
captures `s` and the path continues in an argument, other than `d`, that has `s` free. -/
theorem Avoid.capture {d sub q : Term H} {s : Sym} (hs : s ∈ fv sub) (h : Avoid d sub q) :
    s ∉ fv q → ∃ k us t, Occurs (node k us) q ∧ s ∈ Lang.captured k ∧ t ∈ us ∧ s ∈ fv t ∧
      t ≠ d ∧ Occurs sub t := by
  induction h with
  | here => intro hn; exact absurd hs hn
  | @child h ts t hne ht ha ih =>
    intro hn
    by_cases hst : s ∈ fv t
    · have hc : s ∈ Lang.captured h := by
        by_contra hc
        exact hn (mem_fv.2 ⟨Or.inr ⟨t, ht, hst⟩, hc⟩)
      refine ⟨h, ts, t, .refl _, hc, ht, hst, ?_, ha.occurs⟩
      rintro rfl
      cases ha with
      | here h => exact h rfl
      | child h _ _ => exact h rfl
    · obtain ⟨k, us, t', h1, h2⟩ := ih hst
      exact ⟨k, us, t', .child ht h1, h2⟩

theorem _root_.Verif.Term.Occurs.capture {sub q : Term H} {s : Sym} (hs : s ∈ fv sub) (h : Occurs sub q) :
    s ∉ fv q → ∃ k us t, Occurs (node k us) q ∧ s ∈ Lang.captured k ∧ t ∈ us ∧ s ∈ fv t ∧
      Occurs sub t := by
  induction h with
  | refl => intro hn; exact absurd hs hn
  | @child t h ts ht ha ih =>
    intro hn
    by_cases hst : s ∈ fv t
    · have hc : s ∈ Lang.captured h := by
        by_contra hc
        exact hn (mem_fv.2 ⟨Or.inr ⟨t, ht, hst⟩, hc⟩)
      exact ⟨h, ts, t, .refl _, hc, ht, hst, ha⟩
    · obtain ⟨k, us, t', h1, h2⟩ := ih hst
      exact ⟨k, us, t', .child ht h1, h2⟩

theorem UniqueBinders.single_child {p : Term H} (hu : UniqueBinders p) {h : H}
    {ts : List (Term H)} {s : Sym} (ho : Occurs (node h ts) p) (hc : s ∈ Lang.captured h)
    {a b : Term H} (ha : a ∈ ts) (hb : b ∈ ts) (hsa : s ∈ fv a) (hsb : s ∈ fv b) : a = b := by
  obtain ⟨i, hi⟩ := List.getElem?_of_mem ha
  obtain ⟨j, hj⟩ := List.getElem?_of_mem hb
  have := hu.single h ts s ho hc i j a b hi hj hsa hsb
  subst this
  rw [hi] at hj; cases hj; rfl

theorem exists_parent_of_count {p sub : Term H} (hd : 1 < inDegree p sub) :
    (∃ u v, u ≠ v ∧ Occurs u p ∧ Occurs v p ∧ sub ∈ u.subs ∧ sub ∈ v.subs) ∨
    (∃ u, Occurs u p ∧ 1 < u.subs.count sub) := by
  by_contra hcon
  rw [not_or] at hcon
  obtain ⟨h1, h2⟩ := hcon
  have hle : ∀ u ∈ order p, u.subs.count sub ≤ 1 := by
    intro u hu
    by_contra hlt
    exact h2 ⟨u, mem_order.1 hu, by omega⟩
  have hmem : ∀ u ∈ order p, Occurs u p := fun u hu => mem_order.1 hu
  have key : ∀ l : List (Term H), l.Nodup → (∀ u ∈ l, u ∈ order p) →
      (l.map (fun u => u.subs.count sub)).sum ≤ 1 := by
    intro l
    induction l with
    | nil => intro _ _; simp
    | cons u l ih =>
      intro hn hl
      rw [List.nodup_cons] at hn
      rw [List.map_cons, List.sum_cons]
      have hu := hl u List.mem_cons_self
      have := ih hn.2 (fun x hx => hl x (List.mem_cons_of_mem _ hx))
      by_cases hz : u.subs.count sub = 0
      · omega
      · have hz' : sub ∈ u.subs := List.count_pos_iff.1 (by omega)
        have : (l.map (fun u => u.subs.count sub)).sum = 0 := by
          rw [List.sum_eq_zero]
          intro x hx
          obtain ⟨v, hv, rfl⟩ := List.mem_map.1 hx
          by_contra hne
          have hv' : sub ∈ v.subs := List.count_pos_iff.1 (by omega)
          refine h1 ⟨u, v, ?_, hmem u hu, hmem v (hl v (List.mem_cons_of_mem _ hv)), hz', hv'⟩
          rintro rfl
          exact hn.1 hv
        have := hle u hu
        omega
  have := key (order p) (order_nodup p) (fun _ h => h)
  unfold inDegree at hd
  omega

theorem duplicate_positions {α : Type} {t : α} {ts : List α} (hd : List.Duplicate t ts) :
    ∃ i j : Nat, i < j ∧ ts[i]? = some t ∧ ts[j]? = some t := by
  induction hd with
  | cons_mem hm =>
    obtain ⟨j, hj⟩ := List.getElem?_of_mem hm
    exact ⟨0, j + 1, by omega, by simp, by simpa using hj⟩
  | cons_duplicate _ ih =>
    obtain ⟨i, j, hij, hi, hj⟩ := ih
    exact ⟨i + 1, j + 1, by omega, by simpa using hi, by simpa using hj⟩

/-- An expression with several uses is bound at a place where all its symbols are in scope. -/
theorem idom_scope {p sub site : Term H} (hu : UniqueBinders p) (ho : Occurs sub p)
    (hdeg : 1 < inDegree p sub) (hid : idom p sub = some site) :
    Occurs sub site ∧ sub ≠ site ∧ fv sub ⊆ fv site := by
  obtain ⟨hne, hdom, himm⟩ := idom_spec ho hid
  obtain ⟨hss, hsp⟩ := hdom.between ho
  refine ⟨hss, fun e => hne e.symm, ?_⟩
  intro s hs
  by_contra hns
  obtain ⟨h, ts, t, hn, hc, ht, hst, hsub⟩ := hss.capture hs hns
  have hnp : Occurs (node h ts) p := hn.trans hsp
  have hsnp : s ∉ fv p := fun hsp' =>
    Finset.disjoint_left.1 hu.closed (mem_binders_iff.2 ⟨h, ts, hnp, hc⟩) hsp'
  -- the argument `t` of the binder of `s` dominates `sub`
  have htdom : Dominates p t sub := by
    intro hav
    obtain ⟨k, us, t', hk, hck, ht', hst', htne, _⟩ := hav.capture hs hsnp
    have he := hu.uniq h ts k us s hnp hk hc hck
    cases he
    exact htne (hu.single_child hnp hc ht' ht hst' hst)
  by_cases hts : t = sub
  · -- `sub` itself is the scoped argument: then it has only one use
    subst hts
    rcases exists_parent_of_count hdeg with ⟨u, v, huv, huo, hvo, hus, hvs⟩ | ⟨u, huo, hcnt⟩
    · have only : ∀ w, Occurs w p → t ∈ w.subs → w = node h ts := by
        intro w hw hwt
        obtain ⟨k, us⟩ := w
        by_cases hck : s ∈ Lang.captured k
        · exact (hu.uniq h ts k us s hnp hw hc hck).symm
        · exfalso
          have hsw : s ∈ fv (node k us) := mem_fv.2 ⟨Or.inr ⟨t, hwt, hs⟩, hck⟩
          obtain ⟨k', us', t', hk', hck', ht', hst', hocc⟩ := hw.capture hsw hsnp
          have he := hu.uniq h ts k' us' s hnp hk' hc hck'
          cases he
          have := hu.single_child hnp hc ht' ht hst' hst
          subst this
          have h1 := hocc.size_le
          have h2 := size_lt_of_mem (h := k) hwt
          simp only [Term.subs] at h2
          omega
      exact huv ((only u huo hus).trans (only v hvo hvs).symm)
    · have hmem : t ∈ u.subs := List.count_pos_iff.1 (by omega)
      have hu' : u = node h ts := by
        obtain ⟨k, us⟩ := u
        by_cases hck : s ∈ Lang.captured k
        · exact (hu.uniq h ts k us s hnp huo hc hck).symm
        · exfalso
          have hsw : s ∈ fv (node k us) := mem_fv.2 ⟨Or.inr ⟨t, hmem, hs⟩, hck⟩
          obtain ⟨k', us', t', hk', hck', ht', hst', hocc⟩ := huo.capture hsw hsnp
          have he := hu.uniq h ts k' us' s hnp hk' hc hck'
          cases he
          have := hu.single_child hnp hc ht' ht hst' hst
          subst this
          have h1 := hocc.size_le
          have h2 := size_lt_of_mem (h := k) hmem
          simp only [Term.subs] at h2
          omega
      subst hu'
      simp only [Term.subs] at hcnt
      -- two positions
      have hdup : ∃ i j : Nat, i ≠ j ∧ ts[i]? = some t ∧ ts[j]? = some t := by
        have hd : List.Duplicate t ts := List.duplicate_iff_two_le_count.2 (by omega)
        obtain ⟨i, j, hij, hi, hj⟩ := duplicate_positions hd
        exact ⟨i, j, by omega, hi, hj⟩
      obtain ⟨i, j, hij, hi, hj⟩ := hdup
      exact hij (hu.single h ts s hnp hc i j t t hi hj hs hs)
  · have h1 := himm t hts htdom
    have h2 := (h1.between hsp).1
    have h3 := h2.size_le
    have h4 := hn.size_le
    have h5 := size_lt_of_mem (h := h) ht
    omega

theorem csePairs_ok {p : Term H} (hu : UniqueBinders p) : ∀ q ∈ csePairs p,
    Occurs q.2 q.1 ∧ q.2 ≠ q.1 ∧ fv q.2 ⊆ fv q.1 := by
  intro q hq
  unfold csePairs at hq
  rw [List.mem_filterMap] at hq
  obtain ⟨sub, hsub, hq⟩ := hq
  split_ifs at hq with hc
  rw [Option.map_eq_some_iff] at hq
  obtain ⟨site, hid, rfl⟩ := hq
  exact idom_scope hu (mem_order.1 hsub) hc.1 hid

end Verif.Midend
