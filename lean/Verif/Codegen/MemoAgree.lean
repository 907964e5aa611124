import Verif.Codegen.Memo
import Verif.Codegen.Typed
import Verif.Frontend.InferSizes

/-! The code of an expression depends only on what is known about its free symbols. -/

set_option linter.unusedSectionVars false

namespace Verif.Codegen
open Verif.Phi Verif.Term Verif.Yarr Verif.Arr Verif.Midend
variable {F : Type}

/-! ### Binders -/

/-- How much a node counts in `height`. A fold counts twice, because its plan may have a comprehension instead. -/
def wt : Phi.Head F → Nat
  | .fold _ _ => 2
  | .letv _ | .vec _ | .reduce _ _ => 1
  | _ => 0

/-- How deep binders are nested. -/
def height (e : Expr F) : Nat := cata (fun h hs => wt h + hs.foldr max 0) e

theorem height_node (h : Phi.Head F) (ts : List (Expr F)) :
    height (node h ts) = wt h + (ts.map height).foldr max 0 := cata_node _ _ _

theorem le_foldr_max {l : List Nat} {n : Nat} (h : n ∈ l) : n ≤ l.foldr max 0 := by
  induction l with
  | nil => cases h
  | cons m l ih =>
    rcases List.mem_cons.1 h with rfl | h
    · exact le_max_left _ _
    · exact (ih h).trans (le_max_right _ _)

theorem foldr_max_le {l : List Nat} {n : Nat} (h : ∀ m ∈ l, m ≤ n) : l.foldr max 0 ≤ n := by
  induction l with
  | nil => exact Nat.zero_le _
  | cons m l ih => exact max_le (h m (by simp)) (ih fun k hk => h k (by simp [hk]))

theorem height_child {h : Phi.Head F} {ts : List (Expr F)} {t : Expr F} (ht : t ∈ ts) :
    wt h + height t ≤ height (node h ts) := by
  rw [height_node]
  exact Nat.add_le_add_left (le_foldr_max (List.mem_map.2 ⟨t, ht, rfl⟩)) _

/-- What is bound by a node in the compiler: its symbols, the new index of a reduction and the new indices of a fold
that is compiled to `einsum`. -/
def caps (o : Opts F) : Expr F → Finset Sym
  | .node h ts => Phi.Head.captured h ∪
      (match h with
        | .reduce x _ => {.idx (o.batch x)}
        | _ => ∅) ∪
      (match planned o h ts with
        | some p => (p.new.map Sym.idx).toFinset
        | none => ∅)

/-- All binders in the expression belong to `N`. -/
def Known (N : Expr F → Prop) (e : Expr F) : Prop := ∀ u, Occurs u e → wt u.head ≠ 0 → N u

theorem Known.child {N : Expr F → Prop} {h : Phi.Head F} {ts : List (Expr F)} (hk : Known N (node h ts)) {t : Expr F}
    (ht : t ∈ ts) : Known N t := fun u hu hw => hk u (.child ht hu) hw

theorem Known.node {N : Expr F → Prop} {h : Phi.Head F} {ts : List (Expr F)} (h0 : wt h = 0)
    (hk : ∀ t ∈ ts, Known N t) : Known N (.node h ts) := by
  intro u hu hw
  cases hu with
  | refl => exact absurd h0 hw
  | child ht ho => exact hk _ ht u ho hw

theorem Known.self {N : Expr F → Prop} {h : Phi.Head F} {ts : List (Expr F)} (hk : Known N (.node h ts))
    (h0 : wt h ≠ 0) : N (.node h ts) := hk _ (.refl _) h0

/-- A binder has as many sub-expressions as it should. -/
def formed : Phi.Head F → List (Expr F) → Bool
  | .letv _, [_, _] | .vec _, [_, _] | .fold _ _, [_, _, _] | .reduce _ _, _ :: _ :: _ => true
  | _, _ => false

/-- The expressions in a plan that are compiled for the indices in scope. -/
def Plan.outer : Plan F → List (Expr F)
  | .fail => []
  | .bulk _ _ _ elems init => [elems, init]
  | .dot _ sums _ => sums.map Prod.snd

/-- The expressions in a plan that are compiled for the new indices as well. -/
def Plan.inner : Plan F → List (Expr F)
  | .dot _ _ products => products.flatMap Prod.snd
  | _ => []

/-- No two binders of `N` bind the same, and none binds an input. The binders in the expressions of a plan belong to
`N` too. -/
structure Once (o : Opts F) (N : Expr F → Prop) (inputs : Finset Sym) : Prop where
  unique : ∀ B B', N B → N B' → ∀ s, s ∈ caps o B → s ∈ caps o B' → B = B'
  fresh : ∀ B, N B → ∀ s ∈ caps o B, s ∉ inputs
  counter : ∀ c a ts, N (node (.fold c a) ts) → c ≠ a
  formed : ∀ h ts, N (node h ts) → Codegen.formed h ts = true
  plan : ∀ c a n z b p, N (fold c a n z b) → o.plan c a n z b = some p →
    (∀ t ∈ p.outer, Known N t ∧ Scoped t ∧ height t < height (fold c a n z b) ∧ fv t ⊆ fv (fold c a n z b)) ∧
    ∀ t ∈ p.inner, Known N t ∧ Scoped t ∧ height t < height (fold c a n z b) ∧
      fv t ⊆ fv (fold c a n z b) ∪ (p.new.map Sym.idx).toFinset

/-! ### Two contexts -/

/-- The contexts agree on the symbols in `S`. -/
def Same (S : Finset Sym) (s : Nat → Option (YExpr F)) (v : Nat → List Nat) (s' : Nat → Option (YExpr F))
    (v' : Nat → List Nat) : Prop :=
  (∀ i, Sym.idx i ∈ S → s i = s' i) ∧ ∀ u, Sym.var u ∈ S → v u = v' u ∧ ∀ i ∈ v u, s i = s' i

/-- The new indices of reductions have no size, and counters of loops no axes; nor have accumulators of folds that are
not compiled to loops. -/
structure Clean (o : Opts F) (N : Expr F → Prop) (s : Nat → Option (YExpr F)) (v : Nat → List Nat) : Prop where
  batch : ∀ x y ts, N (node (.reduce x y) ts) → s (o.batch x) = none
  counter : ∀ c a ts, N (node (.fold c a) ts) → v c = []
  acc : ∀ c a ts, N (node (.fold c a) ts) → planned o (.fold c a) ts ≠ none → v a = []

section
variable {s s' : Nat → Option (YExpr F)} {v v' : Nat → List Nat} {S T : Finset Sym}

theorem Same.mono (h : Same T s v s' v') (hs : S ⊆ T) : Same S s v s' v' :=
  ⟨fun i hi => h.1 i (hs hi), fun u hu => h.2 u (hs hu)⟩

/-- A variable more. -/
theorem Same.var (h : Same S s v s' v') {a : Nat} {l : List Nat} (hl : ∀ i ∈ l, s i = s' i)
    (hT : ∀ x ∈ T, x ∈ S ∨ x = .var a) : Same T s (upd v a l) s' (upd v' a l) := by
  refine ⟨fun i hi => h.1 i ((hT _ hi).resolve_right (by simp)), fun u hu => ?_⟩
  unfold upd
  split
  · exact ⟨rfl, hl⟩
  · rename_i hne
    exact h.2 u ((hT _ hu).resolve_right (by simpa using hne))

/-- An index more. -/
theorem Same.idx (h : Same S s v s' v') {j : Nat} {n : Option (YExpr F)} (hT : ∀ x ∈ T, x ∈ S ∨ x = .idx j) :
    Same T (upd s j n) v (upd s' j n) v' := by
  have key : ∀ i, (i ≠ j → s i = s' i) → upd s j n i = upd s' j n i := by
    intro i hi
    unfold upd
    split
    · rfl
    · exact hi ‹_›
  refine ⟨fun i hi => key i fun hne => h.1 i ((hT _ hi).resolve_right (by simpa using hne)), fun u hu => ?_⟩
  have := h.2 u ((hT _ hu).resolve_right (by simp))
  exact ⟨this.1, fun i hi => key i fun _ => this.2 i hi⟩

theorem withSums_not_mem {ns : List (Nat × YExpr F)} {i : Nat} (h : i ∉ ns.map Prod.fst) : withSums s ns i = s i := by
  unfold withSums
  induction ns generalizing s with
  | nil => rfl
  | cons p ns ih =>
    rw [List.foldl_cons, ih fun hi => h (by simp [hi])]
    unfold upd
    rw [if_neg fun hi => h (by simp [hi])]

theorem withSums_congr {ns : List (Nat × YExpr F)} {i : Nat} (h : i ∉ ns.map Prod.fst → s i = s' i) :
    withSums s ns i = withSums s' ns i := by
  unfold withSums
  induction ns generalizing s s' with
  | nil => exact h (by simp)
  | cons p ns ih =>
    rw [List.foldl_cons, List.foldl_cons]
    refine ih fun hi => ?_
    unfold upd
    split
    · rfl
    · exact h (by simp only [List.map_cons, List.mem_cons, not_or]; exact ⟨‹_›, hi⟩)

/-- New indices of an `einsum`. -/
theorem Same.sums (h : Same S s v s' v') {ns : List (Nat × YExpr F)}
    (hT : ∀ x ∈ T, x ∈ S ∨ ∃ i ∈ ns.map Prod.fst, x = .idx i) :
    Same T (withSums s ns) v (withSums s' ns) v' := by
  refine ⟨fun i hi => withSums_congr fun hn => h.1 i ((hT _ hi).resolve_right ?_), fun u hu => ?_⟩
  · rintro ⟨j, hj, e⟩
    cases e
    exact hn hj
  · have := h.2 u ((hT _ hu).resolve_right (by simp))
    exact ⟨this.1, fun i hi => withSums_congr fun _ => this.2 i hi⟩

end

section
variable {o : Opts F} {N : Expr F → Prop} {inputs : Finset Sym} {s : Nat → Option (YExpr F)} {v : Nat → List Nat}

theorem batch_mem_caps (o : Opts F) (x y : Nat) (ts : List (Expr F)) :
    Sym.idx (o.batch x) ∈ caps o (node (.reduce x y) ts) := by simp [caps]

theorem captured_subset_caps (o : Opts F) (h : Phi.Head F) (ts : List (Expr F)) :
    Phi.Head.captured h ⊆ caps o (node h ts) := by
  intro s hs
  unfold caps
  exact Finset.mem_union_left _ (Finset.mem_union_left _ hs)

theorem new_subset_caps {c a : Nat} {n z b : Expr F} {p : Plan F} (hp : o.plan c a n z b = some p) :
    (p.new.map Sym.idx).toFinset ⊆ caps o (fold c a n z b) := by
  intro s hs
  refine Finset.mem_union_right _ ?_
  simp only [planned, hp]
  exact hs

/-- Nothing but a reduction binds its new index. -/
theorem Once.ne_batch (ho : Once o N inputs) {h : Phi.Head F} {ts : List (Expr F)} {j : Nat} (hN : N (node h ts))
    (hj : Sym.idx j ∈ caps o (node h ts)) (hr : ∀ x y, h ≠ .reduce x y) :
    ∀ x y us, N (node (.reduce x y) us) → o.batch x ≠ j := by
  intro x y us hR e
  have := ho.unique _ _ hR hN (.idx j) (e ▸ batch_mem_caps o x y us) hj
  cases this
  exact hr x y rfl

/-- A variable that is not a counter. -/
theorem Clean.var (hc : Clean o N s v) (ho : Once o N inputs) {h : Phi.Head F} {ts : List (Expr F)} (hN : N (node h ts))
    {a : Nat} {l : List Nat} (ha : Sym.var a ∈ caps o (node h ts)) (hr : ∀ c b, h = .fold c b → c ≠ a)
    (hpl : planned o h ts = none) : Clean o N s (upd v a l) := by
  refine ⟨hc.batch, fun c b us hF => ?_, fun c b us hF hp => ?_⟩
  on_goal 2 =>
    have : b ≠ a := by
      rintro rfl
      have := ho.unique _ _ hF hN (.var b) (captured_subset_caps _ _ _ (by simp [Phi.Head.captured])) ha
      cases this
      exact hp hpl
    unfold upd
    rw [if_neg this]
    exact hc.acc c b us hF hp
  have : c ≠ a := by
    rintro rfl
    have := ho.unique _ _ hF hN (.var c) (captured_subset_caps _ _ _ (by simp [Phi.Head.captured])) ha
    cases this
    exact hr c b rfl rfl
  unfold upd
  rw [if_neg this]
  exact hc.counter c b us hF

/-- An index that is not the new index of a reduction. -/
theorem Clean.idx (hc : Clean o N s v) (ho : Once o N inputs) {h : Phi.Head F} {ts : List (Expr F)} (hN : N (node h ts))
    {j : Nat} {n : Option (YExpr F)} (hj : Sym.idx j ∈ caps o (node h ts)) (hr : ∀ x y, h ≠ .reduce x y) :
    Clean o N (upd s j n) v := by
  refine ⟨fun x y us hR => ?_, hc.counter, hc.acc⟩
  unfold upd
  rw [if_neg (ho.ne_batch hN hj hr x y us hR)]
  exact hc.batch x y us hR

/-- Several such indices. -/
theorem Clean.sums (hc : Clean o N s v) (ho : Once o N inputs) {h : Phi.Head F} {ts : List (Expr F)} (hN : N (node h ts))
    {ns : List (Nat × YExpr F)} (hj : ∀ j ∈ ns.map Prod.fst, Sym.idx j ∈ caps o (node h ts))
    (hr : ∀ x y, h ≠ .reduce x y) : Clean o N (withSums s ns) v := by
  refine ⟨fun x y us hR => ?_, hc.counter, hc.acc⟩
  rw [withSums_not_mem fun hm => ho.ne_batch hN (hj _ hm) hr x y us hR rfl]
  exact hc.batch x y us hR

end

/-! ### Alignment -/

theorem expands_mem {axes into : List Nat} {k : Nat} {p : Nat × Nat} (h : p ∈ expands axes k into) : p.2 ∈ into := by
  induction into generalizing k with
  | nil => cases h
  | cons x into ih =>
    unfold expands at h
    split at h
    · exact List.mem_cons_of_mem _ (ih h)
    · rcases List.mem_cons.1 h with rfl | h
      · simp
      · exact List.mem_cons_of_mem _ (ih h)

theorem dropLeading_mem {l : List (Nat × Nat)} {k : Nat} {p : Nat × Nat} (h : p ∈ dropLeading k l) :
    ∃ q ∈ l, q.2 = p.2 := by
  induction l generalizing k with
  | nil => cases h
  | cons q l ih =>
    obtain ⟨i, x⟩ := q
    unfold dropLeading at h
    split at h
    · obtain ⟨q, hq, e⟩ := ih h
      exact ⟨q, by simp [hq], e⟩
    · obtain ⟨q, hq, rfl⟩ := List.mem_map.1 h
      exact ⟨q, hq, rfl⟩

theorem repeatAll_congr {r r' : Nat → Option (YExpr F)} {l : List (Nat × Nat)} (h : ∀ p ∈ l, r p.2 = r' p.2)
    (e : YExpr F) : repeatAll r e l = repeatAll r' e l := by
  unfold repeatAll
  induction l generalizing e with
  | nil => rfl
  | cons p l ih =>
    rw [List.foldl_cons, List.foldl_cons, h p (by simp)]
    exact ih (fun q hq => h q (by simp [hq])) _

theorem align_congr {r r' : Nat → Option (YExpr F)} {into : List Nat} (h : ∀ i ∈ into, r i = r' i) (e : YExpr F)
    (axes : List Nat) (lp : Bool) : align e axes into lp r = align e axes into lp r' := by
  unfold align
  congr 1
  funext k
  split
  · dsimp only
    rw [repeatAll_congr fun p hp => ?_]
    split at hp
    · exact h _ (expands_mem hp)
    · obtain ⟨q, hq, e⟩ := dropLeading_mem hp
      rw [← e]
      exact h _ (expands_mem hq)
  · rfl

theorem repeated_congr {r r' : Nat → Option (YExpr F)} {into : List Nat} (h : ∀ i ∈ into, r i = r' i) (x : Axial F)
    (strict : Bool) : x.repeated strict into r = x.repeated strict into r' := by
  have h1 : x.aligned into true r = x.aligned into true r' := by
    unfold Axial.aligned
    congr 1
    funext k
    rw [align_congr h]
    simp only [align_congr h]
  unfold Axial.repeated
  rw [h1]
  have : (∃ i ∈ into, i ∉ x.axes ∧ r i = none) ↔ ∃ i ∈ into, i ∉ x.axes ∧ r' i = none := by
    constructor <;> rintro ⟨i, hi, hn, e⟩ <;> refine ⟨i, hi, hn, ?_⟩
    · rw [← h i hi]; exact e
    · rw [h i hi]; exact e
  simp only [this]

/-! ### Axes -/

section
variable {o : Opts F} {N : Expr F → Prop} {inputs : Finset Sym}

theorem fv_out {h : Phi.Head F} {ts : List (Expr F)} (hs : Scoped (node h ts)) {k : Nat} {t : Expr F}
    (ht : ts[k]? = some t) (ho : Phi.outside h k = true) : fv t ⊆ fv (node h ts) := by
  intro s hst
  refine mem_fv.2 ⟨Or.inr ⟨t, List.mem_of_getElem? ht, hst⟩, fun hc => ?_⟩
  exact Finset.disjoint_left.1 (hs.out k t ht ho) hc hst

/-- The axes are free indices, or axes of free variables. -/
def Supp (v : Nat → List Nat) (e : Expr F) (l : List Nat) : Prop :=
  ∀ i ∈ l, Sym.idx i ∈ fv e ∨ ∃ u, Sym.var u ∈ fv e ∧ i ∈ v u

theorem axesOf_supp (ho : Once o N inputs) (e : Expr F) : ∀ (V : Nat → Finset Nat), Known N e → Scoped e →
    (∀ c a ts, N (node (.fold c a) ts) → V c = ∅) → ∀ i ∈ axesOf o e V,
    Sym.idx i ∈ fv e ∨ ∃ v, Sym.var v ∈ fv e ∧ i ∈ V v := by
  induction e using size_ind with
  | step e ih' =>
    obtain ⟨h, ts⟩ := e
    intro V hk hsc hV i hi
    cases hpl : planned o h ts with
    | some p =>
      rw [axesOf_plan hpl] at hi
      obtain ⟨c, a, n, z, b, rfl, rfl, hpl⟩ := planned_some hpl
      obtain ⟨hout, hin⟩ := ho.plan c a n z b p (hk.self (by simp [wt])) hpl
      have hs : ∀ t ∈ p.exprs, Known N t → Scoped t → i ∈ axesOf o t V → i ∉ p.new →
          fv t ⊆ fv (fold c a n z b) ∪ (p.new.map Sym.idx).toFinset →
          Sym.idx i ∈ fv (fold c a n z b) ∨ ∃ v, Sym.var v ∈ fv (fold c a n z b) ∧ i ∈ V v := by
        intro t ht hkt hst hi hn hsub
        rcases ih' t (o.small c a n z b p hpl t ht).1 V hkt hst hV i hi with h | ⟨v, h, h'⟩
        · rcases Finset.mem_union.1 (hsub h) with h | h
          · exact .inl h
          · simp at h; exact absurd h hn
        · rcases Finset.mem_union.1 (hsub h) with h | h
          · exact .inr ⟨v, h, h'⟩
          · simp at h
      cases p with
      | fail => simp [axesPlan] at hi
      | bulk s k i elems init =>
        obtain ⟨h1, h1', -, h2⟩ := hout elems (by simp [Plan.outer])
        exact hs elems (by simp [Plan.exprs]) h1 h1' hi (by simp [Plan.new]) (h2.trans Finset.subset_union_left)
      | dot s sums products =>
        simp only [axesPlan, Finset.mem_sdiff, mem_unions, List.mem_map, exists_exists_and_eq_and, List.mem_toFinset] at hi
        obtain ⟨⟨t, ht, hi⟩, hn⟩ := hi
        obtain ⟨h1, h1', -, h2⟩ := hin t ht
        exact hs t (by simp only [Plan.exprs, List.mem_append]; exact .inr ht) h1 h1' hi (by
          simpa only [Plan.new, List.mem_map] using hn) h2
    | none =>
    have ih := fun t (ht : t ∈ ts) V => ih' t (size_lt_of_mem ht) V (hk.child ht) (hsc.children t ht)
    have up : ∀ t ∈ ts, ∀ s, s ∈ fv t → s ∉ Phi.Head.captured h → s ∈ fv (node h ts) :=
      fun t ht s hi hc => mem_fv.2 ⟨.inr ⟨t, ht, hi⟩, hc⟩
    have one : ∀ t ∈ ts, i ∈ axesOf o t V → Sym.idx i ∉ Phi.Head.captured h →
        (∀ v, Sym.var v ∈ fv t → i ∈ V v → Sym.var v ∉ Phi.Head.captured h) →
        Sym.idx i ∈ fv (node h ts) ∨ ∃ v, Sym.var v ∈ fv (node h ts) ∧ i ∈ V v := fun t ht hi hc hc' =>
      (ih t ht V hV i hi).imp (fun h => up t ht _ h hc) fun ⟨v, h1, h2⟩ => ⟨v, up t ht _ h1 (hc' v h1 h2), h2⟩
    have many : i ∈ unions ((ts.map fun t => (t, axesOf o t)).map fun t => t.2 V) →
        Phi.Head.captured h = ∅ → Sym.idx i ∈ fv (node h ts) ∨ ∃ v, Sym.var v ∈ fv (node h ts) ∧ i ∈ V v := by
      intro hi hc
      simp only [mem_unions, List.map_map, List.mem_map, exists_exists_and_eq_and, Function.comp] at hi
      obtain ⟨t, ht, hi⟩ := hi
      exact one t ht hi (by simp [hc]) (by simp [hc])
    have out : ∀ (k : Nat) t, ts[k]? = some t → Phi.outside h k = true → i ∈ axesOf o t V →
        Sym.idx i ∈ fv (node h ts) ∨ ∃ v, Sym.var v ∈ fv (node h ts) ∧ i ∈ V v := fun k t ht hout hi =>
      (ih t (List.mem_of_getElem? ht) V hV i hi).imp (fun h => fv_out hsc ht hout h)
        fun ⟨v, h1, h2⟩ => ⟨v, fv_out hsc ht hout h1, h2⟩
    have wf : wt h ≠ 0 → formed h ts = true := fun hw => ho.formed h ts (hk.self hw)
    rw [axesOf_node o h ts hpl] at hi
    cases h with
    | store s τ =>
      cases s with
      | idx j =>
        cases Finset.mem_singleton.1 hi
        exact .inl (mem_fv.2 ⟨.inl rfl, by simp [Lang.captured, Phi.Head.captured]⟩)
      | var v => exact .inr ⟨v, mem_fv.2 ⟨.inl rfl, by simp [Lang.captured, Phi.Head.captured]⟩, hi⟩
    | letv v =>
      rcases ts with _ | ⟨b, _ | ⟨e, _ | ⟨_, _⟩⟩⟩ <;> try (have := wf (by simp [wt]); simp [formed] at this; done)
      have hV' : ∀ c a us, N (node (.fold c a) us) → upd V v (axesOf o b V) c = ∅ := by
        intro c a us hF
        have : c ≠ v := by
          rintro rfl
          cases ho.unique _ _ hF (hk.self (by simp [wt])) (.var c)
            (captured_subset_caps _ _ _ (by simp [Phi.Head.captured]))
            (captured_subset_caps _ _ _ (by simp [Phi.Head.captured]))
        unfold upd
        rw [if_neg this]
        exact hV c a us hF
      rcases ih e (by simp) _ hV' i hi with h | ⟨u, h, h'⟩
      · exact .inl (up e (by simp) _ h (by simp [Phi.Head.captured]))
      · unfold upd at h'
        split at h'
        · exact out 0 b rfl rfl h'
        · exact .inr ⟨u, up e (by simp) _ h (by simpa [Phi.Head.captured]), h'⟩
    | assertEq =>
      rcases ts with _ | ⟨a, l⟩
      · exact many hi rfl
      · exact one a (by simp) hi (by simp [Phi.Head.captured]) (by simp [Phi.Head.captured])
    | get =>
      rcases ts with _ | ⟨a, _ | ⟨b, _ | ⟨_, _⟩⟩⟩ <;> try exact many hi rfl
      simp only [List.map, axesStep] at hi
      split at hi
      · rename_i index c hw
        rcases Finset.mem_union.1 hi with hi | hi
        · exact one a (by simp) hi (by simp [Phi.Head.captured]) (by simp [Phi.Head.captured])
        · cases Finset.mem_singleton.1 hi
          exact .inl (up b (by simp) _ (window_index hw).1 (by simp [Phi.Head.captured]))
      · rcases Finset.mem_union.1 hi with hi | hi
        · exact one a (by simp) hi (by simp [Phi.Head.captured]) (by simp [Phi.Head.captured])
        · exact one b (by simp) hi (by simp [Phi.Head.captured]) (by simp [Phi.Head.captured])
    | fold c a =>
      rcases ts with _ | ⟨n, _ | ⟨z, _ | ⟨b, _ | ⟨_, _⟩⟩⟩⟩ <;> try (have := wf (by simp [wt]); simp [formed] at this; done)
      have hN : N (node (.fold c a) [n, z, b]) := hk.self (by simp [wt])
      have hV' : ∀ c' a' us, N (node (.fold c' a') us) → upd V a (axesOf o z V) c' = ∅ := by
        intro c' a' us hF
        have : c' ≠ a := by
          rintro rfl
          have := ho.unique _ _ hF hN (.var c')
            (captured_subset_caps _ _ _ (by simp [Phi.Head.captured]))
            (captured_subset_caps _ _ _ (by simp [Phi.Head.captured]))
          cases this
          exact ho.counter _ _ _ hN rfl
        unfold upd
        rw [if_neg this]
        exact hV c' a' us hF
      rcases ih b (by simp) _ hV' i hi with h | ⟨u, h, h'⟩
      · exact .inl (up b (by simp) _ h (by simp [Phi.Head.captured]))
      · unfold upd at h'
        split at h'
        · exact out 1 z rfl rfl h'
        · refine .inr ⟨u, up b (by simp) _ h ?_, h'⟩
          simp only [Phi.Head.captured, Finset.mem_insert, Finset.mem_singleton, Sym.var.injEq, not_or]
          refine ⟨?_, ‹_›⟩
          rintro rfl
          rw [hV u a _ hN] at h'
          simp at h'
    | vec j =>
      rcases ts with _ | ⟨n, _ | ⟨b, _ | ⟨_, _⟩⟩⟩ <;> try (have := wf (by simp [wt]); simp [formed] at this; done)
      obtain ⟨hi, hn⟩ := Finset.mem_sdiff.1 hi
      exact one b (by simp) hi (by simpa [Phi.Head.captured] using hn) (by simp [Phi.Head.captured])
    | const v τ => simp [axesStep] at hi
    | dim k => simp [axesStep] at hi
    | reduce x y =>
      rcases ts with _ | ⟨z, _ | ⟨b, vs⟩⟩ <;> try (have := wf (by simp [wt]); simp [formed] at this; done)
      have hN : N (node (.reduce x y) (z :: b :: vs)) := hk.self (by simp [wt])
      have hV' : ∀ A : Finset Nat, ∀ c a us, N (node (.fold c a) us) → upd (upd V x A) y A c = ∅ := by
        intro A c a us hF
        have : ∀ w, w = x ∨ w = y → c ≠ w := by
          rintro w hw rfl
          cases ho.unique _ _ hF hN (.var c)
            (captured_subset_caps _ _ _ (by simp [Phi.Head.captured]))
            (captured_subset_caps _ _ _ (by simp [Phi.Head.captured, hw]))
        unfold upd
        rw [if_neg (this y (.inr rfl)), if_neg (this x (.inl rfl))]
        exact hV c a us hF
      rcases ih b (by simp) _ (hV' _) i hi with h | ⟨u, h, h'⟩
      · exact .inl (up b (by simp) _ h (by simp [Phi.Head.captured]))
      · have key : i ∈ unions (((z, axesOf o z) :: vs.map fun t => (t, axesOf o t)).map fun t => t.2 V) →
            Sym.idx i ∈ fv (node (.reduce x y) (z :: b :: vs)) ∨
              ∃ v, Sym.var v ∈ fv (node (.reduce x y) (z :: b :: vs)) ∧ i ∈ V v := by
          intro hm
          simp only [mem_unions, List.mem_map, List.mem_cons, exists_exists_and_eq_and] at hm
          obtain ⟨q, hq, hm⟩ := hm
          rcases hq with rfl | ⟨t, ht, rfl⟩
          · exact out 0 z rfl rfl hm
          · obtain ⟨k, hk⟩ := List.getElem?_of_mem ht
            exact out (k + 2) t (by simpa using hk) (by simp [Phi.outside]) hm
        unfold upd at h'
        split at h'
        · exact key h'
        · split at h'
          · exact key h'
          · refine .inr ⟨u, up b (by simp) _ h ?_, h'⟩
            simp [Phi.Head.captured, *]
    | concat => exact many hi rfl
    | cons => exact many hi rfl
    | fst => exact many hi rfl
    | snd => exact many hi rfl
    | op f => exact many hi rfl
    | ext fn τ => exact many hi rfl

variable [FloatOps F]

theorem compile_supp (ho : Once o N inputs) {n : Nat} {s : Nat → Option (YExpr F)} {v : Nat → List Nat} {e : Expr F}
    {x : Axial F} (hk : Known N e) (hs : Scoped e) (hc : Clean o N s v) (hx : compile o n s v e = some x) :
    Supp v e x.axes := by
  intro i hi
  have h1 := (compile_axes o n s v (fun u => (v u).toFinset) e x (by simp) hx).2 i
  rcases axesOf_supp ho e _ hk hs (fun c a ts hF => by simp [hc.counter c a ts hF]) i (h1.1 hi) with h | ⟨u, h, h'⟩
  · exact .inl h
  · exact .inr ⟨u, h, by simpa using h'⟩

end

end Verif.Codegen
