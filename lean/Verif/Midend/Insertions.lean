import Verif.Midend.Inline

/-! Model of `_let` and `_apply_insertions` (`ein/midend/lining.py:16-37`). -/

set_option linter.unusedSectionVars false

namespace Verif.Midend
open Term
variable {H V : Type} [Lang H] [DecidableEq H]

/-- `_let(bindings, body)` (`lining.py:16-21`). -/
def letAll : List (Nat × Term H) → Term H → Term H
  | [], body => body
  | (v, bind) :: bs, body => wrapLet (letAll bs body) v bind

/-- `dict` lookup of a term; the newest entry wins (`lining.py:26-27`). -/
def lookupTerm (e : Term H) : List (Term H × Nat) → Option Nat
  | [] => none
  | (b, v) :: l => if e = b then some v else lookupTerm e l

theorem lookupTerm_mem {e : Term H} {B : List (Term H × Nat)} {v : Nat}
    (h : lookupTerm e B = some v) : (e, v) ∈ B := by
  induction B with
  | nil => simp [lookupTerm] at h
  | cons p B ih =>
    obtain ⟨b, w⟩ := p
    unfold lookupTerm at h
    split_ifs at h with hb
    · simp at h; simp [hb, h]
    · exact List.mem_cons_of_mem _ (ih h)

/-- The insertion loop (`lining.py:31-33`): bindings are processed in order, each one under the
replacements made for the previous ones. -/
def bindAll (go : List (Term H × Nat) → Term H → Option (Term H)) :
    List (Term H × Nat) → List (Nat × Term H) →
      Option (List (Nat × Term H) × List (Term H × Nat))
  | B, [] => some ([], B)
  | B, (v, bind) :: rest => do
    let bind' ← go B bind
    let r ← bindAll go ((bind, v) :: B) rest
    return ((v, bind') :: r.1, r.2)

/-- `go` over the sub-terms (`lining.py:35`). -/
def mapAll (go : Term H → Option (Term H)) : List (Term H) → Option (List (Term H))
  | [] => some []
  | t :: ts => do
    let t' ← go t
    let ts' ← mapAll go ts
    return t' :: ts'

/-- `_apply_insertions.go(expr, bindings)` (`lining.py:25-35`). `bindings[b] = b.wrap_var(v)` is
kept as the pair `(b, v)`. The fuel stands for Python's recursion limit: `none` when exhausted. -/
def applyGo (ins : Term H → List (Nat × Term H)) :
    Nat → List (Term H × Nat) → Term H → Option (Term H)
  | 0, _, _ => none
  | n + 1, B, e =>
    match lookupTerm e B with
    | some v => some (wrapVar e v)
    | none => do
      let r ← bindAll (applyGo ins n) B (ins e)
      let ts ← mapAll (applyGo ins n r.2) e.subs
      return letAll r.1 (node e.head ts)

/-- `_apply_insertions(program, insertions)` (`lining.py:24-37`). Recursion on a term only ever
moves to smaller terms when every binding occurs in its site, so `size program` is enough fuel. -/
def applyInsertions (ins : Term H → List (Nat × Term H)) (p : Term H) : Option (Term H) :=
  applyGo ins (p.size) [] p

theorem mapAll_forall₂ {go : Term H → Option (Term H)} {ts ts' : List (Term H)}
    (h : mapAll go ts = some ts') : List.Forall₂ (fun t t' => go t = some t') ts ts' := by
  induction ts generalizing ts' with
  | nil => simp [mapAll] at h; subst h; exact .nil
  | cons t ts ih =>
    simp only [mapAll, Option.bind_eq_bind, Option.bind_eq_some_iff, Option.pure_def] at h
    obtain ⟨t', ht, us, hus, he⟩ := h
    cases he
    exact .cons ht (ih hus)

theorem bindAll_cons {go : List (Term H × Nat) → Term H → Option (Term H)}
    {B : List (Term H × Nat)} {v : Nat} {bind : Term H} {rest : List (Nat × Term H)}
    {r : List (Nat × Term H) × List (Term H × Nat)}
    (h : bindAll go B ((v, bind) :: rest) = some r) :
    ∃ bind' r', go B bind = some bind' ∧ bindAll go ((bind, v) :: B) rest = some r' ∧
      r = ((v, bind') :: r'.1, r'.2) := by
  simp only [bindAll, Option.bind_eq_bind, Option.bind_eq_some_iff, Option.pure_def] at h
  obtain ⟨b', hb, r', hr, he⟩ := h
  cases he
  exact ⟨b', r', hb, hr, rfl⟩

/-- What a set of insertions must satisfy to be harmless. -/
structure InsOk (ins : Term H → List (Nat × Term H)) : Prop where
  /-- an expression is bound at an enclosing site … -/
  occurs : ∀ site v b, (v, b) ∈ ins site → Occurs b site ∧ b ≠ site
  /-- … out of whose scope it does not move … -/
  scope : ∀ site v b, (v, b) ∈ ins site → fv b ⊆ fv site
  /-- … under its own variable. -/
  inj : ∀ s₁ s₂ v b₁ b₂, (v, b₁) ∈ ins s₁ → (v, b₂) ∈ ins s₂ → s₁ = s₂
  nodup : ∀ s, ((ins s).map Prod.fst).Nodup

/-- `x` is a variable introduced at a site of size at most `k`. -/
def NewVar (ins : Term H → List (Nat × Term H)) (k : Nat) (x : Sym) : Prop :=
  ∃ s v b, (v, b) ∈ ins s ∧ s.size ≤ k ∧ x = .var v

theorem InsOk.size_lt {ins : Term H → List (Nat × Term H)} (hi : InsOk ins) {site b : Term H}
    {v : Nat} (h : (v, b) ∈ ins site) : b.size < site.size := by
  obtain ⟨ho, hne⟩ := hi.occurs _ _ _ h
  cases ho with
  | refl => exact absurd rfl hne
  | child ht ho => exact lt_of_le_of_lt ho.size_le (size_lt_of_mem ht)

/-- Invariant of the replacement list at a term of size `k`: every replaced term's variable was
introduced at a strictly larger site. -/
def BOk (ins : Term H → List (Nat × Term H)) (k : Nat) (B : List (Term H × Nat)) : Prop :=
  ∀ b v, (b, v) ∈ B → ∃ s b', (v, b') ∈ ins s ∧ k < s.size

/-- Within the insertion loop at site `e`: variables are from larger sites or already done here. -/
def BOk' (ins : Term H → List (Nat × Term H)) (e : Term H) (rest : List (Nat × Term H))
    (B : List (Term H × Nat)) : Prop :=
  ∀ b v, (b, v) ∈ B → (∃ s b', (v, b') ∈ ins s ∧ e.size ≤ s.size) ∧ v ∉ rest.map Prod.fst

theorem BOk.mono {ins : Term H → List (Nat × Term H)} {k l : Nat} (hkl : l ≤ k)
    {B : List (Term H × Nat)} (h : BOk ins k B) : BOk ins l B := by
  intro b v hm
  obtain ⟨s, b', h1, h2⟩ := h b v hm
  exact ⟨s, b', h1, by omega⟩

theorem BOk'.child {ins : Term H → List (Nat × Term H)} {e : Term H} {rest : List (Nat × Term H)}
    {B : List (Term H × Nat)} (h : BOk' ins e rest B) {k : Nat} (hk : k < e.size) :
    BOk ins k B := by
  intro b v hm
  obtain ⟨⟨s, b', h1, h2⟩, _⟩ := h b v hm
  exact ⟨s, b', h1, by omega⟩

theorem BOk.start {ins : Term H → List (Nat × Term H)} (hi : InsOk ins) {e : Term H}
    {B : List (Term H × Nat)} (h : BOk ins e.size B) : BOk' ins e (ins e) B := by
  intro b v hm
  obtain ⟨s, b', h1, h2⟩ := h b v hm
  refine ⟨⟨s, b', h1, by omega⟩, ?_⟩
  intro hv
  obtain ⟨⟨v', b''⟩, hb'', rfl⟩ := List.mem_map.1 hv
  have := hi.inj _ _ _ _ _ h1 hb''
  subst this; omega

theorem BOk'.step {ins : Term H → List (Nat × Term H)} {e : Term H} {v : Nat} {b : Term H}
    {rest : List (Nat × Term H)} {B : List (Term H × Nat)} (h : BOk' ins e ((v, b) :: rest) B)
    (hin : (v, b) ∈ ins e) (hnd : (((v, b) :: rest).map Prod.fst).Nodup) :
    BOk' ins e rest ((b, v) :: B) := by
  intro b' w hm
  rcases List.mem_cons.1 hm with he | hm
  · cases he
    refine ⟨⟨e, b, hin, le_refl _⟩, ?_⟩
    simp only [List.map_cons, List.nodup_cons] at hnd
    exact hnd.1
  · obtain ⟨h1, h2⟩ := h b' w hm
    refine ⟨h1, fun hw => h2 ?_⟩
    simp only [List.map_cons, List.mem_cons]
    exact Or.inr hw

/-- The variables used by the replacement list. -/
def bvars (B : List (Term H × Nat)) : Finset Sym := (B.map (fun p => Sym.var p.2)).toFinset

theorem mem_bvars {B : List (Term H × Nat)} {s : Sym} :
    s ∈ bvars B ↔ ∃ b v, (b, v) ∈ B ∧ s = .var v := by
  unfold bvars
  simp only [List.mem_toFinset, List.mem_map, Prod.exists]
  constructor
  · rintro ⟨b, v, h, rfl⟩; exact ⟨b, v, h, rfl⟩
  · rintro ⟨b, v, h, rfl⟩; exact ⟨b, v, h, rfl⟩

theorem wrapLet_fv {body bind : Term H} {v : Nat} {s : Sym} :
    s ∈ fv (wrapLet body v bind) ↔ (s ∈ fv bind ∨ s ∈ fv body) ∧ s ≠ .var v := by
  unfold wrapLet
  rw [mem_fv, Lang.symbol_let, Lang.captured_let]
  simp

theorem wrapLet_binders {body bind : Term H} {v : Nat} {s : Sym} :
    s ∈ binders (wrapLet body v bind) ↔ s = .var v ∨ s ∈ binders bind ∨ s ∈ binders body := by
  unfold wrapLet
  rw [mem_binders, Lang.captured_let]
  simp

theorem wrapVar_fv {t : Term H} {v : Nat} {s : Sym} : s ∈ fv (wrapVar t v) ↔ s = .var v := by
  unfold wrapVar
  rw [mem_fv, Lang.symbol_var, Lang.captured_symbol _ _ (Lang.symbol_var t v)]
  simp [eq_comm]

theorem wrapVar_binders {t : Term H} {v : Nat} {s : Sym} : s ∉ binders (wrapVar t v) := by
  unfold wrapVar
  rw [mem_binders, Lang.captured_symbol _ _ (Lang.symbol_var t v)]
  simp

theorem wrapVar_noShadow {t : Term H} {v : Nat} : NoShadow (wrapVar t v) := by
  refine NoShadow.node (by simp) ?_ (by simp)
  intro _ _ _ _ h; cases h

/-! ### Symbols of the result -/

/-- Free symbols and binders of the output. -/
structure OutOk (ins : Term H → List (Nat × Term H)) (B : List (Term H × Nat)) (e e' : Term H) :
    Prop where
  fv : fv e' ⊆ fv e ∪ bvars B
  binders : ∀ s ∈ binders e', s ∈ binders e ∨ NewVar ins e.size s
  noShadow : NoShadow e'

theorem forall₂_mem_right {α β : Type} {R : α → β → Prop} {l : List α} {l' : List β}
    (h : List.Forall₂ R l l') {b : β} (hb : b ∈ l') : ∃ a ∈ l, R a b := by
  induction h with
  | nil => cases hb
  | cons h1 _ ih =>
    rcases List.mem_cons.1 hb with rfl | hb
    · exact ⟨_, List.mem_cons_self, h1⟩
    · obtain ⟨a, ha, hr⟩ := ih hb
      exact ⟨a, List.mem_cons_of_mem _ ha, hr⟩

/-- Insertion variables are new: not bound or free anywhere in the program. -/
def InsFresh (ins : Term H → List (Nat × Term H)) (X : Finset Sym) : Prop :=
  ∀ s v b, (v, b) ∈ ins s → Sym.var v ∉ X

theorem applyGo_out {ins : Term H → List (Nat × Term H)} (hi : InsOk ins) (n : Nat) :
    ∀ (B : List (Term H × Nat)) (e e' : Term H),
      InsFresh ins (binders e ∪ fv e) → NoShadow e → BOk ins e.size B →
      applyGo ins n B e = some e' → OutOk ins B e e' := by
  induction n with
  | zero => intro B e e' _ _ _ h; simp [applyGo] at h
  | succ n ih =>
    intro B e e' hfr hns hB h
    unfold applyGo at h
    split at h
    · rename_i v hl
      cases h
      refine ⟨?_, ?_, wrapVar_noShadow⟩
      · intro s hs
        rw [wrapVar_fv] at hs
        exact Finset.mem_union_right _ (mem_bvars.2 ⟨e, v, lookupTerm_mem hl, hs⟩)
      · intro s hs; exact absurd hs wrapVar_binders
    · simp only [Option.bind_eq_bind, Option.bind_eq_some_iff, Option.pure_def] at h
      obtain ⟨r, hr, ts, hts, he⟩ := h
      cases he
      -- generalise over the insertion loop
      suffices H : ∀ (l : List (Nat × Term H)) (B : List (Term H × Nat))
          (r : List (Nat × Term H) × List (Term H × Nat)),
          (∀ p ∈ l, p ∈ ins e) → (l.map Prod.fst).Nodup → BOk' ins e l B →
          bindAll (applyGo ins n) B l = some r → mapAll (applyGo ins n r.2) e.subs = some ts →
          (fv (letAll r.1 (node e.head ts)) ⊆ fv e ∪ bvars B) ∧
          (∀ s ∈ binders (letAll r.1 (node e.head ts)), s ∈ binders e ∨
            (∃ v b, (v, b) ∈ l ∧ s = .var v) ∨ NewVar ins (e.size - 1) s) ∧
          NoShadow (letAll r.1 (node e.head ts)) by
        obtain ⟨h1, h2, h3⟩ := H (ins e) B r (fun _ h => h) (hi.nodup e) (hB.start hi) hr hts
        refine ⟨h1, ?_, h3⟩
        intro s hs
        rcases h2 s hs with h | ⟨v, b, hm, rfl⟩ | ⟨s', v, b, hm, hle, rfl⟩
        · exact Or.inl h
        · exact Or.inr ⟨e, v, b, hm, le_refl _, rfl⟩
        · exact Or.inr ⟨s', v, b, hm, by omega, rfl⟩
      intro l
      induction l with
      | nil =>
        intro B r _ _ hB' hr hts
        simp only [bindAll, Option.some.injEq] at hr
        subst hr
        obtain ⟨hd, es⟩ := e
        simp only [letAll, Term.head, Term.subs] at hts ⊢
        have hF := mapAll_forall₂ hts
        have hch : ∀ t' ∈ ts, ∃ t ∈ es, OutOk ins B t t' := by
          intro t' ht'
          obtain ⟨t, ht, hgo⟩ := forall₂_mem_right hF ht'
          refine ⟨t, ht, ih B t t' ?_ (hns.children t ht) (hB'.child (size_lt_of_mem ht)) hgo⟩
          intro s v b hm hx
          refine hfr s v b hm ?_
          rcases Finset.mem_union.1 hx with hx | hx
          · exact Finset.mem_union_left _ (binders_child_subset ht hx)
          · by_cases hc : Sym.var v ∈ Lang.captured hd
            · exact Finset.mem_union_left _ (captured_subset_binders hc)
            · exact Finset.mem_union_right _ (mem_fv.2 ⟨Or.inr ⟨t, ht, hx⟩, hc⟩)
        refine ⟨?_, ?_, ?_⟩
        · intro s hs
          rw [mem_fv] at hs
          obtain ⟨hs, hnc⟩ := hs
          rcases hs with hs | ⟨t', ht', hs⟩
          · exact Finset.mem_union_left _ (mem_fv.2 ⟨Or.inl hs, hnc⟩)
          · obtain ⟨t, ht, ho⟩ := hch t' ht'
            rcases Finset.mem_union.1 (ho.fv hs) with h1 | h1
            · exact Finset.mem_union_left _ (mem_fv.2 ⟨Or.inr ⟨t, ht, h1⟩, hnc⟩)
            · exact Finset.mem_union_right _ h1
        · intro s hs
          rcases mem_binders.1 hs with hs | ⟨t', ht', hs⟩
          · exact Or.inl (captured_subset_binders hs)
          · obtain ⟨t, ht, ho⟩ := hch t' ht'
            rcases ho.binders s hs with h1 | ⟨s', v, b, hm, hle, rfl⟩
            · exact Or.inl (binders_child_subset ht h1)
            · refine Or.inr (Or.inr ⟨s', v, b, hm, ?_, rfl⟩)
              have := size_lt_of_mem (h := hd) ht
              omega
        · refine NoShadow.node ?_ ?_ ?_
          · intro t' ht'
            obtain ⟨t, ht, ho⟩ := hch t' ht'
            rw [Finset.disjoint_left]
            intro s hc hs
            rcases ho.binders s hs with h1 | ⟨s', v, b, hm, hle, rfl⟩
            · exact Finset.disjoint_left.1 (hns.disjoint t ht) hc h1
            · exact hfr s' v b hm (Finset.mem_union_left _ (captured_subset_binders hc))
          · intro v bind body hv hts2 hmem
            subst hts2
            have hhd := Lang.letVar_inj _ _ hv
            subst hhd
            obtain ⟨es1, es2, rfl⟩ : ∃ a b, es = [a, b] := by
              have := hF.length_eq
              match es, this with
              | [a, b], _ => exact ⟨a, b, rfl⟩
            have hgo := (List.forall₂_cons.1 hF).1
            have ho : OutOk ins B es1 bind := by
              refine ih B es1 bind ?_ (hns.children es1 (by simp))
                (hB'.child (size_lt_of_mem (by simp))) hgo
              intro s w b hm hx
              refine hfr s w b hm ?_
              rcases Finset.mem_union.1 hx with hx | hx
              · exact Finset.mem_union_left _ (binders_child_subset (by simp) hx)
              · by_cases hc : Sym.var w ∈ Lang.captured (Lang.letHead v : H)
                · exact Finset.mem_union_left _ (captured_subset_binders hc)
                · exact Finset.mem_union_right _ (mem_fv.2 ⟨Or.inr ⟨es1, by simp, hx⟩, hc⟩)
            rcases Finset.mem_union.1 (ho.fv hmem) with h1 | h1
            · exact hns.letOk h1
            · obtain ⟨b, w, hm, he⟩ := mem_bvars.1 h1
              cases he
              obtain ⟨⟨s', b', hm', _⟩, _⟩ := hB' b v hm
              refine hfr s' v b' hm' (Finset.mem_union_left _ (captured_subset_binders ?_))
              rw [Lang.captured_let]; simp
          · intro t' ht'
            obtain ⟨t, ht, ho⟩ := hch t' ht'
            exact ho.noShadow
      | cons p l ihl =>
        obtain ⟨v, b⟩ := p
        intro B r hl hnd hB' hr hts
        obtain ⟨bind', r', hgo, hr', rfl⟩ := bindAll_cons hr
        have hin : (v, b) ∈ ins e := hl _ List.mem_cons_self
        obtain ⟨hocc, hne⟩ := hi.occurs _ _ _ hin
        have hsc := hi.scope _ _ _ hin
        have hlt := hi.size_lt hin
        have hob : OutOk ins B b bind' := by
          refine ih B b bind' ?_ (hns.occurs hocc) (hB'.child hlt) hgo
          intro s w b' hm hx
          refine hfr s w b' hm ?_
          rcases Finset.mem_union.1 hx with hx | hx
          · exact Finset.mem_union_left _ (binders_occurs hocc hx)
          · exact Finset.mem_union_right _ (hsc hx)
        have hnd' : (l.map Prod.fst).Nodup := by
          simp only [List.map_cons, List.nodup_cons] at hnd; exact hnd.2
        have hvl : v ∉ l.map Prod.fst := by
          simp only [List.map_cons, List.nodup_cons] at hnd; exact hnd.1
        obtain ⟨h1, h2, h3⟩ := ihl ((b, v) :: B) r' (fun p hp => hl p (List.mem_cons_of_mem _ hp))
          hnd' (hB'.step hin hnd) hr' hts
        have hvB : Sym.var v ∉ bvars B := by
          intro hv
          obtain ⟨b', w, hm, he⟩ := mem_bvars.1 hv
          cases he
          exact (hB' b' v hm).2 (by simp)
        have hve : Sym.var v ∉ binders e ∪ Term.fv e := hfr _ _ _ hin
        have hvb : Sym.var v ∉ Term.fv bind' := by
          intro hv
          rcases Finset.mem_union.1 (hob.fv hv) with h | h
          · exact hve (Finset.mem_union_right _ (hsc h))
          · exact hvB h
        have hnew : ¬ NewVar ins (e.size - 1) (.var v) := by
          rintro ⟨s, w, b', hm, hle, he⟩
          cases he
          have := hi.inj _ _ _ _ _ hin hm
          subst this
          have : 0 < e.size := by
            obtain ⟨hd, es⟩ := e; rw [size_node]; omega
          omega
        refine ⟨?_, ?_, ?_⟩
        · intro s hs
          simp only [letAll] at hs
          rw [wrapLet_fv] at hs
          obtain ⟨hs, hsv⟩ := hs
          rcases hs with hs | hs
          · rcases Finset.mem_union.1 (hob.fv hs) with h | h
            · exact Finset.mem_union_left _ (hsc h)
            · exact Finset.mem_union_right _ h
          · rcases Finset.mem_union.1 (h1 hs) with h | h
            · exact Finset.mem_union_left _ h
            · obtain ⟨b', w, hm, he⟩ := mem_bvars.1 h
              rcases List.mem_cons.1 hm with hm | hm
              · cases hm; exact absurd he hsv
              · exact Finset.mem_union_right _ (mem_bvars.2 ⟨b', w, hm, he⟩)
        · intro s hs
          simp only [letAll] at hs
          rw [wrapLet_binders] at hs
          rcases hs with rfl | hs | hs
          · exact Or.inr (Or.inl ⟨v, b, by simp, rfl⟩)
          · rcases hob.binders s hs with h | ⟨s', w, b', hm, hle, rfl⟩
            · exact Or.inl (binders_occurs hocc h)
            · exact Or.inr (Or.inr ⟨s', w, b', hm, by omega, rfl⟩)
          · rcases h2 s hs with h | ⟨w, b', hm, rfl⟩ | h
            · exact Or.inl h
            · exact Or.inr (Or.inl ⟨w, b', List.mem_cons_of_mem _ hm, rfl⟩)
            · exact Or.inr (Or.inr h)
        · simp only [letAll, wrapLet]
          refine NoShadow.node ?_ ?_ ?_
          · intro t ht
            rw [Lang.captured_let, Finset.disjoint_singleton_left]
            simp only [List.mem_cons, List.not_mem_nil, or_false] at ht
            rcases ht with rfl | rfl
            · intro hs
              rcases hob.binders _ hs with h | ⟨s', w, b', hm, hle, he⟩
              · exact hve (Finset.mem_union_left _ (binders_occurs hocc h))
              · exact hnew ⟨s', w, b', hm, by omega, he⟩
            · intro hs
              rcases h2 _ hs with h | ⟨w, b', hm, he⟩ | h
              · exact hve (Finset.mem_union_left _ h)
              · cases he
                exact hvl (List.mem_map.2 ⟨_, hm, rfl⟩)
              · exact hnew h
          · intro w bind body hw hts'
            rw [Lang.letVar_letHead] at hw
            cases hw
            cases hts'
            exact hvb
          · intro t ht
            simp only [List.mem_cons, List.not_mem_nil, or_false] at ht
            rcases ht with rfl | rfl
            · exact hob.noShadow
            · exact h3

/-! ### Meaning of the result -/

theorem applyGo_eval (S : Sem H V) {ins : Term H → List (Nat × Term H)} (hi : InsOk ins) (n : Nat) :
    ∀ (B : List (Term H × Nat)) (e e' : Term H) (G : Finset Sym) (env env' : Env V),
      InsFresh ins (binders e ∪ G) → NoShadow e → Disjoint (binders e) G → fv e ⊆ G →
      BOk ins e.size B →
      (∀ b v, (b, v) ∈ B → env' (.var v) = S.eval b env ∧ fv b ⊆ G) →
      Env.AgreeOn G env' env →
      applyGo ins n B e = some e' → S.eval e' env' = S.eval e env := by
  induction n with
  | zero => intro B e e' G env env' _ _ _ _ _ _ _ h; simp [applyGo] at h
  | succ n ih =>
    intro B e e' G env env' hfr hns hG hfv hB hval hag h
    unfold applyGo at h
    split at h
    · rename_i v hl
      cases h
      rw [S.eval_wrapVar]
      exact (hval e v (lookupTerm_mem hl)).1
    · simp only [Option.bind_eq_bind, Option.bind_eq_some_iff, Option.pure_def] at h
      obtain ⟨r, hr, ts, hts, he⟩ := h
      cases he
      suffices H : ∀ (l : List (Nat × Term H)) (B : List (Term H × Nat))
          (r : List (Nat × Term H) × List (Term H × Nat)) (env' : Env V),
          (∀ p ∈ l, p ∈ ins e) → (l.map Prod.fst).Nodup → BOk' ins e l B →
          (∀ b v, (b, v) ∈ B → env' (.var v) = S.eval b env ∧ fv b ⊆ G) →
          Env.AgreeOn G env' env →
          bindAll (applyGo ins n) B l = some r → mapAll (applyGo ins n r.2) e.subs = some ts →
          S.eval (letAll r.1 (node e.head ts)) env' = S.eval e env from
        H (ins e) B r env' (fun _ h => h) (hi.nodup e) (hB.start hi) hval hag hr hts
      intro l
      induction l with
      | nil =>
        intro B r env' _ _ hB' hval hag hr hts
        simp only [bindAll, Option.some.injEq] at hr
        subst hr
        obtain ⟨hd, es⟩ := e
        simp only [letAll, Term.head, Term.subs] at hts ⊢
        refine S.eval_congr ?_ ?_
        · intro s hs
          refine hag s (hfv (mem_fv.2 ⟨Or.inl hs, ?_⟩))
          rw [Lang.captured_symbol hd s hs]; simp
        · have hF := mapAll_forall₂ hts
          have hF' : List.Forall₂ (fun t t' => t ∈ es ∧ applyGo ins n B t = some t') es ts := by
            have : ∀ (l l' : List (Term H)), (∀ x ∈ l, x ∈ es) →
                List.Forall₂ (fun t t' => applyGo ins n B t = some t') l l' →
                List.Forall₂ (fun t t' => t ∈ es ∧ applyGo ins n B t = some t') l l' := by
              intro l l' hl hf
              induction hf with
              | nil => exact .nil
              | cons h1 _ ih2 =>
                exact .cons ⟨hl _ List.mem_cons_self, h1⟩
                  (ih2 (fun x hx => hl x (List.mem_cons_of_mem _ hx)))
            exact this es ts (fun _ h => h) hF
          refine List.Forall₂.flip (hF'.imp ?_)
          rintro t t' ⟨ht, hgo⟩ ext
          have hcapG : Disjoint (Lang.captured hd) G :=
            Finset.disjoint_of_subset_left captured_subset_binders hG
          refine ih B t t' (G ∪ Lang.captured hd) _ _ ?_ (hns.children t ht)
            (hns.child_scope hG ht) (fv_child_subset ht hfv) (hB'.child (size_lt_of_mem ht)) ?_ ?_ hgo
          · intro s v b hm hx
            refine hfr s v b hm ?_
            rcases Finset.mem_union.1 hx with hx | hx
            · exact Finset.mem_union_left _ (binders_child_subset ht hx)
            · rcases Finset.mem_union.1 hx with hx | hx
              · exact Finset.mem_union_right _ hx
              · exact Finset.mem_union_left _ (captured_subset_binders hx)
          · intro b v hm
            obtain ⟨h1, h2⟩ := hval b v hm
            refine ⟨?_, h2.trans Finset.subset_union_left⟩
            obtain ⟨⟨s', b', hm', _⟩, _⟩ := hB' b v hm
            have hnc : Sym.var v ∉ Lang.captured hd := fun hc =>
              hfr s' v b' hm' (Finset.mem_union_left _ (captured_subset_binders hc))
            simp only [Env.override, hnc, if_false]
            rw [h1]
            refine S.eval_agree _ (fun x hx => ?_)
            have : x ∉ Lang.captured hd := fun hc => Finset.disjoint_left.1 hcapG hc (h2 hx)
            simp [Env.override, this]
          · intro s hs
            by_cases hc : s ∈ Lang.captured hd
            · simp [Env.override, hc]
            · simp only [Env.override, hc, if_false]
              rcases Finset.mem_union.1 hs with hs | hs
              · exact hag s hs
              · exact absurd hs hc
      | cons p l ihl =>
        obtain ⟨v, b⟩ := p
        intro B r env' hl hnd hB' hval hag hr hts
        obtain ⟨bind', r', hgo, hr', rfl⟩ := bindAll_cons hr
        have hin : (v, b) ∈ ins e := hl _ List.mem_cons_self
        obtain ⟨hocc, hne⟩ := hi.occurs _ _ _ hin
        have hsc := hi.scope _ _ _ hin
        have hlt := hi.size_lt hin
        have hvB : ∀ b' w, (b', w) ∈ B → w ≠ v := by
          rintro b' w hm rfl
          exact (hB' b' w hm).2 (by simp)
        have hvG : ∀ s ∈ G, s ≠ .var v := by
          rintro s hs rfl
          exact hfr _ _ _ hin (Finset.mem_union_right _ hs)
        have hb : S.eval bind' (env'.set (.var v) none) = S.eval b env := by
          refine ih B b bind' G env _ ?_ (hns.occurs hocc)
            (Finset.disjoint_of_subset_left (binders_occurs hocc) hG) (hsc.trans hfv)
            (hB'.child hlt)
            (fun b' w hm => ⟨by simp [Env.set, hvB b' w hm, (hval b' w hm).1], (hval b' w hm).2⟩)
            (fun s hs => by simp only [Env.set, hvG s hs, if_false]; exact hag s hs) hgo
          intro s w b' hm hx
          refine hfr s w b' hm ?_
          rcases Finset.mem_union.1 hx with hx | hx
          · exact Finset.mem_union_left _ (binders_occurs hocc hx)
          · exact Finset.mem_union_right _ hx
        have hnd' : (l.map Prod.fst).Nodup := by
          simp only [List.map_cons, List.nodup_cons] at hnd; exact hnd.2
        simp only [letAll]
        rw [S.eval_wrapLet', hb]
        refine ihl ((b, v) :: B) r' _ (fun p hp => hl p (List.mem_cons_of_mem _ hp))
          hnd' (hB'.step hin hnd) ?_ ?_ hr' hts
        · intro b' w hm
          rcases List.mem_cons.1 hm with he | hm'
          · cases he
            exact ⟨by simp [Env.set], hsc.trans hfv⟩
          · obtain ⟨h1, h2⟩ := hval b' w hm'
            refine ⟨?_, h2⟩
            have : w ≠ v := by
              rintro rfl
              exact (hB' b' w hm').2 (by simp)
            simp [Env.set, this, h1]
        · intro s hs
          have : s ≠ .var v := by
            rintro rfl
            exact hfr _ _ _ hin (Finset.mem_union_right _ hs)
          simp only [Env.set, this, if_false]
          exact hag s hs

/-- Fuel: the recursion depth is bounded by the size of the program. -/
theorem applyGo_isSome {ins : Term H → List (Nat × Term H)} (hi : InsOk ins) (n : Nat) :
    ∀ (B : List (Term H × Nat)) (e : Term H), e.size ≤ n → (applyGo ins n B e).isSome := by
  induction n with
  | zero =>
    intro B e he
    obtain ⟨hd, es⟩ := e
    rw [size_node] at he; omega
  | succ n ih =>
    intro B e he
    unfold applyGo
    split
    · simp
    · have hb : ∀ (l : List (Nat × Term H)) B, (∀ p ∈ l, p ∈ ins e) →
          (bindAll (applyGo ins n) B l).isSome := by
        intro l
        induction l with
        | nil => intro B _; simp [bindAll]
        | cons p l ihl =>
          obtain ⟨v, b⟩ := p
          intro B hl
          have hin : (v, b) ∈ ins e := hl _ List.mem_cons_self
          have := hi.size_lt hin
          obtain ⟨b', hb'⟩ := Option.isSome_iff_exists.1 (ih B b (by omega))
          obtain ⟨r, hr⟩ := Option.isSome_iff_exists.1
            (ihl ((b, v) :: B) (fun p hp => hl p (List.mem_cons_of_mem _ hp)))
          simp [bindAll, hb', hr]
      obtain ⟨r, hr⟩ := Option.isSome_iff_exists.1 (hb (ins e) B (fun _ h => h))
      have hm : ∀ ts : List (Term H), (∀ t ∈ ts, t ∈ e.subs) →
          (mapAll (applyGo ins n r.2) ts).isSome := by
        intro ts
        induction ts with
        | nil => intro _; simp [mapAll]
        | cons t ts iht =>
          intro hts
          have htm := hts t List.mem_cons_self
          have : t.size < e.size := by
            obtain ⟨hd, es⟩ := e
            exact size_lt_of_mem htm
          obtain ⟨t', ht'⟩ := Option.isSome_iff_exists.1 (ih r.2 t (by omega))
          obtain ⟨ts', hts'⟩ := Option.isSome_iff_exists.1
            (iht (fun x hx => hts x (List.mem_cons_of_mem _ hx)))
          simp [mapAll, ht', hts']
      obtain ⟨ts, hts⟩ := Option.isSome_iff_exists.1 (hm e.subs (fun _ h => h))
      simp [hr, hts]

end Verif.Midend
