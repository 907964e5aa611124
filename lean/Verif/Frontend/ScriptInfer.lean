import Verif.Frontend.ScriptSound
import Verif.Props.C21

/-! Sizes that are left out: the inferred size is an expression of the context in which the comprehension stands. -/

set_option linter.unusedSectionVars false

namespace Verif.Frontend
open Verif.Phi Verif.Term Verif.Midend Verif.Codegen Verif.Props
variable {F : Type} [FloatOps F] [DecidableEq F] {I : Ext F} {Γ Γ' : TCtx} {c c' : Nat}

/-- The array of a direct read is an expression of a context that differs only in symbols that are captured. -/
theorem fine_directReads {b : Expr F} {fl : Bool} (hf : Fine fl I b Γ) : ∀ (C : Finset Sym) (q : Sym × Expr F × Finset Sym),
    q ∈ directReads b C → ∃ Δ, Fine fl I q.2.1 Δ ∧ (∀ x, x ∉ q.2.2 → Δ x = Γ x) ∧ (∀ x, Δ x = none → Γ x = none) ∧
      ∃ σ, Phi.typeOf q.2.1 = some (.vector σ) := by
  induction hf with
  | @node h ts Γ τ h1 h2 hok hfr hch ih =>
    intro C q hq
    rw [directReads_node, List.mem_append] at hq
    rcases hq with hq | hq
    · obtain ⟨r, hr, rfl⟩ := List.mem_map.1 hq
      have hr := Option.mem_toList.1 hr
      unfold directRead at hr
      split at hr
      · rename_i t _ _ _
        cases hr
        refine ⟨Γ, ?_, fun _ _ => rfl, fun _ h => h, ?_⟩
        · exact Fine.child_mem (.node τ h1 h2 hok hfr hch) rfl _ (by simp)
        · obtain ⟨a, b, k, he, ha, _⟩ := inv_get h1
          cases he
          exact ⟨τ, ha⟩
      · cases hr
    · obtain ⟨l, hl, hq⟩ := List.mem_flatten.1 hq
      obtain ⟨t, ht, rfl⟩ := List.mem_map.1 hl
      obtain ⟨k, hk⟩ := List.getElem?_of_mem ht
      obtain ⟨Δ, g1, g2, g3, g4⟩ := ih k t hk _ q hq
      have hsub := (directReads_mem t _ q hq).2.1
      refine ⟨Δ, g1, fun x hx => ?_, fun x hx => ?_, g4⟩
      · rw [g2 x hx, childCtx, if_neg]
        exact fun hc => hx (hsub (Finset.mem_union_right _ hc.2))
      · have := g3 x hx
        simp only [childCtx] at this
        split at this
        · rename_i hc; exact hfr x hc.2
        · exact this

/-- The length along an axis is an expression of the same context. -/
theorem fine_dimExpr {t : Expr F} : ∀ {Γ : TCtx} {σ : Ty} (k : Nat), Fine false I t Γ → Phi.typeOf t = some σ →
    Fine false I (dimExpr t k) Γ ∧ Phi.typeOf (dimExpr t k) = some (.scalar .int) := by
  induction t using ind with
  | step hd ts ih =>
    intro Γ σ k hf ht
    by_cases hg : ∃ t i, hd = .get ∧ ts = [t, i]
    · obtain ⟨t, i, rfl, rfl⟩ := hg
      rw [dimExpr_get]
      obtain ⟨a, b, k', he, ha, _⟩ := inv_get ht
      cases he
      exact ih t (by simp) (k + 1) (hf.child_mem rfl t (by simp)) ha
    · by_cases hve : ∃ j n b, hd = .vec j ∧ ts = [n, b] ∧ k = 0
      · obtain ⟨j, n, b, rfl, rfl, rfl⟩ := hve
        rw [dimExpr_vec]
        obtain ⟨n', b', σ', he, hn, _⟩ := inv_vec ht
        cases he
        have := hf.child 0 n rfl
        rw [childCtx_vec0] at this
        exact ⟨this, hn⟩
      · rw [dimExpr_other (fun t i h => hg ⟨t, i, h⟩) (fun j n b h => hve ⟨j, n, b, h⟩)]
        exact ⟨Fine.plain rfl (typeOf_dim k ht) (by simp) trivial (by simpa using hf), typeOf_dim k ht⟩

theorem noShadow_dimExpr {t : Expr F} : ∀ k, NoShadow t → NoShadow (dimExpr t k) := by
  induction t using ind with
  | step hd ts ih =>
    intro k hf
    have hch : ∀ t ∈ ts, NoShadow t := by cases hf; assumption
    by_cases hg : ∃ t i, hd = .get ∧ ts = [t, i]
    · obtain ⟨t, i, rfl, rfl⟩ := hg
      rw [dimExpr_get]
      exact ih t (by simp) (k + 1) (hch t (by simp))
    · by_cases hve : ∃ j n b, hd = .vec j ∧ ts = [n, b] ∧ k = 0
      · obtain ⟨j, n, b, rfl, rfl, rfl⟩ := hve
        rw [dimExpr_vec]
        exact hch n (by simp)
      · rw [dimExpr_other (fun t i h => hg ⟨t, i, h⟩) (fun j n b h => hve ⟨j, n, b, h⟩)]
        exact noShadow_plain rfl (by simpa using hf)

theorem noShadow_substitute {σ : List (Sym × Expr F)} (hσ : ∀ p ∈ σ, binders p.2 = ∅ ∧ fv p.2 = ∅ ∧ NoShadow p.2) {t : Expr F} (ht : NoShadow t) :
    NoShadow (substitute σ t) := by
  induction ht with
  | @node h ts h1 h2 h3 ih =>
    rw [substitute_node]
    split_ifs with hdis
    · exact .node h1 h2 h3
    · cases hsub : substAt σ h with
      | some u =>
        unfold substAt at hsub
        rw [Option.bind_eq_some_iff] at hsub
        obtain ⟨s', _, hlk⟩ := hsub
        exact (hσ _ (lookup_mem hlk)).2.2
      | none =>
        simp only
        refine .node (fun t ht => ?_) (fun v b e hv he => ?_) (fun t ht => ?_)
        · obtain ⟨u, hu, rfl⟩ := List.mem_map.1 ht
          exact (h1 u hu).mono_right (binders_substitute (fun p hp => (hσ p hp).1) u)
        · match ts, he with
          | [b', e'], he =>
            simp only [List.map_cons, List.map_nil, List.cons.injEq, and_true] at he
            obtain ⟨rfl, rfl⟩ := he
            intro hf
            have hf' := fv_substitute σ b' hf
            rcases Finset.mem_union.1 hf' with hf' | hf'
            · exact h2 v b' e' hv rfl (Finset.mem_sdiff.1 hf').1
            · obtain ⟨p, hp, hx⟩ := mem_rangeFv.1 hf'
              rw [(hσ p hp).2.1] at hx
              cases hx
        · obtain ⟨u, hu, rfl⟩ := List.mem_map.1 ht
          exact ih u hu

theorem zeros_plain {e : Expr F} : ∀ p ∈ zeros e, binders p.2 = ∅ ∧ fv p.2 = ∅ ∧ NoShadow p.2 := by
  intro p hp
  rw [zeros_snd hp]
  refine ⟨?_, ?_, noShadow_plain rfl (by simp)⟩
  · ext s; simp [int, mem_binders, Lang.captured, Phi.Head.captured]
  · ext s; simp [int, mem_fv, Lang.symbol, Phi.Head.symbol]

theorem NoShadow.occurs {u e : Expr F} (h : Occurs u e) (he : NoShadow e) : NoShadow u := by
  induction h with
  | refl => exact he
  | child hm _ ih => cases he with | node _ _ h3 => exact ih (h3 _ hm)

/-- The length with all indices at zero. -/
theorem Sane.atZero {e : Expr F} {τ : Ty} (h : Sane I Γ c e τ) (hidx : ∀ i σ, Γ (.idx i) = some σ → σ = .scalar .int) :
    Sane I Γ c (Midend.atZero e) τ := by
  have hb : ∀ s ∈ binders e, Γ s = none ∧ lookup s (zeros e) = none := fun s hs => by
    have h0 := h.fine.binders_out s hs
    refine ⟨h0, ?_⟩
    rw [lookup_none, keys_zeros]
    exact fun hf => h.fine.fv_dom s (Finset.mem_filter.1 hf).1 h0
  have hs : SubOk false I (zeros e) Γ Γ := by
    intro s τ hτ
    cases hl : lookup s (zeros e) with
    | none => exact .inl ⟨rfl, hτ⟩
    | some u =>
      obtain ⟨rfl, hi⟩ := lookup_zeros hl
      cases s with
      | var v => cases hi
      | idx i =>
        refine .inr ⟨_, rfl, ?_, Fine.plain (τ := .scalar .int) rfl ?_ (by simp) (show HasType _ _ from ?_) (by simp), (zeros_plain _ (lookup_mem hl)).1, fun h => by cases h⟩
        · rw [hidx i τ hτ]; rfl
        · exact (rfl : Phi.typeOf (int 0 : Expr F) = some (.scalar .int))
        · exact .sc _
  obtain ⟨h1, h2⟩ := h.fine.substitute hs hb
  exact ⟨h2.trans h.typed, h1, fun s hs => h.below s (binders_substitute (fun p hp => (zeros_plain p hp).1) _ hs),
    noShadow_substitute zeros_plain h.noShadow⟩

/-- A size that is inferred is an integer of the context outside. -/
theorem Sane.inferSize {b size : Expr F} {symbols : List Sym} {initial : Finset Sym} {s : Sym} {σ : Ty}
    (hb : Sane I Γ' c b σ) (hout : ∀ x, x ∉ symbols.toFinset ∪ initial → Γ' x = Γ x) (hnew : ∀ x ∈ symbols.toFinset ∪ initial, Γ x = none)
    (hidx : ∀ i σ, Γ (.idx i) = some σ → σ = .scalar .int)
    (h : Frontend.inferSize b symbols initial s = some size) : Sane I Γ c size (.scalar .int) := by
  have key : ∀ e ∈ candidates b (symbols.toFinset ∪ initial) s, Sane I Γ c e (.scalar .int) := by
    intro e he
    obtain ⟨⟨t, C⟩, h1, h2⟩ := List.mem_filterMap.1 he
    dsimp only at h2
    split at h2
    · rename_i hd
      cases h2
      obtain ⟨_, hm⟩ := foldl_assign (((directReads b (symbols.toFinset ∪ initial)).filter fun q => q.1 = s).map Prod.snd) []
      rcases hm _ h1 with h | h
      · cases h
      · obtain ⟨q, hq, h6⟩ := List.mem_map.1 h
        have hq1 := (List.mem_filter.1 hq).1
        obtain ⟨ho, hC, _, _⟩ := directReads_mem b _ q hq1
        obtain ⟨Δ, g1, g2, g3, τ, g4⟩ := fine_directReads hb.fine _ q hq1
        rw [h6] at ho hC g1 g2 g4
        obtain ⟨g5, g6⟩ := fine_dimExpr 0 g1 g4
        refine Sane.atZero ⟨g6, g5.agree fun x hx => ?_, ?_, noShadow_dimExpr 0 (NoShadow.occurs ho hb.noShadow)⟩ hidx
        · rcases hx with hx | hx
          · have hxC := Finset.disjoint_left.1 hd hx
            rw [g2 x hxC, hout x fun hx' => hxC (hC hx')]
          · have h0 := g5.binders_out x hx
            rw [h0]
            by_cases hx' : x ∈ symbols.toFinset ∪ initial
            · exact hnew x hx'
            · rw [← hout x hx']; exact g3 x h0
        · exact fun x hx => hb.below x (binders_occurs ho (binders_dimExpr 0 hx))
    · cases h2
  obtain ⟨e, he, ⟨rfl, _⟩ | rfl⟩ := inferSize_eq h
  · exact key _ he
  · have hall : ∀ u ∈ e :: distinct (candidates b (symbols.toFinset ∪ initial) s), Sane I Γ c u (.scalar .int) := by
      intro u hu
      rcases List.mem_cons.1 hu with rfl | hu
      · exact key _ he
      · exact key _ (mem_distinct.1 hu)
    refine .plain rfl ?_ trivial fun u hu => ⟨_, hall u hu⟩
    have : ∀ l : List (Expr F), (∀ u ∈ l, Phi.typeOf u = some (.scalar .int)) →
        (l.map fun t => (Phi.typeOf t, freeIndices t)).all (fun o => decide (o.1 = some (.scalar .int))) = true := by
      intro l hl
      simp only [List.all_map, List.all_eq_true, Function.comp, decide_eq_true_eq]
      exact hl
    rw [typeOf_node]
    simp only [List.map_cons]
    generalize distinct (candidates b (symbols.toFinset ∪ initial) s) = l at hall
    rw [(hall e (by simp)).typed]
    cases l with
    | nil => rfl
    | cons u l =>
      have hu := (hall u (by simp)).typed
      simp only [List.map_cons, hu, typeStep]
      rw [if_pos (this l fun u hu => (hall u (by simp [hu])).typed)]

/-- An inferred size binds only what the body binds. -/
theorem binders_inferred {b size : Expr F} {symbols : List Sym} {initial : Finset Sym} {s : Sym}
    (h : Frontend.inferSize b symbols initial s = some size) : binders size ⊆ binders b := by
  have key : ∀ e ∈ candidates b (symbols.toFinset ∪ initial) s, binders e ⊆ binders b := by
    intro e he
    obtain ⟨t, ho, rfl, _⟩ := candidates_mem he
    intro x hx
    exact binders_occurs ho (binders_dimExpr 0 (binders_substitute (fun p hp => (zeros_plain p hp).1) _ hx))
  obtain ⟨e, he, ⟨rfl, _⟩ | rfl⟩ := inferSize_eq h
  · exact key _ he
  · intro x hx
    rcases mem_binders.1 hx with hy | ⟨t, ht, hy⟩
    · cases hy
    · rcases List.mem_cons.1 ht with rfl | ht
      · exact key _ he hy
      · exact key _ (mem_distinct.1 ht) hy

end Verif.Frontend
