import Verif.Midend.StructsFine

/-! Substitution in well-typed terms. -/

set_option linter.unusedSectionVars false

namespace Verif.Midend
open Verif.Phi Verif.Term
variable {F : Type}

theorem mem_fv_substitute {σ : List (Sym × Expr F)} {t : Expr F} : (∀ s ∈ binders t, lookup s σ = none) →
    ∀ {s : Sym}, s ∈ fv (substitute σ t) → s ∈ fv t ∨ ∃ s' u, s' ∈ fv t ∧ lookup s' σ = some u ∧ s ∈ fv u := by
  induction t using ind with
  | step h ts ih =>
    intro hb s hs
    rw [substitute_node] at hs
    split_ifs at hs with hdis
    · exact .inl hs
    · cases hsub : substAt σ h with
      | some u =>
        rw [hsub] at hs
        unfold substAt at hsub
        rw [Option.bind_eq_some_iff] at hsub
        obtain ⟨s', hs', hlk⟩ := hsub
        refine .inr ⟨s', u, mem_fv.2 ⟨.inl hs', ?_⟩, hlk, hs⟩
        have := Lang.captured_symbol h s' hs'
        rw [this]; simp
      | none =>
        rw [hsub] at hs
        simp only at hs
        rw [mem_fv] at hs
        obtain ⟨hs, hnc⟩ := hs
        rcases hs with hs | ⟨t', ht', hs⟩
        · exact .inl (mem_fv.2 ⟨.inl hs, hnc⟩)
        · obtain ⟨t, ht, rfl⟩ := List.mem_map.1 ht'
          rcases ih t ht (fun s hs => hb s (mem_binders.2 (.inr ⟨t, ht, hs⟩))) hs with h1 | ⟨s', u, h1, h2, h3⟩
          · exact .inl (mem_fv.2 ⟨.inr ⟨t, ht, h1⟩, hnc⟩)
          · refine .inr ⟨s', u, mem_fv.2 ⟨.inr ⟨t, ht, h1⟩, fun hc => ?_⟩, h2, h3⟩
            rw [hb s' (mem_binders.2 (.inl hc))] at h2
            cases h2

/-- The replacement of each symbol has the type of the symbol, in the new context. -/
def SubOk (fl : Bool) (I : Ext F) (σ : List (Sym × Expr F)) (Γ Γ' : TCtx) : Prop :=
  ∀ s τ, Γ s = some τ → (lookup s σ = none ∧ Γ' s = some τ) ∨ ∃ u, lookup s σ = some u ∧ typeOf u = some τ ∧
    Fine fl I u Γ' ∧ binders u = ∅ ∧ (s.isIdx = false → freeIndices u = ∅)

theorem bindTy_congr {h : Head F} {ts ts' : List (Expr F)}
    (hT : ∀ k, outside h k = true → (ts'[k]?).bind typeOf = (ts[k]?).bind typeOf) (s : Sym) :
    bindTy h ts' s = bindTy h ts s := by
  cases h with
  | letv v => exact hT 0 rfl
  | reduce x y => exact hT 0 rfl
  | fold c a =>
    simp only [bindTy]
    rw [hT 1 rfl]
  | _ => rfl

theorem childCtx_outside {h : Head F} {ts : List (Expr F)} {k : Nat} (ho : outside h k = true) (Γ : TCtx) :
    childCtx h ts k Γ = Γ := by
  funext s; simp [childCtx, ho]

theorem freeIndices_substitute {fl : Bool} {I : Ext F} {σ : List (Sym × Expr F)} {e : Expr F} {Γ Γ' : TCtx}
    (hf : Fine fl I e Γ) (hs : SubOk fl I σ Γ Γ') (hb : ∀ s ∈ binders e, Γ' s = none ∧ lookup s σ = none)
    (h0 : freeIndices e = ∅) : freeIndices (substitute σ e) = ∅ := by
  rw [freeIndices, Finset.filter_eq_empty_iff] at h0 ⊢
  intro s hsm hi
  rcases mem_fv_substitute (fun s hs => (hb s hs).2) hsm with h1 | ⟨s', u, h1, h2, h3⟩
  · exact h0 h1 hi
  · cases hΓ : Γ s' with
    | none => exact hf.fv_dom s' h1 hΓ
    | some τ =>
      rcases hs s' τ hΓ with ⟨h4, _⟩ | ⟨u', h4, _, _, _, h5⟩
      · rw [h4] at h2; cases h2
      · rw [h4] at h2; cases h2
        have := h5 (by cases s' with
          | var n => rfl
          | idx n => exact absurd rfl (h0 h1))
        rw [freeIndices, Finset.filter_eq_empty_iff] at this
        exact this h3 hi

/-- Substitution preserves types. -/
theorem Fine.substitute {fl : Bool} {I : Ext F} {σ : List (Sym × Expr F)} {e : Expr F} {Γ : TCtx}
    (hf : Fine fl I e Γ) : ∀ {Γ' : TCtx}, SubOk fl I σ Γ Γ' →
    (∀ s ∈ binders e, Γ' s = none ∧ lookup s σ = none) →
    Fine fl I (substitute σ e) Γ' ∧ typeOf (substitute σ e) = typeOf e := by
  induction hf with
  | @node h ts Γ τ ht hfl hok hfr hch ih =>
    intro Γ' hs hb
    have hfn : Fine fl I (Term.node h ts) Γ := .node τ ht hfl hok hfr hch
    rw [substitute_node]
    split_ifs with hdis
    · refine ⟨hfn.agree fun s hsm => ?_, rfl⟩
      rcases hsm with hsm | hsm
      · cases hΓ : Γ s with
        | none => exact absurd hΓ (hfn.fv_dom s hsm)
        | some τ =>
          rcases hs s τ hΓ with ⟨_, h1⟩ | ⟨u, h1, _⟩
          · exact h1
          · rw [lookup_none.2 (Finset.disjoint_left.1 hdis hsm)] at h1; cases h1
      · rw [(hb s hsm).1, hfn.binders_out s hsm]
    · cases hsub : substAt σ h with
      | some u =>
        unfold substAt at hsub
        rw [Option.bind_eq_some_iff] at hsub
        obtain ⟨s, hs', hlk⟩ := hsub
        change Head.symbol h = some s at hs'
        cases h <;> simp only [Head.symbol, reduceCtorEq, Option.some.injEq] at hs'
        subst hs'
        simp only [headOk] at hok
        obtain ⟨rfl, rfl⟩ := inv_store ht
        rcases hs _ _ hok with ⟨h1, _⟩ | ⟨u', h1, h2, h3, _⟩
        · rw [h1] at hlk; cases hlk
        · rw [h1] at hlk; cases hlk
          exact ⟨h3, h2.trans ht.symm⟩
      | none =>
        simp only
        have hbt : ∀ t ∈ ts, ∀ s ∈ binders t, Γ' s = none ∧ lookup s σ = none := fun t ht s hs =>
          hb s (mem_binders.2 (.inr ⟨t, ht, hs⟩))
        have hout : ∀ k t, ts[k]? = some t → outside h k = true → typeOf (Midend.substitute σ t) = typeOf t := by
          intro k t hk ho
          have := ih k t hk (Γ' := Γ')
          rw [childCtx_outside ho] at this
          exact (this hs (hbt t (List.mem_of_getElem? hk))).2
        have hT : ∀ k, outside h k = true →
            ((ts.map (Midend.substitute σ))[k]?).bind typeOf = (ts[k]?).bind typeOf := by
          intro k ho
          rw [List.getElem?_map]
          cases hk : ts[k]? with
          | none => rfl
          | some t => exact hout k t hk ho
        have hsub' : ∀ k t, ts[k]? = some t →
            SubOk fl I σ (childCtx h ts k Γ) (childCtx h (ts.map (Midend.substitute σ)) k Γ') := by
          intro k t hk s ρ hρ
          simp only [childCtx] at hρ ⊢
          rw [bindTy_congr hT]
          split at hρ
          · rename_i hc
            refine .inl ⟨(hb s (mem_binders.2 (.inl hc.2))).2, ?_⟩
            rw [if_pos hc]; exact hρ
          · rename_i hc
            rw [if_neg hc]
            rcases hs s ρ hρ with h1 | ⟨u, h1, h2, h3, h4, h5⟩
            · exact .inl h1
            · refine .inr ⟨u, h1, h2, h3.agree fun s' hs' => ?_, h4, h5⟩
              rcases hs' with hs' | hs'
              · have := h3.fv_dom s' hs'
                have hnc : s' ∉ h.captured := fun hc => this (hb s' (mem_binders.2 (.inl hc))).1
                simp only [childCtx]
                rw [if_neg fun h => hnc h.2]
              · rw [h4] at hs'; cases hs'
        have hb' : ∀ k t, ts[k]? = some t → ∀ s ∈ binders t,
            childCtx h (ts.map (Midend.substitute σ)) k Γ' s = none ∧ lookup s σ = none := by
          intro k t hk s hsb
          refine ⟨?_, (hbt t (List.mem_of_getElem? hk) s hsb).2⟩
          have h1 := (hch k t hk).binders_out s hsb
          simp only [childCtx] at h1 ⊢
          rw [bindTy_congr hT]
          split
          · rename_i hc; rw [if_pos hc] at h1; exact h1
          · exact (hbt t (List.mem_of_getElem? hk) s hsb).1
        have hty : typeOf (Term.node h (ts.map (Midend.substitute σ))) = some τ := by
          refine typeOf_congr ?_ ht
          rw [List.forall₂_map_right_iff, List.forall₂_same]
          intro t htm
          obtain ⟨k, hk⟩ := List.getElem?_of_mem htm
          exact ⟨(ih k t hk (hsub' k t hk) (hb' k t hk)).2,
            freeIndices_substitute (hch k t hk) (hsub' k t hk) (hb' k t hk)⟩
        refine ⟨.node τ hty hfl ?_ (fun s hsc => (hb s (mem_binders.2 (.inl hsc))).1) ?_, hty.trans ht.symm⟩
        · cases h with
          | store s ρ =>
            simp only [headOk] at hok ⊢
            rcases hs s ρ hok with ⟨_, h1⟩ | ⟨u, h1, _⟩
            · exact h1
            · simp only [substAt, Lang.symbol, Head.symbol, Option.bind_some] at hsub
              rw [hsub] at h1; cases h1
          | ext fn ρ =>
            have hty' : ∀ t ∈ ts, typeOf (Midend.substitute σ t) = typeOf t := fun t htm => by
              obtain ⟨k, hk⟩ := List.getElem?_of_mem htm
              exact (ih k t hk (hsub' k t hk) (hb' k t hk)).2
            refine ⟨fun t' ht' ρ' hρ' => ?_, fun args r ha => hok.2 args r ((typedArgs_congr ?_ args).1 ha)⟩
            · obtain ⟨t, htm, rfl⟩ := List.mem_map.1 ht'
              rw [hty' t htm] at hρ'
              exact hok.1 t htm ρ' hρ'
            · rw [List.map_map]
              exact List.map_congr_left hty'
          | _ => exact hok
        · intro k t' hk'
          rw [List.getElem?_map] at hk'
          cases hk : ts[k]? with
          | none => rw [hk] at hk'; cases hk'
          | some t =>
            rw [hk] at hk'; cases hk'
            exact (ih k t hk (hsub' k t hk) (hb' k t hk)).1

theorem binders_substitute {σ : List (Sym × Expr F)} (hσ : ∀ p ∈ σ, binders p.2 = ∅) (t : Expr F) :
    binders (substitute σ t) ⊆ binders t := by
  induction t using ind with
  | step h ts ih =>
    rw [substitute_node]
    split_ifs with hdis
    · exact Finset.Subset.refl _
    · cases hsub : substAt σ h with
      | some u =>
        unfold substAt at hsub
        rw [Option.bind_eq_some_iff] at hsub
        obtain ⟨s', _, hlk⟩ := hsub
        simp only
        rw [hσ _ (lookup_mem hlk)]
        exact Finset.empty_subset _
      | none =>
        simp only
        intro s hs
        rcases mem_binders.1 hs with h1 | ⟨t', ht', h1⟩
        · exact mem_binders.2 (.inl h1)
        · obtain ⟨t, ht, rfl⟩ := List.mem_map.1 ht'
          exact mem_binders.2 (.inr ⟨t, ht, ih t ht h1⟩)

end Verif.Midend
