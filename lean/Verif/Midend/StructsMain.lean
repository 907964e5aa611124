import Verif.Midend.StructsReduce

/-! The struct-of-arrays pass as a whole. -/

set_option linter.unusedSectionVars false

namespace Verif.Midend
open Verif.Phi Verif.Term
variable {F : Type} [FloatOps F] {I : Ext F}

theorem soaGo_typed {n : Nat} {e : Expr F} {c : Nat} {r : Expr F × Nat} (h : soaGo n e c = some r) : typeOf e ≠ none := by
  cases n with
  | zero => cases h
  | succ n =>
    simp only [soaGo, Option.bind_eq_some_iff] at h
    obtain ⟨τ, hτ, _⟩ := h
    rw [hτ]; simp

theorem soaGo_spec : ∀ (n : Nat) (e : Expr F) (c : Nat) (r : Expr F × Nat), soaGo n e c = some r → Spec I e c r.1 r.2 := by
  intro n
  induction n with
  | zero => intro e c r h; cases h
  | succ n ih =>
    intro e c r h
    simp only [soaGo, Option.bind_eq_some_iff] at h
    obtain ⟨τ, hτ, q, hq, h⟩ := h
    split at h
    swap
    · cases h
    rename_i hT
    cases h
    have hty : ∀ σ, typeOf e = some σ → typeOf r.1 = some (soaTy σ) := by
      intro σ hσ
      rw [hτ] at hσ; cases hσ; exact hT
    obtain ⟨hd, ts⟩ := e
    cases hd with
    | const w σ => exact spec_const ih hq hty
    | store s σ => exact spec_store ih (by
        obtain ⟨rfl, _⟩ := inv_store hτ; exact hq)
    | letv v => exact spec_let ih hq hty
    | assertEq => exact spec_assertEq ih hq hty
    | dim k => exact spec_dim ih hq hty
    | get => exact spec_get ih hq
    | concat => exact spec_concat ih hq
    | cons => exact spec_cons ih hq hty
    | fst => exact spec_fst ih hq hty
    | snd => exact spec_snd ih hq hty
    | vec i => exact spec_vec ih (fun _ _ _ => soaGo_typed) hq hty
    | fold k a => exact spec_fold ih hq hty
    | reduce x y => exact spec_reduce ih hq
    | op o => exact spec_op ih hq hty
    | ext fn σ => exact spec_ext ih hq hty

/-! ### `elim` -/

section elim
variable [DecidableEq F]

/-- `elimStep` keeps the node or returns a part of a sub-term. -/
theorem elimStep_cases (h : Head F) (ts : List (Expr F)) : elimStep h ts = node h ts ∨
    (∃ a b, h = .fst ∧ ts = [node .cons [a, b]] ∧ elimStep h ts = a) ∨
    (∃ a b, h = .snd ∧ ts = [node .cons [a, b]] ∧ elimStep h ts = b) ∨
    (∃ p, h = .cons ∧ ts = [node .fst [p], node .snd [p]] ∧ elimStep h ts = p) := by
  unfold elimStep
  split
  · exact .inr (.inl ⟨_, _, rfl, rfl, rfl⟩)
  · exact .inr (.inr (.inl ⟨_, _, rfl, rfl, rfl⟩))
  · split
    · rename_i h; subst h; exact .inr (.inr (.inr ⟨_, rfl, rfl, rfl⟩))
    · exact .inl rfl
  · exact .inl rfl

/-- Nothing to eliminate anywhere in the term. -/
def Reduced (e : Expr F) : Prop := ∀ h ts, Occurs (node h ts) e → elimStep h ts = node h ts

theorem elim_reduced {e : Expr F} : Reduced e → elim e = e := by
  induction e using ind with
  | step h ts ih =>
    intro hr
    rw [elim_node]
    have : ts.map elim = ts := by
      conv_rhs => rw [← List.map_id ts]
      exact List.map_congr_left fun t ht => ih t ht fun h' ts' ho => hr h' ts' (.child ht ho)
    rw [this]
    exact hr h ts (.refl _)

theorem reduced_elim (e : Expr F) : Reduced (elim e) := by
  induction e using ind with
  | step h ts ih =>
    rw [elim_node]
    have hts : ∀ t ∈ ts.map elim, Reduced t := by
      intro t ht
      obtain ⟨u, hu, rfl⟩ := List.mem_map.1 ht
      exact ih u hu
    rcases elimStep_cases h (ts.map elim) with he | ⟨a, b, _, h1, he⟩ | ⟨a, b, _, h1, he⟩ | ⟨p, _, h1, he⟩
    · rw [he]
      intro h' ts' ho
      cases ho with
      | refl => exact he
      | child hm ho => exact hts _ hm _ _ ho
    · rw [he]
      rw [h1] at hts
      exact fun h' ts' ho => hts (node .cons [a, b]) (by simp) _ _ (.child (by simp) ho)
    · rw [he]
      rw [h1] at hts
      exact fun h' ts' ho => hts (node .cons [a, b]) (by simp) _ _ (.child (by simp) ho)
    · rw [he]
      rw [h1] at hts
      exact fun h' ts' ho => hts (node .fst [p]) (by simp) _ _ (.child (by simp) ho)

/-- Applying `elim` to its own result, as the code does, changes nothing. -/
theorem elim_idem (e : Expr F) : elim (elim e) = elim e := elim_reduced (reduced_elim e)

theorem fv_elimStep (h : Head F) (ts : List (Expr F)) : fv (elimStep h ts) ⊆ fv (node h ts) := by
  rcases elimStep_cases h ts with he | ⟨a, b, rfl, rfl, he⟩ | ⟨a, b, rfl, rfl, he⟩ | ⟨p, rfl, rfl, he⟩
  · rw [he]
  all_goals
    rw [he]
    intro s hs
  · exact mem_fv.2 ⟨.inr ⟨node .cons [a, b], by simp, mem_fv.2 ⟨.inr ⟨_, by simp, hs⟩, by simp [Lang.captured, Head.captured]⟩⟩,
      by simp [Lang.captured, Head.captured]⟩
  · exact mem_fv.2 ⟨.inr ⟨node .cons [a, b], by simp, mem_fv.2 ⟨.inr ⟨_, by simp, hs⟩, by simp [Lang.captured, Head.captured]⟩⟩,
      by simp [Lang.captured, Head.captured]⟩
  · exact mem_fv.2 ⟨.inr ⟨node .fst [p], by simp, mem_fv.2 ⟨.inr ⟨_, by simp, hs⟩,
      by simp [Lang.captured, Head.captured]⟩⟩, by simp [Lang.captured, Head.captured]⟩

theorem fv_node_mono {h : Head F} {ts ts' : List (Expr F)} (hh : ∀ t' ∈ ts', ∃ t ∈ ts, fv t' ⊆ fv t) :
    fv (node h ts') ⊆ fv (node h ts) := by
  intro s hs
  obtain ⟨h1 | ⟨t', ht', h1⟩, h2⟩ := mem_fv.1 hs
  · exact mem_fv.2 ⟨.inl h1, h2⟩
  · obtain ⟨t, ht, h3⟩ := hh t' ht'
    exact mem_fv.2 ⟨.inr ⟨t, ht, h3 h1⟩, h2⟩

theorem fv_elim (e : Expr F) : fv (elim e) ⊆ fv e := by
  induction e using ind with
  | step h ts ih =>
    rw [elim_node]
    refine (fv_elimStep h _).trans (fv_node_mono fun t' ht' => ?_)
    obtain ⟨t, ht, rfl⟩ := List.mem_map.1 ht'
    exact ⟨t, ht, ih t ht⟩

theorem typeOf_elimStep {h : Head F} {ts : List (Expr F)} {τ : Ty} (ht : typeOf (node h ts) = some τ) :
    typeOf (elimStep h ts) = some τ := by
  rcases elimStep_cases h ts with he | ⟨a, b, rfl, rfl, he⟩ | ⟨a, b, rfl, rfl, he⟩ | ⟨p, rfl, rfl, he⟩
  · rw [he]; exact ht
  · rw [he]
    obtain ⟨_, σ, h1, h2⟩ := inv_fst ht
    cases h1
    obtain ⟨_, _, _, _, h3, h4, h5, h6⟩ := inv_cons h2
    cases h3; cases h6; exact h4
  · rw [he]
    obtain ⟨_, σ, h1, h2⟩ := inv_snd ht
    cases h1
    obtain ⟨_, _, _, _, h3, h4, h5, h6⟩ := inv_cons h2
    cases h3; cases h6; exact h5
  · rw [he]
    obtain ⟨_, _, σ, ρ, h3, h4, h5, rfl⟩ := inv_cons ht
    cases h3
    obtain ⟨_, _, h6, h7⟩ := inv_fst h4
    obtain ⟨_, _, h8, h9⟩ := inv_snd h5
    cases h6; cases h8
    rw [h7] at h9; cases h9; exact h7

/-- Every sub-term has a type without arrays of records. -/
def AllFlat (e : Expr F) : Prop := ∀ u, Occurs u e → ∃ τ, typeOf u = some τ ∧ flat τ = true

omit [DecidableEq F] in
theorem Fine.allFlat {e : Expr F} {Γ : TCtx} (h : Fine true I e Γ) : AllFlat e := by
  induction h with
  | @node h ts Γ τ h1 h2 _ _ _ ih =>
    intro u hu
    cases hu with
    | refl => exact ⟨τ, h1, h2 rfl⟩
    | child hm ho =>
      obtain ⟨k, hk⟩ := List.getElem?_of_mem hm
      exact ih k _ hk u ho

theorem AllFlat.elim {e : Expr F} : AllFlat e → AllFlat (Midend.elim e) ∧ typeOf (Midend.elim e) = typeOf e := by
  induction e using ind with
  | step h ts ih =>
    intro ha
    obtain ⟨τ, h1, h2⟩ := ha _ (.refl _)
    have hch : ∀ t ∈ ts, AllFlat (Midend.elim t) ∧ typeOf (Midend.elim t) = typeOf t :=
      fun t ht => ih t ht fun u hu => ha u (.child ht hu)
    have h3 : typeOf (Term.node h (ts.map Midend.elim)) = some τ := by
      refine typeOf_congr ?_ h1
      rw [List.forall₂_map_right_iff]
      refine List.forall₂_same.2 fun t ht => ⟨(hch t ht).2, fun h0 => ?_⟩
      rw [freeIndices, Finset.filter_eq_empty_iff] at h0 ⊢
      exact fun s hs => h0 (fv_elim t hs)
    have h4 := typeOf_elimStep h3
    have hA : ∀ t ∈ ts.map Midend.elim, AllFlat t := by
      intro t ht
      obtain ⟨u, hu, rfl⟩ := List.mem_map.1 ht
      exact (hch u hu).1
    rw [elim_node, h1, h4]
    refine ⟨?_, rfl⟩
    rcases elimStep_cases h (ts.map Midend.elim) with he | ⟨a, b, _, h5, he⟩ | ⟨a, b, _, h5, he⟩ | ⟨p, _, h5, he⟩
    · rw [he]
      intro u hu
      cases hu with
      | refl => exact ⟨τ, h3, h2⟩
      | child hm ho => exact hA _ hm _ ho
    · rw [he]
      rw [h5] at hA
      exact fun u hu => hA (Term.node .cons [a, b]) (by simp) _ (.child (by simp) hu)
    · rw [he]
      rw [h5] at hA
      exact fun u hu => hA (Term.node .cons [a, b]) (by simp) _ (.child (by simp) hu)
    · rw [he]
      rw [h5] at hA
      exact fun u hu => hA (Term.node .fst [p]) (by simp) _ (.child (by simp) hu)

theorem run_elimStep (h : Head F) (ts : List (Expr F)) (env : Env (D F)) :
    Le (run I (node h ts) env) (run I (elimStep h ts) env) := by
  rcases elimStep_cases h ts with he | ⟨a, b, rfl, rfl, he⟩ | ⟨a, b, rfl, rfl, he⟩ | ⟨p, rfl, rfl, he⟩
  · rw [he]; exact Le.rfl
  all_goals
    rw [he]
    intro v hv
  · have hv : fstOf (run I (cons a b) env) = some v := by rw [← run_fst]; exact hv
    rw [run_cons] at hv
    simp only [fstOf, consOf, Option.bind_eq_some_iff] at hv
    obtain ⟨_, ⟨x, hx, y, hy, h1⟩, hv⟩ := hv
    cases h1; cases hv; exact hx
  · have hv : sndOf (run I (cons a b) env) = some v := by rw [← run_snd]; exact hv
    rw [run_cons] at hv
    simp only [sndOf, consOf, Option.bind_eq_some_iff] at hv
    obtain ⟨_, ⟨x, hx, y, hy, h1⟩, hv⟩ := hv
    cases h1; cases hv; exact hy
  · have hv : consOf (run I (fst p) env) (run I (snd p) env) = some v := by rw [← run_cons]; exact hv
    rw [run_fst, run_snd] at hv
    simp only [fstOf, sndOf, consOf, Option.bind_eq_some_iff] at hv
    obtain ⟨x, ⟨w, hw, hx⟩, y, ⟨w', hw', hy⟩, hv⟩ := hv
    rw [hw] at hw'; cases hw'
    cases hv
    cases w with
    | pair x' y' => cases hx; cases hy; exact hw
    | sc _ => cases hx
    | vec _ => cases hx

theorem run_elim (e : Expr F) : ∀ env : Env (D F), Le (run I e env) (run I (elim e) env) := by
  induction e using ind with
  | step h ts ih =>
    intro env
    rw [elim_node]
    have : Le (run I (node h ts) env) (run I (node h (ts.map elim)) env) := by
      rw [run_node, run_node]
      refine runDen_mono I h _ _ env env (by simp) (fun _ _ => Le.rfl) ?_
      intro k f g hf hg
      simp only [List.getElem?_map] at hf hg
      cases hk : ts[k]? with
      | none => rw [hk] at hf; cases hf
      | some t =>
        rw [hk] at hf hg
        cases hf; cases hg
        have := ih t (List.mem_of_getElem? hk)
        exact ⟨fun _ => this _, fun _ ext => this _⟩
    exact fun v hv => run_elimStep h _ env v (this v hv)

end elim
end Verif.Midend
