import Verif.Midend.StructsMain
import Verif.Codegen.Typed

/-! The programs the theorem about the struct-of-arrays pass is about. -/

set_option linter.unusedSectionVars false

namespace Verif.Midend
open Verif.Phi Verif.Term
variable {F : Type} [FloatOps F] {I : Ext F}

theorem declared_child {h : Head F} {ts : List (Expr F)} {τ : Ty} {Γ : TCtx} (ht : typeOf (node h ts) = some τ)
    (hd : Declared I (node h ts) Γ) : ∀ k t, ts[k]? = some t → Declared I t (childCtx h ts k Γ) := by
  intro k t hk
  rw [declared_node] at hd
  have plain : h.captured = ∅ → (∀ p ∈ ts.map (fun t => (t, Declared I t)), p.2 Γ) →
      Declared I t (childCtx h ts k Γ) := by
    intro hc H
    rw [childCtx_none Γ h hc]
    exact H (t, Declared I t) (List.mem_map.2 ⟨t, List.mem_of_getElem? hk, rfl⟩)
  cases h with
  | const v σ => obtain ⟨rfl, _⟩ := inv_const ht; simp at hk
  | store v σ => obtain ⟨rfl, _⟩ := inv_store ht; simp at hk
  | letv v =>
    obtain ⟨a, b, σ, rfl, _, _⟩ := inv_letv ht
    match k, hk with
    | 0, hk => cases hk; rw [childCtx_let0]; exact hd.1
    | 1, hk => cases hk; rw [childCtx_let1]; exact hd.2
  | vec i =>
    obtain ⟨n, b, σ, rfl, _⟩ := inv_vec ht
    match k, hk with
    | 0, hk => cases hk; rw [childCtx_vec0]; exact hd.1
    | 1, hk => cases hk; rw [childCtx_vec1]; exact hd.2
  | fold c a =>
    obtain ⟨n, z, b, rfl, _⟩ := inv_fold ht
    match k, hk with
    | 0, hk => cases hk; rw [childCtx_fold0]; exact hd.1
    | 1, hk => cases hk; rw [childCtx_fold1]; exact hd.2.1
    | 2, hk => cases hk; rw [childCtx_fold2]; exact hd.2.2
  | reduce x y =>
    obtain ⟨z, b, v, vs, e, es, rfl, _⟩ := inv_reduce ht
    match k, hk with
    | 0, hk => cases hk; rw [childCtx_reduce _ _ _ _ (by omega)]; exact hd.1
    | 1, hk => cases hk; rw [childCtx_reduce1]; exact hd.2.2
    | k + 2, hk =>
      rw [childCtx_reduce _ _ _ _ (by omega)]
      refine hd.2.1 (t, Declared I t) (List.mem_map.2 ⟨t, ?_, rfl⟩)
      exact List.mem_of_getElem? (by simpa using hk)
  | ext fn σ => exact plain rfl hd.1
  | assertEq | dim _ | get | concat | cons | fst | snd | op _ => exact plain rfl hd

/-- No array of records is given to an external function. -/
def ExtFlat (e : Expr F) : Prop :=
  ∀ fn τ ts, Occurs (node (.ext fn τ) ts) e → ∀ t ∈ ts, ∀ σ, typeOf t = some σ → flat σ = true

theorem fine_of {e : Expr F} : ∀ {Γ : TCtx} {τ : Ty}, typeOf e = some τ → Declared I e Γ → NoShadow e →
    (∀ s ∈ binders e, Γ s = none) → ExtFlat e → Fine false I e Γ := by
  induction e using ind with
  | step h ts ih =>
    intro Γ τ ht hd hns hb hx
    refine .node τ ht (by simp) ?_ (fun s hs => hb s (mem_binders.2 (.inl hs))) ?_
    · rw [declared_node] at hd
      cases h with
      | const v σ => exact hd
      | store s σ => exact hd
      | ext fn σ => exact ⟨fun t ht σ' hσ => hx fn σ ts (.refl _) t ht σ' hσ,
          fun args r ha => hd.2 args r (by simpa [List.map_map, Function.comp_def] using ha)⟩
      | _ => trivial
    · intro k t hk
      have hm := List.mem_of_getElem? hk
      obtain ⟨σ, hσ⟩ := Codegen.typeOf_child ht t hm
      refine ih t hm hσ (declared_child ht hd k t hk) (hns.children t hm) ?_
        fun fn τ us ho => hx fn τ us (.child hm ho)
      intro s hs
      have h1 := Finset.disjoint_right.1 (hns.disjoint t hm) hs
      simp only [childCtx]
      rw [if_neg (fun h => h1 h.2)]
      exact hb s (mem_binders.2 (.inr ⟨t, hm, hs⟩))

/-- A program as the pass receives it: it has a type, uses its symbols with the types of their binders, binds
no symbol twice on a path nor a symbol of the context, gives no array of records to an external function; and
`c` is above the numbers of its symbols. -/
structure SoaInput (I : Ext F) (p : Expr F) (Γ : TCtx) (c : Nat) : Prop where
  typed : ∃ τ, typeOf p = some τ
  declared : Declared I p Γ
  noShadow : NoShadow p
  binders : ∀ s ∈ binders p, Γ s = none
  extFlat : ExtFlat p
  below : ∀ s ∈ Term.binders p, symNum s < c
  ctxBelow : ∀ s, Γ s ≠ none → symNum s < c

theorem SoaInput.fine {p : Expr F} {Γ : TCtx} {c : Nat} (h : SoaInput I p Γ c) : Fine false I p Γ := by
  obtain ⟨τ, hτ⟩ := h.typed
  exact fine_of hτ h.declared h.noShadow h.binders h.extFlat

/-- What `go` returns. -/
theorem soaGo_value {p : Expr F} {Γ : TCtx} {c n : Nat} {r : Expr F × Nat} {τ : Ty} (h : SoaInput I p Γ c)
    (hΓ : ∀ s σ, Γ s = some σ → flat σ = true) (ht : typeOf p = some τ) (hr : soaGo n p c = some r) :
    typeOf r.1 = some (soaTy τ) ∧ AllFlat r.1 ∧
    ∀ env v, EnvTyped Γ env → run I p env = some v → run I r.1 env = some (soaVal τ v) := by
  have hΓ' : CtxFlat Γ := fun s σ hs => by rw [soaTy_flat (hΓ s σ hs)]; exact hΓ s σ hs
  obtain ⟨_, _, p3, p4, p5⟩ := soaGo_spec n p c r hr Γ τ h.fine ht hΓ' h.below h.ctxBelow
  refine ⟨p4, p3.allFlat, fun env v he hv => ?_⟩
  have := p5 env v he hv
  rwa [soaEnv_flat hΓ] at this

section occurs
variable {rec : Expr F → Nat → Option (Expr F × Nat)} (hm : ∀ e c r, rec e c = some r → c ≤ r.2)
include hm

/-- The terms of a list are transformed one after the other. -/
theorem goList_some : ∀ {ts : List (Expr F)} {c : Nat} {r : List (Expr F) × Nat}, goList rec ts c = some r →
    c ≤ r.2 ∧ ∀ t ∈ ts, ∃ c' r', c ≤ c' ∧ rec t c' = some r' := by
  intro ts
  induction ts with
  | nil => intro c r h; cases h; simp
  | cons t ts ih =>
    intro c r h
    simp only [goList, Option.bind_eq_some_iff] at h
    obtain ⟨q, h1, l, h2, h3⟩ := h
    cases h3
    obtain ⟨h3, h4⟩ := ih h2
    have h5 := hm _ _ _ h1
    refine ⟨Nat.le_trans h5 h3, fun t' ht' => ?_⟩
    rcases List.mem_cons.1 ht' with rfl | ht'
    · exact ⟨_, _, Nat.le_refl _, h1⟩
    · obtain ⟨c', r', h6, h7⟩ := h4 t' ht'
      exact ⟨c', r', Nat.le_trans h5 h6, h7⟩

/-- Every sub-term is transformed. -/
theorem soaStep_child {h : Head F} {ts : List (Expr F)} {c : Nat} {r : Expr F × Nat}
    (hr : soaStep rec (node h ts) c = some r) : c ≤ r.2 ∧ ∀ t ∈ ts, ∃ c' r', c ≤ c' ∧ rec t c' = some r' := by
  unfold soaStep at hr
  split at hr
  · rename_i he; cases he; cases hr; simp
  · rename_i he; cases he
    simp only [Option.bind_eq_some_iff] at hr
    obtain ⟨q, h1, σ, _, h2⟩ := hr
    have h3 := hm _ _ _ h1
    refine ⟨?_, by simpa using ⟨_, Nat.le_refl _, q.1, q.2, h1⟩⟩
    split at h2 <;> cases h2 <;> exact h3
  · rename_i he; cases he
    simp only [Option.bind_eq_some_iff] at hr
    obtain ⟨q, h1, l, h2, σ, _, h3⟩ := hr
    cases h3
    have h4 := hm _ _ _ h1
    have h5 := hm _ _ _ h2
    refine ⟨Nat.le_trans h4 h5, ?_⟩
    simp only [List.mem_cons, List.not_mem_nil, or_false]
    rintro t (rfl | rfl)
    · exact ⟨_, _, Nat.le_refl _, h1⟩
    · exact ⟨_, _, h4, h2⟩
  · rename_i he; cases he
    simp only [Option.bind_eq_some_iff] at hr
    obtain ⟨q, h1, l, h2, σ, _, h3⟩ := hr
    split at h3
    swap
    · cases h3
    cases h3
    have h4 := hm _ _ _ h1
    have h5 := hm _ _ _ h2
    refine ⟨Nat.le_trans h4 h5, ?_⟩
    simp only [List.mem_cons, List.not_mem_nil, or_false]
    rintro t (rfl | rfl)
    · exact ⟨_, _, Nat.le_refl _, h1⟩
    · exact ⟨_, _, h4, h2⟩
  · rename_i he; cases he
    simp only [Option.bind_eq_some_iff] at hr
    obtain ⟨q, h1, l, h2, σ, _, h3⟩ := hr
    have h4 := hm _ _ _ h1
    have h5 := hm _ _ _ h2
    refine ⟨?_, ?_⟩
    · split at h3
      · simp only [Option.bind_eq_some_iff] at h3
        obtain ⟨a, h6, b, h7, h8⟩ := h3
        cases h8
        have h9 := hm _ _ _ h6
        have h10 := hm _ _ _ h7
        simp only at *; omega
      · cases h3; exact Nat.le_trans h4 h5
    · simp only [List.mem_cons, List.not_mem_nil, or_false]
      rintro t (rfl | rfl)
      · exact ⟨_, _, Nat.le_refl _, h1⟩
      · exact ⟨_, _, h4, h2⟩
  · rename_i he; cases he
    simp only [Option.bind_eq_some_iff] at hr
    obtain ⟨q, h1, l, h2, m, h3, h4⟩ := hr
    have h5 := hm _ _ _ h1
    have h6 := hm _ _ _ h2
    obtain ⟨h7, h8⟩ := goList_some hm h3
    refine ⟨?_, ?_⟩
    · simp only [soaReduce, Option.bind_eq_some_iff] at h4
      obtain ⟨_, _, _, _, _, _, _, _, _, _, _, _, _, _, h4⟩ := h4
      split at h4
      swap
      · cases h4
      simp only [Option.bind_eq_some_iff] at h4
      obtain ⟨_, _, h4⟩ := h4
      split at h4
      swap
      · cases h4
      simp only [Option.bind_eq_some_iff, Option.map_eq_some_iff] at h4
      obtain ⟨_, _, _, _, _, _, _, _, h4⟩ := h4
      cases h4
      simp only; omega
    · simp only [List.mem_cons]
      rintro t (rfl | rfl | ht)
      · exact ⟨_, _, Nat.le_refl _, h1⟩
      · exact ⟨_, _, h5, h2⟩
      · obtain ⟨c', r', h9, h10⟩ := h8 t ht
        exact ⟨c', r', by omega, h10⟩
  · rename_i he; cases he
    simp only [Option.map_eq_some_iff] at hr
    obtain ⟨q, h1, h2⟩ := hr
    cases h2
    exact goList_some hm h1

end occurs

theorem soaGo_counter : ∀ (n : Nat) (e : Expr F) (c : Nat) (r : Expr F × Nat), soaGo n e c = some r → c ≤ r.2 := by
  intro n
  induction n with
  | zero => intro e c r h; cases h
  | succ n ih =>
    rintro ⟨hd, ts⟩ c r h
    simp only [soaGo, Option.bind_eq_some_iff] at h
    obtain ⟨τ, _, q, hq, h⟩ := h
    split at h
    · cases h; exact (soaStep_child ih hq).1
    · cases h

/-- If the pass returns, the types of all sub-terms become free of arrays of records by one conversion. -/
theorem soaGo_occurs {u e : Expr F} (hu : Occurs u e) : ∀ (n c : Nat) (r : Expr F × Nat), soaGo n e c = some r →
    ∀ Γ, Fine false I e Γ → CtxFlat Γ → NumBelow c e → CtxBelow c Γ →
    ∀ τ, typeOf u = some τ → flat (soaTy τ) = true := by
  induction hu with
  | refl =>
    intro n c r hr Γ hf hΓ hb hc τ hτ
    obtain ⟨_, _, p3, p4, _⟩ := soaGo_spec n _ c r hr Γ τ hf hτ hΓ hb hc
    exact p3.flat_of p4
  | @child t h ts hm ho ih =>
    intro n c r hr Γ hf hΓ hb hc τ hτ
    cases n with
    | zero => cases hr
    | succ n =>
      simp only [soaGo, Option.bind_eq_some_iff] at hr
      obtain ⟨σ, hσ, q, hq, _⟩ := hr
      have hch := (soaStep_child (soaGo_counter n) hq).2
      obtain ⟨c', r', h1, h2⟩ := hch t hm
      obtain ⟨k, hk⟩ := List.getElem?_of_mem hm
      obtain ⟨hb0, hb1⟩ := below_node.1 hb
      have hbind : ∀ s ∈ h.captured, ∀ ρ, bindTy h ts s = some ρ → flat (soaTy ρ) = true := by
        intro s hs ρ hρ
        have hty : ∀ (j : Nat), outside h j = true → ts[j]?.bind typeOf = some ρ → flat (soaTy ρ) = true := by
          intro j hj hρ
          obtain ⟨w, hw, hw'⟩ := Option.bind_eq_some_iff.1 hρ
          obtain ⟨c2, r2, h3, h4⟩ := hch w (List.mem_of_getElem? hw)
          have hfw := hf.child j w hw
          have e : childCtx h ts j Γ = Γ := by funext s; simp [childCtx, hj]
          rw [e] at hfw
          obtain ⟨_, _, p3, p4, _⟩ := soaGo_spec n w c2 r2 h4 Γ ρ hfw hw' hΓ
            ((hb1 w (List.mem_of_getElem? hw)).mono h3) (hc.mono h3)
          exact p3.flat_of p4
        cases h with
        | letv v => exact hty 0 rfl hρ
        | vec i => cases hρ; rfl
        | fold k a =>
          simp only [bindTy] at hρ
          split at hρ
          · cases hρ; rfl
          · exact hty 1 rfl hρ
        | reduce x y => exact hty 0 rfl hρ
        | _ => simp [Head.captured] at hs
      refine ih n c' r' h2 _ (hf.child k t hk) ?_ ((hb1 t hm).mono h1) ?_ τ hτ
      · intro s ρ hs
        simp only [childCtx] at hs
        split at hs
        · rename_i hcap; exact hbind s hcap.2 ρ hs
        · exact hΓ s ρ hs
      · intro s hs
        simp only [childCtx] at hs
        split at hs
        · rename_i hcap; exact Nat.lt_of_lt_of_le (hb0 s hcap.2) h1
        · exact Nat.lt_of_lt_of_le (hc s hs) h1

variable [DecidableEq F]

theorem structOfArrays_value {p p' : Expr F} {Γ : TCtx} {c n : Nat} (h : SoaInput I p Γ c)
    (hΓ : ∀ s σ, Γ s = some σ → flat σ = true) (hr : structOfArrays n c p = some p') :
    typeOf p' = typeOf p ∧ AllFlat p' ∧
    ∀ env v, EnvTyped Γ env → run I p env = some v → run I p' env = some v := by
  simp only [structOfArrays, Option.bind_eq_some_iff] at hr
  obtain ⟨τ, hτ, r, hr, h1⟩ := hr
  split at h1
  swap
  · cases h1
  rename_i h2
  cases h1
  obtain ⟨q1, q2, q3⟩ := soaGo_value h hΓ hτ hr
  obtain ⟨q4, q5⟩ := q2.elim
  refine ⟨h2.trans hτ.symm, q4, fun env v he hv => ?_⟩
  rw [q5, q1] at h2
  have hfl : flat τ = true := flat_of_soaTy_eq (Option.some.inj h2)
  have := run_elim (I := I) r.1 env _ (q3 env v he hv)
  rwa [soaVal_flat hfl] at this

end Verif.Midend
