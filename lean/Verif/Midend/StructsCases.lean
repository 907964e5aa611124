import Verif.Midend.StructsSpec

/-! The cases of the struct-of-arrays pass other than reductions. -/

set_option linter.unusedSectionVars false

namespace Verif.Midend
open Verif.Phi Verif.Term
variable {F : Type} [FloatOps F] {I : Ext F} {rec : Expr F → Nat → Option (Expr F × Nat)} {c : Nat} {r : Expr F × Nat}

omit [FloatOps F] in
theorem forall₂_exists {α β : Type} {R : α → β → Prop} {l : List α} {l' : List β} (h : List.Forall₂ R l l') {b : β}
    (hb : b ∈ l') : ∃ a ∈ l, R a b := by
  induction h with
  | nil => cases hb
  | cons h1 _ ih =>
    rcases List.mem_cons.1 hb with rfl | hb
    · exact ⟨_, by simp, h1⟩
    · obtain ⟨a, ha, hr⟩ := ih hb
      exact ⟨a, by simp [ha], hr⟩

omit [FloatOps F] in
theorem forall₂_mem {R : Expr F → Expr F → Prop} {l l' : List (Expr F)} (h : List.Forall₂ R l l') :
    List.Forall₂ (fun a b => a ∈ l ∧ R a b) l l' := by
  induction h with
  | nil => exact .nil
  | cons h1 _ ih => exact .cons ⟨by simp, h1⟩ (ih.imp fun a b h => ⟨by simp [h.1], h.2⟩)

/-- `go` on all sub-terms. -/
theorem go2 {a b : Expr F} {q : List (Expr F) × Nat} (h : goList rec [a, b] c = some q) :
    ∃ a' c1 b' c2, rec a c = some (a', c1) ∧ rec b c1 = some (b', c2) ∧ q = ([a', b'], c2) := by
  simp only [goList, Option.bind_eq_some_iff] at h
  obtain ⟨⟨a', c1⟩, h1, _, ⟨⟨b', c2⟩, h2, _, h3, h4⟩, h5⟩ := h
  cases h3; cases h4; cases h5
  exact ⟨a', c1, b', c2, h1, h2, rfl⟩

theorem go1 {a : Expr F} {q : List (Expr F) × Nat} (h : goList rec [a] c = some q) :
    ∃ a' c1, rec a c = some (a', c1) ∧ q = ([a'], c1) := by
  simp only [goList, Option.bind_eq_some_iff] at h
  obtain ⟨⟨a', c1⟩, h1, _, h3, h5⟩ := h
  cases h3; cases h5
  exact ⟨a', c1, h1, rfl⟩

theorem go3 {a b d : Expr F} {q : List (Expr F) × Nat} (h : goList rec [a, b, d] c = some q) :
    ∃ a' c1 b' c2 d' c3, rec a c = some (a', c1) ∧ rec b c1 = some (b', c2) ∧ rec d c2 = some (d', c3) ∧
      q = ([a', b', d'], c3) := by
  simp only [goList, Option.bind_eq_some_iff] at h
  obtain ⟨⟨a', c1⟩, h1, _, ⟨⟨b', c2⟩, h2, _, ⟨⟨d', c3⟩, h6, _, h3, h4⟩, h7⟩, h5⟩ := h
  cases h3; cases h4; cases h5; cases h7
  exact ⟨a', c1, b', c2, d', c3, h1, h2, h6, rfl⟩

section cases
variable (hrec : ∀ e c r, rec e c = some r → Spec I e c r.1 r.2)
include hrec

theorem spec_let {v : Nat} {ts : List (Expr F)} (h : soaStep rec (node (.letv v) ts) c = some r)
    (hty : ∀ τ, typeOf (node (.letv v) ts) = some τ → typeOf r.1 = some (soaTy τ)) :
    Spec I (node (.letv v) ts) c r.1 r.2 := by
  intro Γ τ hf ht hΓ hb hc
  obtain ⟨a, b, σ, rfl, ha, hbt⟩ := inv_letv ht
  obtain ⟨q, h1, rfl⟩ := Option.map_eq_some_iff.1 (show (goList rec [a, b] c).map _ = _ from h)
  obtain ⟨a', c1, b', c2, e1, e2, rfl⟩ := go2 h1
  have fa := hf.child 0 a rfl
  have fb := hf.child 1 b rfl
  rw [childCtx_let0] at fa
  rw [childCtx_let1, ha] at fb
  obtain ⟨hb0, hb1⟩ := below_node.1 hb
  have hv : symNum (.var v) < c := hb0 _ (by simp [Head.captured])
  obtain ⟨p1, p2, p3, p4, p5⟩ := hrec a c _ e1 Γ σ fa ha hΓ (hb1 a (by simp)) hc
  have hfl := p3.flat_of p4
  obtain ⟨q1, q2, q3, q4, q5⟩ := hrec b c1 _ e2 _ τ fb hbt (hΓ.set hfl) ((hb1 b (by simp)).mono p1)
    ((hc.mono p1).set (by omega))
  have hT := hty τ ht
  have hfr : Γ (.var v) = none := hf.fresh _ (by simp [Head.captured])
  refine ⟨Nat.le_trans p1 q1, ?_, ?_, hT, ?_⟩
  · refine below_node.2 ⟨?_, ?_⟩
    · intro s hs
      exact Nat.lt_of_lt_of_le (hb0 s hs) (Nat.le_trans p1 q1)
    · simp only [List.mem_cons, List.not_mem_nil, or_false]
      rintro t (rfl | rfl)
      · exact p2.mono q1
      · exact q2
  · refine .node _ hT (fun _ => q3.flat_of q4) trivial ?_ ?_
    · intro s hs
      simp only [Head.captured, Finset.mem_singleton] at hs
      subst hs; exact soaCtx_none hfr
    · intro k t hk
      match k, hk with
      | 0, hk => cases hk; rw [childCtx_let0]; exact p3
      | 1, hk =>
        cases hk; rw [childCtx_let1, p4]
        rw [soaCtx_set] at q3; exact q3
  · intro env w he hw
    rw [run_node] at hw
    simp only [List.map, runDen, Option.bind_eq_some_iff] at hw
    obtain ⟨x, hx, hw⟩ := hw
    have hxt := run_hasType fa.declared ha he hx
    rw [run_node]
    simp only [List.map, runDen, Option.bind_eq_some_iff]
    refine ⟨soaVal σ x, p5 env x he hx, ?_⟩
    have := q5 _ w (he.set hxt) hw
    rwa [soaEnv_set] at this

theorem spec_fold {k a : Nat} {ts : List (Expr F)} (h : soaStep rec (node (.fold k a) ts) c = some r)
    (hty : ∀ τ, typeOf (node (.fold k a) ts) = some τ → typeOf r.1 = some (soaTy τ)) :
    Spec I (node (.fold k a) ts) c r.1 r.2 := by
  intro Γ τ hf ht hΓ hb hc
  obtain ⟨n, z, b, rfl, hn, hz, hbt⟩ := inv_fold ht
  obtain ⟨q, h1, rfl⟩ := Option.map_eq_some_iff.1 (show (goList rec [n, z, b] c).map _ = _ from h)
  obtain ⟨n', c1, z', c2, b', c3, e1, e2, e3, rfl⟩ := go3 h1
  have fn := hf.child 0 n rfl
  have fz := hf.child 1 z rfl
  have fb := hf.child 2 b rfl
  rw [childCtx_fold0] at fn
  rw [childCtx_fold1] at fz
  rw [childCtx_fold2, hz] at fb
  obtain ⟨hb0, hb1⟩ := below_node.1 hb
  have hk : symNum (.var k) < c := hb0 _ (by simp [Head.captured])
  have ha : symNum (.var a) < c := hb0 _ (by simp [Head.captured])
  obtain ⟨p1, p2, p3, p4, p5⟩ := hrec n c _ e1 Γ _ fn hn hΓ (hb1 n (by simp)) hc
  obtain ⟨o1, o2, o3, o4, o5⟩ := hrec z c1 _ e2 Γ _ fz hz hΓ ((hb1 z (by simp)).mono p1) (hc.mono p1)
  have hfl := o3.flat_of o4
  have l2 : c ≤ c2 := Nat.le_trans p1 o1
  obtain ⟨q1, q2, q3, q4, q5⟩ := hrec b c2 _ e3 _ τ fb hbt ((hΓ.set hfl).set rfl) ((hb1 b (by simp)).mono l2)
    (((hc.mono l2).set (by omega)).set (by omega))
  have hT := hty τ ht
  refine ⟨Nat.le_trans l2 q1, ?_, ?_, hT, ?_⟩
  · refine below_node.2 ⟨fun s hs => Nat.lt_of_lt_of_le (hb0 s hs) (Nat.le_trans l2 q1), ?_⟩
    simp only [List.mem_cons, List.not_mem_nil, or_false]
    rintro t (rfl | rfl | rfl)
    · exact p2.mono (Nat.le_trans o1 q1)
    · exact o2.mono q1
    · exact q2
  · refine .node _ hT (fun _ => hfl) trivial (fun s hs => soaCtx_none (hf.fresh s hs)) ?_
    intro j t hj
    match j, hj with
    | 0, hj => cases hj; rw [childCtx_fold0]; exact p3
    | 1, hj => cases hj; rw [childCtx_fold1]; exact o3
    | 2, hj =>
      cases hj; rw [childCtx_fold2, o4]
      rw [soaCtx_set, soaCtx_set] at q3; exact q3
  · intro env w he hw
    rw [run_node] at hw
    simp only [List.map, runDen, foldOf, Option.bind_eq_some_iff] at hw
    obtain ⟨m, ⟨nv, hnv, hm⟩, x, hx, hl⟩ := hw
    have hxt := run_hasType fz.declared hz he hx
    rw [run_node]
    simp only [List.map, runDen, foldOf, Option.bind_eq_some_iff]
    refine ⟨m, ⟨nv, ?_, hm⟩, soaVal τ x, o5 env x he hx, ?_⟩
    · have := p5 env nv he hnv
      rwa [soaVal_flat (t := .scalar .int) rfl] at this
    · clear hx
      generalize List.range m.toNat = l at hl ⊢
      induction l generalizing x with
      | nil => cases hl; rfl
      | cons i l ih =>
        simp only [loopOpt, Option.bind_eq_some_iff] at hl ⊢
        obtain ⟨y, hy, hl⟩ := hl
        have he' : EnvTyped ((Γ.set (.var a) (some τ)).set (.var k) (some (.scalar .int)))
            ((env.set (.var a) (some x)).set (.var k) (some (.int (i : Int)))) :=
          (he.set hxt).set (HasType.sc (.i (i : Int)))
        have hyt := run_hasType fb.declared hbt he' hy
        have := q5 _ y he' hy
        rw [soaEnv_set, soaEnv_set, soaVal_sc] at this
        exact ⟨soaVal τ y, this, ih y hyt hl⟩

theorem spec_store {s : Sym} {σ : Ty} {ts : List (Expr F)} (h : soaStep rec (node (.store s σ) ts) c = some r) :
    Spec I (node (.store s σ) ts) c r.1 r.2 := by
  intro Γ τ hf ht hΓ hb hc
  obtain ⟨rfl, rfl⟩ := inv_store ht
  cases h
  have hok : Γ s = some σ := hf.ok
  refine ⟨Nat.le_refl _, .plain rfl (by simp), ?_, rfl, ?_⟩
  · exact .plain rfl rfl (fun _ => hΓ s σ hok) (show soaCtx Γ s = _ by simp [soaCtx, hok]) (by simp)
  · intro env v he hv
    have hv : env s = some v := hv
    show soaEnv Γ env s = _
    simp [soaEnv, hok, hv]

theorem spec_const {w : D F} {σ : Ty} {ts : List (Expr F)} (h : soaStep rec (node (.const w σ) ts) c = some r)
    (hty : ∀ τ, typeOf (node (.const w σ) ts) = some τ → typeOf r.1 = some (soaTy τ)) :
    Spec I (node (.const w σ) ts) c r.1 r.2 := by
  intro Γ τ hf ht hΓ hb hc
  obtain ⟨rfl, rfl⟩ := inv_const ht
  cases h
  have hT := hty σ rfl
  have : soaTy σ = σ := (Option.some.inj hT).symm
  have hfl := flat_of_soaTy_eq this
  refine ⟨Nat.le_refl _, .plain rfl (by simp), .plain rfl rfl (fun _ => hfl) hf.ok (by simp), hT, ?_⟩
  intro env v he hv
  cases hv
  rw [soaVal_flat hfl]; rfl

/-- A node whose sub-terms are all transformed in its own context. -/
theorem spec_map {h : Head F} {ts : List (Expr F)} (hcap : h.captured = ∅)
    (hgo : (goList rec ts c).map (fun r => (node h r.1, r.2)) = some r)
    (hty : ∀ τ, typeOf (node h ts) = some τ → typeOf r.1 = some (soaTy τ))
    (hok : ∀ Γ ts', headOk I h ts Γ → List.Forall₂ (fun t t' => ∃ τ, typeOf t = some τ ∧
      typeOf t' = some (soaTy τ)) ts ts' → headOk I h ts' (soaCtx Γ))
    (hfl : ∀ ts' τ, typeOf (node h ts) = some τ → typeOf (node h ts') = some (soaTy τ) →
      List.Forall₂ (fun t t' => ∃ τ, typeOf t = some τ ∧ typeOf t' = some (soaTy τ) ∧ flat (soaTy τ) = true) ts ts' →
      flat (soaTy τ) = true)
    (hrun : ∀ Γ ts' τ env v, EnvTyped Γ env → typeOf (node h ts) = some τ → typeOf (node h ts') = some (soaTy τ) →
      headOk I h ts Γ →
      List.Forall₂ (fun t t' => ∃ τ, typeOf t = some τ ∧ typeOf t' = some (soaTy τ) ∧ flat (soaTy τ) = true ∧
        (∀ v, run I t env = some v → HasType v τ ∧ run I t' (soaEnv Γ env) = some (soaVal τ v))) ts ts' →
      run I (node h ts) env = some v → run I (node h ts') (soaEnv Γ env) = some (soaVal τ v)) :
    Spec I (node h ts) c r.1 r.2 := by
  intro Γ τ hf ht hΓ hb hc
  obtain ⟨⟨ts', c'⟩, h1, rfl⟩ := Option.map_eq_some_iff.1 hgo
  have hch := hf.child_mem hcap
  obtain ⟨q1, q2⟩ := goList_spec hrec hΓ h1 hch (below_node.1 hb).2 hc
  have hT := hty τ ht
  refine ⟨q1, .plain hcap ?_, .plain hcap hT (fun _ => ?_) ?_ ?_, hT, ?_⟩
  · intro t' ht'
    obtain ⟨t, _, hp⟩ := forall₂_exists q2 ht'
    exact hp.1
  · refine hfl ts' τ ht hT (q2.imp fun t t' hp => ?_)
    obtain ⟨_, p2, τ, p3, p4, _⟩ := hp
    exact ⟨τ, p3, p4, p2.flat_of p4⟩
  · refine hok Γ ts' hf.ok (q2.imp fun t t' hp => ?_)
    obtain ⟨_, p2, τ, p3, p4, _⟩ := hp
    exact ⟨τ, p3, p4⟩
  · intro t' ht'
    obtain ⟨t, _, hp⟩ := forall₂_exists q2 ht'
    exact hp.2.1
  · intro env v he hv
    refine hrun Γ ts' τ env v he ht hT hf.ok ?_ hv
    have q3 := forall₂_mem q2
    refine q3.imp fun t t' hp => ?_
    obtain ⟨hm, _, p2, τ, p3, p4, p5⟩ := hp
    exact ⟨τ, p3, p4, p2.flat_of p4, fun v hv => ⟨run_hasType (hch t hm).declared p3 he hv, p5 env v he hv⟩⟩

theorem spec_cons {ts : List (Expr F)} (h : soaStep rec (node .cons ts) c = some r)
    (hty : ∀ τ, typeOf (node .cons ts) = some τ → typeOf r.1 = some (soaTy τ)) :
    Spec I (node .cons ts) c r.1 r.2 := by
  refine spec_map hrec rfl h hty (fun _ _ _ _ => trivial) ?_ ?_
  · intro ts' τ ht _ hch
    obtain ⟨a, b, σ, ρ, rfl, ha, hb, rfl⟩ := inv_cons ht
    rcases hch with _ | ⟨⟨_, h1, _, h2⟩, _ | ⟨⟨_, h3, _, h4⟩, _⟩⟩
    rw [ha] at h1; cases h1
    rw [hb] at h3; cases h3
    simp [soaTy, flat, h2, h4]
  · intro Γ ts' τ env v he ht _ _ hch hv
    obtain ⟨a, b, σ, ρ, rfl, ha, hb, rfl⟩ := inv_cons ht
    rcases hch with _ | ⟨⟨_, h1, _, _, h2⟩, _ | ⟨⟨_, h3, _, _, h4⟩, _ | _⟩⟩
    rw [ha] at h1; cases h1
    rw [hb] at h3; cases h3
    rw [run_node] at hv ⊢
    simp only [List.map, runDen, consOf, Option.bind_eq_some_iff] at hv ⊢
    obtain ⟨x, hx, y, hy, hv⟩ := hv
    cases hv
    exact ⟨_, (h2 x hx).2, _, (h4 y hy).2, rfl⟩

theorem spec_fst {ts : List (Expr F)} (h : soaStep rec (node .fst ts) c = some r)
    (hty : ∀ τ, typeOf (node .fst ts) = some τ → typeOf r.1 = some (soaTy τ)) :
    Spec I (node .fst ts) c r.1 r.2 := by
  refine spec_map hrec rfl h hty (fun _ _ _ _ => trivial) ?_ ?_
  · intro ts' τ ht _ hch
    obtain ⟨a, σ, rfl, ha⟩ := inv_fst ht
    rcases hch with _ | ⟨⟨_, h1, _, h2⟩, _⟩
    rw [ha] at h1; cases h1
    simp only [soaTy, flat, Bool.and_eq_true] at h2
    exact h2.1
  · intro Γ ts' τ env v he ht _ _ hch hv
    obtain ⟨a, σ, rfl, ha⟩ := inv_fst ht
    rcases hch with _ | ⟨⟨_, h1, _, _, h2⟩, _ | _⟩
    rw [ha] at h1; cases h1
    rw [run_node] at hv ⊢
    simp only [List.map, runDen, fstOf, Option.bind_eq_some_iff] at hv ⊢
    obtain ⟨x, hx, hv⟩ := hv
    obtain ⟨hxt, hx'⟩ := h2 x hx
    cases hxt with
    | pair _ _ => cases hv; exact ⟨_, hx', rfl⟩

theorem spec_snd {ts : List (Expr F)} (h : soaStep rec (node .snd ts) c = some r)
    (hty : ∀ τ, typeOf (node .snd ts) = some τ → typeOf r.1 = some (soaTy τ)) :
    Spec I (node .snd ts) c r.1 r.2 := by
  refine spec_map hrec rfl h hty (fun _ _ _ _ => trivial) ?_ ?_
  · intro ts' τ ht _ hch
    obtain ⟨a, σ, rfl, ha⟩ := inv_snd ht
    rcases hch with _ | ⟨⟨_, h1, _, h2⟩, _⟩
    rw [ha] at h1; cases h1
    simp only [soaTy, flat, Bool.and_eq_true] at h2
    exact h2.2
  · intro Γ ts' τ env v he ht _ _ hch hv
    obtain ⟨a, σ, rfl, ha⟩ := inv_snd ht
    rcases hch with _ | ⟨⟨_, h1, _, _, h2⟩, _ | _⟩
    rw [ha] at h1; cases h1
    rw [run_node] at hv ⊢
    simp only [List.map, runDen, sndOf, Option.bind_eq_some_iff] at hv ⊢
    obtain ⟨x, hx, hv⟩ := hv
    obtain ⟨hxt, hx'⟩ := h2 x hx
    cases hxt with
    | pair _ _ => cases hv; exact ⟨_, hx', rfl⟩

omit hrec in
/-- Integers (and scalars) are not converted. -/
theorem mapOpt_soa {α : Type} {p : D F → Option α} (hp : ∀ v x, p v = some x → ∃ s, v = .sc s) {Γ : TCtx} {env : Env (D F)}
    {ts ts' : List (Expr F)}
    (hch : List.Forall₂ (fun t t' => ∃ τ : Ty, ∀ v, run I t env = some v → run I t' (soaEnv Γ env) = some (soaVal τ v)) ts ts')
    {xs : List α} (h : mapOpt (fun v : Option (D F) => v.bind p) ((ts.map (run I)).map (· env)) = some xs) :
    mapOpt (fun v : Option (D F) => v.bind p) ((ts'.map (run I)).map (· (soaEnv Γ env))) = some xs := by
  induction hch generalizing xs with
  | nil => exact h
  | cons h1 _ ih =>
    obtain ⟨τ, h1⟩ := h1
    simp only [List.map, mapOpt, Option.bind_eq_some_iff] at h ⊢
    obtain ⟨x, ⟨v, hv, hx⟩, ys, hys, h⟩ := h
    refine ⟨x, ⟨_, h1 v hv, ?_⟩, ys, ih hys, h⟩
    obtain ⟨s, rfl⟩ := hp v x hx
    rw [soaVal_sc]; exact hx

omit hrec in
theorem asInt_sc {v : D F} {n : Int} (h : v.asInt = some n) : ∃ s, v = .sc s := by
  cases v <;> simp [Val.asInt] at h ⊢

omit hrec in
theorem asScal_sc {v : D F} {n : Scal F} (h : v.asScal = some n) : ∃ s, v = .sc s := by
  cases v <;> simp [Val.asScal] at h ⊢

theorem spec_op {o : ScalarOp} {ts : List (Expr F)} (h : soaStep rec (node (.op o) ts) c = some r)
    (hty : ∀ τ, typeOf (node (.op o) ts) = some τ → typeOf r.1 = some (soaTy τ)) :
    Spec I (node (.op o) ts) c r.1 r.2 := by
  have hsc : ∀ τ, typeOf (node (.op o) ts) = some τ → ∃ k, τ = .scalar k := by
    intro τ ht
    rw [typeOf_node] at ht
    simp only [typeStep] at ht
    split at ht
    · split at ht
      · unfold resolveSignature at ht
        split at ht
        · cases ht
        · split at ht
          · cases ht; exact ⟨_, rfl⟩
          · obtain ⟨k, _, rfl⟩ := Option.map_eq_some_iff.1 ht; exact ⟨k, rfl⟩
      · cases ht
    · cases ht
  refine spec_map hrec rfl h hty (fun _ _ _ _ => trivial) ?_ ?_
  · intro ts' τ ht _ hch
    obtain ⟨k, rfl⟩ := hsc τ ht
    rfl
  · intro Γ ts' τ env v he ht _ _ hch hv
    obtain ⟨k, rfl⟩ := hsc τ ht
    rw [run_node] at hv ⊢
    simp only [runDen, opOf, Option.bind_eq_some_iff] at hv ⊢
    obtain ⟨ss, h1, s, h2, h3⟩ := hv
    cases h3
    exact ⟨ss, mapOpt_soa (fun _ _ => asScal_sc) (hch.imp fun t t' hp => by
      obtain ⟨τ, _, _, _, hp⟩ := hp
      exact ⟨τ, fun v hv => (hp v hv).2⟩) h1, s, h2, by rw [soaVal_sc]⟩

theorem spec_assertEq {ts : List (Expr F)} (h : soaStep rec (node .assertEq ts) c = some r)
    (hty : ∀ τ, typeOf (node .assertEq ts) = some τ → typeOf r.1 = some (soaTy τ)) :
    Spec I (node .assertEq ts) c r.1 r.2 := by
  refine spec_map hrec rfl h hty (fun _ _ _ _ => trivial) ?_ ?_
  · intro ts' τ ht _ hch
    obtain ⟨a, l, rfl, ha⟩ := inv_assertEq ht
    rcases hch with _ | ⟨⟨_, h1, _, h2⟩, _⟩
    rw [ha] at h1; cases h1
    exact h2
  · intro Γ ts' τ env v he ht _ _ hch hv
    obtain ⟨a, l, rfl, ha⟩ := inv_assertEq ht
    rcases hch with _ | ⟨⟨_, h1, _, _, h2⟩, hl⟩
    rw [ha] at h1; cases h1
    rw [run_node] at hv ⊢
    simp only [List.map, runDen, assertOf, Option.bind_eq_some_iff] at hv ⊢
    obtain ⟨ns, h3, h4⟩ := hv
    refine ⟨ns, mapOpt_soa (fun _ _ => asInt_sc) (hl.imp fun t t' hp => by
      obtain ⟨τ, _, _, _, hp⟩ := hp
      exact ⟨τ, fun v hv => (hp v hv).2⟩) h3, ?_⟩
    cases ns with
    | nil => cases h4
    | cons n ns =>
      dsimp only at h4 ⊢
      split at h4
      · rename_i hall; rw [if_pos hall]; exact (h2 v h4).2
      · cases h4

theorem spec_ext {fn : Nat} {σ : Ty} {ts : List (Expr F)} (h : soaStep rec (node (.ext fn σ) ts) c = some r)
    (hty : ∀ τ, typeOf (node (.ext fn σ) ts) = some τ → typeOf r.1 = some (soaTy τ)) :
    Spec I (node (.ext fn σ) ts) c r.1 r.2 := by
  have hσ : ∀ (ts : List (Expr F)) τ, typeOf (node (.ext fn σ) ts) = some τ → τ = σ := by
    intro ts τ ht
    rw [typeOf_node] at ht
    simp only [typeStep] at ht
    split at ht
    · cases ht; rfl
    · cases ht
  refine spec_map hrec rfl h hty ?_ ?_ ?_
  · intro Γ ts' hok hch
    refine ⟨fun t' ht' ρ hρ => ?_, fun args r ha hr => hok.2 args r ?_ hr⟩
    · obtain ⟨t, htm, τ, h1, h2⟩ := forall₂_exists hch ht'
      have := hok.1 t htm τ h1
      rw [h2] at hρ; cases hρ
      rw [soaTy_flat this]; exact this
    · have hfl := hok.1
      clear hok hty h hr
      unfold TypedArgs at ha ⊢
      induction hch generalizing args with
      | nil => exact ha
      | @cons t t' ts ts' h1 _ ih =>
        cases ha with
        | cons h3 h4 =>
          obtain ⟨τ, e1, e2⟩ := h1
          obtain ⟨σ', e3, e4⟩ := h3
          rw [e2] at e3
          cases e3
          rw [soaTy_flat (hfl t (by simp) τ e1)] at e4
          exact .cons ⟨τ, e1, e4⟩ (ih _ h4 fun u hu => hfl u (by simp [hu]))
  · intro ts' τ ht ht' _
    have h1 := hσ ts τ ht
    have h2 := hσ ts' _ ht'
    subst h1
    rw [h2]; exact flat_of_soaTy_eq h2
  · intro Γ ts' τ env v he ht ht' hok hch hv
    have h1 := hσ ts τ ht
    have h2 := hσ ts' _ ht'
    subst h1
    rw [soaVal_flat (flat_of_soaTy_eq h2)]
    rw [run_node] at hv ⊢
    simp only [runDen, extOf, Option.bind_eq_some_iff] at hv ⊢
    obtain ⟨as, h3, h4⟩ := hv
    refine ⟨as, ?_, h4⟩
    have hch' := forall₂_mem hch
    have hfl := hok.1
    clear hch hok ht ht' h hty h4
    have : List.Forall₂ (fun t t' => ∀ v, run I t env = some v → run I t' (soaEnv Γ env) = some v) ts ts' := by
      refine hch'.imp fun t t' hp => ?_
      obtain ⟨hm, ρ, h5, _, _, h6⟩ := hp
      intro v hv
      rw [(h6 v hv).2, soaVal_flat (hfl t hm ρ h5)]
    clear hch' hfl
    induction this generalizing as with
    | nil => exact h3
    | cons h1 _ ih =>
      simp only [List.map, mapOpt, Option.bind_eq_some_iff] at h3 ⊢
      obtain ⟨x, hx, ys, hys, h⟩ := h3
      exact ⟨x, h1 x hx, ys, ih ys hys, h⟩

end cases
end Verif.Midend
