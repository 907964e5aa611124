import Verif.Midend.StructsCases

/-! Reads, sizes, concatenation and comprehensions in the struct-of-arrays pass. -/

set_option linter.unusedSectionVars false

namespace Verif.Midend
open Verif.Phi Verif.Term
variable {F : Type} [FloatOps F] {I : Ext F} {rec : Expr F → Nat → Option (Expr F × Nat)} {c : Nat} {r : Expr F × Nat}

theorem asVec_vec {v : D F} {vs : List (D F)} (h : v.asVec = some vs) : v = .vec vs := by
  cases v <;> simp [Val.asVec] at h ⊢
  exact h

theorem asInt_int {v : D F} {n : Int} (h : v.asInt = some n) : v = .int n := by
  rcases v with ⟨_ | _ | _⟩ | _ | _ <;> simp [Val.asInt, Val.int] at h ⊢; exact h

/-- A comprehension over a new index. -/
theorem vec_rename {fl : Bool} {i j : Nat} {b : Expr F} {Γ : TCtx} {A : Ty}
    (fb : Fine fl I b (Γ.set (.idx i) (some (.scalar .int)))) (tb : typeOf b = some A) (hj : Γ (.idx j) = none)
    (hb : Sym.idx j ∉ binders b) (hi : i ≠ j) :
    Fine fl I (substitute [(.idx i, at_ j)] b) (Γ.set (.idx j) (some (.scalar .int))) ∧
    typeOf (substitute [(.idx i, at_ j)] b) = some A ∧
    ∀ (env : Env (D F)) k, run I (substitute [(.idx i, at_ j)] b) (env.set (.idx j) (some k)) =
      run I b (env.set (.idx i) (some k)) := by
  classical
  have hj' : (Γ.set (.idx i) (some (.scalar .int))) (.idx j) = none := by
    simp only [TCtx.set]; rw [if_neg (by simpa using fun h => hi h.symm)]; exact hj
  have hfin : Fine fl I (at_ j : Expr F) (Γ.set (.idx j) (some (.scalar .int))) :=
    .plain rfl rfl (fun _ => rfl) (by simp [headOk, TCtx.set]) (by simp)
  have hbo : ∀ s ∈ binders b, (Γ.set (.idx j) (some (.scalar .int))) s = none ∧
      lookup s [(Sym.idx i, (at_ j : Expr F))] = none := by
    intro s hs
    have h1 := fb.binders_out s hs
    simp only [TCtx.set] at h1 ⊢
    split at h1
    · cases h1
    · rename_i hne
      have hnj : s ≠ .idx j := fun h => hb (h ▸ hs)
      simp [hnj, h1, lookup, hne]
  have hok : SubOk fl I [(Sym.idx i, (at_ j : Expr F))] (Γ.set (.idx i) (some (.scalar .int)))
      (Γ.set (.idx j) (some (.scalar .int))) := by
    intro s τ hs
    by_cases hsi : s = .idx i
    · subst hsi
      simp only [TCtx.set, if_true] at hs
      cases hs
      exact .inr ⟨at_ j, by simp [lookup], rfl, hfin, rfl, by simp [Sym.isIdx]⟩
    · refine .inl ⟨by simp [lookup, hsi], ?_⟩
      simp only [TCtx.set, if_neg hsi] at hs ⊢
      split
      · rename_i h; subst h; rw [hj] at hs; cases hs
      · exact hs
  obtain ⟨h1, h2⟩ := fb.substitute hok hbo
  refine ⟨h1, h2.trans tb, fun env k => ?_⟩
  have hsub := substitute_strict (Phi.strict I) (fun h fs s env hs => by
      change Head.symbol h = some s at hs
      cases h <;> simp only [Head.symbol, reduceCtorEq, Option.some.injEq] at hs
      subst hs; rfl)
    [(Sym.idx i, (at_ j : Expr F))] (by simp only [List.mem_singleton]; rintro p rfl; exact hfin.scoping) b fb.scoping
    (by
      refine Finset.disjoint_left.2 fun s hs hs' => ?_
      have h3 := hbo s hs
      rcases Finset.mem_union.1 hs' with h4 | h4
      · have := lookup_isSome.2 h4
        rw [h3.2] at this; cases this
      · obtain ⟨p, hp, hsp⟩ := mem_rangeFv.1 h4
        rw [List.mem_singleton.1 hp] at hsp
        exact hfin.fv_dom s hsp h3.1) (env.set (.idx j) (some k))
  refine Eq.trans hsub ?_
  refine (Phi.strict I).eval_agree_eq b fb.scoping fun s hs => ?_
  simp only [bindEnv, lookup]
  by_cases hsi : s = .idx i
  · subst hsi
    rw [if_pos rfl]
    show (env.set (.idx j) (some k)) (.idx j) = (env.set (.idx i) (some k)) (.idx i)
    simp [Env.set]
  · rw [if_neg hsi]
    have : s ≠ .idx j := by
      rintro rfl
      exact fb.fv_dom _ hs hj'
    simp [Env.set, hsi, this]

theorem mapOpt_map {α β : Type} {f g : α → Option β} {φ : β → β} {l : List α} {bs : List β}
    (h : ∀ a ∈ l, ∀ b, f a = some b → g a = some (φ b)) (hf : mapOpt f l = some bs) :
    mapOpt g l = some (bs.map φ) := by
  induction l generalizing bs with
  | nil => cases hf; rfl
  | cons a l ih =>
    simp only [mapOpt, Option.bind_eq_some_iff] at hf ⊢
    obtain ⟨b, hb, bs', hbs, h3⟩ := hf
    cases h3
    exact ⟨φ b, h a (by simp) b hb, _, ih (fun a ha => h a (by simp [ha])) hbs, rfl⟩

theorem run_vec {i : Nat} {n b : Expr F} {env : Env (D F)} : run I (vec i n b) env =
    vecOf (run I n env) (fun k => run I b (env.set (.idx i) (some (.int k)))) := by
  rw [vec, run_node]; rfl

section cases
variable (hrec : ∀ e c r, rec e c = some r → Spec I e c r.1 r.2)
include hrec

theorem spec_get {ts : List (Expr F)} (h : soaStep rec (node .get ts) c = some r) :
    Spec I (node .get ts) c r.1 r.2 := by
  intro Γ τ hf ht hΓ hb hc
  obtain ⟨a, b, k, rfl, ha, hbt⟩ := inv_get ht
  simp only [soaStep, Option.bind_eq_some_iff] at h
  obtain ⟨⟨a', c1⟩, e1, ⟨b', c2⟩, e2, σ, hσ, h⟩ := h
  cases h
  have hch := hf.child_mem rfl
  have hb1 := (below_node.1 hb).2
  obtain ⟨p1, p2, p3, p4, p5⟩ := hrec a c _ e1 Γ _ (hch a (by simp)) ha hΓ (hb1 a (by simp)) hc
  obtain ⟨q1, q2, q3, q4, q5⟩ := hrec b c1 _ e2 Γ _ (hch b (by simp)) hbt hΓ ((hb1 b (by simp)).mono p1) (hc.mono p1)
  rw [p4] at hσ; cases hσ
  obtain ⟨f1, f2⟩ := tupleGet_fine q3 q4 τ p3 p4
  refine ⟨Nat.le_trans p1 q1, tupleGet_below q2 _ (p2.mono q1), f1, f2, ?_⟩
  intro env v he hv
  rw [run_node] at hv
  simp only [List.map, runDen, getOf, Option.bind_eq_some_iff] at hv
  obtain ⟨vs, ⟨av, hav, hvs⟩, m, ⟨iv, hiv, hm⟩, hg⟩ := hv
  obtain rfl := asVec_vec hvs
  obtain rfl := asInt_int hm
  have hat := run_hasType (hch a (by simp)).declared ha he hav
  have h1 := p5 env _ he hav
  have h2 := q5 env _ he hiv
  rw [Val.int, soaVal_sc] at h2
  cases hat with
  | vec hall => exact tupleGet_run h2 τ h1 hall hg

theorem spec_concat {ts : List (Expr F)} (h : soaStep rec (node .concat ts) c = some r) :
    Spec I (node .concat ts) c r.1 r.2 := by
  intro Γ τ hf ht hΓ hb hc
  obtain ⟨a, b, t, rfl, ha, hbt, rfl⟩ := inv_concat ht
  simp only [soaStep, Option.bind_eq_some_iff] at h
  obtain ⟨⟨a', c1⟩, e1, ⟨b', c2⟩, e2, σ, hσ, h⟩ := h
  split at h
  · cases h
    have hch := hf.child_mem rfl
    have hb1 := (below_node.1 hb).2
    obtain ⟨p1, p2, p3, p4, p5⟩ := hrec a c _ e1 Γ _ (hch a (by simp)) ha hΓ (hb1 a (by simp)) hc
    obtain ⟨q1, q2, q3, q4, q5⟩ := hrec b c1 _ e2 Γ _ (hch b (by simp)) hbt hΓ ((hb1 b (by simp)).mono p1) (hc.mono p1)
    rw [p4] at hσ; cases hσ
    obtain ⟨f1, f2⟩ := tupleCat_fine t p3 q3 p4 q4
    refine ⟨Nat.le_trans p1 q1, tupleCat_below _ (p2.mono q1) q2, f1, f2, ?_⟩
    intro env v he hv
    rw [run_node] at hv
    simp only [List.map, runDen, concatOf, Option.bind_eq_some_iff] at hv
    obtain ⟨vs, ⟨av, hav, hvs⟩, ws, ⟨bv, hbv, hws⟩, hg⟩ := hv
    obtain rfl := asVec_vec hvs
    obtain rfl := asVec_vec hws
    split at hg
    · cases hg
      rename_i hu
      exact tupleCat_run t (p5 env _ he hav) (q5 env _ he hbv) hu
    · cases hg
  · cases h

omit hrec in
/-- The transformed size: the common value of the sizes of the components. -/
theorem run_assertAll {env : Env (D F)} {m : Int} {d : Expr F} {ds : List (Expr F)}
    (h : ∀ e ∈ d :: ds, run I e env = some (.int m)) : ds ≠ [] → run I (node .assertEq (d :: ds)) env = some (.int m) := by
  intro hne
  obtain ⟨d2, ds, rfl⟩ := List.exists_cons_of_ne_nil hne
  rw [run_node]
  simp only [List.map, runDen, assertOf]
  have : ∀ l : List (Expr F), (∀ e ∈ l, run I e env = some (.int m)) →
      mapOpt (fun v : Option (D F) => v.bind Val.asInt) ((l.map (run I)).map (· env)) =
        some (l.map fun _ => m) := by
    intro l hl
    induction l with
    | nil => rfl
    | cons e l ih =>
      simp only [List.map, mapOpt]
      rw [hl e (by simp), ih fun e he => hl e (by simp [he])]
      rfl
  have h1 := this (d2 :: ds) fun e he => h e (by simp [List.mem_cons.1 he])
  simp only [List.map] at h1
  rw [h1]
  simp [h d (by simp)]

theorem spec_dim {k : Nat} {ts : List (Expr F)} (h : soaStep rec (node (.dim k) ts) c = some r)
    (hty : ∀ τ, typeOf (node (.dim k) ts) = some τ → typeOf r.1 = some (soaTy τ)) :
    Spec I (node (.dim k) ts) c r.1 r.2 := by
  intro Γ τ hf ht hΓ hb hc
  obtain ⟨a, t, rfl, ha, rfl⟩ := inv_dim ht
  simp only [soaStep, Option.bind_eq_some_iff] at h
  obtain ⟨⟨a', c1⟩, e1, σ, hσ, h⟩ := h
  have hch := hf.child_mem rfl
  have hb1 := (below_node.1 hb).2
  obtain ⟨p1, p2, p3, p4, p5⟩ := hrec a c _ e1 Γ _ (hch a (by simp)) ha hΓ (hb1 a (by simp)) hc
  have hfl := p3.flat_of p4
  rw [p4] at hσ; cases hσ
  have hT := hty _ ht
  have hB := tupleDim_below k (soaTy t) p2
  have hF := tupleDim_fine k (soaTy t) p3 p4
  have hR : ∀ env v, EnvTyped Γ env → run I (node (.dim k) [a]) env = some v →
      ∃ m, v = .int m ∧ ∀ d ∈ tupleDim k (soaTy t) a', run I d (soaEnv Γ env) = some (.int m) := by
    intro env v he hv
    rw [run_node] at hv
    simp only [List.map, runDen, dimOf, Option.bind_eq_some_iff] at hv
    obtain ⟨m, ⟨av, hav, hm⟩, hv⟩ := hv
    cases hv
    refine ⟨_, rfl, ?_⟩
    have hat := run_hasType (hch a (by simp)).declared ha he hav
    have h1 := p5 env _ he hav
    cases hat with
    | sc s => cases k <;> simp [Val.dim] at hm
    | pair _ _ => cases k <;> simp [Val.dim] at hm
    | @vec vs u hall =>
      cases k with
      | zero =>
        simp only [Val.dim, Option.some.injEq] at hm
        subst hm
        exact tupleDim_run u h1
      | succ k =>
        have hu : isArr u = true := by
          cases vs with
          | nil => simp [Val.dim] at hm
          | cons w vs =>
            simp only [Val.dim] at hm
            cases hall w (by simp) with
            | sc s => rfl
            | pair _ _ => cases k <;> simp [Val.dim] at hm
            | vec _ => exact isArr_of_soaVec hfl
        intro d hd
        rw [soaTy, soaVec_arr hu] at hd
        rw [soaVal_flat (t := .vector u) hu] at h1
        rw [List.mem_singleton.1 hd, run_dim_node, h1]
        show (Val.dim _ _).bind _ = _
        rw [hm]; rfl
  generalize tupleDim k (soaTy t) a' = l at h hB hF hR
  match l, h with
  | [d], h =>
    cases h
    refine ⟨p1, hB d (by simp), (hF d (by simp)).1, hT, ?_⟩
    intro env v he hv
    obtain ⟨m, rfl, h1⟩ := hR env v he hv
    rw [h1 d (by simp), Val.int, soaVal_sc]
  | d :: d2 :: ds, h =>
    cases h
    refine ⟨p1, .plain rfl hB, .plain rfl hT (fun _ => rfl) trivial (fun d hd => (hF d hd).1), hT, ?_⟩
    intro env v he hv
    obtain ⟨m, rfl, h1⟩ := hR env v he hv
    rw [run_assertAll h1 (by simp), Val.int, soaVal_sc]

/-- One component of a comprehension of records. -/
theorem vec_part (hrt : ∀ e c r, rec e c = some r → typeOf e ≠ none) {i j c1 : Nat} {n b : Expr F} {Γ : TCtx} {A : Ty}
    (hΓ : CtxFlat Γ) (hbel : CtxBelow c Γ) (hnb : NumBelow c n) (hbb : NumBelow c b) (hi : i < j) (hj : c ≤ j) (hjc : j < c1)
    (fn : Fine true I n (soaCtx Γ)) (fb : Fine true I b ((soaCtx Γ).set (.idx i) (some (.scalar .int))))
    (tb : typeOf b = some A) (h : rec (vec j n (substitute [(.idx i, at_ j)] b)) c1 = some r) :
    c1 ≤ r.2 ∧ NumBelow r.2 r.1 ∧ Fine true I r.1 (soaCtx Γ) ∧ typeOf r.1 = some (soaVec A) ∧
    ∀ env m vs, EnvTyped Γ env → run I n (soaEnv Γ env) = some (.int m) →
      mapOpt (fun k : Nat => run I b ((soaEnv Γ env).set (.idx i) (some (.int k)))) (List.range m.toNat) = some vs →
      Val.uniform vs = true → run I r.1 (soaEnv Γ env) = some (soaVals A vs) := by
  have hjΓ : soaCtx Γ (.idx j) = none := hbel.soa.fresh hj
  obtain ⟨f1, f2, f3⟩ := vec_rename (I := I) fb tb hjΓ
    (fun hm => absurd (hbb _ hm) (by simp only [symNum]; omega)) (by omega)
  have hTy : typeOf (vec j n (substitute [(.idx i, at_ j)] b)) = some (.vector A) := by
    cases hh : typeOf (vec j n (substitute [(.idx i, at_ j)] b)) with
    | none => exact absurd hh (hrt _ _ _ h)
    | some τ =>
      obtain ⟨_, _, σ, h1, _, _, h4, h5⟩ := inv_vec hh
      cases h1
      rw [f2] at h4; cases h4
      rw [h5]
  have fv : Fine false I (vec j n (substitute [(.idx i, at_ j)] b)) (soaCtx Γ) := by
    refine .node _ hTy (by simp) trivial ?_ ?_
    · intro s hs
      simp only [Head.captured, Finset.mem_singleton] at hs
      rw [hs]; exact hjΓ
    · intro k t hk
      match k, hk with
      | 0, hk => cases hk; rw [childCtx_vec0]; exact fn.relax
      | 1, hk => cases hk; rw [childCtx_vec1]; exact f1.relax
  have hnum : NumBelow c1 (vec j n (substitute [(.idx i, at_ j)] b)) := by
    refine below_node.2 ⟨?_, ?_⟩
    · intro s hs
      simp only [Head.captured, Finset.mem_singleton] at hs
      rw [hs]; exact hjc
    · simp only [List.mem_cons, List.not_mem_nil, or_false]
      rintro t (rfl | rfl)
      · exact hnb.mono (by omega)
      · intro s hs
        exact Nat.lt_of_lt_of_le (hbb s (binders_substitute (by simp only [List.mem_singleton]; rintro p rfl; rfl) b hs)) (by omega)
  obtain ⟨p1, p2, p3, p4, p5⟩ := hrec _ _ _ h (soaCtx Γ) _ fv hTy hΓ.soa hnum (hbel.soa.mono (by omega))
  rw [soaCtx_soaCtx hΓ] at p3
  refine ⟨p1, p2, p3, p4, ?_⟩
  intro env m vs he hn hm hu
  have := p5 (soaEnv Γ env) (.vec vs) (EnvTyped.soa he) (by
    rw [run_vec, hn]
    have : (fun k : Nat => run I (substitute [(Sym.idx i, (at_ j : Expr F))] b)
        ((soaEnv Γ env).set (.idx j) (some (.int (k : Int))))) =
        fun k : Nat => run I b ((soaEnv Γ env).set (.idx i) (some (.int (k : Int)))) := by
      funext k; exact f3 _ _
    show (mapOpt _ _).bind _ = _
    rw [this]
    show (mapOpt _ (List.range m.toNat)).bind _ = _
    rw [hm]
    simp [hu])
  rwa [soaEnv_flat hΓ.flat_soa] at this

theorem spec_vec (hrt : ∀ e c r, rec e c = some r → typeOf e ≠ none) {i : Nat} {ts : List (Expr F)}
    (h : soaStep rec (node (.vec i) ts) c = some r)
    (hty : ∀ τ, typeOf (node (.vec i) ts) = some τ → typeOf r.1 = some (soaTy τ)) :
    Spec I (node (.vec i) ts) c r.1 r.2 := by
  intro Γ τ hf ht hΓ hb hc
  have hT := hty τ ht
  obtain ⟨n, b, t, rfl, hn, _, hbt, rfl⟩ := inv_vec ht
  simp only [soaStep, Option.bind_eq_some_iff] at h
  obtain ⟨⟨n', c1⟩, e1, ⟨b', c2⟩, e2, σ, hσ, h⟩ := h
  have fn := hf.child 0 n rfl
  have fb := hf.child 1 b rfl
  rw [childCtx_vec0] at fn
  rw [childCtx_vec1] at fb
  obtain ⟨hb0, hb1⟩ := below_node.1 hb
  have hi : symNum (.idx i) < c := hb0 _ (by simp [Head.captured])
  obtain ⟨p1, p2, p3, p4, p5⟩ := hrec n c _ e1 Γ _ fn hn hΓ (hb1 n (by simp)) hc
  obtain ⟨q1, q2, q3, q4, q5⟩ := hrec b c1 _ e2 _ t fb hbt (hΓ.set rfl) ((hb1 b (by simp)).mono p1)
    ((hc.mono p1).set (by omega))
  have hfl := q3.flat_of q4
  rw [soaCtx_set] at q3
  rw [q4] at hσ; cases hσ
  simp only [symNum] at hi
  -- the values of the body
  have hR : ∀ env v, EnvTyped Γ env → run I (node (.vec i) [n, b]) env = some v →
      ∃ m vs, run I n' (soaEnv Γ env) = some (.int m) ∧ v = .vec vs ∧ (∀ w ∈ vs, HasType w t) ∧
        Val.uniform vs = true ∧
        mapOpt (fun k : Nat => run I b' ((soaEnv Γ env).set (.idx i) (some (.int k)))) (List.range m.toNat) =
          some (vs.map (soaVal t)) := by
    intro env v he hv
    have hvt := run_hasType hf.declared ht he hv
    rw [run_node] at hv
    simp only [List.map, runDen, vecOf, Option.bind_eq_some_iff] at hv
    obtain ⟨m, ⟨nv, hnv, hm⟩, vs, hvs, hv⟩ := hv
    obtain rfl := asInt_int hm
    split at hv
    · cases hv
      rename_i hu
      have h1 := p5 env _ he hnv
      rw [Val.int, soaVal_sc] at h1
      refine ⟨m, vs, h1, rfl, ?_, hu, ?_⟩
      · cases hvt with | vec hall => exact hall
      · refine mapOpt_map (fun k _ w hw => ?_) hvs
        have := q5 _ w (he.set (HasType.sc (.i (k : Int)))) hw
        rwa [soaEnv_set, soaVal_sc] at this
    · cases hv
  by_cases hpair : ∃ A B, soaTy t = .pair A B
  · obtain ⟨A, B, hAB⟩ := hpair
    rw [hAB] at h q4 hfl
    simp only [Option.bind_eq_some_iff] at h
    obtain ⟨⟨l, c3⟩, e3, ⟨m, c4⟩, e4, h⟩ := h
    cases h
    have hcb := hc.mono (Nat.le_trans p1 q1)
    obtain ⟨l1, l2, l3, l4, l5⟩ := vec_part hrec hrt hΓ hcb (p2.mono q1) q2.fst
      (by omega) (Nat.le_refl c2) (by omega) p3 (q3.fst q4) (typeOf_fst q4) e3
    obtain ⟨m1, m2, m3, m4, m5⟩ := vec_part hrec hrt (c := c2) hΓ hcb (p2.mono q1) q2.snd
      (by omega) (by omega) (by omega) p3 (q3.snd q4) (typeOf_snd q4) e4
    have hcT : typeOf (cons l m) = some (.pair (soaVec A) (soaVec B)) := typeOf_cons l4 m4
    rw [hcT] at hT
    cases t with
    | scalar k => cases hT
    | vector u => cases hT
    | pair a b0 =>
      simp only [soaTy, Ty.pair.injEq] at hAB
      obtain ⟨rfl, rfl⟩ := hAB
      simp only [soaTy, soaVec, Option.some.injEq, Ty.pair.injEq] at hT
      refine ⟨by simp only at *; omega, (l2.mono m1).cons m2, l3.cons m3, ?_, ?_⟩
      · rw [hcT, hT.1, hT.2]; rfl
      · intro env v he hv
        obtain ⟨k, vs, hk, rfl, hvs, hu, hm⟩ := hR env v he hv
        have hfa : flat (soaVec a) = true := hT.1 ▸ l3.flat_of l4
        have hfb : flat (soaVec b0) = true := hT.2 ▸ m3.flat_of m4
        have comp : ∀ (e : Expr F) (g : D F → D F), (∀ env v, run I b' env = some v → (∃ x y, v = .pair x y) →
              run I e env = some (g v)) →
            mapOpt (fun k : Nat => run I e ((soaEnv Γ env).set (.idx i) (some (.int k)))) (List.range k.toNat) =
              some ((vs.map (soaVal (.pair a b0))).map g) := by
          intro e g hg
          have : ∀ l : List Nat, ∀ ws : List (D F), (∀ w ∈ ws, ∃ x y, w = .pair x y) →
              mapOpt (fun k : Nat => run I b' ((soaEnv Γ env).set (.idx i) (some (.int k)))) l = some ws →
              mapOpt (fun k : Nat => run I e ((soaEnv Γ env).set (.idx i) (some (.int k)))) l = some (ws.map g) := by
            intro l
            induction l with
            | nil => intro ws _ h; cases h; rfl
            | cons k l ih =>
              intro ws hw h
              simp only [mapOpt, Option.bind_eq_some_iff] at h ⊢
              obtain ⟨w, h1, ws', h2, h3⟩ := h
              cases h3
              exact ⟨g w, hg _ _ h1 (hw w (by simp)), _, ih ws' (fun w h => hw w (by simp [h])) h2, rfl⟩
          refine this _ _ ?_ hm
          intro w hw
          obtain ⟨w', hw', rfl⟩ := List.mem_map.1 hw
          cases hvs w' hw' with | pair h1 h2 => exact ⟨_, _, rfl⟩
        have hl := l5 env k _ he hk (comp (fst b') Val.left (by
          rintro env v hv ⟨x, y, rfl⟩; rw [run_fst, hv]; rfl))
          (uniform_map (fun _ _ => shape_left) (uniform_map (fun _ _ => shape_soaVal) hu))
        have hr := m5 env k _ he hk (comp (snd b') Val.right (by
          rintro env v hv ⟨x, y, rfl⟩; rw [run_snd, hv]; rfl))
          (uniform_map (fun _ _ => shape_right) (uniform_map (fun _ _ => shape_soaVal) hu))
        rw [run_cons, hl, hr]
        have hL : ∀ w ∈ vs.map Val.left, HasType w a := by
          intro w hw
          obtain ⟨w', hw', rfl⟩ := List.mem_map.1 hw
          cases hvs w' hw' with | pair h1 h2 => exact h1
        have hR : ∀ w ∈ vs.map Val.right, HasType w b0 := by
          intro w hw
          obtain ⟨w', hw', rfl⟩ := List.mem_map.1 hw
          cases hvs w' hw' with | pair h1 h2 => exact h2
        have eL : (vs.map (soaVal (.pair a b0))).map Val.left = (vs.map Val.left).map (soaVal a) := by
          rw [List.map_map, List.map_map]
          refine List.map_congr_left fun w hw => ?_
          cases hvs w hw with | pair h1 h2 => rfl
        have eR : (vs.map (soaVal (.pair a b0))).map Val.right = (vs.map Val.right).map (soaVal b0) := by
          rw [List.map_map, List.map_map]
          refine List.map_congr_left fun w hw => ?_
          cases hvs w hw with | pair h1 h2 => rfl
        rw [eL, eR, soaVals_soaVal hfa hL, soaVals_soaVal hfb hR]
        rfl
  · have hr : r = (vec i n' b', c2) := by
      cases hs : soaTy t with
      | pair A B => exact absurd ⟨A, B, hs⟩ hpair
      | scalar k => rw [hs] at h; cases h; rfl
      | vector u => rw [hs] at h; cases h; rfl
    subst hr
    have harr : isArr (soaTy t) = true := by
      cases hs : soaTy t with
      | pair A B => exact absurd ⟨A, B, hs⟩ hpair
      | scalar k => rfl
      | vector u => rw [hs] at hfl; exact hfl
    have hTe : soaTy (.vector t) = .vector (soaTy t) := by
      have hT' := hT
      obtain ⟨_, _, σ, h1, _, _, h4, h5⟩ := inv_vec hT'
      cases h1
      rw [q4] at h4; cases h4
      exact h5
    refine ⟨Nat.le_trans p1 q1, ?_, ?_, hT, ?_⟩
    · refine below_node.2 ⟨fun s hs => Nat.lt_of_lt_of_le (hb0 s hs) (Nat.le_trans p1 q1), ?_⟩
      simp only [List.mem_cons, List.not_mem_nil, or_false]
      rintro t (rfl | rfl)
      · exact p2.mono q1
      · exact q2
    · refine .node _ hT (fun _ => by rw [hTe]; exact harr) trivial (fun s hs => soaCtx_none (hf.fresh s hs)) ?_
      intro k e hk
      match k, hk with
      | 0, hk => cases hk; rw [childCtx_vec0]; exact p3
      | 1, hk => cases hk; rw [childCtx_vec1]; exact q3
    · intro env v he hv
      obtain ⟨k, vs, hk, rfl, hvs, hu, hm⟩ := hR env v he hv
      rw [run_vec, hk]
      show (mapOpt _ (List.range k.toNat)).bind _ = _
      rw [hm]
      show (if _ then _ else _) = _
      rw [if_pos (uniform_map (fun _ _ => shape_soaVal) hu)]
      cases t with
      | pair a b => exact absurd ⟨_, _, rfl⟩ hpair
      | scalar k =>
        have : soaVal (.scalar k) = (id : D F → D F) := by funext v; cases v <;> rfl
        rw [this, List.map_id]; rfl
      | vector u =>
        have : soaVal (.vector u) = (onVec (soaVals u) : D F → D F) := by funext v; cases v <;> rfl
        rw [this]; rfl

end cases
end Verif.Midend
