import Verif.Midend.StructsLeaf

/-! Reductions in the struct-of-arrays pass. -/

set_option linter.unusedSectionVars false

namespace Verif.Midend
open Verif.Phi Verif.Term
variable {F : Type} [FloatOps F] {I : Ext F} {rec : Expr F → Nat → Option (Expr F × Nat)} {c : Nat} {r : Expr F × Nat}

theorem loopOpt_sim {α β γ : Type} {f : β → α → Option β} {g : γ → α → Option γ} {φ : β → γ} {T : β → Prop}
    {l : List α} (h : ∀ acc b, ∀ i ∈ l, T acc → f acc i = some b → T b ∧ g (φ acc) i = some (φ b)) :
    ∀ {a v : β}, T a → loopOpt f a l = some v → T v ∧ loopOpt g (φ a) l = some (φ v) := by
  induction l with
  | nil => intro a v ha hv; cases hv; exact ⟨ha, rfl⟩
  | cons i l ih =>
    intro a v ha hv
    simp only [loopOpt, Option.bind_eq_some_iff] at hv ⊢
    obtain ⟨b, hb, hv⟩ := hv
    obtain ⟨h1, h2⟩ := h a b i (by simp) ha hb
    obtain ⟨h3, h4⟩ := ih (fun acc b i hi => h acc b i (by simp [hi])) h1 hv
    exact ⟨h3, _, h2, h4⟩

/-- The vectors of a reduction, and the elements of their values. -/
def VecAt (I : Ext F) (env : Env (D F)) (N : Nat) (t : Expr F) (p : Ty × List (D F)) : Prop :=
  RunAt I env t (soaVals p.1 p.2) ∧ (∀ v ∈ p.2, HasType v p.1) ∧ p.2.length = N ∧ flat (soaVec p.1) = true

theorem prim_rows {env : Env (D F)} {N : Nat} {vs : List (Expr F)} {ps : List (Ty × List (D F))}
    (h : List.Forall₂ (VecAt I env N) vs ps) :
    ∃ M : List (List (D F)),
      List.Forall₂ (RunAt I env) (List.zipWith inTuple (ps.map fun p => soaVec p.1) vs).flatten (M.map .vec) ∧
      (ps ≠ [] → M ≠ []) ∧ (∀ l ∈ M, l.length = N) ∧
      ∀ k, k < N → ∃ rs : List (D F), mapOpt (fun l : List (D F) => l[k]?) (ps.map Prod.snd) = some rs ∧
        List.Forall₂ (fun t v => HasType v t) (ps.map Prod.fst) rs ∧
        mapOpt (fun l : List (D F) => l[k]?) M =
          some (List.zipWith (fun e v => leafVals (soaTy e) (soaVal e v)) (ps.map Prod.fst) rs).flatten := by
  induction h with
  | nil => exact ⟨[], .nil, by simp, by simp, fun k _ => ⟨[], rfl, .nil, rfl⟩⟩
  | @cons t p vs ps h1 _ ih =>
    obtain ⟨M, m1, m2, m3, m4⟩ := ih
    obtain ⟨e, l⟩ := p
    obtain ⟨a1, a2, a3, a4⟩ := h1
    obtain ⟨ls, b1, b2, b3, b4⟩ := leaf_rows a4 a2
    refine ⟨ls ++ M, ?_, fun _ => by simp [b2], ?_, ?_⟩
    · simp only [List.map_cons, List.zipWith_cons_cons, List.flatten_cons, List.map_append]
      refine List.rel_append ?_ m1
      rw [← b1]
      exact inTuple_run _ a1 (hasType_soaVals a2)
    · intro l' hl'
      rcases List.mem_append.1 hl' with h | h
      · rw [b3 l' h]; exact a3
      · exact m3 l' h
    · intro k hk
      obtain ⟨rs, c1, c2, c3⟩ := m4 k hk
      have hk' : k < l.length := by simp only at a3; omega
      have hget : l[k]? = some l[k] := List.getElem?_eq_getElem hk'
      refine ⟨l[k] :: rs, ?_, .cons (a2 _ (List.getElem_mem hk')) c2, ?_⟩
      · simp [mapOpt, hget, c1]
      · rw [mapOpt_append (b4 k _ hget) c3]
        rfl

theorem soaTy_foldl (es : List Ty) : ∀ e : Ty, soaTy (es.foldl .pair e) = (es.map soaTy).foldl .pair (soaTy e) := by
  induction es with
  | nil => intro e; rfl
  | cons b es ih => intro e; simp only [List.foldl_cons, ih, List.map_cons, soaTy]

theorem soaVal_foldl {es : List Ty} {rs : List (D F)} (h : es.length = rs.length) : ∀ (e : Ty) (v : D F),
    soaVal (es.foldl .pair e) (rs.foldl .pair v) = (List.zipWith soaVal es rs).foldl .pair (soaVal e v) := by
  induction es generalizing rs with
  | nil => intro e v; cases rs with
    | nil => rfl
    | cons _ _ => cases h
  | cons b es ih =>
    intro e v
    cases rs with
    | nil => cases h
    | cons w rs =>
      simp only [List.foldl_cons, List.zipWith_cons_cons]
      rw [ih (by simpa using h)]
      rfl

theorem zip_leafVals {es : List Ty} : ∀ {rs : List (D F)},
    List.zipWith leafVals (es.map soaTy) (List.zipWith soaVal es rs) =
      List.zipWith (fun e v => leafVals (soaTy e) (soaVal e v)) es rs := by
  induction es with
  | nil => intro rs; rfl
  | cons e es ih => intro rs; cases rs with
    | nil => rfl
    | cons r rs => simp [ih]

/-- The components of the row of a reduction. -/
theorem leafVals_row {e : Ty} {es : List Ty} {v : D F} {rs : List (D F)} (h : es.length = rs.length) :
    leafVals (soaTy (es.foldl .pair e)) (soaVal (es.foldl .pair e) (rs.foldl .pair v)) =
      (List.zipWith (fun e v => leafVals (soaTy e) (soaVal e v)) (e :: es) (v :: rs)).flatten := by
  rw [soaVal_foldl h, soaTy_foldl, leafVals_foldl (by simp [h]), zip_leafVals]
  rfl

theorem mapOpt_asVec {env : Env (D F)} {l : List (Expr F)} {M : List (List (D F))}
    (h : List.Forall₂ (RunAt I env) l (M.map .vec)) :
    mapOpt (fun v : Option (D F) => v.bind Val.asVec) ((l.map (run I)).map (· env)) = some M := by
  induction l generalizing M with
  | nil =>
    cases M with
    | nil => rfl
    | cons _ _ => cases h
  | cons t l ih =>
    cases M with
    | nil => cases h
    | cons m M =>
      rcases h with _ | ⟨h1, h2⟩
      simp only [List.map, mapOpt]
      rw [show run I t env = _ from h1, ih h2]
      rfl

theorem asVec_mapOpt {env : Env (D F)} {l : List (Expr F)} {M : List (List (D F))}
    (h : mapOpt (fun v : Option (D F) => v.bind Val.asVec) ((l.map (run I)).map (· env)) = some M) :
    List.Forall₂ (fun t m => run I t env = some (.vec m)) l M := by
  induction l generalizing M with
  | nil => cases h; exact .nil
  | cons t l ih =>
    simp only [List.map, mapOpt, Option.bind_eq_some_iff] at h
    obtain ⟨m, ⟨v, hv, hm⟩, M', hM, h⟩ := h
    cases h
    rw [asVec_vec hm] at hv
    exact .cons hv (ih hM)

/-- The body of a reduction over new variables. -/
theorem reduce_rename {fl : Bool} {x y : Nat} {b xx yy : Expr F} {Γ : TCtx} {P L T : Ty}
    (fb : Fine fl I b ((Γ.set (.var x) (some P)).set (.var y) (some P))) (tb : typeOf b = some T)
    (hc : Γ (.var c) = none) (hc' : Γ (.var (c + 1)) = none) (hb : NumBelow c b)
    (fx : FineAt fl I ((Γ.set (.var c) (some L)).set (.var (c + 1)) (some L)) xx P)
    (fy : FineAt fl I ((Γ.set (.var c) (some L)).set (.var (c + 1)) (some L)) yy P)
    (bx : binders xx = ∅ ∧ freeIndices xx = ∅) (bY : binders yy = ∅ ∧ freeIndices yy = ∅) :
    FineAt fl I ((Γ.set (.var c) (some L)).set (.var (c + 1)) (some L))
      (substitute [(.var y, yy), (.var x, xx)] b) T ∧
    NumBelow c (substitute [(.var y, yy), (.var x, xx)] b) ∧
    ∀ (env : Env (D F)) a a' w w',
      run I xx ((env.set (.var c) a').set (.var (c + 1)) w') = a →
      run I yy ((env.set (.var c) a').set (.var (c + 1)) w') = w →
      run I (substitute [(.var y, yy), (.var x, xx)] b) ((env.set (.var c) a').set (.var (c + 1)) w') =
        run I b ((env.set (.var x) a).set (.var y) w) := by
  classical
  have hbo : ∀ s ∈ binders b, ((Γ.set (.var c) (some L)).set (.var (c + 1)) (some L)) s = none ∧
      lookup s [(Sym.var y, yy), (Sym.var x, xx)] = none := by
    intro s hs
    have h1 := fb.binders_out s hs
    have h2 := hb s hs
    have hn1 : s ≠ .var c := by rintro rfl; simp [symNum] at h2
    have hn2 : s ≠ .var (c + 1) := by rintro rfl; simp only [symNum] at h2; omega
    by_cases hsy : s = .var y
    · simp [TCtx.set, hsy] at h1
    · by_cases hsx : s = .var x
      · simp only [TCtx.set, if_neg hsy, if_pos hsx] at h1; cases h1
      · simp only [TCtx.set, if_neg hsy, if_neg hsx] at h1
        simp [TCtx.set, hn1, hn2, h1, lookup, hsy, hsx]
  have hok : SubOk fl I [(Sym.var y, yy), (Sym.var x, xx)] ((Γ.set (.var x) (some P)).set (.var y) (some P))
      ((Γ.set (.var c) (some L)).set (.var (c + 1)) (some L)) := by
    intro s τ hs
    by_cases hsy : s = .var y
    · subst hsy
      simp only [TCtx.set, if_true] at hs
      cases hs
      exact .inr ⟨yy, by simp [lookup], fy.2, fy.1, bY.1, fun _ => bY.2⟩
    · by_cases hsx : s = .var x
      · subst hsx
        simp only [TCtx.set, if_neg hsy, if_true] at hs
        cases hs
        exact .inr ⟨xx, by simp [lookup, hsy], fx.2, fx.1, bx.1, fun _ => bx.2⟩
      · refine .inl ⟨by simp [lookup, hsy, hsx], ?_⟩
        simp only [TCtx.set, if_neg hsy, if_neg hsx] at hs ⊢
        rw [if_neg (by rintro rfl; rw [hc'] at hs; cases hs), if_neg (by rintro rfl; rw [hc] at hs; cases hs)]
        exact hs
  obtain ⟨h1, h2⟩ := fb.substitute hok hbo
  refine ⟨⟨h1, h2.trans tb⟩, ?_, ?_⟩
  · intro s hs
    refine hb s (binders_substitute ?_ b hs)
    simp only [List.mem_cons, List.not_mem_nil, or_false]
    rintro p (rfl | rfl)
    · exact bY.1
    · exact bx.1
  intro env a a' w w' ha hw
  have hsub := substitute_strict (Phi.strict I) (fun h fs s env hs => by
      change Head.symbol h = some s at hs
      cases h <;> simp only [Head.symbol, reduceCtorEq, Option.some.injEq] at hs
      subst hs; rfl)
    [(Sym.var y, yy), (Sym.var x, xx)] (by
      simp only [List.mem_cons, List.not_mem_nil, or_false]
      rintro p (rfl | rfl)
      · exact fy.1.scoping
      · exact fx.1.scoping) b fb.scoping
    (by
      refine Finset.disjoint_left.2 fun s hs hs' => ?_
      have h3 := hbo s hs
      rcases Finset.mem_union.1 hs' with h4 | h4
      · have := lookup_isSome.2 h4
        rw [h3.2] at this; cases this
      · obtain ⟨p, hp, hsp⟩ := mem_rangeFv.1 h4
        simp only [List.mem_cons, List.not_mem_nil, or_false] at hp
        rcases hp with rfl | rfl
        · exact fy.1.fv_dom s hsp h3.1
        · exact fx.1.fv_dom s hsp h3.1) ((env.set (.var c) a').set (.var (c + 1)) w')
  refine Eq.trans hsub ?_
  refine (Phi.strict I).eval_agree_eq b fb.scoping fun s hs => ?_
  simp only [bindEnv, lookup]
  by_cases hsy : s = .var y
  · subst hsy
    rw [if_pos rfl]
    simp only [Env.set, if_true]
    exact hw
  · rw [if_neg hsy]
    by_cases hsx : s = .var x
    · subst hsx
      rw [if_pos rfl]
      simp only [Env.set, if_neg hsy, if_true]
      exact ha
    · rw [if_neg hsx]
      have hd := fb.fv_dom s hs
      simp only [TCtx.set, if_neg hsy, if_neg hsx] at hd
      have hn1 : s ≠ .var c := by rintro rfl; exact hd hc
      have hn2 : s ≠ .var (c + 1) := by rintro rfl; exact hd hc'
      simp [Env.set, hsx, hsy, hn1, hn2]

/-- A term that binds nothing and uses no index. -/
def Bare (e : Expr F) : Prop := binders e = ∅ ∧ freeIndices e = ∅

theorem bare_plain {h : Head F} {ts : List (Expr F)} (hc : h.captured = ∅) (hs : ∀ s, h.symbol = some s → s.isIdx = false)
    (H : ∀ t ∈ ts, Bare t) : Bare (node h ts) := by
  refine ⟨Finset.eq_empty_of_forall_notMem fun s hs => ?_, ?_⟩
  · rcases mem_binders.1 hs with h1 | ⟨t, ht, h1⟩
    · change s ∈ h.captured at h1
      rw [hc] at h1; simp at h1
    · rw [(H t ht).1] at h1; simp at h1
  · rw [freeIndices, Finset.filter_eq_empty_iff]
    intro s hsm hi
    obtain ⟨h1 | ⟨t, ht, h1⟩, _⟩ := mem_fv.1 hsm
    · rw [hs s h1] at hi; cases hi
    · have := (H t ht).2
      rw [freeIndices, Finset.filter_eq_empty_iff] at this
      exact this h1 hi

theorem bare_fst (a : Expr F) (h : Bare a) : Bare (fst a) := bare_plain rfl (fun _ h => nomatch h) (by simpa using h)
theorem bare_snd (a : Expr F) (h : Bare a) : Bare (snd a) := bare_plain rfl (fun _ h => nomatch h) (by simpa using h)
theorem bare_cons (a b : Expr F) (ha : Bare a) (hb : Bare b) : Bare (cons a b) :=
  bare_plain rfl (fun _ h => nomatch h)
    (by simp only [List.mem_cons, List.not_mem_nil, or_false]; rintro t (rfl | rfl) <;> assumption)
theorem bare_var (v : Nat) (τ : Ty) : Bare (var v τ : Expr F) :=
  bare_plain rfl (fun s h => by cases h; rfl) (by simp)

theorem forall₂_comp {α β γ : Type} {R : α → β → Prop} {S : α → γ → Prop} {T : β → γ → Prop} {l : List α} {m : List β}
    {n : List γ} (h1 : List.Forall₂ R l m) (h2 : List.Forall₂ S l n) (h : ∀ a b c, a ∈ l → R a b → S a c → T b c) :
    List.Forall₂ T m n := by
  induction h1 generalizing n with
  | nil => cases h2; exact .nil
  | cons a1 _ ih =>
    rcases h2 with _ | ⟨b1, b2⟩
    exact .cons (h _ _ _ (by simp) a1 b1) (ih b2 fun a b c ha => h a b c (by simp [ha]))

theorem forall₂_zip {α β γ : Type} {R : α → β → Prop} {S : α → γ → Prop} {l : List α} {m : List β} {n : List γ}
    (h1 : List.Forall₂ R l m) (h2 : List.Forall₂ S l n) :
    List.Forall₂ (fun a (p : β × γ) => R a p.1 ∧ S a p.2) l (m.zip n) ∧ (m.zip n).map Prod.fst = m ∧
      (m.zip n).map Prod.snd = n := by
  induction h1 generalizing n with
  | nil => cases h2; exact ⟨.nil, rfl, rfl⟩
  | cons a1 _ ih =>
    rcases h2 with _ | ⟨b1, b2⟩
    obtain ⟨h3, h4, h5⟩ := ih b2
    exact ⟨.cons ⟨a1, b1⟩ h3, by simp [h4], by simp [h5]⟩

theorem forall₂_and_mem {α β : Type} {R : α → β → Prop} {l : List α} {m : List β} (h : List.Forall₂ R l m) :
    List.Forall₂ (fun a b => b ∈ m ∧ R a b) l m := by
  induction h with
  | nil => exact .nil
  | cons h1 _ ih => exact .cons ⟨by simp, h1⟩ (ih.imp fun a b h => ⟨by simp [h.1], h.2⟩)

theorem mapOpt_typeOf {vs : List (Expr F)} {es : List Ty} (h : List.Forall₂ (fun t e => typeOf t = some e) vs es) :
    mapOpt typeOf vs = some es := by
  induction h with
  | nil => rfl
  | cons h1 _ ih => simp [mapOpt, h1, ih]

theorem prim_mem {vs : List (Expr F)} {ts : List Ty} {t : Expr F} (h : t ∈ (List.zipWith inTuple ts vs).flatten) :
    ∃ P v, v ∈ vs ∧ t ∈ inTuple P v := by
  obtain ⟨l, hl, ht⟩ := List.mem_flatten.1 h
  obtain ⟨k, hk⟩ := List.getElem?_of_mem hl
  rw [List.getElem?_zipWith] at hk
  split at hk
  · rename_i a b h1 h2
    cases hk
    exact ⟨a, b, List.mem_of_getElem? h2, ht⟩
  · cases hk

theorem prim_fine {fl : Bool} {Γ : TCtx} {vs : List (Expr F)} {es : List Ty} (h : List.Forall₂ (FineAt fl I Γ) vs es) :
    ∀ t ∈ (List.zipWith inTuple es vs).flatten, Fine fl I t Γ := by
  induction h with
  | nil => simp
  | cons h1 _ ih =>
    intro t ht
    simp only [List.zipWith_cons_cons, List.flatten_cons, List.mem_append] at ht
    rcases ht with ht | ht
    · have := inTuple_fine _ h1
      obtain ⟨k, hk⟩ := List.getElem?_of_mem ht
      obtain ⟨hl, hq⟩ := List.forall₂_iff_get.1 this
      obtain ⟨hk', rfl⟩ := List.getElem?_eq_some_iff.1 hk
      exact (hq k hk' (hl ▸ hk')).1
    · exact ih t ht

section cases
variable (hrec : ∀ e c r, rec e c = some r → Spec I e c r.1 r.2)
include hrec

theorem spec_reduce {x y : Nat} {ts : List (Expr F)} (h : soaStep rec (node (.reduce x y) ts) c = some r) :
    Spec I (node (.reduce x y) ts) c r.1 r.2 := by
  intro Γ τ hf ht hΓ hb hc
  obtain ⟨z, b, v0, vs0, e0, es0, rfl, hz, hbt, hv0, hvs0, rfl⟩ := inv_reduce ht
  have hV : List.Forall₂ (fun t e => typeOf t = some (.vector e)) (v0 :: vs0) (e0 :: es0) := .cons hv0 hvs0
  generalize hτ : es0.foldl .pair e0 = τ at *
  simp only [soaStep, Option.bind_eq_some_iff] at h
  obtain ⟨⟨z', c1⟩, e1, ⟨b', c2⟩, e2, ⟨V', c3⟩, e3, h⟩ := h
  have fz := hf.child 0 z rfl
  have fb := hf.child 1 b rfl
  rw [childCtx_reduce _ x y _ (by omega)] at fz
  rw [childCtx_reduce1, hz] at fb
  have fV : ∀ t ∈ v0 :: vs0, Fine false I t Γ := by
    intro t htm
    obtain ⟨k, hk⟩ := List.getElem?_of_mem htm
    have := hf.child (k + 2) t (by simpa using hk)
    rwa [childCtx_reduce _ x y _ (by omega)] at this
  obtain ⟨hb0, hb1⟩ := below_node.1 hb
  have hx : x < c := hb0 (.var x) (by simp [Head.captured])
  have hy : y < c := hb0 (.var y) (by simp [Head.captured])
  obtain ⟨p1, p2, p3, p4, p5⟩ := hrec z c _ e1 Γ _ fz hz hΓ (hb1 z (by simp)) hc
  have hfl := p3.flat_of p4
  obtain ⟨q1, q2, q3, q4, q5⟩ := hrec b c1 _ e2 _ τ fb hbt ((hΓ.set hfl).set hfl) ((hb1 b (by simp)).mono p1)
    (((hc.mono p1).set (by simp only [symNum] at *; omega)).set (by simp only [symNum] at *; omega))
  rw [soaCtx_set, soaCtx_set] at q3
  obtain ⟨w1, w2⟩ := goList_spec hrec hΓ e3 fV
    (fun t htm => (hb1 t (by simp at htm ⊢; exact .inr (.inr htm))).mono (Nat.le_trans p1 q1)) (hc.mono (Nat.le_trans p1 q1))
  simp only at p1 p2 p3 p4 p5 q1 q2 q3 q4 q5 w1 w2
  have l13 : c1 ≤ c3 := Nat.le_trans q1 w1
  have hc3 : CtxBelow c3 Γ := hc.mono (Nat.le_trans p1 l13)
  -- the transformed vectors
  have hV' : List.Forall₂ (FineAt true I (soaCtx Γ)) V' ((e0 :: es0).map soaVec) := by
    have : List.Forall₂ (fun t' e => FineAt true I (soaCtx Γ) t' (soaVec e)) V' (e0 :: es0) :=
      forall₂_comp w2 hV fun t t' e _ h1 h2 => by
        obtain ⟨_, a1, σ, a2, a3, _⟩ := h1
        rw [h2] at a2; cases a2
        exact ⟨a1, a3⟩
    rw [List.forall₂_map_right_iff]
    exact this
  have hVty := mapOpt_typeOf (hV'.imp fun _ _ h => h.2)
  have hVbel : ∀ t ∈ V', NumBelow c3 t := by
    intro t htm
    obtain ⟨_, _, h1⟩ := forall₂_exists w2 htm
    exact h1.1
  unfold soaReduce at h
  simp only [p4, q4, hVty, Option.bind_some] at h
  simp only [Option.bind_eq_some_iff] at h
  obtain ⟨init, h1, xy, h2, L, h3, L', h4, h⟩ := h
  have fI := intoTuple_fine (fl := true) (I := I) ⟨p3, p4⟩ h1
  have fX := intoTuple_fine (fl := true) (I := I) ⟨q3, q4⟩ h2
  have bI : NumBelow c3 init := intoTuple_all (fun _ h => h.fst) (fun _ h => h.snd) (fun _ _ h h' => h.cons h')
    (p2.mono l13) h1
  have bX : NumBelow c3 xy := intoTuple_all (fun _ h => h.fst) (fun _ h => h.snd) (fun _ _ h h' => h.cons h')
    (q2.mono w1) h2
  rw [fI.2] at h3
  cases h3
  split at h
  swap
  · cases h
  simp only [Option.bind_eq_some_iff] at h
  obtain ⟨_, _, h⟩ := h
  split at h
  swap
  · cases h
  simp only [Option.bind_eq_some_iff, Option.map_eq_some_iff] at h
  obtain ⟨xx, hxx, yy, hyy, τe, hτe, res, hres, rfl⟩ := h
  -- the new variables
  have n1 : soaCtx Γ (.var c3) = none := hc3.soa.fresh (Nat.le_refl _)
  have n2 : soaCtx Γ (.var (c3 + 1)) = none := hc3.soa.fresh (Nat.le_succ _)
  have hfL := flat_flatTy hfl
  have fv1 : FineAt true I (((soaCtx Γ).set (.var c3) (some (flatTy (soaTy τ)))).set (.var (c3 + 1))
      (some (flatTy (soaTy τ)))) (var c3 (flatTy (soaTy τ))) (flatTy (soaTy τ)) :=
    ⟨.plain rfl rfl (fun _ => hfL) (by simp [headOk, TCtx.set]) (by simp), rfl⟩
  have fv2 : FineAt true I (((soaCtx Γ).set (.var c3) (some (flatTy (soaTy τ)))).set (.var (c3 + 1))
      (some (flatTy (soaTy τ)))) (var (c3 + 1) (flatTy (soaTy τ))) (flatTy (soaTy τ)) :=
    ⟨.plain rfl rfl (fun _ => hfL) (by simp [headOk, TCtx.set]) (by simp), rfl⟩
  have fxx := unflat_fine fv1 hxx
  have fyy := unflat_fine fv2 hyy
  have bxx : Bare xx := unflat_all bare_fst bare_snd bare_cons (bare_var _ _) hxx
  have byy : Bare yy := unflat_all bare_fst bare_snd bare_cons (bare_var _ _) hyy
  obtain ⟨s1, s2, s3⟩ := reduce_rename (c := c3) (x := x) (y := y) fX.1 fX.2 n1 n2 bX fxx fyy bxx byy
  have hτe' : τe = flatTy (soaTy τ) := by
    obtain ⟨_, _, _, _, _, _, h5, h6, _⟩ := inv_reduce hτe
    rw [← (List.cons.inj h5).1, fI.2] at h6
    exact (Option.some.inj h6).symm
  subst hτe'
  have fprim := prim_fine hV'
  have fE : Fine true I (node (.reduce c3 (c3 + 1)) (init :: substitute [(.var y, yy), (.var x, xx)] xy ::
      (List.zipWith inTuple ((e0 :: es0).map soaVec) V').flatten)) (soaCtx Γ) := by
    refine .node _ hτe (fun _ => hfL) trivial ?_ ?_
    · intro s hs
      simp only [Head.captured, Finset.mem_insert, Finset.mem_singleton] at hs
      rcases hs with rfl | rfl
      · exact n1
      · exact n2
    · intro k t hk
      match k, hk with
      | 0, hk => cases hk; rw [childCtx_reduce _ _ _ _ (by omega)]; exact fI.1
      | 1, hk => cases hk; rw [childCtx_reduce1, fI.2]; exact s1.1
      | k + 2, hk =>
        rw [childCtx_reduce _ _ _ _ (by omega)]
        exact fprim t (List.mem_of_getElem? (by simpa using hk))
  have fR := unflat_fine ⟨fE, hτe⟩ hres
  refine ⟨by omega, ?_, fR.1, fR.2, ?_⟩
  · refine unflat_all (Q := NumBelow (c3 + 2)) (fun _ h => h.fst) (fun _ h => h.snd) (fun _ _ h h' => h.cons h') ?_ hres
    refine below_node.2 ⟨?_, ?_⟩
    · intro s hs
      simp only [Head.captured, Finset.mem_insert, Finset.mem_singleton] at hs
      rcases hs with rfl | rfl <;> simp [symNum]
    · intro t htm
      simp only [List.mem_cons] at htm
      rcases htm with rfl | rfl | htm
      · exact bI.mono (by omega)
      · exact s2.mono (by omega)
      · obtain ⟨P, v, hv, htp⟩ := prim_mem htm
        exact (inTuple_all (Q := NumBelow c3) (fun _ h => h.fst) (fun _ h => h.snd) P (hVbel v hv) t htp).mono (by omega)
  · intro env w he hw
    have hwt := run_hasType hf.declared ht he hw
    refine unflat_run ?_ (hasType_soaVal hwt) hres
    rw [run_node] at hw
    simp only [List.map_cons, runDen, Phi.reduceOf, Option.bind_eq_some_iff] at hw
    obtain ⟨Ls, hLs, hw⟩ := hw
    have hLs' := asVec_mapOpt (l := v0 :: vs0) (by simpa using hLs)
    match Ls, hLs', hw with
    | l0 :: ls, hLs', hw =>
    simp only at hw
    split at hw
    swap
    · cases hw
    rename_i hlen
    simp only [Option.bind_eq_some_iff] at hw
    obtain ⟨a0, ha0, hw⟩ := hw
    have hlen' : ∀ l ∈ l0 :: ls, l.length = l0.length := by
      intro l hl
      rcases List.mem_cons.1 hl with rfl | hl
      · rfl
      · simpa using List.all_eq_true.1 hlen l hl
    obtain ⟨z1, z2, z3⟩ := forall₂_zip hV (forall₂_and_mem hLs')
    have hps : List.Forall₂ (VecAt I (soaEnv Γ env) l0.length) V' ((e0 :: es0).zip (l0 :: ls)) :=
      forall₂_comp w2 z1 fun t t' p htm h1 h2 => by
        obtain ⟨_, a1, σ, a2, a3, a4⟩ := h1
        obtain ⟨b1, b2, b3⟩ := h2
        rw [b1] at a2; cases a2
        have hvt := run_hasType (fV t htm).declared b1 he b3
        refine ⟨a4 env _ he b3, ?_, hlen' _ b2, a1.flat_of a3⟩
        cases hvt with | vec hall => exact hall
    obtain ⟨M, m1, m2, m3, m4⟩ := prim_rows hps
    have hM : M ≠ [] := m2 (by simp)
    have hmap : ((e0 :: es0).zip (l0 :: ls)).map (fun p => soaVec p.1) = (e0 :: es0).map soaVec := by
      conv_rhs => rw [← z2]
      rw [List.map_map]; rfl
    rw [hmap] at m1
    have hMv := mapOpt_asVec m1
    rw [List.map_cons] at hMv
    have hztype := run_hasType fz.declared hz he ha0
    show run I (node _ _) _ = _
    rw [run_node]
    simp only [List.map_cons, runDen, Phi.reduceOf]
    rw [hMv, Option.bind_some]
    match M, hM, m3, m4 with
    | m0 :: ms, _, m3, m4 =>
    have hall : (ms.all fun l' => decide (l'.length = m0.length)) = true := by
      rw [List.all_eq_true]
      intro l hl
      rw [m3 l (by simp [hl]), m3 m0 (by simp)]; simp
    simp only [hall, if_true]
    have hinit : run I init (soaEnv Γ env) = some (flatVal (soaTy τ) (soaVal τ a0)) :=
      intoTuple_run (p5 env a0 he ha0) (hasType_soaVal hztype) h1
    rw [hinit, Option.bind_some, m3 m0 (by simp)]
    refine (loopOpt_sim (T := fun v : D F => HasType v τ) (φ := fun v => flatVal (soaTy τ) (soaVal τ v)) ?_ hztype hw).2
    intro acc nxt k hk hacc hstep
    have hk' : k < l0.length := List.mem_range.1 hk
    simp only [Option.bind_eq_some_iff] at hstep
    obtain ⟨row, hrow, hbody⟩ := hstep
    obtain ⟨rs, r1, r2, r3⟩ := m4 k hk'
    rw [z3] at r1
    rw [z2] at r2 r3
    rw [rowAt, r1] at hrow
    match rs, r2, r3, hrow with
    | r0 :: rs, r2, r3, hrow =>
    simp only [Option.bind_some, pairAll, Option.some.injEq] at hrow
    subst hrow
    rcases r2 with _ | ⟨r4, r5⟩
    have hrowt : HasType (rs.foldl .pair r0) τ := hτ ▸ hasType_foldl r5 r4
    have he' : EnvTyped ((Γ.set (.var x) (some τ)).set (.var y) (some τ))
        ((env.set (.var x) (some acc)).set (.var y) (some (rs.foldl .pair r0))) := (he.set hacc).set hrowt
    have hnt := run_hasType fb.declared hbt he' hbody
    refine ⟨hnt, ?_⟩
    have hleaf := leafVals_row (e := e0) (v := r0) r5.length_eq
    rw [hτ] at hleaf
    rw [rowAt, r3, ← hleaf, Option.bind_some, pairAll_leafVals, Option.bind_some]
    have hb' := q5 _ nxt he' hbody
    rw [soaEnv_set, soaEnv_set] at hb'
    rw [s3 (soaEnv Γ env) (some (soaVal τ acc)) _ (some (soaVal τ (rs.foldl .pair r0))) _ ?_ ?_]
    · exact intoTuple_run hb' (hasType_soaVal hnt) h2
    · exact unflat_run (P := soaTy τ) (show run I (var c3 _) _ = _ by
        rw [var, run_node]; simp [runDen, Env.set]) (hasType_soaVal hacc) hxx
    · exact unflat_run (P := soaTy τ) (show run I (var (c3 + 1) _) _ = _ by
        rw [var, run_node]; simp [runDen, Env.set]) (hasType_soaVal hrowt) hyy

end cases
end Verif.Midend
