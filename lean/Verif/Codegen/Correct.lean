import Verif.Codegen.Env

/-! Compiled code computes the value of the checked interpreter. -/

set_option linter.unusedSectionVars false

namespace Verif.Codegen
open Verif.Phi Verif.Term Verif.Yarr Verif.Arr
variable {F : Type} [FloatOps F] {J : YExt F} {o : Opts F} {I : Ext F}

/-- Code compiled with this fuel means the value of the checked interpreter. -/
def Correct (o : Opts F) (I : Ext F) (J : YExt F) (n : Nat) : Prop :=
  ∀ {S : Finset Sym} {σ : Nat → Nat} {sizes : Nat → Option (YExpr F)} {vaxes : Nat → List Nat}
    {E : (Nat → Nat) → Env (D F)} {yenv : Env (YVal F)} {e : Expr F} {x : Axial F},
    EnvRel J S σ sizes vaxes E yenv → lexical e S = true →
    (∀ ρ, Valid (inScope S) σ ρ → ∃ v, check o I true e σ (E ρ) = some v) →
    compile o n sizes vaxes e = some x → Means J yenv (inScope S) σ x fun ρ => check o I true e σ (E ρ)

variable {S : Finset Sym} {σ : Nat → Nat} {sizes : Nat → Option (YExpr F)} {vaxes : Nat → List Nat}
  {E : (Nat → Nat) → Env (D F)} {yenv : Env (YVal F)}

/-! ### Sizes -/

theorem dimExpr_other {h : Phi.Head F} {ts : List (Expr F)} {k : Nat}
    (hg : ∀ t i, ¬(h = .get ∧ ts = [t, i])) (hv : ∀ j n b, ¬(h = .vec j ∧ ts = [n, b] ∧ k = 0)) :
    dimExpr (node h ts) k = dim (node h ts) k := by
  unfold dimExpr
  rw [para_node]
  split
  · rename_i t i hts
    obtain ⟨t', i', rfl⟩ : ∃ a b, ts = [a, b] := by
      match ts, hts with
      | [a, b], _ => exact ⟨a, b, rfl⟩
    exact absurd ⟨rfl, rfl⟩ (hg _ _)
  · rename_i j n b hts
    obtain ⟨t', i', rfl⟩ : ∃ a b, ts = [a, b] := by
      match ts, hts with
      | [a, b], _ => exact ⟨a, b, rfl⟩
    exact absurd ⟨rfl, rfl, rfl⟩ (hv _ _ _)
  · simp [Function.comp_def]

theorem dimExpr_get (t i : Expr F) (k : Nat) : dimExpr (node .get [t, i]) k = dimExpr t (k + 1) := by
  unfold dimExpr; rw [para_node]; rfl

theorem dimExpr_vec (j : Nat) (n b : Expr F) : dimExpr (node (.vec j) [n, b]) 0 = n := by
  unfold dimExpr; rw [para_node]; rfl

theorem check_get (t i : Expr F) (sz : Nat → Nat) (env : Env (D F)) :
    check o I true (node .get [t, i]) sz env =
      if readOk o I sz env t i then getOf (check o I true t sz env) (check o I true i sz env) else none := by
  rw [check_node] <;> rfl

theorem check_vec (j : Nat) (n b : Expr F) (sz : Nat → Nat) (env : Env (D F)) :
    check o I true (node (.vec j) [n, b]) sz env = ((check o I true n sz env).bind Val.asInt).bind fun m =>
      if 0 < m then vecOf (some (.int m)) fun k =>
        check o I true b (upd sz j m.toNat) (env.set (.idx j) (some (.int k)))
      else none := by
  rw [check_node] <;> rfl

theorem check_op (f : ScalarOp) (ts : List (Expr F)) (sz : Nat → Nat) (env : Env (D F)) :
    check o I true (node (.op f) ts) sz env = opOf f (ts.map fun t => check o I true t sz env) := by
  rw [check_node]
  swap
  · rfl
  simp only [checkDen, runDen, List.map_map, Function.comp_def]

theorem check_ext (fn : Nat) (τ : Ty) (ts : List (Expr F)) (sz : Nat → Nat) (env : Env (D F)) :
    check o I true (node (.ext fn τ) ts) sz env = extCheck I fn τ (ts.map fun t => check o I true t sz env) := by
  rw [check_node]
  swap
  · rfl
  simp only [checkDen, List.map_map, Function.comp_def]

theorem check_dim (k : Nat) (t : Expr F) (sz : Nat → Nat) (env : Env (D F)) :
    check o I true (node (.dim k) [t]) sz env = dimOf k (check o I true t sz env) := by
  rw [check_node] <;> rfl

theorem lexical_op (f : ScalarOp) (ts : List (Expr F)) :
    lexical (node (.op f) ts) S = ts.all fun t => lexical t S := by
  rw [lexical_node]; simp [lexStep, Function.comp_def]

/-- The expression for a size of an array has the size as value. -/
theorem dim_check {n : Nat} (hc : ∀ m ≤ n, Correct o I J m) (hE : EnvRel J S σ sizes vaxes E yenv) (e : Expr F) :
    ∀ k m x, m ≤ n → compile o m sizes vaxes e = some x → lexical e S = true →
      (∀ ρ, Valid (inScope S) σ ρ → ∃ v, check o I true e σ (E ρ) = some v) →
      lexical (dimExpr e k) S = true ∧
      ∀ ρ, Valid (inScope S) σ ρ → check o I true (dimExpr e k) σ (E ρ) = dimOf k (check o I true e σ (E ρ)) := by
  induction e using ind with
  | step h ts ih =>
    intro k m x hm hx hl hdef
    have other : dimExpr (node h ts) k = dim (node h ts) k → lexical (dimExpr (node h ts) k) S = true ∧
      ∀ ρ, Valid (inScope S) σ ρ → check o I true (dimExpr (node h ts) k) σ (E ρ) =
        dimOf k (check o I true (node h ts) σ (E ρ)) := by
      intro e
      rw [e]
      refine ⟨?_, fun ρ _ => check_dim _ _ _ _⟩
      unfold dim
      rw [lexical_node]
      simpa [lexStep] using hl
    by_cases hg : ∃ t i, h = .get ∧ ts = [t, i]
    · obtain ⟨t, i, rfl, rfl⟩ := hg
      rw [dimExpr_get]
      cases m with
      | zero => cases hx
      | succ m =>
      change getCode o _ _ t i = some x at hx
      unfold getCode at hx
      simp only [Option.bind_eq_some_iff] at hx
      obtain ⟨tx, htx, r, hr, -⟩ := hx
      have hlt : lexical t S = true := by
        rw [lexical_node] at hl
        simp only [lexStep, List.map, List.all_cons, Bool.and_eq_true] at hl
        exact hl.1
      have hgets : ∀ ρ, Valid (inScope S) σ ρ → ∃ vs n w, check o I true t σ (E ρ) = some (.vec vs) ∧
          check o I true (node .get [t, i]) σ (E ρ) = some w ∧ Val.get vs n = some w := by
        intro ρ hρ
        obtain ⟨w, hw⟩ := hdef ρ hρ
        have hw' := hw
        rw [check_get] at hw'
        split at hw'
        · obtain ⟨vs, n, h1, h2, h3⟩ := getOf_some hw'
          exact ⟨vs, n, w, h1, hw, h3⟩
        · cases hw'
      have htd : ∀ ρ, Valid (inScope S) σ ρ → ∃ v, check o I true t σ (E ρ) = some v := by
        intro ρ hρ
        obtain ⟨vs, n, w, h1, _⟩ := hgets ρ hρ
        exact ⟨_, h1⟩
      obtain ⟨h1, h2⟩ := ih t (by simp) (k + 1) m tx (by omega) htx hlt htd
      refine ⟨h1, fun ρ hρ => ?_⟩
      rw [h2 ρ hρ]
      obtain ⟨a, s, hone, _⟩ := (hc m (by omega) hE hlt htd htx).one hr
      obtain ⟨vs, n', w, h3, h4, h5⟩ := hgets ρ hρ
      obtain ⟨v, h6, h7⟩ := hone.reps ρ hρ
      rw [h3] at h6
      cases h6
      obtain ⟨s', rfl⟩ := h7.vec
      obtain ⟨_, _, u, h8, h9⟩ := h7.get n'
      rw [h5] at h8
      cases h8
      rw [h3, h4]
      simp only [dimOf, Option.bind_some]
      rw [h7.dim, h9.dim]
      simp
    · by_cases hv : ∃ j a b, h = .vec j ∧ ts = [a, b] ∧ k = 0
      · obtain ⟨j, a, b, rfl, rfl, rfl⟩ := hv
        rw [dimExpr_vec]
        constructor
        · rw [lexical_node] at hl
          simp only [lexStep, List.map, Bool.and_eq_true] at hl
          exact hl.1.1
        · intro ρ hρ
          obtain ⟨v, hv⟩ := hdef ρ hρ
          rw [hv]
          rw [check_vec] at hv
          simp only [Option.bind_eq_some_iff] at hv
          obtain ⟨m', ⟨u, h1, h2⟩, h3⟩ := hv
          split at h3
          · rename_i hpos
            simp only [vecOf, Option.bind_some, Val.asInt, Val.int, Option.bind_eq_some_iff] at h3
            obtain ⟨vs, h4, h5⟩ := h3
            split at h5
            · cases h5
              have hlen := (mapOpt_eq_forall h4).length_eq
              simp only [List.length_range] at hlen
              rw [h1]
              simp only [dimOf, Option.bind_some, Val.dim]
              have : ((vs.length : Nat) : Int) = m' := by omega
              rw [this]
              cases u with
              | sc c => cases c <;> simp [Val.asInt] at h2; subst h2; rfl
              | vec _ => cases h2
              | pair _ _ => cases h2
            · cases h5
          · cases h3
      · refine other (dimExpr_other (fun t i h => hg ⟨t, i, h⟩) fun j a b h => hv ⟨j, a, b, h⟩)

/-! ### Reads at clipped positions -/

/-- An expression that is a well-scoped integer. -/
def IntPart (o : Opts F) (I : Ext F) (S : Finset Sym) (σ : Nat → Nat) (E : (Nat → Nat) → Env (D F)) (e : Expr F) : Prop :=
  lexical e S = true ∧ ∀ ρ, Valid (inScope S) σ ρ → ∃ n : Int, check o I true e σ (E ρ) = some (.int n)

theorem opOf_int2 {f : ScalarOp} (hf : f ∈ [ScalarOp.add, .subtract, .min, .max]) {x y : Option (D F)} {n : Int}
    (h : opOf f [x, y] = some (.int n)) : ∃ a b : Int, x = some (.int a) ∧ y = some (.int b) := by
  obtain ⟨ss, s, h1, h2, h3⟩ := opOf_some h
  match x, y, h1 with
  | some (.sc a), some (.sc b), h1 =>
    simp [mapOpt, Val.asScal] at h1
    subst h1
    simp only [Val.int, Val.sc.injEq] at h3
    subst h3
    simp only [List.mem_cons, List.not_mem_nil, or_false] at hf
    rcases hf with rfl | rfl | rfl | rfl <;> cases a <;> cases b <;> simp [applyOp] at h2 <;> exact ⟨_, _, rfl, rfl⟩
  | none, _, h1 => simp [mapOpt] at h1
  | some (.vec _), _, h1 => simp [mapOpt, Val.asScal] at h1
  | some (.pair _ _), _, h1 => simp [mapOpt, Val.asScal] at h1
  | some (.sc _), none, h1 => simp [mapOpt, Val.asScal] at h1
  | some (.sc _), some (.vec _), h1 => simp [mapOpt, Val.asScal] at h1
  | some (.sc _), some (.pair _ _), h1 => simp [mapOpt, Val.asScal] at h1

/-- The parts of a recognised position are integers. -/
theorem window_parts {t i : Expr F} {index : Nat} {c : Clip F} (hw : window o t i = some (index, c))
    (hi : IntPart o I S σ E i) :
    (∀ p ∈ c.1, IntPart o I S σ E p) ∧ (∀ p ∈ c.2.1, IntPart o I S σ E p) ∧ ∀ p ∈ c.2.2, IntPart o I S σ E p := by
  have hm := (window_index hw).2.2
  simp only [matchIndexClip, Option.bind_eq_some_iff, Option.map_eq_some_iff, Prod.mk.injEq] at hm
  obtain ⟨j, _, c', hm, rfl, rfl⟩ := hm
  refine matchClip_parts ?_ ?_ ?_ _ i hi _ hm
  · intro f hf a b hG
    obtain ⟨h1, h2⟩ := hG
    simp only [lexical_op, List.all_cons, List.all_nil, Bool.and_true, Bool.and_eq_true] at h1
    have key : ∀ ρ, Valid (inScope S) σ ρ → ∃ n m : Int, check o I true a σ (E ρ) = some (.int n) ∧
        check o I true b σ (E ρ) = some (.int m) := by
      intro ρ hρ
      obtain ⟨n, hn⟩ := h2 ρ hρ
      rw [check_op] at hn
      exact opOf_int2 hf hn
    exact ⟨⟨h1.1, fun ρ hρ => by obtain ⟨n, m, h3, _⟩ := key ρ hρ; exact ⟨n, h3⟩⟩,
      ⟨h1.2, fun ρ hρ => by obtain ⟨n, m, _, h3⟩ := key ρ hρ; exact ⟨m, h3⟩⟩⟩
  · rintro f hf a b ⟨h1, h2⟩ ⟨h3, h4⟩
    refine ⟨by simp [op2, lexical_op, h1, h3], fun ρ hρ => ?_⟩
    obtain ⟨n, hn⟩ := h2 ρ hρ
    obtain ⟨m, hm⟩ := h4 ρ hρ
    rw [op2, check_op]
    simp only [List.map, hn, hm]
    simp only [List.mem_cons, List.not_mem_nil, or_false] at hf
    rcases hf with rfl | rfl | rfl <;> exact ⟨_, rfl⟩
  · rintro a ⟨h1, h2⟩
    refine ⟨by simp [op1, lexical_op, h1], fun ρ hρ => ?_⟩
    obtain ⟨n, hn⟩ := h2 ρ hρ
    rw [op1, check_op]
    simp only [List.map, hn]
    exact ⟨_, rfl⟩

/-- The code of a part. -/
theorem piece_code {n : Nat} (hc : Correct o I J n) (hE : EnvRel J S σ sizes vaxes E yenv) {c : Option (Expr F)}
    (hp : ∀ p ∈ c, IntPart o I S σ E p) {d y : YExpr F} {dv : Int} (hd : EvalsInt J yenv d dv)
    (hdr : RankOk J yenv d) (hy : piece (compile o n sizes vaxes) d c = some y) :
    ∃ q : Option Int, (∀ ρ, Valid (inScope S) σ ρ → Props.partValue I (E ρ) c = some q) ∧
      EvalsInt J yenv y (q.getD dv) ∧ RankOk J yenv y := by
  cases c with
  | none =>
    cases hy
    exact ⟨none, fun _ _ => rfl, hd, hdr⟩
  | some e =>
    obtain ⟨h1, h2⟩ := hp e rfl
    simp only [piece, Option.bind_eq_some_iff] at hy
    obtain ⟨x, hx, hy⟩ := hy
    have hm := hc hE h1 (fun ρ hρ => by obtain ⟨n, hn⟩ := h2 ρ hρ; exact ⟨_, hn⟩) hx
    obtain ⟨q, h3, h4, h5⟩ := hm.int hE.pos hy h2
    refine ⟨some q, fun ρ hρ => ?_, h3, h4⟩
    simp only [Props.partValue, check_run e _ _ _ (h5 ρ hρ)]
    rfl

theorem lowOk_part {env : Env (D F)} {c : Option (Expr F)} {q : Option Int} (h : lowOk I env c = true)
    (hq : Props.partValue I env c = some q) : ∀ l, q = some l → 0 ≤ l := by
  rintro l rfl
  cases c with
  | none => cases hq
  | some e =>
    simp only [lowOk, Props.partValue] at h hq
    cases hr : (run I e env).bind Val.asInt with
    | none => rw [hr] at hq; cases hq
    | some n => rw [hr] at h hq; cases hq; simpa using h

theorem highOk_part {env : Env (D F)} {c : Option (Expr F)} {m : Nat} {q : Option Int} (h : highOk I env m c = true)
    (hq : Props.partValue I env c = some q) : ∀ l, q = some l → 0 ≤ l ∧ l < m := by
  rintro l rfl
  cases c with
  | none => cases hq
  | some e =>
    simp only [highOk, Props.partValue] at h hq
    cases hr : (run I e env).bind Val.asInt with
    | none => rw [hr] at hq; cases hq
    | some n => rw [hr] at h hq; cases hq; simpa using h

theorem clip_window {m : Nat} (hm : 0 < m) (k : Int) (d lo hi : Option Int) (hlo : ∀ l, lo = some l → 0 ≤ l)
    (hhi : ∀ l, hi = some l → 0 ≤ l ∧ l < m) :
    Val.clip m (Props.clipValue k d lo hi) =
      Val.clip m (min (max (k + d.getD 0) (lo.getD 0)) (hi.getD ((m : Int) - 1))) := by
  unfold Val.clip Props.clipValue
  cases d <;> cases lo <;> cases hi <;> simp only [Option.getD_some, Option.getD_none] <;>
    simp_all only [reduceCtorEq, false_implies, implies_true, Option.some.injEq, forall_eq'] <;> omega

/-- A read. -/
theorem means_get {n : Nat} (hc : ∀ m ≤ n, Correct o I J m) (hE : EnvRel J S σ sizes vaxes E yenv) {t i : Expr F}
    {x : Axial F} (hlt : lexical t S = true) (hli : lexical i S = true)
    (hdef : ∀ ρ, Valid (inScope S) σ ρ → ∃ v, check o I true (node .get [t, i]) σ (E ρ) = some v)
    (hx : getCode o (compile o n sizes vaxes) sizes t i = some x) :
    Means J yenv (inScope S) σ x fun ρ => check o I true (node .get [t, i]) σ (E ρ) := by
  have hok : ∀ ρ, Valid (inScope S) σ ρ → readOk o I σ (E ρ) t i = true ∧
      check o I true (node .get [t, i]) σ (E ρ) = getOf (check o I true t σ (E ρ)) (check o I true i σ (E ρ)) := by
    intro ρ hρ
    obtain ⟨v, hv⟩ := hdef ρ hρ
    rw [check_get] at hv ⊢
    split at hv
    · rename_i h; exact ⟨h, if_pos h⟩
    · cases hv
  have hdef' : ∀ ρ, Valid (inScope S) σ ρ → ∃ v,
      getOf (check o I true t σ (E ρ)) (check o I true i σ (E ρ)) = some v := by
    intro ρ hρ; rw [← (hok ρ hρ).2]; exact hdef ρ hρ
  have htd : ∀ ρ, Valid (inScope S) σ ρ → ∃ vs, check o I true t σ (E ρ) = some (.vec vs) := by
    intro ρ hρ
    obtain ⟨v, hv⟩ := hdef' ρ hρ
    obtain ⟨vs, n, h1, h2, h3⟩ := getOf_some hv
    exact ⟨vs, h1⟩
  have hid : ∀ ρ, Valid (inScope S) σ ρ → ∃ n : Int, check o I true i σ (E ρ) = some (.int n) := by
    intro ρ hρ
    obtain ⟨v, hv⟩ := hdef' ρ hρ
    obtain ⟨vs, n, h1, h2, h3⟩ := getOf_some hv
    exact ⟨n, h2⟩
  have htd' : ∀ ρ, Valid (inScope S) σ ρ → ∃ v, check o I true t σ (E ρ) = some v :=
    fun ρ hρ => by obtain ⟨vs, h⟩ := htd ρ hρ; exact ⟨_, h⟩
  have hid' : ∀ ρ, Valid (inScope S) σ ρ → ∃ v, check o I true i σ (E ρ) = some v :=
    fun ρ hρ => by obtain ⟨vs, h⟩ := hid ρ hρ; exact ⟨_, h⟩
  unfold getCode at hx
  simp only [Option.bind_eq_some_iff] at hx
  obtain ⟨tx, htx, r, hr, hx⟩ := hx
  have hmt := hc n le_rfl hE hlt htd' htx
  split at hx
  · rename_i index c hw
    have hSi : Sym.idx index ∈ S := lexical_fv i S hli (window_index hw).1
    obtain ⟨a, m, s, hone, hm, hlen⟩ := hmt.vec hE.pos htd
    split at hx
    · -- the read is dropped
      rename_i hel
      have hposn : ∀ ρ, Valid (inScope S) σ ρ → check o I true i σ (E ρ) = some (.int (ρ index)) := by
        intro ρ hρ
        obtain ⟨k, hk⟩ := hid ρ hρ
        have h1 := check_run i _ _ _ hk
        rw [Props.C04_value I i index c (window_index hw).2.2 (E ρ) (ρ index) (hE.idx ρ index hSi)] at h1
        simp only [elided, Bool.and_eq_true, Option.isNone_iff_eq_none] at hel
        obtain ⟨⟨⟨⟨_, e1⟩, e2⟩, e3⟩, _⟩ := hel
        rw [hk, ← h1]
        simp [Props.formValue, e1, e2, e3, Props.partValue, Props.clipValue]
      refine (means_elided hmt hE.pos hSi hx fun ρ hρ => ?_).congr fun ρ hρ => ?_
      · have := (hok ρ hρ).1
        obtain ⟨vs, h1, h2⟩ := hlen ρ hρ
        simp only [readOk, hw, check_run t _ _ _ h1, Option.bind_some, Val.asVec, Option.any_some, hel, if_true,
          decide_eq_true_eq] at this
        exact ⟨vs, h1, this⟩
      · rw [(hok ρ hρ).2, hposn ρ hρ]
    · -- a slice and a pad
      rename_i hel
      obtain ⟨hp1, hp2, hp3⟩ := window_parts hw ⟨hli, hid⟩
      unfold windowGet at hx
      simp only [Option.bind_eq_some_iff] at hx
      obtain ⟨size, hsize, d, ⟨dx, hdx, hd⟩, p, hp, shift, hshift, low, hlow, high, hhigh, e, he, hx⟩ := hx
      have hdc := dim_check hc hE t 0 n tx le_rfl htx hlt htd'
      have hdim : ∀ ρ, Valid (inScope S) σ ρ → check o I true (dimExpr t 0) σ (E ρ) = some (.int (m : Int)) := by
        intro ρ hρ
        obtain ⟨vs, h1, h2⟩ := hlen ρ hρ
        rw [hdc.2 ρ hρ, h1, ← h2]; rfl
      obtain ⟨dv, hd1, hd2, hd3⟩ := (hc n le_rfl hE hdc.1 (fun ρ hρ => ⟨_, hdim ρ hρ⟩) hdx).int hE.pos hd
        (fun ρ hρ => ⟨_, hdim ρ hρ⟩)
      have hdv : dv = m := by
        have h1 := hd3 _ (valid_zero hE.pos)
        rw [hdim _ (valid_zero hE.pos)] at h1
        simp only [Option.some.injEq, Val.int, Val.sc.injEq, Scal.i.injEq] at h1
        exact h1.symm
      rw [hdv] at hd1
      have hc' : Correct o I J n := @hc n le_rfl
      obtain ⟨qs, s1, s2, s3⟩ := piece_code hc' hE hp1 (evalsInt_const 0) (rankOk_yint 0) hshift
      obtain ⟨ql, l1, l2, l3⟩ := piece_code hc' hE hp2 (evalsInt_const 0) (rankOk_yint 0) hlow
      obtain ⟨qh, g1, g2, g3⟩ := piece_code hc' hE hp3 (evalsInt_sub hd1 (evalsInt_const 1))
        (rankOk_yop hd2 (rankOk_yint 1)) hhigh
      have bounds : ∀ ρ, Valid (inScope S) σ ρ → (∀ l, ql = some l → 0 ≤ l) ∧ (∀ l, qh = some l → 0 ≤ l ∧ l < m) := by
        intro ρ hρ
        have := (hok ρ hρ).1
        obtain ⟨vs, h1, h2⟩ := hlen ρ hρ
        simp only [readOk, hw, check_run t _ _ _ h1, Option.bind_some, Val.asVec, Option.any_some, hel, if_false,
          Bool.and_eq_true, h2, Bool.false_eq_true] at this
        exact ⟨lowOk_part this.1 (l1 ρ hρ), highOk_part this.2 (g1 ρ hρ)⟩
      obtain ⟨bl, bh⟩ := bounds _ (valid_zero hE.pos)
      have hhi : 0 ≤ qh.getD ((m : Int) - 1) ∧ qh.getD ((m : Int) - 1) < m := by
        cases qh with
        | none => simp only [Option.getD_none]; omega
        | some l => exact bh l rfl
      have hlo : 0 ≤ ql.getD 0 := by
        cases ql with
        | none => simp
        | some l => exact bl l rfl
      obtain ⟨z1, z2⟩ := hE.size index size hsize yenv fun _ _ => rfl
      refine (means_window hmt hE.pos hSi hp he hx s2 l2 g2 z1 s3 l3 g3 z2 hlo hhi.1 fun ρ hρ => ?_).congr
        fun ρ hρ => ?_
      · obtain ⟨vs, h1, h2⟩ := hlen ρ hρ
        exact ⟨vs, h1, by rw [h2]; exact hhi.2⟩
      · obtain ⟨vs, h1, h2⟩ := hlen ρ hρ
        obtain ⟨k, hk⟩ := hid ρ hρ
        have h3 := check_run i _ _ _ hk
        rw [Props.C04_value I i index c (window_index hw).2.2 (E ρ) (ρ index) (hE.idx ρ index hSi)] at h3
        simp only [Props.formValue, s1 ρ hρ, l1 ρ hρ, g1 ρ hρ, Option.bind_some, Option.map_some,
          Option.some.injEq] at h3
        rw [(hok ρ hρ).2, hk, ← h3, h1]
        simp only [getOf, Option.bind_some, Val.asVec, Val.asInt, Val.int, Val.get, h2]
        rw [clip_window hm _ _ _ _ bl bh]
  · -- a take or a gather
    rename_i hw
    simp only [Option.bind_eq_some_iff] at hx
    obtain ⟨ix, hix, hx⟩ := hx
    have hmi := hc n le_rfl hE hli hid' hix
    unfold itemGet at hx
    refine Means.congr ?_ fun ρ hρ => (hok ρ hρ).2.symm
    split at hx
    · simp only [Option.bind_eq_some_iff] at hx
      obtain ⟨r', hr', p, hp, hx⟩ := hx
      exact means_take hmt hmi hE.pos hr' hp hx hdef'
    · exact means_general hmt hmi hE.pos hx hdef'

end Verif.Codegen
