import Verif.Frontend.ScriptClean

/-! Programs of the user with sizes left out: what the library builds has the value that the program tells, and the assertions
that sizes are equal hold. -/

set_option linter.unusedSectionVars false

namespace Verif.Frontend
open Verif.Phi Verif.Term Verif.Midend Verif.Codegen Verif.Props
variable {F : Type} [FloatOps F] [DecidableEq F] {I : Ext F} {Γ Γ' : TCtx} {c c' : Nat} {lv : List Nat} {ds : List (List Nat)}
  {ts : List UTy} {os : List (Obj F)} {env env' : Env (D F)}

/-- The expressions for the sizes of an array have its sizes as values. -/
def Measured (I : Ext F) (env : Env (D F)) (e : Expr F) : Prop :=
  ∀ d, run I e env = some d → ∀ k n, Val.dim k d = some n → ∃ m : Int, run I (dimExpr e k) env = some (.int m) ∧ m.toNat = n

/-- What stands for a value. -/
def Given (I : Ext F) (env : Env (D F)) (o : Obj F) (v : PVal F) : Prop := value I env o = some v ∧ o.Comp (Measured I env)

def GivenF (I : Ext F) (env : Env (D F)) (o : Fields F) (v : List (String × PVal F)) : Prop :=
  valueFields I env o = some v ∧ o.Comp (Measured I env)

theorem measured_other {h : Phi.Head F} {us : List (Expr F)} (hg : h ≠ .get) : Measured I env (node h us) := by
  intro d hd k n hn
  by_cases hv : ∃ j a b, h = .vec j ∧ us = [a, b] ∧ k = 0
  · obtain ⟨j, a, b, rfl, rfl, rfl⟩ := hv
    rw [dimExpr_vec]
    have hd' : run I (vec j a b) env = some d := hd
    rw [run_vec, vecOf] at hd'
    simp only [Option.bind_eq_some_iff] at hd'
    obtain ⟨m, ⟨da, h1, h2⟩, vs, h3, h4⟩ := hd'
    cases asInt_eq h2
    split at h4
    · cases h4
      refine ⟨m, h1, ?_⟩
      have := mapOpt_length h3
      simp only [Val.dim, Option.some.injEq] at hn
      rw [List.length_range] at this
      omega
    · cases h4
  · rw [dimExpr_other (fun _ _ h => hg h.1) (fun j a b h => hv ⟨j, a, b, h⟩)]
    refine ⟨n, ?_, by simp⟩
    rw [run_dim_node, hd, dimOf, Option.bind_some, hn]
    rfl

theorem measured_get {e i : Expr F} {l : Layout} {ws : List (PVal F)} (he : Measured I env e) (hv : value I env (.vec e l) = some (.arr ws))
    (hs : ∀ a ∈ ws, ∀ b ∈ ws, PVal.SameShape a b) : Measured I env (Phi.get e i) := by
  intro d hd k n hn
  rw [Phi.get, dimExpr_get]
  simp only [value, Option.bind_eq_some_iff] at hv
  obtain ⟨de, h1, h2⟩ := hv
  rw [run_getAt, getOf, h1] at hd
  simp only [Option.bind_some, Option.bind_eq_some_iff] at hd
  obtain ⟨us, h3, m, h4, h5⟩ := hd
  cases asVec_eq h3
  have hm := List.mem_of_getElem? h5
  have hu := Val.uniform_iff.1 ((rectangular_rows (view_arr h2)).2 hs)
  refine he _ h1 (k + 1) n ?_
  cases us with
  | nil => cases hm
  | cons u us =>
    rw [Val.dim, Val.dim_congr (hu u (by simp) d hm)]
    exact hn

theorem Measured.congr {e : Expr F} {τ : Ty} (hs : Sane I Γ c e τ) (he : ∀ s, Γ s ≠ none → env' s = env s) (h : Measured I env e) : Measured I env' e := by
  intro d hd k n hn
  rw [hs.run_congr he] at hd
  rw [run_agree (scoped_dimExpr hs.fine.scoping k) (env' := env) (fun s hs' => he s (hs.fine.fv_dom s (fv_dimExpr hs.fine.scoping k hs')))]
  exact h d hd k n hn

mutual
theorem measured_congr (he : ∀ s, Γ s ≠ none → env' s = env s) : ∀ {t : UTy} {o : Obj F}, Has I Γ c t o →
    o.Comp (Measured I env) → o.Comp (Measured I env')
  | .sc _, .scalar _, h, ho => by simp only [Has] at h; simp only [Obj.Comp] at ho ⊢; exact ho.congr h he
  | .arr _, .vec _ _, h, ho => by simp only [Has] at h; simp only [Obj.Comp] at ho ⊢; exact ho.congr h.2 he
  | .record _ _, .struct _ _, h, ho => by simp only [Has] at h; simp only [Obj.Comp] at ho ⊢; exact measuredF_congr he h.2 ho
  | .sc _, .vec _ _, h, _ | .sc _, .raw _ _, h, _ | .sc _, .struct _ _, h, _ | .arr _, .scalar _, h, _ | .arr _, .raw _ _, h, _
  | .arr _, .struct _ _, h, _ | .record _ _, .scalar _, h, _ | .record _ _, .vec _ _, h, _ | .record _ _, .raw _ _, h, _ => by
    simp only [Has] at h
theorem measuredF_congr (he : ∀ s, Γ s ≠ none → env' s = env s) : ∀ {t : UFields} {o : Fields F}, HasF I Γ c t o →
    o.Comp (Measured I env) → o.Comp (Measured I env')
  | .nil, .nil, _, _ => by simp [Fields.Comp]
  | .cons _ _ _, .cons _ _ _, h, ho => by
    simp only [HasF] at h
    simp only [Fields.Comp] at ho ⊢
    exact ⟨measured_congr he h.2.1 ho.1, measuredF_congr he h.2.2 ho.2⟩
  | .nil, .cons _ _ _, h, _ | .cons _ _ _, .nil, h, _ => by simp only [HasF] at h
end

theorem given_congr (he : ∀ s, Γ s ≠ none → env' s = env s) {vs : List (PVal F)}
    (h : List.Forall₂ (Has I Γ c) ts os) (ha : List.Forall₂ (Given I env) os vs) : List.Forall₂ (Given I env') os vs := by
  induction h generalizing vs with
  | nil => cases ha; exact .nil
  | cons h1 _ ih =>
    cases ha with
    | cons h2 h3 => exact .cons ⟨by rw [Has.value_congr he h1]; exact h2.1, measured_congr he h1 h2.2⟩ (ih h3)

theorem measured_unpack (l : Layout) {e : Expr F} (h : Measured I env e) : (unpack l e).Comp (Measured I env) :=
  unpack_comp (P := Measured I env) (fun _ _ => measured_other (by simp)) (fun _ _ => measured_other (by simp)) l h

theorem measured_method (f : PyOp) (a : Expr F) (b : ScalarLike F) : Measured I env (method f a b) := by
  cases f <;> exact measured_other (by simp)

/-- Objects with values. -/
theorem given_scalar {e : Expr F} {s : Scal F} (h : run I e env = some (.sc s)) (hs : Measured I env e) : Given I env (scalarObj e) (.sc s) :=
  ⟨value_of_run h, by simpa [scalarObj, Obj.Comp, wrap] using hs⟩

theorem given_unpack {l : Layout} (hl : l.ok = true) {e : Expr F} {v : PVal F} (h : (run I e env).bind (view l) = some v) (hs : Measured I env e) :
    Given I env (unpack l e) v := ⟨by rw [value_unpack I env l hl]; exact h, measured_unpack l hs⟩

theorem Given.run {a : ScalarLike F} {s : Scal F} (h : Given I env (.scalar a) (.sc s)) : Phi.run I (wrap a) env = some (.sc s) := by
  obtain ⟨_, hs, h1⟩ := value_scalar h.1
  cases hs
  exact h1

theorem pack_value {t : UTy} {o : Obj F} {e : Expr F} (hok : t.layout.ok = true) (h : Has I Γ c t o) (hp : pack t.layout o = some e) (env : Env (D F)) :
    (Phi.run I e env).bind (view t.layout) = value I env o := by
  obtain ⟨h1, h2⟩ := Has.build hok h
  obtain ⟨l, e', h3, _, h4, h5⟩ := packsTo I o h2
  cases h1.symm.trans h3
  cases hp.symm.trans h4
  exact (h5 env).symm

theorem Given.field {n : String} {o o' : Obj F} {v v' : PVal F} (h : Given I env o v) (ho : fieldObj n o = some o')
    (hv : fieldOf n v = some v') : Given I env o' v' := by
  obtain ⟨h1, h2⟩ := h
  refine ⟨?_, parts_comp [.inr n] h2 (by simpa using ho)⟩
  cases o with
  | struct k fs =>
    simp only [value, Option.map_eq_some_iff] at h1
    obtain ⟨l, hl, rfl⟩ := h1
    cases k <;> simp only [fieldObj, fieldOf, reduceCtorEq] at ho hv
    · exact find_value ho hl hv
    · exact find_value ho hl hv
  | _ => simp [fieldObj] at ho

theorem Given.part {n : Nat} {o o' : Obj F} {v v' : PVal F} (h : Given I env o v) (ho : partObj n o = some o')
    (hv : partOf n v = some v') : Given I env o' v' := by
  obtain ⟨h1, h2⟩ := h
  refine ⟨?_, parts_comp [.inl n] h2 (by simpa using ho)⟩
  cases o with
  | struct k fs =>
    simp only [value, Option.map_eq_some_iff] at h1
    obtain ⟨l, hl, rfl⟩ := h1
    cases k <;> simp only [partObj, partOf, reduceCtorEq] at ho hv
    exact nth_value ho hl hv
  | _ => simp [partObj] at ho

theorem given_parts : ∀ (l : List (Nat ⊕ String)) {o o' : Obj F} {v v' : PVal F}, Given I env o v →
    l.foldl (fun o q => o.bind fun o => objStep o q) (some o) = some o' →
    l.foldl (fun v q => v.bind fun v => valStep v q) (some v) = some v' → Given I env o' v'
  | [], o, o', v, v', h, ho, hv => by
    cases ho
    cases hv
    exact h
  | q :: l, o, o', v, v', h, ho, hv => by
    obtain ⟨o1, h1, h2⟩ := foldl_bind_some (f := objStep) ho
    obtain ⟨v1, h3, h4⟩ := foldl_bind_some (f := valStep) hv
    refine given_parts l ?_ h2 h4
    cases q with
    | inl i => exact h.part h1 h3
    | inr n => exact h.field h1 h3

theorem place_given {p : Place} {vs : List (PVal F)} {o : Obj F} {v : PVal F}
    (h : List.Forall₂ (Given I env) os vs) (ho : p.obj os = some o) (hv : p.val vs = some v) : Given I env o v := by
  have ho' : p.parts.foldl (fun o q => o.bind fun o => objStep o q) os[p.loc]? = some o := ho
  have hv' : p.parts.foldl (fun v q => v.bind fun v => valStep v q) vs[p.loc]? = some v := hv
  obtain ⟨hl, hh⟩ := List.forall₂_iff_get.1 h
  by_cases hp : p.loc < os.length
  · have hp' : p.loc < vs.length := by omega
    rw [List.getElem?_eq_getElem hp] at ho'
    rw [List.getElem?_eq_getElem hp'] at hv'
    exact given_parts _ (hh _ hp hp') ho' hv'
  · rw [List.getElem?_eq_none (by omega), foldl_bind_none objStep] at ho'
    cases ho'

/-- What the induction shows of a program. -/
def Gives (I : Ext F) (P : Script F) : Prop :=
  ∀ (ts : List UTy) (t : UTy) (os : List (Obj F)) (Γ : TCtx) (c : Nat) (o : Obj F) (c' : Nat) (lv : List Nat) (ds : List (List Nat)) (x : List Nat),
    Around I Γ c lv ts os ds → typ P ts = some t → make P os c = some (o, c') → deps P lv.length ds = some x → settled P lv.length ds = true →
    ∀ (env : Env (D F)) (vs : List (PVal F)) (v : PVal F), List.Forall₂ (Given I env) os vs →
      List.Forall₂ (fun t v => Conforms t.layout v) ts vs → tells P vs = some v → Given I env o v

def GivesF (I : Ext F) (P : SFields F) : Prop :=
  ∀ (ts : List UTy) (t : UFields) (os : List (Obj F)) (Γ : TCtx) (c : Nat) (o : Fields F) (c' : Nat) (lv : List Nat) (ds : List (List Nat)) (x : List Nat),
    Around I Γ c lv ts os ds → typFields P ts = some t → makeFields P os c = some (o, c') → depsFields P lv.length ds = some x →
    settledFields P lv.length ds = true →
    ∀ (env : Env (D F)) (vs : List (PVal F)) (v : List (String × PVal F)), List.Forall₂ (Given I env) os vs →
      List.Forall₂ (fun t v => Conforms t.layout v) ts vs → tellsFields P vs = some v → GivenF I env o v

theorem shaped {P : Script F} {t : UTy} {vs : List (PVal F)} {v : PVal F} (hc : List.Forall₂ (fun t v => Conforms t.layout v) ts vs)
    (ht : typ P ts = some t) (hv : tells P vs = some v) : Conforms t.layout v := formed hc ht (tells_fill P ht hv)

theorem gives_loc (n : Nat) : Gives I (.loc n : Script F) := by
  intro ts t os Γ c o c' lv ds x h ht hm hx hst env vs v ha hc hv
  simp only [make, Option.map_eq_some_iff, Prod.mk.injEq] at hm
  obtain ⟨o, ho, rfl, rfl⟩ := hm
  simp only [tells] at hv
  obtain ⟨hl, hh⟩ := List.forall₂_iff_get.1 ha
  obtain ⟨h1, rfl⟩ := List.getElem?_eq_some_iff.1 ho
  obtain ⟨h2, rfl⟩ := List.getElem?_eq_some_iff.1 hv
  exact hh n h1 h2

theorem gives_lit (s : Scal F) : Gives I (.lit s : Script F) := by
  intro ts t os Γ c o c' lv ds x h ht hm hx hst env vs v ha hc hv
  simp only [make, Option.some.injEq, Prod.mk.injEq] at hm
  obtain ⟨rfl, rfl⟩ := hm
  simp only [tells, Option.some.injEq] at hv
  subst hv
  exact given_scalar (by rw [const, run_node]; rfl) (measured_other (by simp))

theorem gives_assign {a b : Script F} (ha : Gives I a) (hb : Gives I b) : Gives I (.assign a b) := by
  intro ts t os Γ c o c' lv ds x h ht hm hx hst env vs v hag hc hv
  simp only [typ, Option.bind_eq_some_iff] at ht
  obtain ⟨t1, ht1, ht2⟩ := ht
  simp only [make, Option.bind_eq_some_iff] at hm
  obtain ⟨⟨o1, c1⟩, hm1, hm2⟩ := hm
  simp only [deps, Option.bind_eq_some_iff] at hx
  obtain ⟨x1, hx1, hx2⟩ := hx
  simp only [settled, hx1, Option.any_some, Bool.and_eq_true] at hst
  simp only [tells, Option.bind_eq_some_iff] at hv
  obtain ⟨u, hu, hv⟩ := hv
  have A := h.made ht1 hm1
  exact hb _ _ _ _ _ _ _ _ _ _ (h.cons A.grows A.ok A.has (h.comps ht1 hm1 hx1)) ht2 hm2 hx2 hst.2 env _ v
    (.cons (ha _ _ _ _ _ _ _ _ _ _ h ht1 hm1 hx1 hst.1 env vs u hag hc hu) hag) (.cons (shaped hc ht1 hu) hc) hv

theorem gives_un {f : ScalarOp} {a : Script F} (ha : Gives I a) : Gives I (.un f a) := by
  intro ts t os Γ c o c' lv ds x h ht hm hx hst env vs v hag hc hv
  simp only [typ, Option.bind_eq_some_iff, Option.map_eq_some_iff] at ht
  obtain ⟨k, ⟨t1, ht1, hk⟩, k', hk', rfl⟩ := ht
  simp only [make, Option.bind_eq_some_iff, Option.map_eq_some_iff, Prod.mk.injEq] at hm
  obtain ⟨⟨o1, c1⟩, hm1, y, hy, rfl, rfl⟩ := hm
  simp only [deps] at hx
  simp only [settled] at hst
  simp only [tells, Option.bind_eq_some_iff, Option.map_eq_some_iff] at hv
  obtain ⟨s, ⟨u, hu, hs⟩, q, hq, rfl⟩ := hv
  cases toScal_eq hs
  have A := ha _ _ _ _ _ _ _ _ _ _ h ht1 hm1 hx hst env vs _ hag hc hu
  cases o1 <;> simp only [scalarOf, reduceCtorEq, Option.some.injEq] at hy
  subst hy
  exact given_scalar (run_unary A.run hq) (measured_other (by simp))

theorem gives_bin {f : PyOp} {a b : Script F} (ha : Gives I a) (hb : Gives I b) : Gives I (.bin f a b) := by
  intro ts t os Γ c o c' lv ds x h ht hm hx hst env vs v hag hc hv
  simp only [typ, Option.bind_eq_some_iff, Option.map_eq_some_iff] at ht
  obtain ⟨k1, ⟨t1, ht1, hk1⟩, k2, ⟨t2, ht2, hk2⟩, k', hk', rfl⟩ := ht
  simp only [make, Option.bind_eq_some_iff, Option.map_eq_some_iff, Prod.mk.injEq] at hm
  obtain ⟨⟨o1, c1⟩, hm1, ⟨o2, c2⟩, hm2, y, hy, z, hz, rfl, rfl⟩ := hm
  simp only [deps, Option.bind_eq_some_iff, Option.map_eq_some_iff] at hx
  obtain ⟨x1, hx1, x2, hx2, rfl⟩ := hx
  simp only [settled, Bool.and_eq_true] at hst
  simp only [tells, Option.bind_eq_some_iff, Option.map_eq_some_iff] at hv
  obtain ⟨s1, ⟨u1, hu1, hs1⟩, s2, ⟨u2, hu2, hs2⟩, q, hq, rfl⟩ := hv
  cases toScal_eq hs1
  cases toScal_eq hs2
  have A := ha _ _ _ _ _ _ _ _ _ _ h ht1 hm1 hx1 hst.1 env vs _ hag hc hu1
  have B := hb _ _ _ _ _ _ _ _ _ _ (h.mono (h.made ht1 hm1).grows) ht2 hm2 hx2 hst.2 env vs _ hag hc hu2
  cases o1 <;> simp only [scalarOf, reduceCtorEq, Option.some.injEq] at hy
  cases o2 <;> simp only [scalarOf, reduceCtorEq, Option.some.injEq] at hz
  subst hy hz
  exact given_scalar (run_method A.run B.run hq) (measured_method _ _ _)

theorem gives_choose {a b e : Script F} (ha : Gives I a) (hb : Gives I b) (he : Gives I e) : Gives I (.choose a b e) := by
  intro ts t os Γ c o c' lv ds x h ht hm hx hst env vs v hag hc hv
  simp only [typ, Option.bind_eq_some_iff, Option.map_eq_some_iff] at ht
  obtain ⟨k1, ⟨t1, ht1, hk1⟩, k2, ⟨t2, ht2, hk2⟩, k3, ⟨t3, ht3, hk3⟩, k', hk', rfl⟩ := ht
  simp only [make, Option.bind_eq_some_iff, Option.map_eq_some_iff, Prod.mk.injEq] at hm
  obtain ⟨⟨o1, c1⟩, hm1, ⟨o2, c2⟩, hm2, ⟨o3, c3⟩, hm3, y, hy, z, hz, w, hw, rfl, rfl⟩ := hm
  simp only [deps, Option.bind_eq_some_iff, Option.map_eq_some_iff] at hx
  obtain ⟨x1, hx1, x2, hx2, x3, hx3, rfl⟩ := hx
  simp only [settled, Bool.and_eq_true] at hst
  simp only [tells, Option.bind_eq_some_iff, Option.map_eq_some_iff] at hv
  obtain ⟨s1, ⟨u1, hu1, hs1⟩, s2, ⟨u2, hu2, hs2⟩, s3, ⟨u3, hu3, hs3⟩, q, hq, rfl⟩ := hv
  cases toScal_eq hs1
  cases toScal_eq hs2
  cases toScal_eq hs3
  have A := ha _ _ _ _ _ _ _ _ _ _ h ht1 hm1 hx1 hst.1 env vs _ hag hc hu1
  have h1 := h.mono (h.made ht1 hm1).grows
  have B := hb _ _ _ _ _ _ _ _ _ _ h1 ht2 hm2 hx2 hst.2.1 env vs _ hag hc hu2
  have D := he _ _ _ _ _ _ _ _ _ _ (h1.mono (h1.made ht2 hm2).grows) ht3 hm3 hx3 hst.2.2 env vs _ hag hc hu3
  cases o1 <;> simp only [scalarOf, reduceCtorEq, Option.some.injEq] at hy
  cases o2 <;> simp only [scalarOf, reduceCtorEq, Option.some.injEq] at hz
  cases o3 <;> simp only [scalarOf, reduceCtorEq, Option.some.injEq] at hw
  subst hy hz hw
  refine given_scalar ?_ (measured_other (by simp))
  rw [where_, run_node]
  simp [runDen, opOf, Phi.mapOpt, A.run, B.run, D.run, Val.asScal, hq]

theorem gives_item {a b : Script F} (ha : Gives I a) (hb : Gives I b) : Gives I (.item a b) := by
  intro ts t os Γ c o c' lv ds x h ht hm hx hst env vs v hag hc hv
  simp only [typ, Option.bind_eq_some_iff, Option.some.injEq] at ht
  obtain ⟨t', ⟨t1, ht1, he⟩, k, ⟨t2, ht2, hk⟩, rfl⟩ := ht
  cases elem_arr he
  cases kind_sc hk
  simp only [make, Option.bind_eq_some_iff] at hm
  obtain ⟨⟨o1, c1⟩, hm1, ⟨o2, c2⟩, hm2, y, hy, hg⟩ := hm
  simp only [deps, Option.bind_eq_some_iff, Option.map_eq_some_iff] at hx
  obtain ⟨x1, hx1, x2, hx2, rfl⟩ := hx
  simp only [settled, Bool.and_eq_true] at hst
  simp only [tells, Option.bind_eq_some_iff] at hv
  obtain ⟨l, ⟨u1, hu1, hl⟩, n, ⟨u2, hu2, hn⟩, hv⟩ := hv
  cases toList_eq hl
  cases toInt_eq hn
  have MA := h.made ht1 hm1
  have h1 := h.mono MA.grows
  have A := ha _ _ _ _ _ _ _ _ _ _ h ht1 hm1 hx1 hst.1 env vs _ hag hc hu1
  have B := hb _ _ _ _ _ _ _ _ _ _ h1 ht2 hm2 hx2 hst.2 env vs _ hag hc hu2
  obtain ⟨e, rfl, he'⟩ := MA.has.vec
  obtain ⟨a', rfl, ha'⟩ := (h1.made ht2 hm2).has.scalar
  cases hy
  simp only [getItem, Option.some.injEq, Prod.mk.injEq] at hg
  obtain ⟨rfl, rfl⟩ := hg
  have hok' : t'.layout.ok = true := by simpa [UTy.layout, Layout.ok] using MA.ok
  have hcx := shaped hc ht1 hu1
  simp only [UTy.layout, Conforms] at hcx
  have hsize := A.2
  simp only [Obj.Comp] at hsize
  refine ⟨?_, measured_unpack _ (measured_get hsize A.1 hcx.2)⟩
  have hval := A.1
  simp only [value, Option.bind_eq_some_iff] at hval
  obtain ⟨de, h2, h3⟩ := hval
  cases de with
  | vec us =>
    rw [value_read hok' h2 (view_arr h3) (k := n) (by simp [intValue, B.run, Val.asInt])]
    exact hv
  | _ => simp [view] at h3

theorem gives_size {a : Script F} {k : Nat} (ha : Gives I a) : Gives I (.size a k) := by
  intro ts t os Γ c o c' lv ds x h ht hm hx hst env vs v hag hc hv
  simp only [typ, Option.bind_eq_some_iff, Option.map_eq_some_iff] at ht
  obtain ⟨t', ⟨t1, ht1, he⟩, rfl⟩ := ht
  simp only [make, Option.bind_eq_some_iff, Option.map_eq_some_iff, Prod.mk.injEq] at hm
  obtain ⟨⟨o1, c1⟩, hm1, q, hq, rfl, rfl⟩ := hm
  simp only [deps] at hx
  simp only [settled] at hst
  simp only [tells, Option.bind_eq_some_iff, Option.map_eq_some_iff] at hv
  obtain ⟨n, ⟨u, hu, hn⟩, rfl⟩ := hv
  have A := ha _ _ _ _ _ _ _ _ _ _ h ht1 hm1 hx hst env vs _ hag hc hu
  cases o1 <;> simp only [vecOf?, reduceCtorEq, Option.some.injEq] at hq
  subst hq
  have h1 := A.1
  simp only [value, Option.bind_eq_some_iff] at h1
  obtain ⟨d, h2, h3⟩ := h1
  refine given_scalar ?_ (measured_other (by simp))
  rw [run_dim_node, h2, dimOf, Option.bind_some, extent_dim h3 hn]
  rfl

theorem gives_concat {a b : Script F} (ha : Gives I a) (hb : Gives I b) : Gives I (.concat a b) := by
  intro ts t os Γ c o c' lv ds x h ht hm hx hst env vs v hag hc hv
  simp only [typ, Option.bind_eq_some_iff] at ht
  obtain ⟨t', ⟨t1, ht1, he⟩, t'', ⟨t2, ht2, he2⟩, ht⟩ := ht
  simp only [make, Option.bind_eq_some_iff] at hm
  obtain ⟨⟨o1, c1⟩, hm1, ⟨o2, c2⟩, hm2, q, hq, q', hq', hm⟩ := hm
  simp only [deps, Option.bind_eq_some_iff, Option.map_eq_some_iff] at hx
  obtain ⟨x1, hx1, x2, hx2, rfl⟩ := hx
  simp only [settled, Bool.and_eq_true] at hst
  simp only [tells, Option.bind_eq_some_iff] at hv
  obtain ⟨l, ⟨u1, hu1, hl⟩, m, ⟨u2, hu2, hl2⟩, hv⟩ := hv
  cases toList_eq hl
  cases toList_eq hl2
  obtain ⟨rfl, hrows⟩ := rows_eq hv
  have A := (ha _ _ _ _ _ _ _ _ _ _ h ht1 hm1 hx1 hst.1 env vs _ hag hc hu1).1
  have B := (hb _ _ _ _ _ _ _ _ _ _ (h.mono (h.made ht1 hm1).grows) ht2 hm2 hx2 hst.2 env vs _ hag hc hu2).1
  cases o1 <;> simp only [vecOf?, reduceCtorEq, Option.some.injEq] at hq
  cases o2 <;> simp only [vecOf?, reduceCtorEq, Option.some.injEq] at hq'
  subst hq hq'
  split at hm
  · rename_i heq
    simp only [Option.some.injEq, Prod.mk.injEq] at hm
    obtain ⟨rfl, rfl⟩ := hm
    dsimp only at heq
    subst heq
    refine ⟨?_, by simp only [Obj.Comp]; exact measured_other (by simp)⟩
    simp only [value, Option.bind_eq_some_iff] at A B
    obtain ⟨d1, g1, g2⟩ := A
    obtain ⟨d2, g3, g4⟩ := B
    cases d1 <;> simp only [view, reduceCtorEq] at g2
    cases d2 <;> simp only [view, reduceCtorEq] at g4
    have g7 := mapOpt_append (view_arr g2) (view_arr g4)
    simp only [value, Midend.run_concat, g1, g3, concatOf, Option.bind_some, Val.asVec]
    rw [if_pos ((rectangular_rows g7).2 hrows)]
    simp [view, g7]
  · cases hm

theorem gives_record {k : RecKind} {fs : SFields F} (hf : GivesF I fs) : Gives I (.record k fs) := by
  intro ts t os Γ c o c' lv ds x h ht hm hx hst env vs v hag hc hv
  simp only [typ, Option.bind_eq_some_iff] at ht
  obtain ⟨ps, hps, ht⟩ := ht
  simp only [make, Option.map_eq_some_iff, Prod.mk.injEq] at hm
  obtain ⟨⟨o, c1⟩, hm1, rfl, rfl⟩ := hm
  simp only [deps] at hx
  simp only [settled] at hst
  simp only [tells, Option.map_eq_some_iff] at hv
  obtain ⟨l, hl, rfl⟩ := hv
  obtain ⟨h1, h2⟩ := hf _ _ _ _ _ _ _ _ _ _ h hps hm1 hx hst env vs l hag hc hl
  exact ⟨by simp only [value, h1, Option.map_some], by simpa only [Obj.Comp] using h2⟩

theorem gives_field {a : Script F} {n : String} (ha : Gives I a) : Gives I (.field a n) := by
  intro ts t os Γ c o c' lv ds x h ht hm hx hst env vs v hag hc hv
  simp only [typ, Option.bind_eq_some_iff] at ht
  obtain ⟨t1, ht1, hf⟩ := ht
  simp only [make, Option.bind_eq_some_iff, Option.map_eq_some_iff, Prod.mk.injEq] at hm
  obtain ⟨⟨o1, c1⟩, hm1, o, ho, rfl, rfl⟩ := hm
  simp only [deps] at hx
  simp only [settled] at hst
  simp only [tells, Option.bind_eq_some_iff] at hv
  obtain ⟨u, hu, hv⟩ := hv
  exact (ha _ _ _ _ _ _ _ _ _ _ h ht1 hm1 hx hst env vs _ hag hc hu).field ho hv

theorem gives_part {a : Script F} {n : Nat} (ha : Gives I a) : Gives I (.part a n) := by
  intro ts t os Γ c o c' lv ds x h ht hm hx hst env vs v hag hc hv
  simp only [typ, Option.bind_eq_some_iff] at ht
  obtain ⟨t1, ht1, hf⟩ := ht
  simp only [make, Option.bind_eq_some_iff, Option.map_eq_some_iff, Prod.mk.injEq] at hm
  obtain ⟨⟨o1, c1⟩, hm1, o, ho, rfl, rfl⟩ := hm
  simp only [deps] at hx
  simp only [settled] at hst
  simp only [tells, Option.bind_eq_some_iff] at hv
  obtain ⟨u, hu, hv⟩ := hv
  exact (ha _ _ _ _ _ _ _ _ _ _ h ht1 hm1 hx hst env vs _ hag hc hu).part ho hv

theorem givesF_nil : GivesF I (.nil : SFields F) := by
  intro ts t os Γ c o c' lv ds x h ht hm hx hst env vs v hag hc hv
  simp only [makeFields, Option.some.injEq, Prod.mk.injEq] at hm
  obtain ⟨rfl, rfl⟩ := hm
  simp only [tellsFields, Option.some.injEq] at hv
  subst hv
  exact ⟨by simp [valueFields], by simp [Fields.Comp]⟩

theorem givesF_cons {n : String} {a : Script F} {rest : SFields F} (ha : Gives I a) (hr : GivesF I rest) : GivesF I (.cons n a rest) := by
  intro ts t os Γ c o c' lv ds x h ht hm hx hst env vs v hag hc hv
  simp only [typFields, Option.bind_eq_some_iff, Option.map_eq_some_iff] at ht
  obtain ⟨t1, ht1, ps, hps, rfl⟩ := ht
  simp only [makeFields, Option.bind_eq_some_iff, Option.map_eq_some_iff, Prod.mk.injEq] at hm
  obtain ⟨⟨o1, c1⟩, hm1, ⟨o2, c2⟩, hm2, rfl, rfl⟩ := hm
  simp only [depsFields, Option.bind_eq_some_iff, Option.map_eq_some_iff] at hx
  obtain ⟨x1, hx1, x2, hx2, rfl⟩ := hx
  simp only [settledFields, Bool.and_eq_true] at hst
  simp only [tellsFields, Option.bind_eq_some_iff, Option.map_eq_some_iff] at hv
  obtain ⟨y, hy, l, hl, rfl⟩ := hv
  obtain ⟨g1, g2⟩ := ha _ _ _ _ _ _ _ _ _ _ h ht1 hm1 hx1 hst.1 env vs _ hag hc hy
  obtain ⟨g3, g4⟩ := hr _ _ _ _ _ _ _ _ _ _ (h.mono (h.made ht1 hm1).grows) hps hm2 hx2 hst.2 env vs _ hag hc hl
  exact ⟨by simp only [valueFields, g1, g3, Option.bind_some, Option.map_some], by simp only [Fields.Comp]; exact ⟨g2, g4⟩⟩

/-! ### Comprehensions -/

/-- The value of a comprehension. -/
theorem run_comprehension {i : Nat} {n body : Expr F} {l : Layout} {m : Int} {ws : List (PVal F)} {w : PVal F} (hn : Phi.run I n env = some (.int m))
    (hws : Phi.mapOpt (fun k : Nat => (Phi.run I body (env.set (.idx i) (some (.int k)))).bind (view l)) (List.range m.toNat) = some ws)
    (hr : rows ws = some w) : (Phi.run I (vec i n body) env).bind (view (.vec l)) = some w := by
  obtain ⟨rfl, hs⟩ := rows_eq hr
  obtain ⟨us, h1, h2⟩ := mapOpt_split hws
  rw [run_vec, vecOf, hn]
  simp only [Option.bind_some, Val.asInt]
  rw [h1, Option.bind_some, if_pos ((rectangular_rows h2).2 hs), Option.bind_some, view, h2]
  rfl

theorem index_given {i : Nat} {k : Nat} : Given I (env.set (.idx i) (some (.int k))) (.scalar (.scalar (at_ i))) (.sc (.i k)) :=
  given_scalar (e := at_ i) (by rw [at_, run_node]; simp [runDen, Env.set]) (measured_other (by simp))

theorem gives_array {n b : Script F} (hn : Gives I n) (hb : Gives I b) : Gives I (.array n b) := by
  intro ts t os Γ c o c' lv ds x h ht hm hx hst env vs v hag hc hv
  simp only [typ, Option.bind_eq_some_iff] at ht
  obtain ⟨k, ⟨t1, ht1, hk⟩, ht⟩ := ht
  split at ht
  · obtain ⟨t, ht2, rfl⟩ := Option.map_eq_some_iff.1 ht
    simp only [deps, Option.bind_eq_some_iff] at hx
    obtain ⟨x1, hx1, hx⟩ := hx
    split at hx
    · obtain ⟨x2, hx2, rfl⟩ := Option.map_eq_some_iff.1 hx
      simp only [settled, Bool.and_eq_true] at hst
      obtain ⟨c1, a, rb, l, body, hm1, hrb, hl, hbody, rfl⟩ := array_parts hm
      simp only [tells, Option.bind_eq_some_iff] at hv
      obtain ⟨m, ⟨u, hu, hm'⟩, ws, hws, hv⟩ := hv
      cases toInt_eq hm'
      have A := hn _ _ _ _ _ _ _ _ _ _ h ht1 hm1 hx1 hst.1 env vs _ hag hc hu
      have h0 := h.mono (h.made ht1 hm1).grows
      have h1 := h0.index
      have B := h1.made ht2 hrb
      cases (Has.build B.ok B.has).1.symm.trans hl
      refine ⟨?_, by simp only [Obj.Comp]; exact measured_other (by simp)⟩
      simp only [value]
      refine run_comprehension A.run (mapOpt_mono (fun j _ w hw => ?_) hws) hv
      rw [pack_value B.ok B.has hbody]
      refine (hb _ _ _ _ _ _ _ _ _ _ h1 ht2 hrb (by simpa using hx2) (by simpa using hst.2) _ (.sc (.i j) :: vs) w
        (.cons index_given (given_congr (fun s hs => set_of_ne ?_) h0.has hag)) (.cons conforms_sc hc) hw).1
      rintro rfl
      exact hs (fresh_below h0.below (le_refl c1))
    · cases hx
  · cases ht

/-- The value of a size that is inferred. -/
theorem inferred_run {body size : Expr F} {symbols : List Sym} {initial : Finset Sym} {s : Sym} {n : Int}
    (h : inferSize body symbols initial s = some size)
    (key : ∀ e ∈ candidates body (symbols.toFinset ∪ initial) s, Phi.run I e env = some (.int n)) : Phi.run I size env = some (.int n) := by
  obtain ⟨c, hc, ⟨rfl, _⟩ | rfl⟩ := inferSize_eq h
  · exact key _ hc
  · have hall : ∀ l : List (Expr F), (∀ c ∈ l, Phi.run I c env = some (.int n)) →
        Phi.mapOpt (fun v : Option (D F) => v.bind Val.asInt) (l.map fun c => Phi.run I c env) = some (List.replicate l.length n) := by
      intro l
      induction l with
      | nil => intro _; rfl
      | cons a l ih =>
        intro hl
        simp only [List.map, Phi.mapOpt, hl a (by simp), Option.bind_some, Val.asInt, ih fun c hc => hl c (by simp [hc])]
        rfl
    have hd := hall (distinct (candidates body (symbols.toFinset ∪ initial) s)) fun c hc => key c (mem_distinct.1 hc)
    rw [run_node]
    simp only [List.map, runDen, assertOf, List.map_map, Function.comp_def]
    rw [hd, Option.bind_some]
    have hne : (distinct (candidates body (symbols.toFinset ∪ initial) s)).length ≠ 0 := by
      intro h0
      have := List.eq_nil_of_length_eq_zero h0
      have h1 := mem_distinct.2 hc
      rw [this] at h1; cases h1
    obtain ⟨m, hm⟩ := Nat.exists_eq_succ_of_ne_zero hne
    rw [hm, List.replicate_succ]
    dsimp only
    rw [if_pos (by simp [List.all_replicate])]
    exact key c hc

/-- The common size of the arrays that are read. -/
theorem common_run {vs : List (PVal F)} {l : List (Place × Nat)} {N : Nat} (hag : List.Forall₂ (Given I env) os vs) (hN : common vs l = some N)
    {q : Place × Nat} (hq : q ∈ l) {a : Expr F} {sub : Layout} (ha : q.1.obj os = some (.vec a sub)) :
    Phi.run I (dimExpr a q.2) env = some (.int N) := by
  obtain ⟨hpos, hall⟩ := common_mem hN
  obtain ⟨u, hu, he⟩ := Option.bind_eq_some_iff.1 (hall q hq)
  obtain ⟨hval, hsize⟩ := place_given hag ha hu
  simp only [Obj.Comp] at hsize
  simp only [value, Option.bind_eq_some_iff] at hval
  obtain ⟨d, hd, hv⟩ := hval
  obtain ⟨m, h1, h2⟩ := hsize d hd _ _ (extent_dim hv he)
  rw [h1, show m = N by omega]

/-- Nested comprehensions. -/
theorem run_nested {b : Script F} (hb : Gives I b) {t : UTy} {rb : Obj F} {body : Expr F} {x : List Nat} {Γ0 : TCtx} {c0 : Nat} {env0 : Env (D F)}
    (hp : pack t.layout rb = some body) (h0 : Below Γ0 c0) :
    ∀ {Ns : List Nat} {ns : List (Expr F)} {Γ : TCtx} {c : Nat} {lv : List Nat} {ts : List UTy} {os : List (Obj F)} {ds : List (List Nat)}
      {env : Env (D F)} {vs : List (PVal F)} {v : PVal F}, ns.length = Ns.length → Around I Γ c lv ts os ds → c0 ≤ c →
      typ b (List.replicate Ns.length (.sc .int) ++ ts) = some t →
      make b (opened os (List.range' c Ns.length)) (c + Ns.length) = some (rb, c') →
      deps b (lv.length + Ns.length) (((List.range' lv.length Ns.length).map fun i => [i]).reverse ++ ds) = some x →
      settled b (lv.length + Ns.length) (((List.range' lv.length Ns.length).map fun i => [i]).reverse ++ ds) = true →
      List.Forall₂ (Given I env) os vs → List.Forall₂ (fun t v => Conforms t.layout v) ts vs →
      (∀ n ∈ ns, Sane I Γ0 c' n (.scalar .int)) → (∀ s, Γ0 s ≠ none → env s = env0 s) →
      (∀ (j : Nat) n N, ns[j]? = some n → Ns[j]? = some N → Phi.run I n env0 = some (.int (N : Nat))) →
      table Ns (fun ks => tells b ((ks.map fun k : Nat => PVal.sc (.i (k : Int))).reverse ++ vs)) = some v →
      (Phi.run I (nest ((List.range' c Ns.length).zip ns) body) env).bind (view (vecLayouts Ns.length t.layout)) = some v
  | [], ns, Γ, c, lv, ts, os, ds, env, vs, v, hlen, h, hc0, ht, hrb, hx, hst, hag, hc, hns, he, hcount, hv => by
    have B := h.made ht hrb
    simp only [List.length_nil, List.range'_zero, List.zip_nil_left, nest, vecLayouts]
    rw [pack_value B.ok B.has hp]
    exact (hb _ _ _ _ _ _ _ _ _ _ h ht hrb (by simpa using hx) (by simpa using hst) env vs v hag hc (by simpa [table] using hv)).1
  | N :: Ns, [], Γ, c, lv, ts, os, ds, env, vs, v, hlen, h, hc0, ht, hrb, hx, hst, hag, hc, hns, he, hcount, hv => by simp at hlen
  | N :: Ns, n :: ns, Γ, c, lv, ts, os, ds, env, vs, v, hlen, h, hc0, ht, hrb, hx, hst, hag, hc, hns, he, hcount, hv => by
    simp only [table, Option.bind_eq_some_iff] at hv
    obtain ⟨ws, hws, hv⟩ := hv
    have hfresh : Γ0 (.idx c) = none := fresh_below h0 (s := .idx c) hc0
    rw [List.length_cons, List.range'_succ]
    refine run_comprehension (m := N) (by rw [(hns n (by simp)).run_congr he]; exact hcount 0 n N rfl rfl) ?_ hv
    refine mapOpt_mono (fun j _ w hw => ?_) hws
    have h1 := h.index
    refine run_nested hb hp h0 (Ns := Ns) (ns := ns) (env := env.set (.idx c) (some (.int j))) (vs := .sc (.i j) :: vs)
      (by simpa using hlen) h1 (by omega)
      (by rw [← replicate_push]; exact ht) (by
        rw [List.length_cons, List.range'_succ, opened_cons] at hrb
        rw [show c + 1 + Ns.length = c + (Ns.length + 1) by omega]
        exact hrb) (by
        rw [List.length_cons, List.range'_succ] at hx
        rw [List.length_append, List.length_singleton, show lv.length + 1 + Ns.length = lv.length + (Ns.length + 1) by omega]
        simpa using hx) (by
        rw [List.length_cons, List.range'_succ] at hst
        rw [List.length_append, List.length_singleton, show lv.length + 1 + Ns.length = lv.length + (Ns.length + 1) by omega]
        simpa using hst) (.cons index_given (given_congr (fun s hs => set_of_ne ?_) h.has hag)) (.cons conforms_sc hc)
      (fun q hq => hns q (by simp [hq])) (fun s hs => ?_)
      (fun j n p h1 h2 => hcount (j + 1) n p (by simpa using h1) (by simpa using h2)) (by simpa using hw)
    · rintro rfl
      exact hs (fresh_below h.below (le_refl c))
    · rw [set_of_ne, he s hs]
      rintro rfl
      exact hs hfresh

theorem gives_auto {k : Nat} {b : Script F} (hb : Gives I b) : Gives I (.auto k b) := by
  intro ts t os Γ c o c' lv ds x h ht hm hx hst env vs v hag hc hv
  simp only [typ, Option.bind_eq_some_iff] at ht
  obtain ⟨l, hl, ht⟩ := ht
  split at ht
  · obtain ⟨t, ht', rfl⟩ := Option.map_eq_some_iff.1 ht
    simp only [deps, hl, Option.bind_some] at hx
    split at hx
    · obtain ⟨x2, hx2, rfl⟩ := Option.map_eq_some_iff.1 hx
      obtain ⟨rb, lay, body, ns, hrb, hlay, hbody, hns, rfl⟩ := auto_parts hm
      simp only [settled, Bool.and_eq_true, Option.any_eq_true] at hst
      obtain ⟨⟨ls, hls, hall⟩, hst2⟩ := hst
      simp only [tells, Option.bind_eq_some_iff] at hv
      obtain ⟨ls', hls', Ns, hNs, hv⟩ := hv
      cases hls.symm.trans hls'
      have h1 := h.indices (k + 1)
      have B := h1.made ht' hrb
      cases (Has.build B.ok B.has).1.symm.trans hlay
      obtain ⟨body', hp, hsane⟩ := Has.pack B.ok B.has
      cases hp.symm.trans hbody
      obtain ⟨hlen, hall', hN⟩ := Sane.inferred h.below B.grows hsane hns
      obtain ⟨hll, hget⟩ := usesAll_get hls
      have hNl : Ns.length = k + 1 := by rw [mapOpt_length hNs, hll]
      have := run_nested hb (env0 := env) hp h.below (Ns := Ns) (ns := ns) (env := env) (vs := vs) (v := v) (by rw [hlen, hNl]) h (le_refl c)
        (by rw [hNl]; exact ht') (by rw [hNl]; exact hrb) (by rw [hNl]; exact hx2) (by rw [hNl]; exact hst2) hag hc
        (fun n hn => (hall' n hn).1) (fun _ _ => rfl) ?_ hv
      · rw [hNl] at this
        refine ⟨?_, ?_⟩
        · simp only [value]
          exact this
        · simp only [Obj.Comp]
          cases ns with
          | nil => simp at hlen
          | cons n ns =>
            rw [List.range'_succ]
            exact measured_other (by simp)
      · intro m n N hn hN
        have hmk : m ≤ k := by have := (List.getElem?_eq_some_iff.1 hn).1; omega
        obtain ⟨lm, hlm, hgm⟩ := hget m hmk
        rw [mapOpt_getElem? hNs, hgm, Option.bind_some] at hN
        rw [mapOpt_getElem? hns, List.getElem?_map, List.getElem?_range' (by omega)] at hn
        simp only [Option.map_some, Option.bind_some, Nat.one_mul] at hn
        refine inferred_run hn fun e he => ?_
        obtain ⟨q, hq, a, sub, ha, rfl⟩ := auto_all (cleanIn b) h ht' hrb hbody hx2 hst2 hmk hlm
          (fun q hq => by simpa using List.all_eq_true.1 (List.all_eq_true.1 hall _ (List.mem_of_getElem? hgm)) q hq) he
        exact common_run hag hN hq ha
    · cases hx
  · cases ht

/-! ### Folds -/

theorem loop_gives {α α' β γ : Type} {f : β → α → Option β} {g : γ → α' → Option γ} (R : β → γ → Prop) {S : α → α' → Prop} {l : List α} {m : List α'}
    (hS : List.Forall₂ S l m) (h : ∀ a a' b c c', S a a' → a' ∈ m → R b c → g c a' = some c' → ∃ b', f b a = some b' ∧ R b' c') :
    ∀ {b : β} {c c' : γ}, R b c → loopOpt g c m = some c' → ∃ b', loopOpt f b l = some b' ∧ R b' c' := by
  induction hS with
  | nil =>
    intro b c c' hR h2
    cases h2
    exact ⟨b, rfl, hR⟩
  | cons hs _ ih =>
    intro b c c' hR h2
    simp only [loopOpt, Option.bind_eq_some_iff] at h2
    obtain ⟨c1, h5, h6⟩ := h2
    obtain ⟨b1, h7, h8⟩ := h _ _ _ _ _ hs (by simp) hR h5
    obtain ⟨b2, h9, h10⟩ := ih (fun a a' b c c' hs hm => h a a' b c c' hs (by simp [hm])) h8 h6
    exact ⟨b2, by simp only [loopOpt, h7, Option.bind_some, h9], h10⟩

theorem var_given {x : Nat} {t : UTy} {d : D F} {v : PVal F} (hok : t.layout.ok = true) (h : env (.var x) = some d) (hv : view t.layout d = some v) :
    Given I env (unpack t.layout (var x t.ty)) v :=
  given_unpack hok (by rw [var, run_node]; simp [runDen, h, hv]) (measured_other (by simp))

/-- The value of a fold. -/
theorem gives_step {b : Script F} (hb : Gives I b) (h : Around I Γ c lv ts os ds) {t : UTy} {oz rb : Obj F} {ez body : Expr F} {x : List Nat}
    (htok : t.layout.ok = true) (hz : Has I Γ c t oz) (hez : pack t.layout oz = some ez) (ht : typ b (.sc .int :: t :: ts) = some t)
    (hrb : make b (.scalar (.scalar (var c (.scalar .int))) :: unpack t.layout (var (c + 1) t.ty) :: os) (c + 2) = some (rb, c'))
    (hp : pack t.layout rb = some body) (hx : deps b lv.length ([] :: [] :: ds) = some x) (hst : settled b lv.length ([] :: [] :: ds) = true)
    {vs : List (PVal F)}
    (hag : List.Forall₂ (Given I env) os vs) (hc : List.Forall₂ (fun t v => Conforms t.layout v) ts vs) {v0 v : PVal F}
    (hv0 : Given I env oz v0) (hc0 : Conforms t.layout v0) {m : Int}
    (hloop : loopOpt (fun v (k : Nat) => tells b (.sc (.i k) :: v :: vs)) v0 (List.range m.toNat) = some v) {n : Expr F}
    (hn : Phi.run I n env = some (.int m)) : Given I env (unpack t.layout (Phi.fold c (c + 1) n ez body)) v := by
  have h1 := h.step htok
  have B := h1.made ht hrb
  refine given_unpack htok ?_ (measured_other (by simp))
  have hz0 := hv0.1
  rw [← pack_value htok hz hez] at hz0
  obtain ⟨d0, hd0, hview⟩ := Option.bind_eq_some_iff.1 hz0
  rw [Phi.fold, run_node]
  simp only [List.map_cons, List.map_nil, runDen, Phi.foldOf, hn, hd0, Option.bind_some, Val.asInt]
  obtain ⟨d, h2, h3, _⟩ := loop_gives (fun d v => view t.layout d = some v ∧ Conforms t.layout v)
    (f := fun acc (k : Nat) => Phi.run I body ((env.set (.var (c + 1)) (some acc)).set (.var c) (some (.int k))))
    (S := Eq) (List.forall₂_refl _) (fun k k' acc v1 w hk _ hR hw => by
    cases hk
    have hcs : List.Forall₂ (fun (t : UTy) v => Conforms t.layout v) (.sc .int :: t :: ts) (.sc (.i k) :: v1 :: vs) :=
      .cons conforms_sc (.cons hR.2 hc)
    have G := hb _ _ _ _ _ _ _ _ _ _ h1 ht hrb hx hst ((env.set (.var (c + 1)) (some acc)).set (.var c) (some (.int k)))
      (.sc (.i k) :: v1 :: vs) w (.cons ?_ (.cons ?_ (given_congr (fun s hs => ?_) h.has hag))) hcs hw
    · have G1 := G.1
      rw [← pack_value B.ok B.has hp] at G1
      obtain ⟨d1, g1, g2⟩ := Option.bind_eq_some_iff.1 G1
      exact ⟨d1, g1, g2, shaped hcs ht hw⟩
    · exact given_scalar (e := var c (.scalar .int)) (by rw [var, run_node]; simp [runDen, Env.set]) (measured_other (by simp))
    · exact var_given htok (by simp [Env.set]) hR.1
    · rw [set_of_ne, set_of_ne]
      · rintro rfl
        exact hs (fresh_below h.below (Nat.le_succ c))
      · rintro rfl
        exact hs (fresh_below h.below (le_refl c))) ⟨hview, hc0⟩ hloop
  rw [h2, Option.bind_some]
  exact h3

theorem gives_fold {n z b : Script F} (hn : Gives I n) (hz : Gives I z) (hb : Gives I b) : Gives I (.fold n z b) := by
  intro ts t os Γ c o c' lv ds x h ht hm hx hst env vs v hag hc hv
  simp only [typ, Option.bind_eq_some_iff] at ht
  obtain ⟨k, ⟨t1, ht1, hk⟩, ht⟩ := ht
  split at ht
  · simp only [Option.bind_eq_some_iff] at ht
    obtain ⟨t0, ht2, t3, ht3, ht⟩ := ht
    split at ht
    · rename_i hsame
      cases ht
      cases UTy.same_eq hsame
      simp only [deps, Option.bind_eq_some_iff, Option.map_eq_some_iff] at hx
      obtain ⟨x1, hx1, x2, hx2, x3, hx3, rfl⟩ := hx
      simp only [settled, Bool.and_eq_true] at hst
      obtain ⟨oz, c0, c1, a, l, ez, τ, rb, body, hmz, hm1, hl, hez, hτ, hrb, hbody, rfl⟩ := fold_parts hm
      simp only [tells, Option.bind_eq_some_iff] at hv
      obtain ⟨m, ⟨u, hu, hm'⟩, v0, hv0, hloop⟩ := hv
      cases toInt_eq hm'
      have Z := h.made ht2 hmz
      have h0 := h.mono Z.grows
      have A := h0.made ht1 hm1
      have hZ := Z.has.mono A.grows (Extends.refl h0.below)
      cases (Has.build Z.ok hZ).1.symm.trans hl
      obtain ⟨ez', hpz, hsz⟩ := Has.pack Z.ok hZ
      cases hpz.symm.trans hez
      cases hsz.typed.symm.trans hτ
      exact gives_step hb (h0.mono A.grows) Z.ok hZ hez ht3 hrb hbody hx3 hst.2.2 hag hc
        (hz _ _ _ _ _ _ _ _ _ _ h ht2 hmz hx2 hst.2.1 env vs _ hag hc hv0) (shaped hc ht2 hv0) hloop
        (hn _ _ _ _ _ _ _ _ _ _ h0 ht1 hm1 hx1 hst.1 env vs _ hag hc hu).run
    · cases ht
  · cases ht

theorem gives_autoFold {z b : Script F} (hz : Gives I z) (hb : Gives I b) : Gives I (.autoFold z b) := by
  intro ts t os Γ c o c' lv ds x h ht hm hx hst env vs v hag hc hv
  simp only [typ, Option.bind_eq_some_iff] at ht
  obtain ⟨⟨p, k⟩, hq, te, ⟨tp, htp, hte⟩, t0, ht2, t3, ht3, ht⟩ := ht
  split at ht
  · rename_i hsame
    cases ht
    cases UTy.same_eq hsame
    simp only [deps, hq, Option.bind_some, Option.bind_eq_some_iff] at hx
    obtain ⟨xp, hxp, hx⟩ := hx
    split at hx
    · simp only [Option.bind_eq_some_iff, Option.map_eq_some_iff] at hx
      obtain ⟨x2, hx2, x3, hx3, rfl⟩ := hx
      simp only [settled, Bool.and_eq_true, Option.any_eq_true] at hst
      obtain ⟨⟨l0, hl0, hall⟩, hst1, hst2⟩ := hst
      obtain ⟨oz, c1, l, ez, τ, rb, body, n, hmz, hl, hez, hτ, hrb, hbody, hn, rfl⟩ := autoFold_parts hm
      simp only [tells, Option.bind_eq_some_iff] at hv
      obtain ⟨l0', hl0', N, hN, v0, hv0, hloop⟩ := hv
      cases hl0.symm.trans hl0'
      have Z := h.made ht2 hmz
      have h1 := h.mono Z.grows
      cases (Has.build Z.ok Z.has).1.symm.trans hl
      obtain ⟨ez', hpz, hsz⟩ := Has.pack Z.ok Z.has
      cases hpz.symm.trans hez
      cases hsz.typed.symm.trans hτ
      refine gives_step hb h1 Z.ok Z.has hez ht3 hrb hbody hx3 hst2 hag hc
        (hz _ _ _ _ _ _ _ _ _ _ h ht2 hmz hx2 hst1 env vs _ hag hc hv0) (shaped hc ht2 hv0) (m := N) hloop (inferred_run hn fun e he => ?_)
      obtain ⟨q, hq, a, sub, ha, rfl⟩ := autoFold_all (cleanIn b) h1 Z.ok ht3 hrb hbody hx3 hst2 hl0
        (fun q hq => by simpa using List.all_eq_true.1 hall q hq) he
      exact common_run hag hN hq ha
    · cases hx
  · cases ht

/-! ### Reductions -/

theorem view_rows {l : Layout} : ∀ {us : List (D F)} {ys : List (PVal F)}, Phi.mapOpt (view l) us = some ys →
    List.Forall₂ (fun d w => view l d = some w) us ys
  | [], _, h => by cases h; exact .nil
  | u :: us, _, h => by
    simp only [Phi.mapOpt, Option.bind_eq_some_iff, Option.some.injEq] at h
    obtain ⟨w, h1, ws, h2, rfl⟩ := h
    exact .cons h1 (view_rows h2)

theorem gives_reduce {a z b : Script F} (ha : Gives I a) (hz : Gives I z) (hb : Gives I b) : Gives I (.reduce a z b) := by
  intro ts t os Γ c o c' lv ds x h ht hm hx hst env vs v hag hc hv
  simp only [typ, Option.bind_eq_some_iff] at ht
  obtain ⟨t1, ⟨t0, ht1, hk⟩, t2, ht2, t3, ht3, ht⟩ := ht
  cases elem_arr hk
  split at ht
  · rename_i hsame
    cases ht
    rw [Bool.and_eq_true] at hsame
    cases UTy.same_eq hsame.1
    cases UTy.same_eq hsame.2
    simp only [make, Option.bind_eq_some_iff] at hm
    obtain ⟨⟨o1, c0⟩, hm1, ⟨oz, c1⟩, hmz, hq⟩ := hm
    simp only [deps, Option.bind_eq_some_iff, Option.map_eq_some_iff] at hx
    obtain ⟨x1, hx1, x2, hx2, x3, hx3, rfl⟩ := hx
    simp only [settled, Bool.and_eq_true] at hst
    simp only [tells, Option.bind_eq_some_iff] at hv
    obtain ⟨ys, ⟨u, hu, hys⟩, v0, hv0, hloop⟩ := hv
    cases toList_eq hys
    have A := h.made ht1 hm1
    have h0 := h.mono A.grows
    have Z := h0.made ht2 hmz
    have h1 := h0.mono Z.grows
    have hA := ha _ _ _ _ _ _ _ _ _ _ h ht1 hm1 hx1 hst.1 env vs _ hag hc hu
    have hZ := hz _ _ _ _ _ _ _ _ _ _ h0 ht2 hmz hx2 hst.2.1 env vs _ hag hc hv0
    have hcx := shaped hc ht1 hu
    simp only [UTy.layout, Conforms] at hcx
    obtain ⟨e, rfl, he⟩ := A.has.vec
    obtain ⟨hbz, hzok⟩ := Has.build Z.ok Z.has
    obtain ⟨ez, hpz, hsz⟩ := Has.pack Z.ok Z.has
    simp only [reducePy, he.typed, Option.bind_eq_some_iff] at hq
    obtain ⟨⟨rb, c3⟩, hrb, l, hl, hq⟩ := hq
    dsimp only at hl hq
    have h2 := h1.pair Z.ok
    have B := h2.made ht3 hrb
    obtain ⟨hbuild, hrok⟩ := Has.build B.ok B.has
    cases hbuild.symm.trans hl
    obtain ⟨body, hp, hsane⟩ := Has.pack B.ok B.has
    simp only [if_true, hbz, hpz, hp, Option.bind_some, Option.some.injEq, Prod.mk.injEq] at hq
    obtain ⟨rfl, rfl⟩ := hq
    refine given_unpack Z.ok ?_ (measured_other (by simp))
    have hz0 := hZ.1
    rw [← pack_value Z.ok Z.has hpz] at hz0
    obtain ⟨d0, hd0, hview⟩ := Option.bind_eq_some_iff.1 hz0
    have hval := hA.1
    simp only [value, Option.bind_eq_some_iff] at hval
    obtain ⟨de, hde, hvw⟩ := hval
    cases de <;> simp only [view, reduceCtorEq] at hvw
    rename_i us
    have hyv := view_arr hvw
    have hS := view_rows hyv
    rw [run_node]
    have hrow : ∀ i, rowAt [us] i = us[i]? := by
      intro i
      simp only [rowAt, Phi.mapOpt]
      cases us[i]? <;> rfl
    simp only [List.map_cons, List.map_nil, runDen, Phi.reduceOf, Phi.mapOpt, hde, hd0, Option.bind_some, Val.asVec, List.all_nil, if_true, hrow]
    rw [loopOpt_index]
    obtain ⟨d, h5, h6, _⟩ := loop_gives (fun d v => view t.layout d = some v ∧ Conforms t.layout v)
      (f := fun acc u => Phi.run I body ((env.set (.var c1) (some acc)).set (.var (c1 + 1)) (some u)))
      hS (fun u w1 acc v1 w hk hm hR hw => by
      have hcs : List.Forall₂ (fun (t : UTy) v => Conforms t.layout v) (t :: t :: ts) (v1 :: w1 :: vs) := .cons hR.2 (.cons (hcx.1 w1 hm) hc)
      have G := hb _ _ _ _ _ _ _ _ _ _ h2 ht3 hrb hx3 hst.2.2 ((env.set (.var c1) (some acc)).set (.var (c1 + 1)) (some u)) (v1 :: w1 :: vs) w
        (.cons ?_ (.cons ?_ (given_congr (fun s hs => ?_) h.has hag))) hcs hw
      · have G1 := G.1
        rw [← pack_value B.ok B.has hp] at G1
        obtain ⟨d1, g1, g2⟩ := Option.bind_eq_some_iff.1 G1
        exact ⟨d1, g1, g2, shaped hcs ht3 hw⟩
      · exact var_given Z.ok (by simp [Env.set]) hR.1
      · exact var_given Z.ok (by simp [Env.set]) hk
      · rw [set_of_ne, set_of_ne]
        · rintro rfl
          exact hs (fresh_below h1.below (le_refl c1))
        · rintro rfl
          exact hs (fresh_below h1.below (Nat.le_succ c1))) ⟨hview, shaped hc ht2 hv0⟩ hloop
    rw [h5, Option.bind_some]
    exact h6
  · cases ht

mutual
/-- What the library builds for a program has the value that the program tells. -/
theorem gives : ∀ P : Script F, Gives I P
  | .loc n => gives_loc n
  | .lit s => gives_lit s
  | .assign a b => gives_assign (gives a) (gives b)
  | .un _ a => gives_un (gives a)
  | .bin _ a b => gives_bin (gives a) (gives b)
  | .choose a b d => gives_choose (gives a) (gives b) (gives d)
  | .item x i => gives_item (gives x) (gives i)
  | .size x _ => gives_size (gives x)
  | .array n b => gives_array (gives n) (gives b)
  | .fold n z b => gives_fold (gives n) (gives z) (gives b)
  | .reduce x z b => gives_reduce (gives x) (gives z) (gives b)
  | .concat x y => gives_concat (gives x) (gives y)
  | .record _ fs => gives_record (givesF fs)
  | .field x _ => gives_field (gives x)
  | .part x _ => gives_part (gives x)
  | .auto _ b => gives_auto (gives b)
  | .autoFold z b => gives_autoFold (gives z) (gives b)
theorem givesF : ∀ P : SFields F, GivesF I P
  | .nil => givesF_nil
  | .cons _ a rest => givesF_cons (gives a) (givesF rest)
end

end Verif.Frontend
