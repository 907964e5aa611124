import Verif.Frontend.ScriptSound

/-! Programs of the user: the induction. -/

set_option linter.unusedSectionVars false

namespace Verif.Frontend
open Verif.Phi Verif.Term Verif.Midend Verif.Codegen Verif.Props
variable {F : Type} [FloatOps F] [DecidableEq F] {I : Ext F} {Γ Γ' : TCtx} {c c' : Nat}

/-- An object that the library built for a program with the locals `os`: it has the type and the value of the program. -/
structure Made (I : Ext F) (Γ : TCtx) (c c' : Nat) (t : UTy) (os : List (Obj F)) (o : Obj F)
    (m : List (PVal F) → Option (PVal F)) : Prop where
  grows : c ≤ c'
  ok : t.layout.ok = true
  has : Has I Γ c' t o
  same : ∀ env vs v, Phi.mapOpt (value I env) os = some vs → m vs = some v → value I env o = some v

structure MadeF (I : Ext F) (Γ : TCtx) (c c' : Nat) (t : UFields) (os : List (Obj F)) (o : Fields F)
    (m : List (PVal F) → Option (List (String × PVal F))) : Prop where
  grows : c ≤ c'
  ok : t.layout.ok = true
  has : HasF I Γ c' t o
  same : ∀ env vs v, Phi.mapOpt (value I env) os = some vs → m vs = some v → valueFields I env o = some v

/-- What the induction shows of a program. -/
def Correct (I : Ext F) (P : Script F) : Prop :=
  ∀ (ts : List UTy) (t : UTy) (os : List (Obj F)) (Γ : TCtx) (c : Nat) (o : Obj F) (c' : Nat),
    (∀ t ∈ ts, t.layout.ok = true) → List.Forall₂ (Has I Γ c) ts os → Below Γ c →
    typ P ts = some t → make P os c = some (o, c') → Made I Γ c c' t os o (sem P)

def CorrectF (I : Ext F) (P : SFields F) : Prop :=
  ∀ (ts : List UTy) (t : UFields) (os : List (Obj F)) (Γ : TCtx) (c : Nat) (o : Fields F) (c' : Nat),
    (∀ t ∈ ts, t.layout.ok = true) → List.Forall₂ (Has I Γ c) ts os → Below Γ c →
    typFields P ts = some t → makeFields P os c = some (o, c') → MadeF I Γ c c' t os o (semFields P)

theorem correct_loc (n : Nat) : Correct I (.loc n : Script F) := by
  intro ts t os Γ c o c' hok hos hΓ ht hm
  simp only [typ] at ht
  simp only [make, Option.map_eq_some_iff, Prod.mk.injEq] at hm
  obtain ⟨o, ho, rfl, rfl⟩ := hm
  refine ⟨le_rfl, hok t (List.mem_of_getElem? ht), ?_, fun env vs v hvs hv => ?_⟩
  · obtain ⟨hl, hh⟩ := List.forall₂_iff_get.1 hos
    obtain ⟨h1, rfl⟩ := List.getElem?_eq_some_iff.1 ht
    obtain ⟨h2, rfl⟩ := List.getElem?_eq_some_iff.1 ho
    exact hh n h1 h2
  · simp only [sem] at hv
    rw [mapOpt_getElem? hvs, ho] at hv
    exact hv

theorem correct_lit (s : Scal F) : Correct I (.lit s : Script F) := by
  intro ts t os Γ c o c' hok hos hΓ ht hm
  simp only [typ, Option.some.injEq] at ht
  simp only [make, Option.some.injEq, Prod.mk.injEq] at hm
  obtain ⟨rfl, rfl⟩ := hm
  subst ht
  have hty : Phi.typeOf (const s : Expr F) = some (.scalar s.kind) := by rw [const, typeOf_node]; rfl
  refine ⟨le_rfl, rfl, ?_, fun env vs v _ hv => ?_⟩
  · simp only [scalarObj, Has, wrap]
    exact .plain rfl hty (by simp only [headOk]; constructor) (by simp)
  · simp only [sem, Option.some.injEq] at hv
    subst hv
    exact value_of_run (by rw [const, run_node]; rfl)

theorem correct_assign {a b : Script F} (ha : Correct I a) (hb : Correct I b) : Correct I (.assign a b) := by
  intro ts t os Γ c o c' hok hos hΓ ht hm
  simp only [typ, Option.bind_eq_some_iff] at ht
  obtain ⟨t1, ht1, ht2⟩ := ht
  simp only [make, Option.bind_eq_some_iff] at hm
  obtain ⟨⟨o1, c1⟩, hm1, hm2⟩ := hm
  have A := ha ts t1 os Γ c o1 c1 hok hos hΓ ht1 hm1
  have B := hb (t1 :: ts) t (o1 :: os) Γ c1 o c' (by simpa using ⟨A.ok, hok⟩)
    (.cons A.has (Has.locals_mono A.grows (Extends.refl hΓ) hos)) (hΓ.mono A.grows) ht2 hm2
  refine ⟨A.grows.trans B.grows, B.ok, B.has, fun env vs v hvs hv => ?_⟩
  simp only [sem, Option.bind_eq_some_iff] at hv
  obtain ⟨u, hu, hv⟩ := hv
  exact B.same env (u :: vs) v (by simp [Phi.mapOpt, A.same env vs u hvs hu, hvs]) hv

theorem kind_sc {t : UTy} {k : Kind} (h : t.kind? = some k) : t = .sc k := by
  cases t <;> simp [UTy.kind?] at h; rw [h]
theorem elem_arr {t s : UTy} (h : t.elem? = some s) : t = .arr s := by
  cases t <;> simp [UTy.elem?] at h; rw [h]

theorem correct_un {o : ScalarOp} {a : Script F} (ha : Correct I a) : Correct I (.un o a) := by
  intro ts t os Γ c r c' hok hos hΓ ht hm
  simp only [typ, Option.bind_eq_some_iff, Option.map_eq_some_iff] at ht
  obtain ⟨k, ⟨t1, ht1, hk⟩, k', hk', rfl⟩ := ht
  cases kind_sc hk
  simp only [make, Option.bind_eq_some_iff, Option.map_eq_some_iff, Prod.mk.injEq] at hm
  obtain ⟨⟨o1, c1⟩, hm1, x, hx, rfl, rfl⟩ := hm
  have A := ha ts _ os Γ c o1 c1 hok hos hΓ ht1 hm1
  obtain ⟨x', rfl, hx'⟩ := A.has.scalar
  cases hx
  refine ⟨A.grows, rfl, by simp only [scalarObj, Has, wrap]; exact Sane.op1 hk' hx', fun env vs v hvs hv => ?_⟩
  simp only [sem, Option.bind_eq_some_iff, Option.map_eq_some_iff] at hv
  obtain ⟨s, ⟨u, hu, hs⟩, q, hq, rfl⟩ := hv
  cases toScal_eq hs
  obtain ⟨_, hs', h1⟩ := value_scalar (A.same env vs _ hvs hu)
  cases hs'
  exact value_of_run (run_unary h1 hq)

theorem correct_bin {o : PyOp} {a b : Script F} (ha : Correct I a) (hb : Correct I b) : Correct I (.bin o a b) := by
  intro ts t os Γ c r c' hok hos hΓ ht hm
  simp only [typ, Option.bind_eq_some_iff, Option.map_eq_some_iff] at ht
  obtain ⟨k1, ⟨t1, ht1, hk1⟩, k2, ⟨t2, ht2, hk2⟩, k', hk', rfl⟩ := ht
  cases kind_sc hk1
  cases kind_sc hk2
  simp only [make, Option.bind_eq_some_iff, Option.map_eq_some_iff, Prod.mk.injEq] at hm
  obtain ⟨⟨o1, c1⟩, hm1, ⟨o2, c2⟩, hm2, x, hx, y, hy, rfl, rfl⟩ := hm
  have A := ha ts _ os Γ c o1 c1 hok hos hΓ ht1 hm1
  have B := hb ts _ os Γ c1 o2 c2 hok (Has.locals_mono A.grows (Extends.refl hΓ) hos) (hΓ.mono A.grows) ht2 hm2
  obtain ⟨x', rfl, hx'⟩ := A.has.scalar
  obtain ⟨y', rfl, hy'⟩ := B.has.scalar
  cases hx
  cases hy
  refine ⟨A.grows.trans B.grows, rfl, ?_, fun env vs v hvs hv => ?_⟩
  · simp only [scalarObj, Has, wrap]
    exact Sane.method hk' (hx'.mono B.grows (Extends.refl (hΓ.mono A.grows))) hy'
  · simp only [sem, Option.bind_eq_some_iff, Option.map_eq_some_iff] at hv
    obtain ⟨s1, ⟨u1, hu1, hs1⟩, s2, ⟨u2, hu2, hs2⟩, q, hq, rfl⟩ := hv
    cases toScal_eq hs1
    cases toScal_eq hs2
    obtain ⟨_, hs1', h1⟩ := value_scalar (A.same env vs _ hvs hu1)
    obtain ⟨_, hs2', h2⟩ := value_scalar (B.same env vs _ hvs hu2)
    cases hs1'
    cases hs2'
    exact value_of_run (run_method h1 h2 hq)

theorem correct_choose {a b d : Script F} (ha : Correct I a) (hb : Correct I b) (hd : Correct I d) : Correct I (.choose a b d) := by
  intro ts t os Γ c r c' hok hos hΓ ht hm
  simp only [typ, Option.bind_eq_some_iff, Option.map_eq_some_iff] at ht
  obtain ⟨k1, ⟨t1, ht1, hk1⟩, k2, ⟨t2, ht2, hk2⟩, k3, ⟨t3, ht3, hk3⟩, k', hk', rfl⟩ := ht
  cases kind_sc hk1
  cases kind_sc hk2
  cases kind_sc hk3
  simp only [make, Option.bind_eq_some_iff, Option.map_eq_some_iff, Prod.mk.injEq] at hm
  obtain ⟨⟨o1, c1⟩, hm1, ⟨o2, c2⟩, hm2, ⟨o3, c3⟩, hm3, x, hx, y, hy, z, hz, rfl, rfl⟩ := hm
  have A := ha ts _ os Γ c o1 c1 hok hos hΓ ht1 hm1
  have B := hb ts _ os Γ c1 o2 c2 hok (Has.locals_mono A.grows (Extends.refl hΓ) hos) (hΓ.mono A.grows) ht2 hm2
  have hΓ2 := (hΓ.mono A.grows).mono B.grows
  have D := hd ts _ os Γ c2 o3 c3 hok (Has.locals_mono (A.grows.trans B.grows) (Extends.refl hΓ) hos) hΓ2 ht3 hm3
  obtain ⟨x', rfl, hx'⟩ := A.has.scalar
  obtain ⟨y', rfl, hy'⟩ := B.has.scalar
  obtain ⟨z', rfl, hz'⟩ := D.has.scalar
  cases hx
  cases hy
  cases hz
  refine ⟨(A.grows.trans B.grows).trans D.grows, rfl, ?_, fun env vs v hvs hv => ?_⟩
  · simp only [scalarObj, Has, wrap]
    exact Sane.op hk' (.cons (hx'.mono (B.grows.trans D.grows) (Extends.refl (hΓ.mono A.grows)))
      (.cons (hy'.mono D.grows (Extends.refl hΓ2)) (.cons hz' .nil)))
  · simp only [sem, Option.bind_eq_some_iff, Option.map_eq_some_iff] at hv
    obtain ⟨s1, ⟨u1, hu1, hs1⟩, s2, ⟨u2, hu2, hs2⟩, s3, ⟨u3, hu3, hs3⟩, q, hq, rfl⟩ := hv
    cases toScal_eq hs1
    cases toScal_eq hs2
    cases toScal_eq hs3
    obtain ⟨_, hs1', h1⟩ := value_scalar (A.same env vs _ hvs hu1)
    obtain ⟨_, hs2', h2⟩ := value_scalar (B.same env vs _ hvs hu2)
    obtain ⟨_, hs3', h3⟩ := value_scalar (D.same env vs _ hvs hu3)
    cases hs1'
    cases hs2'
    cases hs3'
    refine value_of_run ?_
    rw [where_, run_node]
    simp [runDen, opOf, Phi.mapOpt, h1, h2, h3, Val.asScal, hq]

theorem correct_item {x i : Script F} (hx : Correct I x) (hi : Correct I i) : Correct I (.item x i) := by
  intro ts t os Γ c r c' hok hos hΓ ht hm
  simp only [typ, Option.bind_eq_some_iff, Option.some.injEq] at ht
  obtain ⟨t', ⟨t1, ht1, he⟩, k, ⟨t2, ht2, hk⟩, rfl⟩ := ht
  cases elem_arr he
  cases kind_sc hk
  simp only [make, Option.bind_eq_some_iff] at hm
  obtain ⟨⟨o1, c1⟩, hm1, ⟨o2, c2⟩, hm2, a, ha, hg⟩ := hm
  have A := hx ts _ os Γ c o1 c1 hok hos hΓ ht1 hm1
  have B := hi ts _ os Γ c1 o2 c2 hok (Has.locals_mono A.grows (Extends.refl hΓ) hos) (hΓ.mono A.grows) ht2 hm2
  have hA := Has.build A.ok A.has
  obtain ⟨e, rfl, he'⟩ := A.has.vec
  obtain ⟨a', rfl, ha'⟩ := B.has.scalar
  cases ha
  have hok' : t'.layout.ok = true := by simpa [UTy.layout, Layout.ok] using A.ok
  have hsane : Sane I Γ c2 (Phi.get e (wrap a)) t'.ty := by
    have h1 := he'.mono B.grows (Extends.refl (hΓ.mono A.grows))
    exact .plain rfl (typeOf_get h1.typed ha'.typed) trivial (by
      simp only [List.mem_cons, List.not_mem_nil, or_false]; rintro t (rfl | rfl); exacts [⟨_, h1⟩, ⟨_, ha'⟩])
  have hg' := hg
  simp only [getItem, Option.some.injEq, Prod.mk.injEq] at hg'
  obtain ⟨rfl, rfl⟩ := hg'
  refine ⟨A.grows.trans B.grows, hok', Sane.unpack hok' hsane, fun env vs v hvs hv => ?_⟩
  simp only [sem, Option.bind_eq_some_iff] at hv
  obtain ⟨l, ⟨u1, hu1, hl⟩, n, ⟨u2, hu2, hn⟩, hv⟩ := hv
  cases toList_eq hl
  cases toInt_eq hn
  obtain ⟨_, hs', h1⟩ := value_scalar (B.same env vs _ hvs hu2)
  cases hs'
  obtain ⟨o', h2, h3⟩ := C38_index (I := I) (x := .vec e t'.layout) hA.2 (as := [a]) (ks := [n]) (env := env)
    (A.same env vs _ hvs hu1) (by simp [Phi.mapOpt, intValue, h1, Val.asInt]) (w := v)
    (by simp only [elements, element, Option.bind_eq_some_iff]; exact ⟨v, hv, rfl⟩) c2
  simp only [List.map, getItem, Option.some.injEq, Prod.mk.injEq, and_true] at h2
  rw [h2]
  exact h3

theorem correct_size {x : Script F} {k : Nat} (hx : Correct I x) : Correct I (.size x k) := by
  intro ts t os Γ c r c' hok hos hΓ ht hm
  simp only [typ, Option.bind_eq_some_iff, Option.map_eq_some_iff] at ht
  obtain ⟨t', ⟨t1, ht1, he⟩, rfl⟩ := ht
  cases elem_arr he
  simp only [make, Option.bind_eq_some_iff, Option.map_eq_some_iff, Prod.mk.injEq] at hm
  obtain ⟨⟨o1, c1⟩, hm1, q, hq, rfl, rfl⟩ := hm
  have A := hx ts _ os Γ c o1 c1 hok hos hΓ ht1 hm1
  obtain ⟨e, rfl, he'⟩ := A.has.vec
  cases hq
  refine ⟨A.grows, rfl, ?_, fun env vs v hvs hv => ?_⟩
  · simp only [scalarObj, Has, wrap]
    exact .plain rfl (typeOf_dim k he'.typed) trivial (by simp only [List.mem_singleton]; rintro t rfl; exact ⟨_, he'⟩)
  · simp only [sem, Option.bind_eq_some_iff, Option.map_eq_some_iff] at hv
    obtain ⟨n, ⟨u, hu, hn⟩, rfl⟩ := hv
    have h1 := A.same env vs _ hvs hu
    simp only [value, Option.bind_eq_some_iff] at h1
    obtain ⟨d, h2, h3⟩ := h1
    refine value_of_run ?_
    rw [run_dim_node, h2, dimOf, Option.bind_some, extent_dim h3 hn]
    rfl

theorem correct_concat {x y : Script F} (hx : Correct I x) (hy : Correct I y) : Correct I (.concat x y) := by
  intro ts t os Γ c r c' hok hos hΓ ht hm
  simp only [typ, Option.bind_eq_some_iff] at ht
  obtain ⟨t', ⟨t1, ht1, he⟩, t'', ⟨t2, ht2, he2⟩, ht⟩ := ht
  split at ht
  · rename_i hsame
    cases UTy.same_eq hsame
    cases ht
    cases elem_arr he
    cases elem_arr he2
    simp only [make, Option.bind_eq_some_iff] at hm
    obtain ⟨⟨o1, c1⟩, hm1, ⟨o2, c2⟩, hm2, q, hq, q', hq', hm⟩ := hm
    have A := hx ts _ os Γ c o1 c1 hok hos hΓ ht1 hm1
    have B := hy ts _ os Γ c1 o2 c2 hok (Has.locals_mono A.grows (Extends.refl hΓ) hos) (hΓ.mono A.grows) ht2 hm2
    obtain ⟨e, rfl, he'⟩ := A.has.vec
    obtain ⟨e2, rfl, he2'⟩ := B.has.vec
    cases hq
    cases hq'
    simp only [if_true, Option.some.injEq, Prod.mk.injEq] at hm
    obtain ⟨rfl, rfl⟩ := hm
    have h1 := he'.mono B.grows (Extends.refl (hΓ.mono A.grows))
    refine ⟨A.grows.trans B.grows, A.ok, ?_, fun env vs v hvs hv => ?_⟩
    · simp only [Has, true_and]
      exact .plain rfl (typeOf_concat h1.typed he2'.typed) trivial (by
        simp only [List.mem_cons, List.not_mem_nil, or_false]; rintro t (rfl | rfl); exacts [⟨_, h1⟩, ⟨_, he2'⟩])
    · simp only [sem, Option.bind_eq_some_iff] at hv
      obtain ⟨l, ⟨u1, hu1, hl⟩, m, ⟨u2, hu2, hl2⟩, hv⟩ := hv
      cases toList_eq hl
      cases toList_eq hl2
      obtain ⟨rfl, hrows⟩ := rows_eq hv
      have hA := (Has.build A.ok A.has).2
      have hB := (Has.build B.ok B.has).2
      obtain ⟨_, _, vs1, g1, _, g2, g3⟩ := value_arr hA (A.same env vs _ hvs hu1)
      obtain ⟨_, _, vs2, g4, _, g5, g6⟩ := value_arr hB (B.same env vs _ hvs hu2)
      cases g1
      cases g4
      have g7 := mapOpt_append g3 g6
      simp only [value, run_concat, g2, g5, concatOf, Option.bind_some, Val.asVec]
      rw [if_pos ((rectangular_rows g7).2 hrows)]
      simp [view, g7]
  · cases ht

theorem correct_record {k : RecKind} {fs : SFields F} (h : CorrectF I fs) : Correct I (.record k fs) := by
  intro ts t os Γ c r c' hok hos hΓ ht hm
  simp only [typ, Option.bind_eq_some_iff] at ht
  obtain ⟨ps, hps, ht⟩ := ht
  split at ht
  · rename_i hn
    cases ht
    simp only [make, Option.map_eq_some_iff, Prod.mk.injEq] at hm
    obtain ⟨⟨o, c1⟩, hm1, rfl, rfl⟩ := hm
    have A := h ts ps os Γ c o c1 hok hos hΓ hps hm1
    refine ⟨A.grows, by simp only [UTy.layout, Layout.ok, Bool.and_eq_true]; exact ⟨hn, A.ok⟩,
      by simp only [Has, true_and]; exact A.has, fun env vs v hvs hv => ?_⟩
    simp only [sem, Option.map_eq_some_iff] at hv
    obtain ⟨l, hl, rfl⟩ := hv
    simp only [value, A.same env vs l hvs hl, Option.map_some]
  · cases ht

theorem correct_field {x : Script F} {n : String} (hx : Correct I x) : Correct I (.field x n) := by
  intro ts t os Γ c r c' hok hos hΓ ht hm
  simp only [typ, Option.bind_eq_some_iff] at ht
  obtain ⟨t1, ht1, hf⟩ := ht
  cases t1 with
  | record k fs =>
    have hk : k ≠ .positional := by rintro rfl; simp [UTy.field?] at hf
    have hf' : fs.find n = some t := by cases k <;> simp [UTy.field?] at hf hk ⊢ <;> exact hf
    simp only [make, Option.bind_eq_some_iff, Option.map_eq_some_iff, Prod.mk.injEq] at hm
    obtain ⟨⟨o1, c1⟩, hm1, o, ho, rfl, rfl⟩ := hm
    have A := hx ts _ os Γ c o1 c1 hok hos hΓ ht1 hm1
    obtain ⟨fos, rfl, hfos⟩ := A.has.struct
    have hok' : fs.layout.ok = true := by have := A.ok; simp only [UTy.layout, Layout.ok, Bool.and_eq_true] at this; exact this.2
    obtain ⟨o', ho', hh⟩ := find_has hfos hf'
    have hoo : fos.lookup n = some o := by cases k <;> simp [fieldObj] at ho hk ⊢ <;> exact ho
    cases ho'.symm.trans hoo
    refine ⟨A.grows, find_ok hok' hf', hh, fun env vs v hvs hv => ?_⟩
    simp only [sem, Option.bind_eq_some_iff] at hv
    obtain ⟨u, hu, hv⟩ := hv
    have h1 := A.same env vs u hvs hu
    simp only [value, Option.map_eq_some_iff] at h1
    obtain ⟨l, hl, rfl⟩ := h1
    refine find_value hoo hl ?_
    cases k <;> simp [fieldOf] at hv hk ⊢ <;> exact hv
  | _ => simp [UTy.field?] at hf

theorem correct_part {x : Script F} {i : Nat} (hx : Correct I x) : Correct I (.part x i) := by
  intro ts t os Γ c r c' hok hos hΓ ht hm
  simp only [typ, Option.bind_eq_some_iff] at ht
  obtain ⟨t1, ht1, hf⟩ := ht
  cases t1 with
  | record k fs =>
    cases k with
    | positional =>
      simp only [UTy.part?] at hf
      simp only [make, Option.bind_eq_some_iff, Option.map_eq_some_iff, Prod.mk.injEq] at hm
      obtain ⟨⟨o1, c1⟩, hm1, o, ho, rfl, rfl⟩ := hm
      have A := hx ts _ os Γ c o1 c1 hok hos hΓ ht1 hm1
      obtain ⟨fos, rfl, hfos⟩ := A.has.struct
      have hok' : fs.layout.ok = true := by have := A.ok; simp only [UTy.layout, Layout.ok, Bool.and_eq_true] at this; exact this.2
      obtain ⟨o', ho', hh⟩ := nth_has hfos hf
      simp only [partObj] at ho
      cases ho'.symm.trans ho
      refine ⟨A.grows, nth_ok hok' hf, hh, fun env vs v hvs hv => ?_⟩
      simp only [sem, Option.bind_eq_some_iff] at hv
      obtain ⟨u, hu, hv⟩ := hv
      have h1 := A.same env vs u hvs hu
      simp only [value, Option.map_eq_some_iff] at h1
      obtain ⟨l, hl, rfl⟩ := h1
      exact nth_value ho hl hv
    | _ => simp [UTy.part?] at hf
  | _ => simp [UTy.part?] at hf

theorem correctF_nil : CorrectF I (.nil : SFields F) := by
  intro ts t os Γ c o c' hok hos hΓ ht hm
  simp only [typFields, Option.some.injEq] at ht
  simp only [makeFields, Option.some.injEq, Prod.mk.injEq] at hm
  obtain ⟨rfl, rfl⟩ := hm
  subst ht
  refine ⟨le_rfl, rfl, by simp only [HasF], fun env vs v _ hv => ?_⟩
  simp only [semFields, Option.some.injEq] at hv
  simp [valueFields, hv]

theorem correctF_cons {n : String} {a : Script F} {rest : SFields F} (ha : Correct I a) (hr : CorrectF I rest) :
    CorrectF I (.cons n a rest) := by
  intro ts t os Γ c o c' hok hos hΓ ht hm
  simp only [typFields, Option.bind_eq_some_iff, Option.map_eq_some_iff] at ht
  obtain ⟨t1, ht1, ps, hps, rfl⟩ := ht
  simp only [makeFields, Option.bind_eq_some_iff, Option.map_eq_some_iff, Prod.mk.injEq] at hm
  obtain ⟨⟨o1, c1⟩, hm1, ⟨o2, c2⟩, hm2, rfl, rfl⟩ := hm
  have A := ha ts _ os Γ c o1 c1 hok hos hΓ ht1 hm1
  have B := hr ts _ os Γ c1 o2 c2 hok (Has.locals_mono A.grows (Extends.refl hΓ) hos) (hΓ.mono A.grows) hps hm2
  refine ⟨A.grows.trans B.grows, by simp only [UFields.layout, LFields.ok, Bool.and_eq_true]; exact ⟨A.ok, B.ok⟩, ?_, fun env vs v hvs hv => ?_⟩
  · simp only [HasF, true_and]
    exact ⟨A.has.mono B.grows (Extends.refl (hΓ.mono A.grows)), B.has⟩
  · simp only [semFields, Option.bind_eq_some_iff, Option.map_eq_some_iff] at hv
    obtain ⟨x, hx, l, hl, rfl⟩ := hv
    simp only [valueFields, A.same env vs x hvs hx, B.same env vs l hvs hl, Option.bind_some, Option.map_some]

theorem set_self (Γ : TCtx) (s : Sym) (τ : Option Ty) : Γ.set s τ s = τ := by simp [TCtx.set]

theorem fresh_below {Γ : TCtx} {c : Nat} (h : Below Γ c) {s : Sym} (hs : c ≤ symNum s) : Γ s = none := by
  by_contra hn
  exact absurd (h.lt s hn) (by omega)

/-- The symbols an expression does not bind: those from the supply on, and those in the context. -/
theorem Sane.unbound_new {e : Expr F} {τ : Ty} (h : Sane I Γ c e τ) {s : Sym} (hs : c ≤ symNum s) : s ∉ binders e :=
  fun hb => absurd (h.below s hb) (by omega)
theorem Sane.unbound_ctx {e : Expr F} {τ : Ty} (h : Sane I Γ c e τ) {s : Sym} (hs : Γ s ≠ none) : s ∉ binders e :=
  fun hb => hs (h.fine.binders_out s hb)

theorem noShadow_binding {h : Phi.Head F} {ts : List (Expr F)} (hl : ∀ v, h ≠ .letv v)
    (H : ∀ t ∈ ts, NoShadow t ∧ ∀ s ∈ h.captured, s ∉ binders t) : NoShadow (node h ts) := by
  refine .node (fun t ht => Finset.disjoint_left.2 (H t ht).2) (fun v b e hv _ => ?_) fun t ht => (H t ht).1
  cases h <;> simp [Lang.letVar, Phi.Head.letVar] at hv hl

theorem correct_array {n b : Script F} (hn : Correct I n) (hb : Correct I b) : Correct I (.array n b) := by
  intro ts t os Γ c r c' hok hos hΓ ht hm
  simp only [typ, Option.bind_eq_some_iff] at ht
  obtain ⟨k, ⟨t1, ht1, hk⟩, ht⟩ := ht
  cases kind_sc hk
  split at ht
  · rename_i hint
    subst hint
    obtain ⟨t, ht2, rfl⟩ := Option.map_eq_some_iff.1 ht
    simp only [make, Option.bind_eq_some_iff, Option.map_eq_some_iff, Prod.mk.injEq] at hm
    obtain ⟨⟨o1, c1⟩, hm1, a, ha, ⟨q, c2⟩, hq, o, ho, rfl, rfl⟩ := hm
    have A := hn ts _ os Γ c o1 c1 hok hos hΓ ht1 hm1
    obtain ⟨a', rfl, ha'⟩ := A.has.scalar
    cases ha
    have hΓ1 : Below Γ c1 := hΓ.mono A.grows
    have hq' := hq
    simp only [arrayPy, List.range'_one, List.map_cons, List.map_nil, List.cons_append, List.nil_append, Option.bind_eq_some_iff,
      Option.map_eq_some_iff, Prod.mk.injEq] at hq'
    obtain ⟨⟨rb, c3⟩, hrb, l, hl, body, hbody, e, he, rfl, rfl⟩ := hq'
    dsimp only at hl hbody ho
    have hext : Extends c1 Γ (Γ.set (.idx c1) (some (.scalar .int))) := Extends.set (Extends.refl hΓ1) (le_refl c1)
    have B := hb (.sc .int :: ts) t (.scalar (.scalar (at_ c1)) :: os) (Γ.set (.idx c1) (some (.scalar .int))) (c1 + 1) rb c3
      (by simpa using ⟨rfl, hok⟩)
      (.cons (by simp only [Has, wrap]; exact Sane.store (set_self _ _ _))
        (Has.locals_mono (by omega) hext (Has.locals_mono A.grows (Extends.refl hΓ) hos)))
      (Below.set (hΓ1.mono (by omega)) (Nat.lt_succ_self c1)) ht2 hrb
    obtain ⟨hbuild, hrok⟩ := Has.build B.ok B.has
    cases hbuild.symm.trans hl
    obtain ⟨body', hp, hsane⟩ := Has.pack B.ok B.has
    cases hp.symm.trans hbody
    simp only [arrayOf, List.map_cons, List.map_nil, inferSizes, List.length_cons, List.length_nil, if_true, Option.map_some,
      List.zip_cons_cons, List.zip_nil_right, nest, Option.some.injEq] at he
    subst he
    simp only [vecLayouts, unpack, raising] at ho
    split at ho
    · rename_i hty
      cases ho
      obtain ⟨τ, hτ⟩ := Option.isSome_iff_exists.1 hty
      obtain ⟨n', b', σ, heq, hn1, hn2, hn3, rfl⟩ := inv_vec hτ
      cases heq
      cases hsane.typed.symm.trans hn3
      have hA := ha'.mono (c' := c3) (by have := B.grows; omega) (Extends.refl hΓ1)
      have hC : c1 < c3 := by have := B.grows; omega
      refine ⟨A.grows.trans (by omega), by simpa [UTy.layout, Layout.ok] using B.ok, ?_, fun env vs v hvs hv => ?_⟩
      · simp only [Has, true_and]
        refine ⟨hτ, .node _ hτ (by simp) trivial ?_ ?_, ?_, ?_⟩
        · intro s hs
          simp only [Phi.Head.captured, Finset.mem_singleton] at hs
          subst hs
          exact fresh_below hΓ1 (le_refl c1)
        · intro j u hu
          rcases j with _ | _ | j
          · cases hu; rw [childCtx_vec0]; exact hA.fine
          · cases hu; rw [childCtx_vec1]; exact hsane.fine
          · simp at hu
        · rw [vec, below_node]
          refine ⟨fun s hs => ?_, fun u hu => ?_⟩
          · simp only [Phi.Head.captured, Finset.mem_singleton] at hs
            subst hs
            exact hC
          · simp only [List.mem_cons, List.not_mem_nil, or_false] at hu
            rcases hu with rfl | rfl
            · exact hA.below
            · exact hsane.below
        · refine noShadow_binding (by simp) fun u hu => ?_
          simp only [List.mem_cons, List.not_mem_nil, or_false] at hu
          simp only [Phi.Head.captured, Finset.mem_singleton, forall_eq]
          rcases hu with rfl | rfl
          · exact ⟨hA.noShadow, ha'.unbound_new (le_refl c1)⟩
          · exact ⟨hsane.noShadow, hsane.unbound_ctx (by simp [TCtx.set])⟩
      · simp only [sem, Option.bind_eq_some_iff] at hv
        obtain ⟨m, ⟨u, hu, hm⟩, ws, hws, hv⟩ := hv
        cases toInt_eq hm
        obtain ⟨rfl, hrows⟩ := rows_eq hv
        obtain ⟨_, hs', h1⟩ := value_scalar (A.same env vs _ hvs hu)
        cases hs'
        obtain ⟨_, _, ns, _, hns, _, key⟩ := C38_array (I := I) (n := 1) (f := fun is => make b (is ++ os)) (sizes := some [wrap a])
          (c := c1) (r := rb) (by simpa [indicesOf] using hrb) hrok (B.has.scoped) (fun ms hms m hm => by
            cases hms
            rw [List.mem_singleton.1 hm]
            refine ⟨ha'.fine.scoping, fun i hi hf => ?_⟩
            exact ha'.fine.fv_dom _ hf (fresh_below hΓ1 hi)) hq
        cases hns _ rfl
        have hval : value I env (unpack (vecLayouts 1 t.layout) (vec c1 (wrap a) body)) = some (.arr ws) := by
          refine (key env (.arr ws)).2 ⟨?_, ?_, hrows⟩
          · simp only [List.map_cons, List.map_nil, grid, intValue, h1, Option.bind_some, Val.asInt, Option.map_eq_some_iff]
            refine ⟨ws, ?_, rfl⟩
            refine mapOpt_mono (fun j _ w hw => ?_) hws
            simp only [indicesOf, List.range'_one, withIndices]
            refine B.same _ _ _ ?_ hw
            have hc := values_congr (env := env) (env' := env.set (.idx c1) (some (.int j))) hos (fun s hs => by
              refine set_of_ne ?_
              rintro rfl
              exact hs (fresh_below hΓ1 (le_refl c1)))
            simp only [Phi.mapOpt, hc, hvs, value, wrap, at_, run_node]
            simp [runDen, Env.set, view, Val.int]
          · simp [Rectangular]
        simpa [vecLayouts, unpack] using hval
    · cases ho
  · cases ht

theorem set2_congr {ts : List UTy} {os : List (Obj F)} (hos : List.Forall₂ (Has I Γ c) ts os) {c1 : Nat} (hΓ : Below Γ c1) {env env' : Env (D F)}
    (he : Inside c1 (c1 + 1) env env') : Phi.mapOpt (value I env') os = Phi.mapOpt (value I env) os :=
  values_congr hos fun s hs => he s (by rintro rfl; exact hs (fresh_below hΓ (le_refl c1)))
    (by rintro rfl; exact hs (fresh_below hΓ (Nat.le_succ c1)))

theorem correct_fold {n z b : Script F} (hn : Correct I n) (hz : Correct I z) (hb : Correct I b) : Correct I (.fold n z b) := by
  intro ts t os Γ c r c' hok hos hΓ ht hm
  simp only [typ, Option.bind_eq_some_iff] at ht
  obtain ⟨k, ⟨t1, ht1, hk⟩, ht⟩ := ht
  cases kind_sc hk
  split at ht
  · rename_i hint
    subst hint
    simp only [Option.bind_eq_some_iff] at ht
    obtain ⟨t0, ht2, t3, ht3, ht⟩ := ht
    split at ht
    · rename_i hsame
      cases ht
      cases UTy.same_eq hsame
      simp only [make, Option.bind_eq_some_iff] at hm
      obtain ⟨⟨oz, c0⟩, hmz, ⟨o1, c1⟩, hm1, a, ha, hq⟩ := hm
      have Z := hz ts _ os Γ c oz c0 hok hos hΓ ht2 hmz
      have hΓ0 := hΓ.mono Z.grows
      have A := hn ts _ os Γ c0 o1 c1 hok (Has.locals_mono Z.grows (Extends.refl hΓ) hos) hΓ0 ht1 hm1
      obtain ⟨a', rfl, ha'⟩ := A.has.scalar
      cases ha
      have hΓ1 : Below Γ c1 := hΓ0.mono A.grows
      have hosz := Has.locals_mono A.grows (Extends.refl hΓ0) (Has.locals_mono Z.grows (Extends.refl hΓ) hos)
      have hZ := Z.has.mono A.grows (Extends.refl hΓ0)
      obtain ⟨hbz, hzok⟩ := Has.build Z.ok hZ
      obtain ⟨ez, hpz, hsz⟩ := Has.pack Z.ok hZ
      have hq' := hq
      simp only [foldPy, hbz, hpz, hsz.typed, Option.bind_some, Option.bind_eq_some_iff, Option.map_eq_some_iff, Prod.mk.injEq] at hq'
      obtain ⟨⟨rb, c3⟩, hrb, body, hbody, e, he, rfl, rfl⟩ := hq'
      dsimp only at hbody
      have hext : Extends c1 Γ ((Γ.set (.var (c1 + 1)) (some t.ty)).set (.var c1) (some (.scalar .int))) :=
        Extends.set (Extends.set (Extends.refl hΓ1) (Nat.le_succ c1)) (le_refl c1)
      have B := hb (.sc .int :: t :: ts) t (.scalar (.scalar (var c1 (.scalar .int))) :: unpack t.layout (var (c1 + 1) t.ty) :: os)
        ((Γ.set (.var (c1 + 1)) (some t.ty)).set (.var c1) (some (.scalar .int))) (c1 + 2) rb c3
        (by simpa using ⟨rfl, Z.ok, hok⟩)
        (.cons (by simp only [Has, wrap]; exact Sane.store (set_self _ _ _))
          (.cons (Sane.unpack Z.ok (Sane.store (by simp [TCtx.set])))
            (Has.locals_mono (by omega) hext hosz)))
        (Below.set (Below.set (hΓ1.mono (by omega)) (by simp [symNum])) (by simp [symNum])) ht3 hrb
      obtain ⟨hbuild, hrok⟩ := Has.build B.ok B.has
      obtain ⟨body', hp, hsane⟩ := Has.pack B.ok B.has
      cases hp.symm.trans hbody
      have hC : c1 + 2 ≤ c3 := B.grows
      have he' := he
      simp only [Frontend.foldOf, Option.map_some, inferSizes, List.length_cons, List.length_nil, if_true, Option.bind_some, List.head?_cons,
        Option.some.injEq] at he
      subst he
      have hA := ha'.mono (c' := c3) (by omega) (Extends.refl hΓ1)
      have hZ3 := hsz.mono (c' := c3) (by omega) (Extends.refl hΓ1)
      have hty : Phi.typeOf (fold c1 (c1 + 1) (wrap a) ez body) = some t.ty := by
        rw [fold, typeOf_types (σs := [.scalar .int, t.ty, t.ty]) (by simp) (.cons hA.typed (.cons hZ3.typed (.cons hsane.typed .nil)))]
        simp [typeStep]
      have hfold : Sane I Γ c3 (fold c1 (c1 + 1) (wrap a) ez body) t.ty := by
        refine ⟨hty, .node _ hty (by simp) trivial ?_ ?_, ?_, ?_⟩
        · intro s hs
          simp only [Phi.Head.captured, Finset.mem_insert, Finset.mem_singleton] at hs
          rcases hs with rfl | rfl
          · exact fresh_below hΓ1 (le_refl c1)
          · exact fresh_below hΓ1 (Nat.le_succ c1)
        · intro j u hu
          rcases j with _ | _ | _ | j
          · cases hu; rw [childCtx_fold0]; exact hA.fine
          · cases hu; rw [childCtx_fold1]; exact hZ3.fine
          · cases hu; rw [childCtx_fold2, hZ3.typed]; exact hsane.fine
          · simp at hu
        · rw [fold, below_node]
          refine ⟨fun s hs => ?_, fun u hu => ?_⟩
          · simp only [Phi.Head.captured, Finset.mem_insert, Finset.mem_singleton] at hs
            rcases hs with rfl | rfl <;> simp only [symNum] <;> omega
          · simp only [List.mem_cons, List.not_mem_nil, or_false] at hu
            rcases hu with rfl | rfl | rfl
            · exact hA.below
            · exact hZ3.below
            · exact hsane.below
        · refine noShadow_binding (by simp) fun u hu => ?_
          simp only [List.mem_cons, List.not_mem_nil, or_false] at hu
          simp only [Phi.Head.captured, Finset.mem_insert, Finset.mem_singleton, forall_eq_or_imp, forall_eq]
          rcases hu with rfl | rfl | rfl
          · exact ⟨hA.noShadow, ha'.unbound_new (le_refl c1), ha'.unbound_new (Nat.le_succ c1)⟩
          · exact ⟨hZ3.noShadow, hsz.unbound_new (le_refl c1), hsz.unbound_new (Nat.le_succ c1)⟩
          · exact ⟨hsane.noShadow, hsane.unbound_ctx (by simp [TCtx.set]), hsane.unbound_ctx (by simp [TCtx.set])⟩
      refine ⟨Z.grows.trans (A.grows.trans (by omega)), Z.ok, Sane.unpack Z.ok hfold, fun env vs v hvs hv => ?_⟩
      simp only [sem, Option.bind_eq_some_iff] at hv
      obtain ⟨m, ⟨u, hu, hm⟩, v0, hv0, hloop⟩ := hv
      cases toInt_eq hm
      obtain ⟨_, hs', h1⟩ := value_scalar (A.same env vs _ hvs hu)
      cases hs'
      obtain ⟨_, _, m', hm', _, key⟩ := C38_fold_partial (I := I) (step := fun i a => make b (i :: a :: os)) (r := rb) hzok hrok
        (hbuild.trans hbz.symm) hbz hpz hsz.typed hrb hq
      cases hm' _ rfl
      refine key env m v0 v (fun k v => sem b (.sc (.i k) :: v :: vs)) (by simp [intValue, h1, Val.asInt]) (Z.same env vs v0 hvs hv0) ?_ hloop
      intro env' k v1 w hin _ hk hv1 hw
      refine B.same env' (.sc (.i k) :: v1 :: vs) w ?_ hw
      have hc := set2_congr hos hΓ1 hin
      unfold counterObj at hk
      simp only [Phi.mapOpt, hk, hv1, hc, hvs, Option.bind_some]
    · cases ht
  · cases ht

theorem correct_reduce {x z b : Script F} (hx : Correct I x) (hz : Correct I z) (hb : Correct I b) : Correct I (.reduce x z b) := by
  intro ts t os Γ c r c' hok hos hΓ ht hm
  simp only [typ, Option.bind_eq_some_iff] at ht
  obtain ⟨t1, ⟨t0, ht1, hk⟩, t2, ht2, t3, ht3, ht⟩ := ht
  cases elem_arr hk
  split at ht
  · rename_i hsame
    cases ht
    rw [Bool.and_eq_true] at hsame
    cases UTy.same_eq hsame.1
    cases UTy.same_eq hsame.2
    simp only [make, Option.bind_eq_some_iff] at hm
    obtain ⟨⟨o1, c0⟩, hm1, ⟨oz, c1⟩, hmz, hq⟩ := hm
    have A := hx ts _ os Γ c o1 c0 hok hos hΓ ht1 hm1
    have hΓ0 := hΓ.mono A.grows
    have Z := hz ts _ os Γ c0 oz c1 hok (Has.locals_mono A.grows (Extends.refl hΓ) hos) hΓ0 ht2 hmz
    have hΓ1 : Below Γ c1 := hΓ0.mono Z.grows
    have hosz := Has.locals_mono Z.grows (Extends.refl hΓ0) (Has.locals_mono A.grows (Extends.refl hΓ) hos)
    have hvok := (Has.build A.ok A.has).2
    obtain ⟨e, rfl, he⟩ := A.has.vec
    have he := he.mono Z.grows (Extends.refl hΓ0)
    obtain ⟨hbz, hzok⟩ := Has.build Z.ok Z.has
    obtain ⟨ez, hpz, hsz⟩ := Has.pack Z.ok Z.has
    have hq' := hq
    simp only [reducePy, he.typed, Option.bind_eq_some_iff] at hq'
    obtain ⟨⟨rb, c3⟩, hrb, l, hl, hq'⟩ := hq'
    dsimp only at hl hq'
    have hext : Extends c1 Γ ((Γ.set (.var c1) (some t.ty)).set (.var (c1 + 1)) (some t.ty)) :=
      Extends.set (Extends.set (Extends.refl hΓ1) (le_refl c1)) (Nat.le_succ c1)
    have B := hb (t :: t :: ts) t (unpack t.layout (var c1 t.ty) :: unpack t.layout (var (c1 + 1) t.ty) :: os)
      ((Γ.set (.var c1) (some t.ty)).set (.var (c1 + 1)) (some t.ty)) (c1 + 2) rb c3
      (by simpa using ⟨Z.ok, hok⟩)
      (.cons (Sane.unpack Z.ok (Sane.store (by simp [TCtx.set])))
        (.cons (Sane.unpack Z.ok (Sane.store (by simp [TCtx.set])))
          (Has.locals_mono (by omega) hext hosz)))
      (Below.set (Below.set (hΓ1.mono (by omega)) (by simp [symNum])) (by simp [symNum])) ht3 hrb
    obtain ⟨hbuild, hrok⟩ := Has.build B.ok B.has
    cases hbuild.symm.trans hl
    obtain ⟨body, hp, hsane⟩ := Has.pack B.ok B.has
    simp only [if_true, hbz, hpz, hp, Option.bind_some, Option.some.injEq, Prod.mk.injEq] at hq'
    obtain ⟨rfl, rfl⟩ := hq'
    have hC : c1 + 2 ≤ c3 := B.grows
    have hE := he.mono (c' := c3) (by omega) (Extends.refl hΓ1)
    have hZ3 := hsz.mono (c' := c3) (by omega) (Extends.refl hΓ1)
    have hty : Phi.typeOf (node (.reduce c1 (c1 + 1)) [ez, body, e]) = some t.ty :=
      typeOf_reduce (es := []) hZ3.typed hsane.typed hE.typed .nil
    have hred : Sane I Γ c3 (node (.reduce c1 (c1 + 1)) [ez, body, e]) t.ty := by
      refine ⟨hty, .node _ hty (by simp) trivial ?_ ?_, ?_, ?_⟩
      · intro s hs
        simp only [Phi.Head.captured, Finset.mem_insert, Finset.mem_singleton] at hs
        rcases hs with rfl | rfl
        · exact fresh_below hΓ1 (le_refl c1)
        · exact fresh_below hΓ1 (Nat.le_succ c1)
      · intro j u hu
        rcases j with _ | _ | _ | j
        · cases hu; rw [childCtx_reduce _ _ _ _ (by omega)]; exact hZ3.fine
        · cases hu; rw [childCtx_reduce1, hZ3.typed]; exact hsane.fine
        · cases hu; rw [childCtx_reduce _ _ _ _ (by omega)]; exact hE.fine
        · simp at hu
      · rw [below_node]
        refine ⟨fun s hs => ?_, fun u hu => ?_⟩
        · simp only [Phi.Head.captured, Finset.mem_insert, Finset.mem_singleton] at hs
          rcases hs with rfl | rfl <;> simp only [symNum] <;> omega
        · simp only [List.mem_cons, List.not_mem_nil, or_false] at hu
          rcases hu with rfl | rfl | rfl
          · exact hZ3.below
          · exact hsane.below
          · exact hE.below
      · refine noShadow_binding (by simp) fun u hu => ?_
        simp only [List.mem_cons, List.not_mem_nil, or_false] at hu
        simp only [Phi.Head.captured, Finset.mem_insert, Finset.mem_singleton, forall_eq_or_imp, forall_eq]
        rcases hu with rfl | rfl | rfl
        · exact ⟨hZ3.noShadow, hsz.unbound_new (le_refl c1), hsz.unbound_new (Nat.le_succ c1)⟩
        · exact ⟨hsane.noShadow, hsane.unbound_ctx (by simp [TCtx.set]), hsane.unbound_ctx (by simp [TCtx.set])⟩
        · exact ⟨hE.noShadow, he.unbound_new (le_refl c1), he.unbound_new (Nat.le_succ c1)⟩
    refine ⟨A.grows.trans (Z.grows.trans (by omega)), Z.ok, Sane.unpack Z.ok hred, fun env vs v hvs hv => ?_⟩
    simp only [sem, Option.bind_eq_some_iff] at hv
    obtain ⟨ys, ⟨u, hu, hys⟩, v0, hv0, hloop⟩ := hv
    cases toList_eq hys
    obtain ⟨_, _, key⟩ := C38_reduce (I := I) (f := fun a y => make b (a :: y :: os)) (r := rb) hvok hzok hrok he.typed hrb hq
    refine key env v0 v ys (fun v y => sem b (v :: y :: vs)) (A.same env vs _ hvs hu) (Z.same env vs v0 hvs hv0) ?_ hloop
    intro env' v1 y w hin hv1 hy _ hw
    refine B.same env' (v1 :: y :: vs) w ?_ hw
    have hc := set2_congr hos hΓ1 hin
    simp only [Phi.mapOpt, hv1, hy, hc, hvs, Option.bind_some]
  · cases ht

end Verif.Frontend
