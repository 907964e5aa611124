import Verif.Frontend.ScriptAgreeLemmas

/-! Programs of the user with sizes left out: if what the library builds has a value, it is that of the program with the sizes
of the arrays that are read. -/

set_option linter.unusedSectionVars false

namespace Verif.Frontend
open Verif.Phi Verif.Term Verif.Midend Verif.Codegen Verif.Props
variable {F : Type} [FloatOps F] [DecidableEq F] {I : Ext F} {Γ Γ' : TCtx} {c c' : Nat} {lv : List Nat} {ds : List (List Nat)}
  {ts : List UTy} {os : List (Obj F)}

/-- The local variables: their types, what stands for them, and the indices they depend on. -/
structure Around (I : Ext F) (Γ : TCtx) (c : Nat) (lv : List Nat) (ts : List UTy) (os : List (Obj F)) (ds : List (List Nat)) : Prop where
  ok : ∀ t ∈ ts, t.layout.ok = true
  has : List.Forall₂ (Has I Γ c) ts os
  below : Below Γ c
  comp : List.Forall₂ (fun d (o : Obj F) => o.Comp (IdxIn lv d)) ds os

theorem Around.mono (h : Around I Γ c lv ts os ds) (hc : c ≤ c') : Around I Γ c' lv ts os ds :=
  ⟨h.ok, Has.locals_mono hc (Extends.refl h.below) h.has, h.below.mono hc, h.comp⟩

theorem Around.cons (h : Around I Γ c lv ts os ds) {t : UTy} {o : Obj F} {x : List Nat} (hc : c ≤ c') (ht : t.layout.ok = true)
    (ho : Has I Γ c' t o) (hx : o.Comp (IdxIn lv x)) : Around I Γ c' lv (t :: ts) (o :: os) (x :: ds) :=
  ⟨by simpa using ⟨ht, h.ok⟩, .cons ho (h.mono hc).has, h.below.mono hc, .cons hx h.comp⟩

theorem Around.made (h : Around I Γ c lv ts os ds) {P : Script F} {t : UTy} {o : Obj F} (ht : typ P ts = some t)
    (hm : make P os c = some (o, c')) : Made I Γ c c' t os o (sem P) := correct P ts t os Γ c o c' h.ok h.has h.below ht hm

theorem Around.comps (h : Around I Γ c lv ts os ds) {P : Script F} {t : UTy} {o : Obj F} {x : List Nat} (ht : typ P ts = some t)
    (hm : make P os c = some (o, c')) (hx : deps P lv.length ds = some x) : o.Comp (IdxIn lv x) := by
  obtain ⟨o', c2, h1, h2⟩ := all_traces (I := I) P ts t os Γ c lv ds x h.ok h.has h.below ht h.comp hx
  cases h1.symm.trans hm
  exact h2

/-- The context of the body of a comprehension. -/
theorem Around.index (h : Around I Γ c lv ts os ds) :
    Around I (Γ.set (.idx c) (some (.scalar .int))) (c + 1) (lv ++ [c]) (.sc .int :: ts) (.scalar (.scalar (at_ c)) :: os) ([lv.length] :: ds) := by
  refine ⟨by simpa using ⟨rfl, h.ok⟩, .cons (by simp only [Has, wrap]; exact Sane.store (set_self _ _ _))
    (Has.locals_mono (by omega) (Extends.set (Extends.refl h.below) (le_refl c)) h.has), Below.set (h.below.mono (by omega)) (Nat.lt_succ_self c), ?_⟩
  refine .cons ?_ (h.comp.imp fun _ _ h => h.deeper c)
  simp only [Obj.Comp, wrap]
  intro i hi
  refine ⟨lv.length, by simp, ?_⟩
  obtain ⟨h1 | ⟨t, ht, _⟩, _⟩ := mem_fv.1 hi
  · cases h1; simp
  · cases ht

/-- The context of the body of a fold. -/
theorem Around.step (h : Around I Γ c lv ts os ds) {t : UTy} (ht : t.layout.ok = true) :
    Around I ((Γ.set (.var (c + 1)) (some t.ty)).set (.var c) (some (.scalar .int))) (c + 2) lv (.sc .int :: t :: ts)
      (.scalar (.scalar (var c (.scalar .int))) :: unpack t.layout (var (c + 1) t.ty) :: os) ([] :: [] :: ds) := by
  refine ⟨by simpa using ⟨rfl, ht, h.ok⟩, ?_, Below.set (Below.set (h.below.mono (by omega)) (by simp [symNum])) (by simp [symNum]),
    .cons (by simp only [Obj.Comp, wrap]; exact IdxIn.var) (.cons (IdxIn.unpacked _ IdxIn.var) h.comp)⟩
  exact .cons (by simp only [Has, wrap]; exact Sane.store (set_self _ _ _))
    (.cons (Sane.unpack ht (Sane.store (by simp [TCtx.set])))
      (Has.locals_mono (by omega) (Extends.set (Extends.set (Extends.refl h.below) (Nat.le_succ c)) (le_refl c)) h.has))

/-- The context of the body of a reduction. -/
theorem Around.pair (h : Around I Γ c lv ts os ds) {t : UTy} (ht : t.layout.ok = true) :
    Around I ((Γ.set (.var c) (some t.ty)).set (.var (c + 1)) (some t.ty)) (c + 2) lv (t :: t :: ts)
      (unpack t.layout (var c t.ty) :: unpack t.layout (var (c + 1) t.ty) :: os) ([] :: [] :: ds) := by
  refine ⟨by simpa using ⟨ht, h.ok⟩, ?_, Below.set (Below.set (h.below.mono (by omega)) (by simp [symNum])) (by simp [symNum]),
    .cons (IdxIn.unpacked _ IdxIn.var) (.cons (IdxIn.unpacked _ IdxIn.var) h.comp)⟩
  exact .cons (Sane.unpack ht (Sane.store (by simp [TCtx.set]))) (.cons (Sane.unpack ht (Sane.store (by simp [TCtx.set])))
      (Has.locals_mono (by omega) (Extends.set (Extends.set (Extends.refl h.below) (le_refl c)) (Nat.le_succ c)) h.has))

/-- What the induction shows of a program. -/
def Agrees (I : Ext F) (P : Script F) : Prop :=
  ∀ (ts : List UTy) (t : UTy) (os : List (Obj F)) (Γ : TCtx) (c : Nat) (o : Obj F) (c' : Nat) (lv : List Nat) (ds : List (List Nat)) (x : List Nat),
    Around I Γ c lv ts os ds → typ P ts = some t → make P os c = some (o, c') → deps P lv.length ds = some x →
    ∀ (env : Env (D F)) (vs : List (PVal F)) (v : PVal F), List.Forall₂ (Agree I env) os vs →
      List.Forall₂ (fun t v => Conforms t.layout v) ts vs → sem (fill P) vs = some v → Agree I env o v

def AgreesF (I : Ext F) (P : SFields F) : Prop :=
  ∀ (ts : List UTy) (t : UFields) (os : List (Obj F)) (Γ : TCtx) (c : Nat) (o : Fields F) (c' : Nat) (lv : List Nat) (ds : List (List Nat)) (x : List Nat),
    Around I Γ c lv ts os ds → typFields P ts = some t → makeFields P os c = some (o, c') → depsFields P lv.length ds = some x →
    ∀ (env : Env (D F)) (vs : List (PVal F)) (v : List (String × PVal F)), List.Forall₂ (Agree I env) os vs →
      List.Forall₂ (fun t v => Conforms t.layout v) ts vs → semFields (fillFields P) vs = some v → AgreeF I env o v

theorem formed {P : Script F} {t : UTy} {vs : List (PVal F)} {v : PVal F} (hc : List.Forall₂ (fun t v => Conforms t.layout v) ts vs)
    (ht : typ P ts = some t) (hv : sem (fill P) vs = some v) : Conforms t.layout v := forms (fill P) ts t vs v hc (typ_fill P ht) hv

theorem agrees_loc (n : Nat) : Agrees I (.loc n : Script F) := by
  intro ts t os Γ c o c' lv ds x h ht hm hx env vs v ha hc hv
  simp only [make, Option.map_eq_some_iff, Prod.mk.injEq] at hm
  obtain ⟨o, ho, rfl, rfl⟩ := hm
  simp only [fill, sem] at hv
  obtain ⟨hl, hh⟩ := List.forall₂_iff_get.1 ha
  obtain ⟨h1, rfl⟩ := List.getElem?_eq_some_iff.1 ho
  obtain ⟨h2, rfl⟩ := List.getElem?_eq_some_iff.1 hv
  exact hh n h1 h2

theorem agrees_lit (s : Scal F) : Agrees I (.lit s : Script F) := by
  intro ts t os Γ c o c' lv ds x h ht hm hx env vs v ha hc hv
  simp only [make, Option.some.injEq, Prod.mk.injEq] at hm
  obtain ⟨rfl, rfl⟩ := hm
  simp only [fill, sem, Option.some.injEq] at hv
  subst hv
  simp only [scalarObj, Agree, wrap]
  intro d hd
  rw [const, run_node] at hd
  cases hd
  rfl

theorem agrees_assign {a b : Script F} (ha : Agrees I a) (hb : Agrees I b) : Agrees I (.assign a b) := by
  intro ts t os Γ c o c' lv ds x h ht hm hx env vs v hag hc hv
  simp only [typ, Option.bind_eq_some_iff] at ht
  obtain ⟨t1, ht1, ht2⟩ := ht
  simp only [make, Option.bind_eq_some_iff] at hm
  obtain ⟨⟨o1, c1⟩, hm1, hm2⟩ := hm
  simp only [deps, Option.bind_eq_some_iff] at hx
  obtain ⟨x1, hx1, hx2⟩ := hx
  simp only [fill, sem, Option.bind_eq_some_iff] at hv
  obtain ⟨u, hu, hv⟩ := hv
  have A := h.made ht1 hm1
  exact hb _ _ _ _ _ _ _ _ _ _ (h.cons A.grows A.ok A.has (h.comps ht1 hm1 hx1)) ht2 hm2 hx2 env _ v
    (.cons (ha _ _ _ _ _ _ _ _ _ _ h ht1 hm1 hx1 env vs u hag hc hu) hag) (.cons (formed hc ht1 hu) hc) hv

theorem agrees_un {f : ScalarOp} {a : Script F} (ha : Agrees I a) : Agrees I (.un f a) := by
  intro ts t os Γ c o c' lv ds x h ht hm hx env vs v hag hc hv
  simp only [typ, Option.bind_eq_some_iff, Option.map_eq_some_iff] at ht
  obtain ⟨k, ⟨t1, ht1, hk⟩, k', hk', rfl⟩ := ht
  simp only [make, Option.bind_eq_some_iff, Option.map_eq_some_iff, Prod.mk.injEq] at hm
  obtain ⟨⟨o1, c1⟩, hm1, y, hy, rfl, rfl⟩ := hm
  simp only [deps] at hx
  simp only [fill, sem, Option.bind_eq_some_iff, Option.map_eq_some_iff] at hv
  obtain ⟨s, ⟨u, hu, hs⟩, q, hq, rfl⟩ := hv
  cases toScal_eq hs
  have A := ha _ _ _ _ _ _ _ _ _ _ h ht1 hm1 hx env vs _ hag hc hu
  cases o1 <;> simp only [scalarOf, reduceCtorEq, Option.some.injEq] at hy
  subst hy
  simp only [Agree] at A
  simp only [scalarObj, Agree, wrap]
  exact agree_op (.cons A .nil) hq

theorem agrees_bin {f : PyOp} {a b : Script F} (ha : Agrees I a) (hb : Agrees I b) : Agrees I (.bin f a b) := by
  intro ts t os Γ c o c' lv ds x h ht hm hx env vs v hag hc hv
  simp only [typ, Option.bind_eq_some_iff, Option.map_eq_some_iff] at ht
  obtain ⟨k1, ⟨t1, ht1, hk1⟩, k2, ⟨t2, ht2, hk2⟩, k', hk', rfl⟩ := ht
  simp only [make, Option.bind_eq_some_iff, Option.map_eq_some_iff, Prod.mk.injEq] at hm
  obtain ⟨⟨o1, c1⟩, hm1, ⟨o2, c2⟩, hm2, y, hy, z, hz, rfl, rfl⟩ := hm
  simp only [deps, Option.bind_eq_some_iff, Option.map_eq_some_iff] at hx
  obtain ⟨x1, hx1, x2, hx2, rfl⟩ := hx
  simp only [fill, sem, Option.bind_eq_some_iff, Option.map_eq_some_iff] at hv
  obtain ⟨s1, ⟨u1, hu1, hs1⟩, s2, ⟨u2, hu2, hs2⟩, q, hq, rfl⟩ := hv
  cases toScal_eq hs1
  cases toScal_eq hs2
  have A := ha _ _ _ _ _ _ _ _ _ _ h ht1 hm1 hx1 env vs _ hag hc hu1
  have B := hb _ _ _ _ _ _ _ _ _ _ (h.mono (h.made ht1 hm1).grows) ht2 hm2 hx2 env vs _ hag hc hu2
  cases o1 <;> simp only [scalarOf, reduceCtorEq, Option.some.injEq] at hy
  cases o2 <;> simp only [scalarOf, reduceCtorEq, Option.some.injEq] at hz
  subst hy hz
  simp only [Agree] at A B
  simp only [scalarObj, Agree, wrap]
  exact agree_method A B hq

theorem agrees_choose {a b e : Script F} (ha : Agrees I a) (hb : Agrees I b) (he : Agrees I e) : Agrees I (.choose a b e) := by
  intro ts t os Γ c o c' lv ds x h ht hm hx env vs v hag hc hv
  simp only [typ, Option.bind_eq_some_iff, Option.map_eq_some_iff] at ht
  obtain ⟨k1, ⟨t1, ht1, hk1⟩, k2, ⟨t2, ht2, hk2⟩, k3, ⟨t3, ht3, hk3⟩, k', hk', rfl⟩ := ht
  simp only [make, Option.bind_eq_some_iff, Option.map_eq_some_iff, Prod.mk.injEq] at hm
  obtain ⟨⟨o1, c1⟩, hm1, ⟨o2, c2⟩, hm2, ⟨o3, c3⟩, hm3, y, hy, z, hz, w, hw, rfl, rfl⟩ := hm
  simp only [deps, Option.bind_eq_some_iff, Option.map_eq_some_iff] at hx
  obtain ⟨x1, hx1, x2, hx2, x3, hx3, rfl⟩ := hx
  simp only [fill, sem, Option.bind_eq_some_iff, Option.map_eq_some_iff] at hv
  obtain ⟨s1, ⟨u1, hu1, hs1⟩, s2, ⟨u2, hu2, hs2⟩, s3, ⟨u3, hu3, hs3⟩, q, hq, rfl⟩ := hv
  cases toScal_eq hs1
  cases toScal_eq hs2
  cases toScal_eq hs3
  have A := ha _ _ _ _ _ _ _ _ _ _ h ht1 hm1 hx1 env vs _ hag hc hu1
  have h1 := h.mono (h.made ht1 hm1).grows
  have B := hb _ _ _ _ _ _ _ _ _ _ h1 ht2 hm2 hx2 env vs _ hag hc hu2
  have D := he _ _ _ _ _ _ _ _ _ _ (h1.mono (h1.made ht2 hm2).grows) ht3 hm3 hx3 env vs _ hag hc hu3
  cases o1 <;> simp only [scalarOf, reduceCtorEq, Option.some.injEq] at hy
  cases o2 <;> simp only [scalarOf, reduceCtorEq, Option.some.injEq] at hz
  cases o3 <;> simp only [scalarOf, reduceCtorEq, Option.some.injEq] at hw
  subst hy hz hw
  simp only [Agree] at A B D
  simp only [scalarObj, Agree, wrap]
  exact agree_op (.cons A (.cons B (.cons D .nil))) hq

theorem agrees_item {a b : Script F} (ha : Agrees I a) (hb : Agrees I b) : Agrees I (.item a b) := by
  intro ts t os Γ c o c' lv ds x h ht hm hx env vs v hag hc hv
  have hform := formed hc ht hv
  simp only [typ, Option.bind_eq_some_iff, Option.some.injEq] at ht
  obtain ⟨t', ⟨t1, ht1, he⟩, k, ⟨t2, ht2, hk⟩, rfl⟩ := ht
  cases elem_arr he
  cases kind_sc hk
  simp only [make, Option.bind_eq_some_iff] at hm
  obtain ⟨⟨o1, c1⟩, hm1, ⟨o2, c2⟩, hm2, y, hy, hg⟩ := hm
  simp only [deps, Option.bind_eq_some_iff, Option.map_eq_some_iff] at hx
  obtain ⟨x1, hx1, x2, hx2, rfl⟩ := hx
  simp only [fill, sem, Option.bind_eq_some_iff] at hv
  obtain ⟨l, ⟨u1, hu1, hl⟩, n, ⟨u2, hu2, hn⟩, hv⟩ := hv
  cases toList_eq hl
  cases toInt_eq hn
  have MA := h.made ht1 hm1
  have h1 := h.mono MA.grows
  have A := ha _ _ _ _ _ _ _ _ _ _ h ht1 hm1 hx1 env vs _ hag hc hu1
  have B := hb _ _ _ _ _ _ _ _ _ _ h1 ht2 hm2 hx2 env vs _ hag hc hu2
  obtain ⟨e, rfl, he'⟩ := MA.has.vec
  obtain ⟨a', rfl, ha'⟩ := (h1.made ht2 hm2).has.scalar
  cases hy
  simp only [getItem, Option.some.injEq, Prod.mk.injEq] at hg
  obtain ⟨rfl, rfl⟩ := hg
  simp only [Agree] at A B
  have hok' : t'.layout.ok = true := by simpa [UTy.layout, Layout.ok] using MA.ok
  have hcx := formed hc ht1 hu1
  simp only [UTy.layout, Conforms] at hcx
  obtain ⟨h2, h3⟩ := agree_get A.1 A.2 B hv hcx.2
  exact agree_unpack _ hok' hform h2 h3

theorem agrees_size {a : Script F} {k : Nat} (ha : Agrees I a) : Agrees I (.size a k) := by
  intro ts t os Γ c o c' lv ds x h ht hm hx env vs v hag hc hv
  simp only [typ, Option.bind_eq_some_iff, Option.map_eq_some_iff] at ht
  obtain ⟨t', ⟨t1, ht1, he⟩, rfl⟩ := ht
  simp only [make, Option.bind_eq_some_iff, Option.map_eq_some_iff, Prod.mk.injEq] at hm
  obtain ⟨⟨o1, c1⟩, hm1, q, hq, rfl, rfl⟩ := hm
  simp only [deps] at hx
  simp only [fill, sem, Option.bind_eq_some_iff, Option.map_eq_some_iff] at hv
  obtain ⟨n, ⟨u, hu, hn⟩, rfl⟩ := hv
  have A := ha _ _ _ _ _ _ _ _ _ _ h ht1 hm1 hx env vs _ hag hc hu
  cases o1 <;> simp only [vecOf?, reduceCtorEq, Option.some.injEq] at hq
  subst hq
  simp only [Agree] at A
  simp only [scalarObj, Agree, wrap]
  exact agree_dim A.1 hn

theorem agrees_concat {a b : Script F} (ha : Agrees I a) (hb : Agrees I b) : Agrees I (.concat a b) := by
  intro ts t os Γ c o c' lv ds x h ht hm hx env vs v hag hc hv
  simp only [typ, Option.bind_eq_some_iff] at ht
  obtain ⟨t', ⟨t1, ht1, he⟩, t'', ⟨t2, ht2, he2⟩, ht⟩ := ht
  simp only [make, Option.bind_eq_some_iff] at hm
  obtain ⟨⟨o1, c1⟩, hm1, ⟨o2, c2⟩, hm2, q, hq, q', hq', hm⟩ := hm
  simp only [deps, Option.bind_eq_some_iff, Option.map_eq_some_iff] at hx
  obtain ⟨x1, hx1, x2, hx2, rfl⟩ := hx
  simp only [fill, sem, Option.bind_eq_some_iff] at hv
  obtain ⟨l, ⟨u1, hu1, hl⟩, m, ⟨u2, hu2, hl2⟩, hv⟩ := hv
  cases toList_eq hl
  cases toList_eq hl2
  obtain ⟨rfl, hrows⟩ := rows_eq hv
  have A := ha _ _ _ _ _ _ _ _ _ _ h ht1 hm1 hx1 env vs _ hag hc hu1
  have B := hb _ _ _ _ _ _ _ _ _ _ (h.mono (h.made ht1 hm1).grows) ht2 hm2 hx2 env vs _ hag hc hu2
  cases o1 <;> simp only [vecOf?, reduceCtorEq, Option.some.injEq] at hq
  cases o2 <;> simp only [vecOf?, reduceCtorEq, Option.some.injEq] at hq'
  subst hq hq'
  split at hm
  · rename_i heq
    simp only [Option.some.injEq, Prod.mk.injEq] at hm
    obtain ⟨rfl, rfl⟩ := hm
    dsimp only at heq
    subst heq
    simp only [Agree] at A B ⊢
    have := agree_concat A.1 B.1
    exact ⟨this, dims_other this (by simp) (by simp)⟩
  · cases hm

theorem agrees_record {k : RecKind} {fs : SFields F} (hf : AgreesF I fs) : Agrees I (.record k fs) := by
  intro ts t os Γ c o c' lv ds x h ht hm hx env vs v hag hc hv
  simp only [typ, Option.bind_eq_some_iff] at ht
  obtain ⟨ps, hps, ht⟩ := ht
  simp only [make, Option.map_eq_some_iff, Prod.mk.injEq] at hm
  obtain ⟨⟨o, c1⟩, hm1, rfl, rfl⟩ := hm
  simp only [deps] at hx
  simp only [fill, sem, Option.map_eq_some_iff] at hv
  obtain ⟨l, hl, rfl⟩ := hv
  simp only [Agree, true_and]
  exact hf _ _ _ _ _ _ _ _ _ _ h hps hm1 hx env vs l hag hc hl

theorem agrees_field {a : Script F} {n : String} (ha : Agrees I a) : Agrees I (.field a n) := by
  intro ts t os Γ c o c' lv ds x h ht hm hx env vs v hag hc hv
  simp only [typ, Option.bind_eq_some_iff] at ht
  obtain ⟨t1, ht1, hf⟩ := ht
  simp only [make, Option.bind_eq_some_iff, Option.map_eq_some_iff, Prod.mk.injEq] at hm
  obtain ⟨⟨o1, c1⟩, hm1, o, ho, rfl, rfl⟩ := hm
  simp only [deps] at hx
  simp only [fill, sem, Option.bind_eq_some_iff] at hv
  obtain ⟨u, hu, hv⟩ := hv
  exact (ha _ _ _ _ _ _ _ _ _ _ h ht1 hm1 hx env vs _ hag hc hu).fieldOf ho hv

theorem agrees_part {a : Script F} {n : Nat} (ha : Agrees I a) : Agrees I (.part a n) := by
  intro ts t os Γ c o c' lv ds x h ht hm hx env vs v hag hc hv
  simp only [typ, Option.bind_eq_some_iff] at ht
  obtain ⟨t1, ht1, hf⟩ := ht
  simp only [make, Option.bind_eq_some_iff, Option.map_eq_some_iff, Prod.mk.injEq] at hm
  obtain ⟨⟨o1, c1⟩, hm1, o, ho, rfl, rfl⟩ := hm
  simp only [deps] at hx
  simp only [fill, sem, Option.bind_eq_some_iff] at hv
  obtain ⟨u, hu, hv⟩ := hv
  exact (ha _ _ _ _ _ _ _ _ _ _ h ht1 hm1 hx env vs _ hag hc hu).partOf ho hv

theorem agreesF_nil : AgreesF I (.nil : SFields F) := by
  intro ts t os Γ c o c' lv ds x h ht hm hx env vs v hag hc hv
  simp only [makeFields, Option.some.injEq, Prod.mk.injEq] at hm
  obtain ⟨rfl, rfl⟩ := hm
  simp only [fillFields, semFields, Option.some.injEq] at hv
  subst hv
  simp only [AgreeF]

theorem agreesF_cons {n : String} {a : Script F} {rest : SFields F} (ha : Agrees I a) (hr : AgreesF I rest) : AgreesF I (.cons n a rest) := by
  intro ts t os Γ c o c' lv ds x h ht hm hx env vs v hag hc hv
  simp only [typFields, Option.bind_eq_some_iff, Option.map_eq_some_iff] at ht
  obtain ⟨t1, ht1, ps, hps, rfl⟩ := ht
  simp only [makeFields, Option.bind_eq_some_iff, Option.map_eq_some_iff, Prod.mk.injEq] at hm
  obtain ⟨⟨o1, c1⟩, hm1, ⟨o2, c2⟩, hm2, rfl, rfl⟩ := hm
  simp only [depsFields, Option.bind_eq_some_iff, Option.map_eq_some_iff] at hx
  obtain ⟨x1, hx1, x2, hx2, rfl⟩ := hx
  simp only [fillFields, semFields, Option.bind_eq_some_iff, Option.map_eq_some_iff] at hv
  obtain ⟨y, hy, l, hl, rfl⟩ := hv
  simp only [AgreeF, true_and]
  exact ⟨ha _ _ _ _ _ _ _ _ _ _ h ht1 hm1 hx1 env vs _ hag hc hy,
    hr _ _ _ _ _ _ _ _ _ _ (h.mono (h.made ht1 hm1).grows) hps hm2 hx2 env vs _ hag hc hl⟩

/-! ### Comprehensions -/

/-- What `array` builds. -/
theorem array_parts {n b : Script F} {o : Obj F} (hm : make (.array n b) os c = some (o, c')) :
    ∃ c1 a rb l body, make n os c = some (.scalar a, c1) ∧ make b (.scalar (.scalar (at_ c1)) :: os) (c1 + 1) = some (rb, c') ∧ build rb = some l ∧
      pack l rb = some body ∧ o = .vec (vec c1 (wrap a) body) l := by
  simp only [make, Option.bind_eq_some_iff, Option.map_eq_some_iff, Prod.mk.injEq] at hm
  obtain ⟨⟨o1, c1⟩, hm1, a, ha, ⟨q, c2⟩, hq, o', ho, rfl, rfl⟩ := hm
  cases o1 <;> simp only [scalarOf, reduceCtorEq, Option.some.injEq] at ha
  subst ha
  simp only [arrayPy, List.range'_one, List.map_cons, List.map_nil, List.cons_append, List.nil_append, Option.bind_eq_some_iff,
    Option.map_eq_some_iff, Prod.mk.injEq] at hq
  obtain ⟨⟨rb, c3⟩, hrb, l, hl, body, hbody, e, he, rfl, rfl⟩ := hq
  simp only [arrayOf, List.map_cons, List.map_nil, inferSizes, List.length_cons, List.length_nil, if_true, Option.map_some,
    List.zip_cons_cons, List.zip_nil_right, nest, Option.some.injEq] at he
  subst he
  simp only [vecLayouts, unpack, raising] at ho
  split at ho
  · cases ho
    exact ⟨c1, _, rb, l, body, hm1, hrb, hl, hbody, rfl⟩
  · cases ho

/-- The body of a comprehension. -/
theorem agree_body {b : Script F} (hb : Agrees I b) (h : Around I Γ c lv ts os ds) {t : UTy} {rb : Obj F} {l : Layout} {body : Expr F} {x : List Nat}
    (ht : typ b (.sc .int :: ts) = some t) (hrb : make b (.scalar (.scalar (at_ c)) :: os) (c + 1) = some (rb, c')) (hl : build rb = some l)
    (hp : pack l rb = some body) (hx : deps b (lv.length + 1) ([lv.length] :: ds) = some x) {env : Env (D F)} {vs : List (PVal F)}
    (hag : List.Forall₂ (Agree I env) os vs) (hc : List.Forall₂ (fun t v => Conforms t.layout v) ts vs) {N : Nat} {ws : List (PVal F)}
    (hws : Phi.mapOpt (fun k : Nat => sem (fill b) (.sc (.i k) :: vs)) (List.range N) = some ws) {n : Expr F}
    (hcount : ∀ m, run I n env = some (.int m) → m.toNat = N) : Agree I env (.vec (vec c n body) l) (.arr ws) := by
  have h1 := h.index
  have B := h1.made ht hrb
  cases (Has.build B.ok B.has).1.symm.trans hl
  have hlen : ws.length = N := by rw [mapOpt_length hws, List.length_range]
  refine agree_vec (fun m hm => by rw [hlen]; exact hcount m hm) fun j w hj => ?_
  rw [mapOpt_getElem? hws] at hj
  obtain ⟨j', h2, h3⟩ := Option.bind_eq_some_iff.1 hj
  obtain ⟨h4, h5⟩ := List.getElem?_eq_some_iff.1 h2
  rw [List.getElem_range] at h5
  subst h5
  refine agree_pack B.ok B.has ?_ hp
  refine hb _ _ _ _ _ _ _ _ _ _ h1 ht hrb (by simpa using hx) _ (.sc (.i j) :: vs) w (.cons ?_ (agrees_congr (fun s hs => set_of_ne ?_) h.has hag))
    (.cons conforms_sc hc) h3
  · simp only [Agree, wrap, at_]
    intro d hd
    rw [run_node] at hd
    simp only [runDen, Env.set, if_true, Option.some.injEq] at hd
    subst hd
    rfl
  · rintro rfl
    exact hs (fresh_below h.below (le_refl c))

theorem agrees_array {n b : Script F} (hn : Agrees I n) (hb : Agrees I b) : Agrees I (.array n b) := by
  intro ts t os Γ c o c' lv ds x h ht hm hx env vs v hag hc hv
  simp only [typ, Option.bind_eq_some_iff] at ht
  obtain ⟨k, ⟨t1, ht1, hk⟩, ht⟩ := ht
  split at ht
  · obtain ⟨t, ht2, rfl⟩ := Option.map_eq_some_iff.1 ht
    simp only [deps, Option.bind_eq_some_iff] at hx
    obtain ⟨x1, hx1, hx⟩ := hx
    split at hx
    · obtain ⟨x2, hx2, rfl⟩ := Option.map_eq_some_iff.1 hx
      obtain ⟨c1, a, rb, l, body, hm1, hrb, hl, hbody, rfl⟩ := array_parts hm
      simp only [fill, sem, Option.bind_eq_some_iff] at hv
      obtain ⟨m, ⟨u, hu, hm'⟩, ws, hws, hv⟩ := hv
      cases toInt_eq hm'
      obtain ⟨rfl, -⟩ := rows_eq hv
      have A := hn _ _ _ _ _ _ _ _ _ _ h ht1 hm1 hx1 env vs _ hag hc hu
      simp only [Agree] at A
      refine agree_body hb (h.mono (h.made ht1 hm1).grows) ht2 hrb hl hbody hx2 hag hc hws fun m' hm' => ?_
      have := A _ hm'
      simp only [view, Option.some.injEq, PVal.sc.injEq, Scal.i.injEq] at this
      rw [this]
    · cases hx
  · cases ht

/-- The context of the body of a comprehension with several indices. -/
theorem Around.indices (h : Around I Γ c lv ts os ds) (n : Nat) :
    Around I (indexed Γ (List.range' c n)) (c + n) (lv ++ List.range' c n) (List.replicate n (.sc .int) ++ ts) (opened os (List.range' c n))
      (((List.range' lv.length n).map fun i => [i]).reverse ++ ds) := by
  obtain ⟨h1, h2, h3⟩ := locals_indexed n h.ok h.has h.below
  exact ⟨h1, h2, h3, comp_indexed n h.comp⟩

/-- Nested comprehensions, whose sizes are those of arrays outside. -/
theorem agree_nest {b : Script F} (hb : Agrees I b) {t : UTy} {rb : Obj F} {body : Expr F} {x : List Nat} {Γ0 : TCtx} {c0 : Nat} {env0 : Env (D F)}
    {vs0 : List (PVal F)} (hp : pack t.layout rb = some body) (h0 : Below Γ0 c0) :
    ∀ {l : List (Place × Nat)} {ns : List (Expr F)} {Γ : TCtx} {c d : Nat} {lv : List Nat} {ts : List UTy} {os : List (Obj F)} {ds : List (List Nat)}
      {env : Env (D F)} {vs : List (PVal F)} {v : PVal F}, ns.length = l.length → Around I Γ c lv ts os ds → c0 ≤ c →
      typ b (List.replicate l.length (.sc .int) ++ ts) = some t →
      make b (opened os (List.range' c l.length)) (c + l.length) = some (rb, c') →
      deps b (lv.length + l.length) (((List.range' lv.length l.length).map fun i => [i]).reverse ++ ds) = some x →
      List.Forall₂ (Agree I env) os vs → List.Forall₂ (fun t v => Conforms t.layout v) ts vs →
      (∀ n ∈ ns, Sane I Γ0 c' n (.scalar .int)) → (∀ s, Γ0 s ≠ none → env s = env0 s) → vs.drop d = vs0 →
      (∀ (j : Nat) n p ax, ns[j]? = some n → l[j]? = some (p, ax) → ∀ u N, p.val vs0 = some u → extent ax u = some N →
        ∀ m, run I n env0 = some (.int m) → m.toNat = N) →
      sem (nested l d (fill b)) vs = some v →
      AgreeE I env (vecLayouts l.length t.layout) (nest ((List.range' c l.length).zip ns) body) v ∧
        (l ≠ [] → Dims I env (nest ((List.range' c l.length).zip ns) body) v)
  | [], ns, Γ, c, d, lv, ts, os, ds, env, vs, v, hlen, h, hc0, ht, hrb, hx, hag, hc, hns, he, hvs, hcount, hv => by
    have B := h.made ht hrb
    exact ⟨agree_pack B.ok B.has (hb _ _ _ _ _ _ _ _ _ _ h ht hrb (by simpa using hx) env vs v hag hc hv) hp, fun h => absurd rfl h⟩
  | (p, ax) :: l, [], Γ, c, d, lv, ts, os, ds, env, vs, v, hlen, h, hc0, ht, hrb, hx, hag, hc, hns, he, hvs, hcount, hv => by simp at hlen
  | (p, ax) :: l, n :: ns, Γ, c, d, lv, ts, os, ds, env, vs, v, hlen, h, hc0, ht, hrb, hx, hag, hc, hns, he, hvs, hcount, hv => by
    simp only [nested, sem, sem_place, place_val_drop, hvs, Option.bind_eq_some_iff, Option.map_eq_some_iff] at hv
    obtain ⟨m, ⟨_, ⟨N, ⟨u, hu, hN⟩, rfl⟩, hm'⟩, ws, hws, hv⟩ := hv
    cases toInt_eq hm'
    obtain ⟨rfl, -⟩ := rows_eq hv
    simp only [Int.toNat_natCast] at hws
    have hwl : ws.length = N := by rw [mapOpt_length hws, List.length_range]
    have hfresh : Γ0 (.idx c) = none := fresh_below h0 (s := .idx c) hc0
    have hA : Agree I env (.vec (vec c n (nest ((List.range' (c + 1) l.length).zip ns) body)) (vecLayouts l.length t.layout)) (.arr ws) := by
      refine agree_vec (fun m hm => ?_) fun j w hj => ?_
      · rw [hwl]
        rw [(hns n (by simp)).run_congr he] at hm
        exact hcount 0 n p ax rfl rfl u N hu hN m hm
      · rw [mapOpt_getElem? hws] at hj
        obtain ⟨j', h2, h3⟩ := Option.bind_eq_some_iff.1 hj
        obtain ⟨h4, h5⟩ := List.getElem?_eq_some_iff.1 h2
        rw [List.getElem_range] at h5
        subst h5
        have h1 := h.index
        refine (agree_nest hb hp h0 (l := l) (ns := ns) (d := d + 1) (env := env.set (.idx c) (some (.int j))) (vs := .sc (.i j) :: vs)
          (by simpa using hlen) h1 (by omega)
          (by rw [← replicate_push]; exact ht) (by
            rw [List.length_cons, List.range'_succ, opened_cons] at hrb
            rw [show c + 1 + l.length = c + (l.length + 1) by omega]
            exact hrb) (by
            rw [List.length_cons, List.range'_succ] at hx
            rw [List.length_append, List.length_singleton, show lv.length + 1 + l.length = lv.length + (l.length + 1) by omega]
            simpa using hx) (.cons ?_ (agrees_congr (fun s hs => set_of_ne ?_) h.has hag)) (.cons conforms_sc hc)
          (fun q hq => hns q (by simp [hq])) (fun s hs => ?_) (by simpa using hvs)
          (fun j n p ax h1 h2 => hcount (j + 1) n p ax (by simpa using h1) (by simpa using h2)) h3).1
        · simp only [Agree, wrap, at_]
          intro d hd
          rw [run_node] at hd
          simp only [runDen, Env.set, if_true, Option.some.injEq] at hd
          subst hd
          rfl
        · rintro rfl
          exact hs (fresh_below h.below (le_refl c))
        · rw [set_of_ne, he s hs]
          rintro rfl
          exact hs hfresh
    simp only [Agree] at hA
    rw [List.length_cons, List.range'_succ]
    exact ⟨hA.1, fun _ => hA.2⟩

theorem agrees_auto {k : Nat} {b : Script F} (hb : Agrees I b) : Agrees I (.auto k b) := by
  intro ts t os Γ c o c' lv ds x h ht hm hx env vs v hag hc hv
  simp only [typ, Option.bind_eq_some_iff] at ht
  obtain ⟨l, hl, ht⟩ := ht
  split at ht
  · rename_i hall
    obtain ⟨t, ht', rfl⟩ := Option.map_eq_some_iff.1 ht
    simp only [deps, hl, Option.bind_some] at hx
    split at hx
    · rename_i hnone
      obtain ⟨x2, hx2, rfl⟩ := Option.map_eq_some_iff.1 hx
      obtain ⟨rb, lay, body, ns, hrb, hlay, hbody, hns, rfl⟩ := auto_parts hm
      simp only [fill, hl] at hv
      have h1 := h.indices (k + 1)
      have B := h1.made ht' hrb
      cases (Has.build B.ok B.has).1.symm.trans hlay
      obtain ⟨body', hp, hsane⟩ := Has.pack B.ok B.has
      cases hp.symm.trans hbody
      obtain ⟨hlen, hall', hN⟩ := Sane.inferred h.below B.grows hsane hns
      obtain ⟨hll, hget⟩ := readsAll_get hl
      have := agree_nest hb (env0 := env) (vs0 := vs) hp h.below (l := l) (ns := ns) (d := 0) (env := env) (vs := vs) (v := v) (by rw [hlen, hll]) h (le_refl c)
        (by rw [hll]; exact ht') (by rw [hll]; exact hrb) (by rw [hll]; exact hx2) hag hc (fun n hn => (hall' n hn).1) (fun _ _ => rfl) rfl ?_ hv
      · rw [hll] at this
        simp only [Agree]
        exact ⟨this.1, this.2 (by rintro rfl; simp at hll)⟩
      · intro j n p ax hj hq u N hu hN m hm
        have hjk : j ≤ k := by have := (List.getElem?_eq_some_iff.1 hj).1; omega
        obtain ⟨p', ax', hr, hq'⟩ := hget j hjk
        cases hq.symm.trans hq'
        have hmem := List.mem_of_getElem? hq
        obtain ⟨te, hte⟩ := Option.isSome_iff_exists.1 (List.all_eq_true.1 hall _ hmem)
        obtain ⟨tp, htp, hte⟩ := Option.bind_eq_some_iff.1 hte
        cases elem_arr hte
        obtain ⟨a, hoa, hcand, -⟩ := auto_hint h.ok h.has h.below h.comp ht' hrb hp hsane hjk hr htp (by simpa using List.all_eq_true.1 hnone _ hmem)
        rw [mapOpt_getElem? hns, List.getElem?_map, List.getElem?_range' (by omega)] at hj
        simp only [Option.map_some, Option.bind_some, Nat.one_mul] at hj
        have hA := place_agree hag hoa hu
        simp only [Agree] at hA
        exact hA.2 ax m N (run_inferSize hj hm hcand) (axis_extent hN)
    · cases hx
  · cases ht

/-! ### Folds -/

/-- What `fold` builds. -/
theorem fold_parts {n z b : Script F} {o : Obj F} (hm : make (.fold n z b) os c = some (o, c')) :
    ∃ oz c0 c1 a l ez τ rb body, make z os c = some (oz, c0) ∧ make n os c0 = some (.scalar a, c1) ∧ build oz = some l ∧ pack l oz = some ez ∧
      Phi.typeOf ez = some τ ∧
      make b (.scalar (.scalar (var c1 (.scalar .int))) :: unpack l (var (c1 + 1) τ) :: os) (c1 + 2) = some (rb, c') ∧
      pack l rb = some body ∧ o = unpack l (Phi.fold c1 (c1 + 1) (wrap a) ez body) := by
  simp only [make, Option.bind_eq_some_iff] at hm
  obtain ⟨⟨oz, c0⟩, hmz, ⟨o1, c1⟩, hm1, a, ha, hq⟩ := hm
  cases o1 <;> simp only [scalarOf, reduceCtorEq, Option.some.injEq] at ha
  subst ha
  simp only [foldPy, Option.bind_eq_some_iff, Option.map_eq_some_iff, Prod.mk.injEq] at hq
  obtain ⟨l, hl, ez, hez, τ, hτ, ⟨rb, c3⟩, hrb, body, hbody, e, he, rfl, rfl⟩ := hq
  simp only [Frontend.foldOf, Option.map_some, inferSizes, List.length_cons, List.length_nil, if_true, Option.bind_some, List.head?_cons,
    Option.some.injEq] at he
  subst he
  exact ⟨oz, c0, c1, _, l, ez, τ, rb, body, hmz, hm1, hl, hez, hτ, hrb, hbody, rfl⟩

/-- The body of a fold. -/
theorem agree_step {b : Script F} (hb : Agrees I b) (h : Around I Γ c lv ts os ds) {t : UTy} {oz rb : Obj F} {ez body : Expr F} {x : List Nat}
    (htok : t.layout.ok = true) (hz : Has I Γ c t oz) (hez : pack t.layout oz = some ez) (ht : typ b (.sc .int :: t :: ts) = some t)
    (hrb : make b (.scalar (.scalar (var c (.scalar .int))) :: unpack t.layout (var (c + 1) t.ty) :: os) (c + 2) = some (rb, c'))
    (hp : pack t.layout rb = some body) (hx : deps b lv.length ([] :: [] :: ds) = some x) {env : Env (D F)} {vs : List (PVal F)}
    (hag : List.Forall₂ (Agree I env) os vs) (hc : List.Forall₂ (fun t v => Conforms t.layout v) ts vs) {N : Nat} {v0 v : PVal F}
    (hv0 : Agree I env oz v0) (hc0 : Conforms t.layout v0)
    (hloop : loopOpt (fun v (k : Nat) => sem (fill b) (.sc (.i k) :: v :: vs)) v0 (List.range N) = some v) {n : Expr F}
    (hcount : ∀ m, run I n env = some (.int m) → m.toNat = N) : Agree I env (unpack t.layout (Phi.fold c (c + 1) n ez body)) v := by
  have h1 := h.step htok
  have B := h1.made ht hrb
  have hcl : ∀ (k : Nat) v1 w, Conforms t.layout v1 → sem (fill b) (.sc (.i k) :: v1 :: vs) = some w → Conforms t.layout w := fun k v1 w hc1 hw =>
    formed (ts := .sc .int :: t :: ts) (.cons conforms_sc (.cons hc1 hc)) ht hw
  have hE : AgreeE I env t.layout (Phi.fold c (c + 1) n ez body) v := by
    refine agree_fold hcount (agree_pack htok hz hv0 hez) hc0 (fun k acc v1 w hacc hc1 hw => ⟨hcl k v1 w hc1 hw, ?_⟩) hloop
    refine agree_pack B.ok B.has ?_ hp
    refine hb _ _ _ _ _ _ _ _ _ _ h1 ht hrb hx _ (.sc (.i k) :: v1 :: vs) w (.cons ?_ (.cons ?_ (agrees_congr (fun s hs => ?_) h.has hag)))
      (.cons conforms_sc (.cons hc1 hc)) hw
    · simp only [Agree, wrap, var]
      intro d hd
      rw [run_node] at hd
      simp only [runDen, Env.set, if_true, Option.some.injEq] at hd
      subst hd
      rfl
    · have : AgreeE I ((env.set (.var (c + 1)) (some acc)).set (.var c) (some (.int k))) t.layout (var (c + 1) t.ty) v1 := by
        intro d hd
        rw [var, run_node] at hd
        simp [runDen, Env.set] at hd
        subst hd
        exact hacc
      exact agree_unpack _ htok hc1 this (dims_other this (by simp) (by simp))
    · rw [set_of_ne, set_of_ne]
      · rintro rfl
        exact hs (fresh_below h.below (Nat.le_succ c))
      · rintro rfl
        exact hs (fresh_below h.below (le_refl c))
  exact agree_unpack _ htok (forms_loop (fun k _ v1 w hc1 hw => hcl k v1 w hc1 hw) hc0 hloop) hE (dims_other hE (by simp) (by simp))

theorem agrees_fold {n z b : Script F} (hn : Agrees I n) (hz : Agrees I z) (hb : Agrees I b) : Agrees I (.fold n z b) := by
  intro ts t os Γ c o c' lv ds x h ht hm hx env vs v hag hc hv
  simp only [typ, Option.bind_eq_some_iff] at ht
  obtain ⟨k, ⟨t1, ht1, hk⟩, ht⟩ := ht
  split at ht
  · simp only [Option.bind_eq_some_iff] at ht
    obtain ⟨t0, ht2, t3, ht3, ht⟩ := ht
    split at ht
    · rename_i hsame
      cases ht
      cases UTy.same_eq hsame
      simp only [deps, Option.bind_eq_some_iff, Option.map_eq_some_iff] at hx
      obtain ⟨x1, hx1, x2, hx2, x3, hx3, rfl⟩ := hx
      obtain ⟨oz, c0, c1, a, l, ez, τ, rb, body, hmz, hm1, hl, hez, hτ, hrb, hbody, rfl⟩ := fold_parts hm
      simp only [fill, sem, Option.bind_eq_some_iff] at hv
      obtain ⟨m, ⟨u, hu, hm'⟩, v0, hv0, hloop⟩ := hv
      cases toInt_eq hm'
      have Z := h.made ht2 hmz
      have h0 := h.mono Z.grows
      have A := h0.made ht1 hm1
      have hZ := Z.has.mono A.grows (Extends.refl h0.below)
      cases (Has.build Z.ok hZ).1.symm.trans hl
      obtain ⟨ez', hpz, hsz⟩ := Has.pack Z.ok hZ
      cases hpz.symm.trans hez
      cases hsz.typed.symm.trans hτ
      have hA := hn _ _ _ _ _ _ _ _ _ _ h0 ht1 hm1 hx1 env vs _ hag hc hu
      simp only [Agree] at hA
      refine agree_step hb (h0.mono A.grows) Z.ok hZ hez ht3 hrb hbody hx3 hag hc (hz _ _ _ _ _ _ _ _ _ _ h ht2 hmz hx2 env vs _ hag hc hv0)
        (formed hc ht2 hv0) hloop fun m' hm' => ?_
      have := hA _ hm'
      simp only [view, Option.some.injEq, PVal.sc.injEq, Scal.i.injEq] at this
      rw [this]
    · cases ht
  · cases ht

theorem agrees_autoFold {z b : Script F} (hz : Agrees I z) (hb : Agrees I b) : Agrees I (.autoFold z b) := by
  intro ts t os Γ c o c' lv ds x h ht hm hx env vs v hag hc hv
  simp only [typ, Option.bind_eq_some_iff] at ht
  obtain ⟨⟨p, k⟩, hq, te, ⟨tp, htp, hte⟩, t0, ht2, t3, ht3, ht⟩ := ht
  cases elem_arr hte
  split at ht
  · rename_i hsame
    cases ht
    cases UTy.same_eq hsame
    simp only [deps, hq, Option.bind_some, Option.bind_eq_some_iff] at hx
    obtain ⟨xp, hxp, hx⟩ := hx
    split at hx
    · rename_i h0
      subst h0
      simp only [Option.bind_eq_some_iff, Option.map_eq_some_iff] at hx
      obtain ⟨x2, hx2, x3, hx3, rfl⟩ := hx
      obtain ⟨oz, c1, l, ez, τ, rb, body, n, hmz, hl, hez, hτ, hrb, hbody, hn, rfl⟩ := autoFold_parts hm
      simp only [fill, hq, sem, sem_place, Option.bind_eq_some_iff, Option.map_eq_some_iff] at hv
      obtain ⟨m, ⟨_, ⟨N, ⟨u, hu, hN⟩, rfl⟩, hm'⟩, v0, hv0, hloop⟩ := hv
      cases toInt_eq hm'
      simp only [Int.toNat_natCast] at hloop
      obtain ⟨oa, hoa, ha⟩ := place_has h.has htp
      obtain ⟨a, rfl, hsa⟩ := ha.vec
      have hia := place_comp h.comp hxp hoa
      simp only [Obj.Comp] at hia
      have hA := place_agree hag hoa hu
      simp only [Agree] at hA
      have Z := h.made ht2 hmz
      have h1 := h.mono Z.grows
      cases (Has.build Z.ok Z.has).1.symm.trans hl
      obtain ⟨ez', hpz, hsz⟩ := Has.pack Z.ok Z.has
      cases hpz.symm.trans hez
      cases hsz.typed.symm.trans hτ
      have h2 := h1.step Z.ok
      have B := h2.made ht3 hrb
      obtain ⟨body', hp, hsane⟩ := Has.pack B.ok B.has
      cases hp.symm.trans hbody
      obtain ⟨⟨is, hlen, hfound⟩, -⟩ := keeps (I := I) b _ t _ _ (c1 + 2) rb c' [] 2 0 p k (.var c1) (.scalar .int) a _ h2.ok h2.has h2.below ht3 hrb hq rfl
        (by simpa using hoa) (Known.nil _ _ _ _ _ _)
      have hext : Extends c1 Γ ((Γ.set (.var (c1 + 1)) (some t.ty)).set (.var c1) (some (.scalar .int))) :=
        Extends.set (Extends.set (Extends.refl h1.below) (Nat.le_succ c1)) (le_refl c1)
      obtain ⟨hcand, -⟩ := hint (symbols := [.var c1]) (initial := {.var (c1 + 1)}) hsa hia.none_free hsane
        (fun x hx => by rw [hext.2 x (hext.1 x hx)]; exact hx)
        (by simpa using ⟨fresh_below h1.below (s := .var c1) (le_refl c1), fresh_below h1.below (s := .var (c1 + 1)) (Nat.le_succ c1)⟩) hlen
        (any_pack B.ok B.has hfound hp)
      exact agree_step hb h1 Z.ok Z.has hez ht3 hrb hbody hx3 hag hc (hz _ _ _ _ _ _ _ _ _ _ h ht2 hmz hx2 env vs _ hag hc hv0)
        (formed hc ht2 hv0) hloop fun m hm => hA.2 k m N (run_inferSize hn hm hcand) (axis_extent hN)
    · cases hx
  · cases ht

/-! ### Reductions -/

theorem agrees_reduce {a z b : Script F} (ha : Agrees I a) (hz : Agrees I z) (hb : Agrees I b) : Agrees I (.reduce a z b) := by
  intro ts t os Γ c o c' lv ds x h ht hm hx env vs v hag hc hv
  have hform := formed hc ht hv
  simp only [typ, Option.bind_eq_some_iff] at ht
  obtain ⟨t1, ⟨t0, ht1, hk⟩, t2, ht2, t3, ht3, ht⟩ := ht
  cases elem_arr hk
  split at ht
  · rename_i hsame
    cases ht
    rw [Bool.and_eq_true] at hsame
    cases UTy.same_eq hsame.1
    cases UTy.same_eq hsame.2
    simp only [make, Option.bind_eq_some_iff] at hm
    obtain ⟨⟨o1, c0⟩, hm1, ⟨oz, c1⟩, hmz, hq⟩ := hm
    simp only [deps, Option.bind_eq_some_iff, Option.map_eq_some_iff] at hx
    obtain ⟨x1, hx1, x2, hx2, x3, hx3, rfl⟩ := hx
    simp only [fill, sem, Option.bind_eq_some_iff] at hv
    obtain ⟨ys, ⟨u, hu, hys⟩, v0, hv0, hloop⟩ := hv
    cases toList_eq hys
    have A := h.made ht1 hm1
    have h0 := h.mono A.grows
    have Z := h0.made ht2 hmz
    have h1 := h0.mono Z.grows
    have hA := ha _ _ _ _ _ _ _ _ _ _ h ht1 hm1 hx1 env vs _ hag hc hu
    have hZ := hz _ _ _ _ _ _ _ _ _ _ h0 ht2 hmz hx2 env vs _ hag hc hv0
    have hcx := formed hc ht1 hu
    simp only [UTy.layout, Conforms] at hcx
    obtain ⟨e, rfl, he⟩ := A.has.vec
    simp only [Agree] at hA
    obtain ⟨hbz, hzok⟩ := Has.build Z.ok Z.has
    obtain ⟨ez, hpz, hsz⟩ := Has.pack Z.ok Z.has
    simp only [reducePy, he.typed, Option.bind_eq_some_iff] at hq
    obtain ⟨⟨rb, c3⟩, hrb, l, hl, hq⟩ := hq
    dsimp only at hl hq
    have h2 := h1.pair Z.ok
    have B := h2.made ht3 hrb
    obtain ⟨hbuild, hrok⟩ := Has.build B.ok B.has
    cases hbuild.symm.trans hl
    obtain ⟨body, hp, hsane⟩ := Has.pack B.ok B.has
    simp only [if_true, hbz, hpz, hp, Option.bind_some, Option.some.injEq, Prod.mk.injEq] at hq
    obtain ⟨rfl, rfl⟩ := hq
    have hE : AgreeE I env t.layout (node (.reduce c1 (c1 + 1)) [ez, body, e]) v := by
      refine agree_reduce hA.1 (agree_pack Z.ok Z.has hZ hpz) (formed hc ht2 hv0) (fun acc u v1 w1 w hacc hc1 hm hu hw => ?_) hloop
      have hcs : List.Forall₂ (fun (t : UTy) v => Conforms t.layout v) (t :: t :: ts) (v1 :: w1 :: vs) := .cons hc1 (.cons (hcx.1 w1 hm) hc)
      refine ⟨formed hcs ht3 hw, agree_pack B.ok B.has ?_ hp⟩
      refine hb _ _ _ _ _ _ _ _ _ _ h2 ht3 hrb hx3 _ (v1 :: w1 :: vs) w (.cons ?_ (.cons ?_ (agrees_congr (fun s hs => ?_) h.has hag))) hcs hw
      · have : AgreeE I ((env.set (.var c1) (some acc)).set (.var (c1 + 1)) (some u)) t.layout (var c1 t.ty) v1 := by
          intro d hd
          rw [var, run_node] at hd
          simp [runDen, Env.set] at hd
          subst hd
          exact hacc
        exact agree_unpack _ Z.ok hc1 this (dims_other this (by simp) (by simp))
      · have : AgreeE I ((env.set (.var c1) (some acc)).set (.var (c1 + 1)) (some u)) t.layout (var (c1 + 1) t.ty) w1 := by
          intro d hd
          rw [var, run_node] at hd
          simp [runDen, Env.set] at hd
          subst hd
          exact hu
        exact agree_unpack _ Z.ok (hcx.1 w1 hm) this (dims_other this (by simp) (by simp))
      · rw [set_of_ne, set_of_ne]
        · rintro rfl
          exact hs (fresh_below h1.below (le_refl c1))
        · rintro rfl
          exact hs (fresh_below h1.below (Nat.le_succ c1))
    exact agree_unpack _ Z.ok hform hE (dims_other hE (by simp) (by simp))
  · cases ht

mutual
/-- If what the library builds for a program has a value, it is the value of the program with the sizes filled in. -/
theorem agrees : ∀ P : Script F, Agrees I P
  | .loc n => agrees_loc n
  | .lit s => agrees_lit s
  | .assign a b => agrees_assign (agrees a) (agrees b)
  | .un _ a => agrees_un (agrees a)
  | .bin _ a b => agrees_bin (agrees a) (agrees b)
  | .choose a b d => agrees_choose (agrees a) (agrees b) (agrees d)
  | .item x i => agrees_item (agrees x) (agrees i)
  | .size x _ => agrees_size (agrees x)
  | .array n b => agrees_array (agrees n) (agrees b)
  | .fold n z b => agrees_fold (agrees n) (agrees z) (agrees b)
  | .reduce x z b => agrees_reduce (agrees x) (agrees z) (agrees b)
  | .concat x y => agrees_concat (agrees x) (agrees y)
  | .record _ fs => agrees_record (agreesF fs)
  | .field x _ => agrees_field (agrees x)
  | .part x _ => agrees_part (agrees x)
  | .auto _ b => agrees_auto (agrees b)
  | .autoFold z b => agrees_autoFold (agrees z) (agrees b)
theorem agreesF : ∀ P : SFields F, AgreesF I P
  | .nil => agreesF_nil
  | .cons _ a rest => agreesF_cons (agrees a) (agreesF rest)
end

end Verif.Frontend
