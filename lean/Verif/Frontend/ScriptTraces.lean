import Verif.Frontend.ScriptKeeps

/-! Programs of the user: typed programs are built without an exception. -/

set_option linter.unusedSectionVars false

namespace Verif.Frontend
open Verif.Phi Verif.Term Verif.Midend Verif.Codegen Verif.Props
variable {F : Type} [FloatOps F] [DecidableEq F] {I : Ext F} {Γ Γ' : TCtx} {c c' : Nat}

/-- The free indices are among those at the levels `ds`. -/
def IdxIn (lv ds : List Nat) (e : Expr F) : Prop := ∀ i, Sym.idx i ∈ fv e → ∃ k ∈ ds, lv[k]? = some i

theorem IdxIn.mono {lv ds ds' : List Nat} {e : Expr F} (h : IdxIn lv ds e) (hs : ∀ k ∈ ds, k ∈ ds') : IdxIn lv ds' e := by
  intro i hi
  obtain ⟨k, h1, h2⟩ := h i hi
  exact ⟨k, hs k h1, h2⟩

theorem IdxIn.node {lv ds : List Nat} {h : Phi.Head F} {ts : List (Expr F)} (hh : ∀ i, h.symbol ≠ some (.idx i))
    (H : ∀ t ∈ ts, IdxIn lv ds t) : IdxIn lv ds (node h ts) := by
  intro i hi
  obtain ⟨h1 | ⟨t, ht, h1⟩, _⟩ := mem_fv.1 hi
  · exact absurd h1 (hh i)
  · exact H t ht i h1

theorem IdxIn.cons {lv ds : List Nat} {a b : Expr F} (ha : IdxIn lv ds a) (hb : IdxIn lv ds b) : IdxIn lv ds (Phi.cons a b) :=
  IdxIn.node (by simp [Phi.Head.symbol]) (by simp only [List.mem_cons, List.not_mem_nil, or_false]; rintro t (rfl | rfl) <;> assumption)
theorem IdxIn.fst {lv ds : List Nat} {a : Expr F} (ha : IdxIn lv ds a) : IdxIn lv ds (Phi.fst a) :=
  IdxIn.node (by simp [Phi.Head.symbol]) (by simp only [List.mem_singleton]; rintro t rfl; exact ha)
theorem IdxIn.snd {lv ds : List Nat} {a : Expr F} (ha : IdxIn lv ds a) : IdxIn lv ds (Phi.snd a) :=
  IdxIn.node (by simp [Phi.Head.symbol]) (by simp only [List.mem_singleton]; rintro t rfl; exact ha)

theorem IdxIn.var {lv ds : List Nat} {v : Nat} {τ : Ty} : IdxIn lv ds (Phi.var v τ : Expr F) :=
  IdxIn.node (by simp [Phi.Head.symbol]) (by simp)

theorem IdxIn.op {lv ds : List Nat} {o : ScalarOp} {ts : List (Expr F)} (H : ∀ t ∈ ts, IdxIn lv ds t) : IdxIn lv ds (Term.node (.op o) ts) :=
  IdxIn.node (by simp [Phi.Head.symbol]) H

theorem IdxIn.op1 {lv x : List Nat} {o : ScalarOp} {a : Expr F} (ha : IdxIn lv x a) : IdxIn lv x (op1 o a) := IdxIn.op (by simpa using ha)

mutual
theorem Obj.Comp.imp {P Q : Expr F → Prop} (h : ∀ e, P e → Q e) : ∀ {o : Obj F}, o.Comp P → o.Comp Q
  | .scalar _, ho => by simp only [Obj.Comp] at ho ⊢; exact h _ ho
  | .vec _ _, ho => by simp only [Obj.Comp] at ho ⊢; exact h _ ho
  | .raw _ _, ho => by simp only [Obj.Comp] at ho ⊢; first | exact ho | exact fun l hl => h _ (ho l hl) | exact h _ ho
  | .struct _ fs, ho => by simp only [Obj.Comp] at ho ⊢; exact Fields.Comp.imp h ho
theorem Fields.Comp.imp {P Q : Expr F → Prop} (h : ∀ e, P e → Q e) : ∀ {o : Fields F}, o.Comp P → o.Comp Q
  | .nil, _ => by simp [Fields.Comp]
  | .cons _ o rest, ho => by simp only [Fields.Comp] at ho ⊢; exact ⟨Obj.Comp.imp h ho.1, Fields.Comp.imp h ho.2⟩
end

theorem Obj.Comp.levels {lv ds ds' : List Nat} {o : Obj F} (h : o.Comp (IdxIn lv ds)) (hs : ∀ k ∈ ds, k ∈ ds') : o.Comp (IdxIn lv ds') :=
  h.imp fun _ he => he.mono hs

theorem Obj.Comp.deeper {lv ds : List Nat} {o : Obj F} (h : o.Comp (IdxIn lv ds)) (i : Nat) : o.Comp (IdxIn (lv ++ [i]) ds) :=
  h.imp fun _ he j hj => by
    obtain ⟨k, h1, h2⟩ := he j hj
    exact ⟨k, h1, by rw [List.getElem?_append_left (List.getElem?_eq_some_iff.1 h2).1]; exact h2⟩

theorem IdxIn.unpacked {lv ds : List Nat} {e : Expr F} (l : Layout) (h : IdxIn lv ds e) : (unpack l e).Comp (IdxIn lv ds) :=
  unpack_comp (P := IdxIn lv ds) (fun _ => IdxIn.fst) (fun _ => IdxIn.snd) l h

theorem IdxIn.packed {lv ds : List Nat} {o : Obj F} {l : Layout} {e : Expr F} (h : o.Comp (IdxIn lv ds)) (hp : pack l o = some e) :
    IdxIn lv ds e :=
  pack_comp (P := IdxIn lv ds) (fun _ _ => IdxIn.cons) _ h hp

/-- A program that is typed, and whose sizes do not depend on indices, is built. -/
def Traces (I : Ext F) (P : Script F) : Prop :=
  ∀ (ts : List UTy) (t : UTy) (os : List (Obj F)) (Γ : TCtx) (c : Nat) (lv : List Nat) (ds : List (List Nat)) (x : List Nat),
    (∀ t ∈ ts, t.layout.ok = true) → List.Forall₂ (Has I Γ c) ts os → Below Γ c → typ P ts = some t →
    List.Forall₂ (fun d (o : Obj F) => o.Comp (IdxIn lv d)) ds os → deps P lv.length ds = some x →
    ∃ o c', make P os c = some (o, c') ∧ o.Comp (IdxIn lv x)

def TracesF (I : Ext F) (P : SFields F) : Prop :=
  ∀ (ts : List UTy) (t : UFields) (os : List (Obj F)) (Γ : TCtx) (c : Nat) (lv : List Nat) (ds : List (List Nat)) (x : List Nat),
    (∀ t ∈ ts, t.layout.ok = true) → List.Forall₂ (Has I Γ c) ts os → Below Γ c → typFields P ts = some t →
    List.Forall₂ (fun d (o : Obj F) => o.Comp (IdxIn lv d)) ds os → depsFields P lv.length ds = some x →
    ∃ o c', makeFields P os c = some (o, c') ∧ o.Comp (IdxIn lv x)

theorem traces_loc (n : Nat) : Traces I (.loc n : Script F) := by
  intro ts t os Γ c lv ds x hok hos hΓ ht hd hx
  simp only [typ] at ht
  simp only [deps] at hx
  obtain ⟨hl, hh⟩ := List.forall₂_iff_get.1 hd
  obtain ⟨h1, rfl⟩ := List.getElem?_eq_some_iff.1 hx
  have h2 : n < os.length := by omega
  exact ⟨os[n], c, by simp [make, List.getElem?_eq_getElem h2], hh n h1 h2⟩

theorem traces_lit (s : Scal F) : Traces I (.lit s : Script F) := by
  intro ts t os Γ c lv ds x hok hos hΓ ht hd hx
  refine ⟨_, _, by simp only [make]; rfl, ?_⟩
  simp only [scalarObj, Obj.Comp, wrap, const]
  exact IdxIn.node (by simp [Phi.Head.symbol]) (by simp)

theorem traces_assign {a b : Script F} (ha : Traces I a) (hb : Traces I b) : Traces I (.assign a b) := by
  intro ts t os Γ c lv ds x hok hos hΓ ht hd hx
  simp only [typ, Option.bind_eq_some_iff] at ht
  obtain ⟨t1, ht1, ht2⟩ := ht
  simp only [deps, Option.bind_eq_some_iff] at hx
  obtain ⟨x1, hx1, hx2⟩ := hx
  obtain ⟨o1, c1, hm1, hd1⟩ := ha ts t1 os Γ c lv ds x1 hok hos hΓ ht1 hd hx1
  have A := correct (I := I) a ts t1 os Γ c o1 c1 hok hos hΓ ht1 hm1
  obtain ⟨o2, c2, hm2, hd2⟩ := hb (t1 :: ts) t (o1 :: os) Γ c1 lv (x1 :: ds) x (by simpa using ⟨A.ok, hok⟩)
    (.cons A.has (Has.locals_mono A.grows (Extends.refl hΓ) hos)) (hΓ.mono A.grows) ht2 (.cons hd1 hd) hx2
  exact ⟨o2, c2, by simp [make, hm1, hm2], hd2⟩

theorem traces_un {o : ScalarOp} {a : Script F} (ha : Traces I a) : Traces I (.un o a) := by
  intro ts t os Γ c lv ds x hok hos hΓ ht hd hx
  simp only [typ, Option.bind_eq_some_iff, Option.map_eq_some_iff] at ht
  obtain ⟨k, ⟨t1, ht1, hk⟩, k', hk', rfl⟩ := ht
  cases kind_sc hk
  obtain ⟨o1, c1, hm1, hd1⟩ := ha ts _ os Γ c lv ds x hok hos hΓ ht1 hd hx
  have A := correct (I := I) a ts _ os Γ c o1 c1 hok hos hΓ ht1 hm1
  obtain ⟨x', rfl, hx'⟩ := A.has.scalar
  simp only [Obj.Comp] at hd1
  exact ⟨_, _, by simp only [make, hm1, Option.bind_some, scalarOf, Option.map_some]; rfl, by
    simp only [scalarObj, Obj.Comp, wrap]; exact IdxIn.op1 hd1⟩

theorem IdxIn.left {lv x y : List Nat} {e : Expr F} (h : IdxIn lv x e) : IdxIn lv (x ++ y) e := h.mono fun k hk => by simp [hk]
theorem IdxIn.right {lv x y : List Nat} {e : Expr F} (h : IdxIn lv y e) : IdxIn lv (x ++ y) e := h.mono fun k hk => by simp [hk]

theorem IdxIn.op2 {lv x : List Nat} {o : ScalarOp} {a b : Expr F} (ha : IdxIn lv x a) (hb : IdxIn lv x b) : IdxIn lv x (op2 o a b) :=
  IdxIn.op (by simpa using ⟨ha, hb⟩)

theorem IdxIn.method {lv x : List Nat} {o : PyOp} {a : Expr F} {b : ScalarLike F} (ha : IdxIn lv x a) (hb : IdxIn lv x (wrap b)) :
    IdxIn lv x (method o a b) := by
  cases o
  case truediv => exact IdxIn.op2 ha (IdxIn.op1 hb)
  all_goals first
    | exact IdxIn.op2 ha hb
    | exact IdxIn.op2 hb ha

theorem traces_bin {o : PyOp} {a b : Script F} (ha : Traces I a) (hb : Traces I b) : Traces I (.bin o a b) := by
  intro ts t os Γ c lv ds x hok hos hΓ ht hd hx
  simp only [typ, Option.bind_eq_some_iff, Option.map_eq_some_iff] at ht
  obtain ⟨k1, ⟨t1, ht1, hk1⟩, k2, ⟨t2, ht2, hk2⟩, k', hk', rfl⟩ := ht
  cases kind_sc hk1
  cases kind_sc hk2
  simp only [deps, Option.bind_eq_some_iff, Option.map_eq_some_iff] at hx
  obtain ⟨x1, hx1, x2, hx2, rfl⟩ := hx
  obtain ⟨o1, c1, hm1, hd1⟩ := ha ts _ os Γ c lv ds x1 hok hos hΓ ht1 hd hx1
  have A := correct (I := I) a ts _ os Γ c o1 c1 hok hos hΓ ht1 hm1
  obtain ⟨o2, c2, hm2, hd2⟩ := hb ts _ os Γ c1 lv ds x2 hok (Has.locals_mono A.grows (Extends.refl hΓ) hos) (hΓ.mono A.grows) ht2 hd hx2
  have B := correct (I := I) b ts _ os Γ c1 o2 c2 hok (Has.locals_mono A.grows (Extends.refl hΓ) hos) (hΓ.mono A.grows) ht2 hm2
  obtain ⟨x', rfl, hx'⟩ := A.has.scalar
  obtain ⟨y', rfl, hy'⟩ := B.has.scalar
  simp only [Obj.Comp] at hd1 hd2
  exact ⟨_, _, by simp only [make, hm1, hm2, Option.bind_some, scalarOf, Option.map_some]; rfl, by
    simp only [scalarObj, Obj.Comp, wrap]; exact IdxIn.method hd1.left hd2.right⟩

theorem traces_choose {a b d : Script F} (ha : Traces I a) (hb : Traces I b) (hc : Traces I d) : Traces I (.choose a b d) := by
  intro ts t os Γ c lv ds x hok hos hΓ ht hd hx
  simp only [typ, Option.bind_eq_some_iff, Option.map_eq_some_iff] at ht
  obtain ⟨k1, ⟨t1, ht1, hk1⟩, k2, ⟨t2, ht2, hk2⟩, k3, ⟨t3, ht3, hk3⟩, k', hk', rfl⟩ := ht
  cases kind_sc hk1
  cases kind_sc hk2
  cases kind_sc hk3
  simp only [deps, Option.bind_eq_some_iff, Option.map_eq_some_iff] at hx
  obtain ⟨x1, hx1, x2, hx2, x3, hx3, rfl⟩ := hx
  obtain ⟨o1, c1, hm1, hd1⟩ := ha ts _ os Γ c lv ds x1 hok hos hΓ ht1 hd hx1
  have A := correct (I := I) a ts _ os Γ c o1 c1 hok hos hΓ ht1 hm1
  have hos1 := Has.locals_mono A.grows (Extends.refl hΓ) hos
  have hΓ1 := hΓ.mono A.grows
  obtain ⟨o2, c2, hm2, hd2⟩ := hb ts _ os Γ c1 lv ds x2 hok hos1 hΓ1 ht2 hd hx2
  have B := correct (I := I) b ts _ os Γ c1 o2 c2 hok hos1 hΓ1 ht2 hm2
  have hos2 := Has.locals_mono B.grows (Extends.refl hΓ1) hos1
  have hΓ2 := hΓ1.mono B.grows
  obtain ⟨o3, c3, hm3, hd3⟩ := hc ts _ os Γ c2 lv ds x3 hok hos2 hΓ2 ht3 hd hx3
  have C := correct (I := I) d ts _ os Γ c2 o3 c3 hok hos2 hΓ2 ht3 hm3
  obtain ⟨x', rfl, hx'⟩ := A.has.scalar
  obtain ⟨y', rfl, hy'⟩ := B.has.scalar
  obtain ⟨z', rfl, hz'⟩ := C.has.scalar
  simp only [Obj.Comp] at hd1 hd2 hd3
  refine ⟨_, _, by simp only [make, hm1, hm2, hm3, Option.bind_some, scalarOf, Option.map_some]; rfl, ?_⟩
  simp only [scalarObj, Obj.Comp, wrap, where_]
  refine IdxIn.op ?_
  simp only [List.mem_cons, List.not_mem_nil, or_false]
  rintro t (rfl | rfl | rfl)
  · exact hd1.left.left
  · exact hd2.right.left
  · exact hd3.right

theorem traces_item {a b : Script F} (ha : Traces I a) (hb : Traces I b) : Traces I (.item a b) := by
  intro ts t os Γ c lv ds x hok hos hΓ ht hd hx
  simp only [typ, Option.bind_eq_some_iff, Option.some.injEq] at ht
  obtain ⟨t', ⟨t1, ht1, he⟩, k, ⟨t2, ht2, hk⟩, rfl⟩ := ht
  cases elem_arr he
  cases kind_sc hk
  simp only [deps, Option.bind_eq_some_iff, Option.map_eq_some_iff] at hx
  obtain ⟨x1, hx1, x2, hx2, rfl⟩ := hx
  obtain ⟨o1, c1, hm1, hd1⟩ := ha ts _ os Γ c lv ds x1 hok hos hΓ ht1 hd hx1
  have A := correct (I := I) a ts _ os Γ c o1 c1 hok hos hΓ ht1 hm1
  have hos1 := Has.locals_mono A.grows (Extends.refl hΓ) hos
  have hΓ1 := hΓ.mono A.grows
  obtain ⟨o2, c2, hm2, hd2⟩ := hb ts _ os Γ c1 lv ds x2 hok hos1 hΓ1 ht2 hd hx2
  have B := correct (I := I) b ts _ os Γ c1 o2 c2 hok hos1 hΓ1 ht2 hm2
  obtain ⟨e, rfl, he'⟩ := A.has.vec
  obtain ⟨y', rfl, hy'⟩ := B.has.scalar
  simp only [Obj.Comp] at hd1 hd2
  refine ⟨_, _, by simp only [make, hm1, hm2, Option.bind_some, scalarOf, getItem]; rfl, ?_⟩
  refine IdxIn.unpacked _ ?_
  refine IdxIn.node (by simp [Phi.Head.symbol]) ?_
  simp only [List.mem_cons, List.not_mem_nil, or_false]
  rintro t (rfl | rfl)
  · exact hd1.left
  · exact hd2.right

theorem traces_size {a : Script F} {k : Nat} (ha : Traces I a) : Traces I (.size a k) := by
  intro ts t os Γ c lv ds x hok hos hΓ ht hd hx
  simp only [typ, Option.bind_eq_some_iff, Option.map_eq_some_iff] at ht
  obtain ⟨t', ⟨t1, ht1, he⟩, rfl⟩ := ht
  cases elem_arr he
  obtain ⟨o1, c1, hm1, hd1⟩ := ha ts _ os Γ c lv ds x hok hos hΓ ht1 hd hx
  have A := correct (I := I) a ts _ os Γ c o1 c1 hok hos hΓ ht1 hm1
  obtain ⟨e, rfl, he'⟩ := A.has.vec
  simp only [Obj.Comp] at hd1
  refine ⟨_, _, by simp only [make, hm1, Option.bind_some, vecOf?, Option.map_some]; rfl, ?_⟩
  simp only [scalarObj, Obj.Comp, wrap]
  exact IdxIn.node (by simp [Phi.Head.symbol]) (by simpa using hd1)

theorem traces_concat {a b : Script F} (ha : Traces I a) (hb : Traces I b) : Traces I (.concat a b) := by
  intro ts t os Γ c lv ds x hok hos hΓ ht hd hx
  simp only [typ, Option.bind_eq_some_iff] at ht
  obtain ⟨t', ⟨t1, ht1, he⟩, t'', ⟨t2, ht2, he2⟩, ht⟩ := ht
  split at ht
  · rename_i hsame
    cases UTy.same_eq hsame
    cases ht
    cases elem_arr he
    cases elem_arr he2
    simp only [deps, Option.bind_eq_some_iff, Option.map_eq_some_iff] at hx
    obtain ⟨x1, hx1, x2, hx2, rfl⟩ := hx
    obtain ⟨o1, c1, hm1, hd1⟩ := ha ts _ os Γ c lv ds x1 hok hos hΓ ht1 hd hx1
    have A := correct (I := I) a ts _ os Γ c o1 c1 hok hos hΓ ht1 hm1
    have hos1 := Has.locals_mono A.grows (Extends.refl hΓ) hos
    have hΓ1 := hΓ.mono A.grows
    obtain ⟨o2, c2, hm2, hd2⟩ := hb ts _ os Γ c1 lv ds x2 hok hos1 hΓ1 ht2 hd hx2
    have B := correct (I := I) b ts _ os Γ c1 o2 c2 hok hos1 hΓ1 ht2 hm2
    obtain ⟨e, rfl, he'⟩ := A.has.vec
    obtain ⟨e2, rfl, he2'⟩ := B.has.vec
    simp only [Obj.Comp] at hd1 hd2
    refine ⟨_, _, by simp only [make, hm1, hm2, Option.bind_some, vecOf?, if_true]; rfl, ?_⟩
    simp only [Obj.Comp]
    refine IdxIn.node (by simp [Phi.Head.symbol]) ?_
    simp only [List.mem_cons, List.not_mem_nil, or_false]
    rintro t (rfl | rfl)
    · exact hd1.left
    · exact hd2.right
  · cases ht

theorem traces_record {k : RecKind} {fs : SFields F} (h : TracesF I fs) : Traces I (.record k fs) := by
  intro ts t os Γ c lv ds x hok hos hΓ ht hd hx
  simp only [typ, Option.bind_eq_some_iff] at ht
  obtain ⟨ps, hps, ht⟩ := ht
  simp only [deps] at hx
  obtain ⟨o, c', hm, hd'⟩ := h ts ps os Γ c lv ds x hok hos hΓ hps hd hx
  exact ⟨_, _, by simp only [make, hm, Option.map_some]; rfl, by simpa only [Obj.Comp] using hd'⟩

theorem tracesF_nil : TracesF I (.nil : SFields F) := by
  intro ts t os Γ c lv ds x hok hos hΓ ht hd hx
  exact ⟨_, _, by simp only [makeFields]; rfl, by simp [Fields.Comp]⟩

theorem tracesF_cons {n : String} {a : Script F} {rest : SFields F} (ha : Traces I a) (hr : TracesF I rest) : TracesF I (.cons n a rest) := by
  intro ts t os Γ c lv ds x hok hos hΓ ht hd hx
  simp only [typFields, Option.bind_eq_some_iff, Option.map_eq_some_iff] at ht
  obtain ⟨t1, ht1, ps, hps, rfl⟩ := ht
  simp only [depsFields, Option.bind_eq_some_iff, Option.map_eq_some_iff] at hx
  obtain ⟨x1, hx1, x2, hx2, rfl⟩ := hx
  obtain ⟨o1, c1, hm1, hd1⟩ := ha ts _ os Γ c lv ds x1 hok hos hΓ ht1 hd hx1
  have A := correct (I := I) a ts _ os Γ c o1 c1 hok hos hΓ ht1 hm1
  obtain ⟨o2, c2, hm2, hd2⟩ := hr ts _ os Γ c1 lv ds x2 hok (Has.locals_mono A.grows (Extends.refl hΓ) hos) (hΓ.mono A.grows) hps hd hx2
  refine ⟨_, _, by simp only [makeFields, hm1, hm2, Option.bind_some, Option.map_some]; rfl, ?_⟩
  simp only [Fields.Comp]
  exact ⟨hd1.imp fun _ h => h.left, hd2.imp fun _ h => h.right⟩

theorem traces_field {a : Script F} {n : String} (ha : Traces I a) : Traces I (.field a n) := by
  intro ts t os Γ c lv ds x hok hos hΓ ht hd hx
  simp only [typ, Option.bind_eq_some_iff] at ht
  obtain ⟨t1, ht1, hf⟩ := ht
  obtain ⟨o1, c1, hm1, hd1⟩ := ha ts _ os Γ c lv ds x hok hos hΓ ht1 hd hx
  have A := correct (I := I) a ts _ os Γ c o1 c1 hok hos hΓ ht1 hm1
  cases t1 with
  | record k fs =>
    have hk : k ≠ .positional := by rintro rfl; simp [UTy.field?] at hf
    have hf' : fs.find n = some t := by cases k <;> simp [UTy.field?] at hf hk ⊢ <;> exact hf
    obtain ⟨fos, rfl, hfos⟩ := A.has.struct
    obtain ⟨o', ho', _⟩ := find_has hfos hf'
    have hoo : fieldObj n (.struct k fos) = some o' := by cases k <;> simp [fieldObj] at hk ⊢ <;> exact ho'
    simp only [Obj.Comp] at hd1
    exact ⟨_, _, by simp only [make, hm1, Option.bind_some, hoo, Option.map_some]; rfl, hd1.lookup ho'⟩
  | _ => simp [UTy.field?] at hf

theorem traces_part {a : Script F} {i : Nat} (ha : Traces I a) : Traces I (.part a i) := by
  intro ts t os Γ c lv ds x hok hos hΓ ht hd hx
  simp only [typ, Option.bind_eq_some_iff] at ht
  obtain ⟨t1, ht1, hf⟩ := ht
  obtain ⟨o1, c1, hm1, hd1⟩ := ha ts _ os Γ c lv ds x hok hos hΓ ht1 hd hx
  have A := correct (I := I) a ts _ os Γ c o1 c1 hok hos hΓ ht1 hm1
  cases t1 with
  | record k fs =>
    cases k with
    | positional =>
      simp only [UTy.part?] at hf
      obtain ⟨fos, rfl, hfos⟩ := A.has.struct
      obtain ⟨o', ho', _⟩ := nth_has hfos hf
      simp only [Obj.Comp] at hd1
      exact ⟨_, _, by simp only [make, hm1, Option.bind_some, partObj, ho', Option.map_some]; rfl, hd1.toList _ (List.mem_of_getElem? ho')⟩
    | _ => simp [UTy.part?] at hf
  | _ => simp [UTy.part?] at hf

theorem IdxIn.none_free {lv : List Nat} {e : Expr F} (h : IdxIn lv [] e) : freeIndices e = ∅ := by
  refine Finset.eq_empty_of_forall_notMem fun s hs => ?_
  simp only [freeIndices, Finset.mem_filter] at hs
  cases s with
  | var => simp [Sym.isIdx] at hs
  | idx i =>
    obtain ⟨k, hk, _⟩ := h i hs.1
    cases hk

theorem IdxIn.vec {lv x : List Nat} {i : Nat} {n b : Expr F} (hn : IdxIn lv [] n) (hb : IdxIn (lv ++ [i]) x b) :
    IdxIn lv (x.filter fun k => decide (k ≠ lv.length)) (Phi.vec i n b) := by
  intro j hj
  obtain ⟨h1 | ⟨u, hu, h1⟩, h2⟩ := mem_fv.1 hj
  · cases h1
  · simp only [List.mem_cons, List.not_mem_nil, or_false] at hu
    rcases hu with rfl | rfl
    · obtain ⟨k, hk, _⟩ := hn j h1
      cases hk
    · obtain ⟨k, hk, hi'⟩ := hb j h1
      have hne : j ≠ i := by
        rintro rfl
        exact h2 (by simp [Lang.captured, Phi.Head.captured])
      have hkl : k < lv.length := by
        have := (List.getElem?_eq_some_iff.1 hi').1
        rw [List.length_append, List.length_singleton] at this
        rcases Nat.lt_or_ge k lv.length with h | h
        · exact h
        · have : k = lv.length := by omega
          subst this
          simp at hi'
          exact absurd hi'.symm hne
      rw [List.getElem?_append_left hkl] at hi'
      exact ⟨k, by simp [hk]; omega, hi'⟩

theorem traces_array {n b : Script F} (hn : Traces I n) (hb : Traces I b) : Traces I (.array n b) := by
  intro ts t os Γ c lv ds x hok hos hΓ ht hd hx
  simp only [typ, Option.bind_eq_some_iff] at ht
  obtain ⟨k, ⟨t1, ht1, hk⟩, ht⟩ := ht
  cases kind_sc hk
  split at ht
  · rename_i hint
    subst hint
    obtain ⟨t, ht2, rfl⟩ := Option.map_eq_some_iff.1 ht
    simp only [deps, Option.bind_eq_some_iff] at hx
    obtain ⟨x1, hx1, hx⟩ := hx
    split at hx
    · rename_i h0
      subst h0
      obtain ⟨x2, hx2, rfl⟩ := Option.map_eq_some_iff.1 hx
      obtain ⟨o1, c1, hm1, hd1⟩ := hn ts _ os Γ c lv ds [] hok hos hΓ ht1 hd hx1
      have A := correct (I := I) n ts _ os Γ c o1 c1 hok hos hΓ ht1 hm1
      obtain ⟨a', rfl, ha'⟩ := A.has.scalar
      simp only [Obj.Comp] at hd1
      have hΓ1 : Below Γ c1 := hΓ.mono A.grows
      have hext : Extends c1 Γ (Γ.set (.idx c1) (some (.scalar .int))) := Extends.set (Extends.refl hΓ1) (le_refl c1)
      have hos1 : List.Forall₂ (Has I (Γ.set (.idx c1) (some (.scalar .int))) (c1 + 1)) (.sc .int :: ts) (.scalar (.scalar (at_ c1)) :: os) :=
        .cons (by simp only [Has, wrap]; exact Sane.store (set_self _ _ _))
          (Has.locals_mono (by omega) hext (Has.locals_mono A.grows (Extends.refl hΓ) hos))
      have hΓ2 : Below (Γ.set (.idx c1) (some (.scalar .int))) (c1 + 1) := Below.set (hΓ1.mono (by omega)) (Nat.lt_succ_self c1)
      have hok1 : ∀ t ∈ UTy.sc .int :: ts, t.layout.ok = true := by simpa using ⟨rfl, hok⟩
      obtain ⟨rb, c3, hrb, hd3⟩ := hb (.sc .int :: ts) t (.scalar (.scalar (at_ c1)) :: os) _ (c1 + 1) (lv ++ [c1]) ([lv.length] :: ds) x2
        hok1 hos1 hΓ2 ht2 (.cons (by
          simp only [Obj.Comp, wrap]
          intro i hi
          refine ⟨lv.length, by simp, ?_⟩
          obtain ⟨h1 | ⟨t, ht, _⟩, _⟩ := mem_fv.1 hi
          · cases h1; simp
          · cases ht) (hd.imp fun _ _ h => h.deeper c1)) (by simpa using hx2)
      have B := correct (I := I) b _ t _ _ (c1 + 1) rb c3 hok1 hos1 hΓ2 ht2 hrb
      obtain ⟨hbuild, hrok⟩ := Has.build B.ok B.has
      obtain ⟨body, hp, hsane⟩ := Has.pack B.ok B.has
      have hbody : IdxIn (lv ++ [c1]) x2 body := IdxIn.packed hd3 hp
      have hty : Phi.typeOf (vec c1 (wrap a') body) = some (.vector t.ty) := typeOf_vec ha'.typed hd1.none_free hsane.typed
      refine ⟨.vec (vec c1 (wrap a') body) t.layout, c3, ?_, ?_⟩
      · simp only [make, hm1, Option.bind_some, scalarOf, arrayPy, List.range'_one, List.map_cons, List.map_nil, List.cons_append,
          List.nil_append, hrb, hbuild, hp, arrayOf, inferSizes, List.length_cons, List.length_nil, if_true, Option.map_some,
          List.zip_cons_cons, List.zip_nil_right, nest, vecLayouts, unpack, raising, hty, Option.isSome_some]
      · simp only [Obj.Comp]
        exact IdxIn.vec hd1 hbody
    · cases hx
  · cases ht

theorem traces_fold {n z b : Script F} (hn : Traces I n) (hz : Traces I z) (hb : Traces I b) : Traces I (.fold n z b) := by
  intro ts t os Γ c lv ds x hok hos hΓ ht hd hx
  simp only [typ, Option.bind_eq_some_iff] at ht
  obtain ⟨k, ⟨t1, ht1, hk⟩, ht⟩ := ht
  cases kind_sc hk
  split at ht
  · rename_i hint
    subst hint
    simp only [Option.bind_eq_some_iff] at ht
    obtain ⟨t0, ht2, t3, ht3, ht⟩ := ht
    split at ht
    · rename_i hsame
      cases ht
      cases UTy.same_eq hsame
      simp only [deps, Option.bind_eq_some_iff, Option.map_eq_some_iff] at hx
      obtain ⟨x1, hx1, x2, hx2, x3, hx3, rfl⟩ := hx
      obtain ⟨oz, c0, hmz, hdz⟩ := hz ts _ os Γ c lv ds x2 hok hos hΓ ht2 hd hx2
      have Z := correct (I := I) z ts _ os Γ c oz c0 hok hos hΓ ht2 hmz
      have hΓ0 := hΓ.mono Z.grows
      have hos0 := Has.locals_mono Z.grows (Extends.refl hΓ) hos
      obtain ⟨o1, c1, hm1, hd1⟩ := hn ts _ os Γ c0 lv ds x1 hok hos0 hΓ0 ht1 hd hx1
      have A := correct (I := I) n ts _ os Γ c0 o1 c1 hok hos0 hΓ0 ht1 hm1
      obtain ⟨a', rfl, ha'⟩ := A.has.scalar
      simp only [Obj.Comp] at hd1
      have hΓ1 : Below Γ c1 := hΓ0.mono A.grows
      have hZ := Z.has.mono A.grows (Extends.refl hΓ0)
      obtain ⟨hbz, hzok⟩ := Has.build Z.ok hZ
      obtain ⟨ez, hpz, hsz⟩ := Has.pack Z.ok hZ
      have hext : Extends c1 Γ ((Γ.set (.var (c1 + 1)) (some t.ty)).set (.var c1) (some (.scalar .int))) :=
        Extends.set (Extends.set (Extends.refl hΓ1) (Nat.le_succ c1)) (le_refl c1)
      have hos1 : List.Forall₂ (Has I ((Γ.set (.var (c1 + 1)) (some t.ty)).set (.var c1) (some (.scalar .int))) (c1 + 2)) (.sc .int :: t :: ts)
          (.scalar (.scalar (var c1 (.scalar .int))) :: unpack t.layout (var (c1 + 1) t.ty) :: os) :=
        .cons (by simp only [Has, wrap]; exact Sane.store (set_self _ _ _))
          (.cons (Sane.unpack Z.ok (Sane.store (by simp [TCtx.set])))
            (Has.locals_mono (by omega) hext (Has.locals_mono A.grows (Extends.refl hΓ0) hos0)))
      have hΓ2 : Below ((Γ.set (.var (c1 + 1)) (some t.ty)).set (.var c1) (some (.scalar .int))) (c1 + 2) :=
        Below.set (Below.set (hΓ1.mono (by omega)) (by simp [symNum])) (by simp [symNum])
      have hok1 : ∀ u ∈ UTy.sc .int :: t :: ts, u.layout.ok = true := by simpa using ⟨rfl, Z.ok, hok⟩
      obtain ⟨rb, c3, hrb, hd3⟩ := hb (.sc .int :: t :: ts) t (.scalar (.scalar (var c1 (.scalar .int))) :: unpack t.layout (var (c1 + 1) t.ty) :: os)
        ((Γ.set (.var (c1 + 1)) (some t.ty)).set (.var c1) (some (.scalar .int))) (c1 + 2) lv ([] :: [] :: ds) x3 hok1 hos1 hΓ2 ht3
        (.cons (by simp only [Obj.Comp, wrap]; exact IdxIn.var)
          (.cons (IdxIn.unpacked _ IdxIn.var) hd)) hx3
      have B := correct (I := I) b _ t _ _ (c1 + 2) rb c3 hok1 hos1 hΓ2 ht3 hrb
      obtain ⟨body, hp, hsane⟩ := Has.pack B.ok B.has
      refine ⟨_, _, by simp only [make, hmz, hm1, Option.bind_some, scalarOf, foldPy, hbz, hpz, hsz.typed, hrb, hp, Frontend.foldOf,
        Option.map_some, inferSizes, List.length_cons, List.length_nil, if_true, List.head?_cons]; rfl, ?_⟩
      refine IdxIn.unpacked _ ?_
      refine IdxIn.node (by simp [Phi.Head.symbol]) ?_
      simp only [List.mem_cons, List.not_mem_nil, or_false]
      rintro t (rfl | rfl | rfl)
      · exact hd1.left.left
      · exact (IdxIn.packed hdz hpz).right.left
      · exact (IdxIn.packed hd3 hp).right
    · cases ht
  · cases ht

theorem traces_reduce {a z b : Script F} (ha : Traces I a) (hz : Traces I z) (hb : Traces I b) : Traces I (.reduce a z b) := by
  intro ts t os Γ c lv ds x hok hos hΓ ht hd hx
  simp only [typ, Option.bind_eq_some_iff] at ht
  obtain ⟨t1, ⟨t0, ht1, hk⟩, t2, ht2, t3, ht3, ht⟩ := ht
  cases elem_arr hk
  split at ht
  · rename_i hsame
    cases ht
    rw [Bool.and_eq_true] at hsame
    cases UTy.same_eq hsame.1
    cases UTy.same_eq hsame.2
    simp only [deps, Option.bind_eq_some_iff, Option.map_eq_some_iff] at hx
    obtain ⟨x1, hx1, x2, hx2, x3, hx3, rfl⟩ := hx
    obtain ⟨o1, c0, hm1, hd1⟩ := ha ts _ os Γ c lv ds x1 hok hos hΓ ht1 hd hx1
    have A := correct (I := I) a ts _ os Γ c o1 c0 hok hos hΓ ht1 hm1
    have hΓ0 := hΓ.mono A.grows
    have hos0 := Has.locals_mono A.grows (Extends.refl hΓ) hos
    obtain ⟨oz, c1, hmz, hdz⟩ := hz ts _ os Γ c0 lv ds x2 hok hos0 hΓ0 ht2 hd hx2
    have Z := correct (I := I) z ts _ os Γ c0 oz c1 hok hos0 hΓ0 ht2 hmz
    have hΓ1 : Below Γ c1 := hΓ0.mono Z.grows
    obtain ⟨e, rfl, he⟩ := A.has.vec
    simp only [Obj.Comp] at hd1
    obtain ⟨hbz, hzok⟩ := Has.build Z.ok Z.has
    obtain ⟨ez, hpz, hsz⟩ := Has.pack Z.ok Z.has
    have hext : Extends c1 Γ ((Γ.set (.var c1) (some t.ty)).set (.var (c1 + 1)) (some t.ty)) :=
      Extends.set (Extends.set (Extends.refl hΓ1) (le_refl c1)) (Nat.le_succ c1)
    have hos1 : List.Forall₂ (Has I ((Γ.set (.var c1) (some t.ty)).set (.var (c1 + 1)) (some t.ty)) (c1 + 2)) (t :: t :: ts)
        (unpack t.layout (var c1 t.ty) :: unpack t.layout (var (c1 + 1) t.ty) :: os) :=
      .cons (Sane.unpack Z.ok (Sane.store (by simp [TCtx.set])))
        (.cons (Sane.unpack Z.ok (Sane.store (by simp [TCtx.set])))
          (Has.locals_mono (by omega) hext (Has.locals_mono Z.grows (Extends.refl hΓ0) hos0)))
    have hΓ2 : Below ((Γ.set (.var c1) (some t.ty)).set (.var (c1 + 1)) (some t.ty)) (c1 + 2) :=
      Below.set (Below.set (hΓ1.mono (by omega)) (by simp [symNum])) (by simp [symNum])
    have hok1 : ∀ u ∈ t :: t :: ts, u.layout.ok = true := by simpa using ⟨Z.ok, hok⟩
    obtain ⟨rb, c3, hrb, hd3⟩ := hb (t :: t :: ts) t (unpack t.layout (var c1 t.ty) :: unpack t.layout (var (c1 + 1) t.ty) :: os)
      ((Γ.set (.var c1) (some t.ty)).set (.var (c1 + 1)) (some t.ty)) (c1 + 2) lv ([] :: [] :: ds) x3 hok1 hos1 hΓ2 ht3
      (.cons (IdxIn.unpacked _ IdxIn.var)
        (.cons (IdxIn.unpacked _ IdxIn.var) hd)) hx3
    have B := correct (I := I) b _ t _ _ (c1 + 2) rb c3 hok1 hos1 hΓ2 ht3 hrb
    obtain ⟨hbuild, _⟩ := Has.build B.ok B.has
    obtain ⟨body, hp, hsane⟩ := Has.pack B.ok B.has
    refine ⟨_, _, by simp only [make, hm1, hmz, Option.bind_some, reducePy, he.typed, hrb, hbuild, if_true, hbz, hpz, hp]; rfl, ?_⟩
    refine IdxIn.unpacked _ ?_
    refine IdxIn.node (by simp [Phi.Head.symbol]) ?_
    simp only [List.mem_cons, List.not_mem_nil, or_false]
    rintro t (rfl | rfl | rfl)
    · exact (IdxIn.packed hdz hpz).right.left
    · exact (IdxIn.packed hd3 hp).right
    · exact hd1.left.left
  · cases ht

theorem none_idxIn {lv : List Nat} {e : Expr F} (h : freeIndices e = ∅) : IdxIn lv [] e := by
  intro i hi
  have : Sym.idx i ∈ freeIndices e := Finset.mem_filter.2 ⟨hi, rfl⟩
  rw [h] at this
  cases this

theorem dimExpr_gets (a : Expr F) : ∀ (is : List (Expr F)) (k : Nat), dimExpr (gets a is) k = dimExpr a (k + is.length) := by
  intro is
  induction is generalizing a with
  | nil => intro k; rfl
  | cons i is ih =>
    intro k
    rw [gets, List.foldl_cons, ← gets, ih, Phi.get, dimExpr_get, List.length_cons]
    congr 1

/-- A component of a record. -/
theorem part_has {i : Nat} {t t' : UTy} {o : Obj F} (h : t.part? i = some t') (ho : Has I Γ c t o) : ∃ o', partObj i o = some o' ∧ Has I Γ c t' o' := by
  cases t with
  | record k fs =>
    cases k with
    | positional =>
      simp only [UTy.part?] at h
      obtain ⟨fos, rfl, hfos⟩ := ho.struct
      exact nth_has hfos h
    | _ => simp [UTy.part?] at h
  | _ => simp [UTy.part?] at h

theorem field_has {n : String} {t t' : UTy} {o : Obj F} (h : t.field? n = some t') (ho : Has I Γ c t o) :
    ∃ o', fieldObj n o = some o' ∧ Has I Γ c t' o' := by
  cases t with
  | record k fs =>
    have hk : k ≠ .positional := by rintro rfl; simp [UTy.field?] at h
    have hf' : fs.find n = some t' := by cases k <;> simp [UTy.field?] at h hk ⊢ <;> exact h
    obtain ⟨fos, rfl, hfos⟩ := ho.struct
    obtain ⟨o', ho', hh⟩ := find_has hfos hf'
    exact ⟨o', by cases k <;> simp [fieldObj] at hk ⊢ <;> exact ho', hh⟩
  | _ => simp [UTy.field?] at h

theorem foldl_bind_none {α β : Type} (f : α → β → Option α) : ∀ l : List β, l.foldl (fun o q => o.bind fun o => f o q) (none : Option α) = none
  | [] => rfl
  | _ :: l => foldl_bind_none f l

theorem parts_has : ∀ (l : List (Nat ⊕ String)) {t t' : UTy} {o : Obj F}, Has I Γ c t o →
    l.foldl (fun t q => t.bind fun t => match q with | .inl i => t.part? i | .inr n => t.field? n) (some t) = some t' →
    ∃ o', l.foldl (fun o q => o.bind fun o => match q with | .inl i => partObj i o | .inr n => fieldObj n o) (some o) = some o' ∧ Has I Γ c t' o'
  | [], t, t', o, ho, h => by
    cases h
    exact ⟨o, rfl, ho⟩
  | .inl i :: l, t, t', o, ho, h => by
    rw [List.foldl_cons] at h
    cases hp : t.part? i with
    | none =>
      simp only [Option.bind_some, hp] at h
      rw [foldl_bind_none (fun (t : UTy) (q : Nat ⊕ String) => match q with | .inl i => t.part? i | .inr n => t.field? n)] at h
      cases h
    | some t1 =>
      simp only [Option.bind_some, hp] at h
      obtain ⟨o1, h1, h2⟩ := part_has hp ho
      obtain ⟨o', h3, h4⟩ := parts_has l h2 h
      exact ⟨o', by rw [List.foldl_cons]; simp only [Option.bind_some, h1]; exact h3, h4⟩
  | .inr n :: l, t, t', o, ho, h => by
    rw [List.foldl_cons] at h
    cases hp : t.field? n with
    | none =>
      simp only [Option.bind_some, hp] at h
      rw [foldl_bind_none (fun (t : UTy) (q : Nat ⊕ String) => match q with | .inl i => t.part? i | .inr n => t.field? n)] at h
      cases h
    | some t1 =>
      simp only [Option.bind_some, hp] at h
      obtain ⟨o1, h1, h2⟩ := field_has hp ho
      obtain ⟨o', h3, h4⟩ := parts_has l h2 h
      exact ⟨o', by rw [List.foldl_cons]; simp only [Option.bind_some, h1]; exact h3, h4⟩

/-- What is read from is there. -/
theorem place_has {p : Place} {ts : List UTy} {os : List (Obj F)} {t : UTy} (hos : List.Forall₂ (Has I Γ c) ts os) (h : p.type ts = some t) :
    ∃ o, p.obj os = some o ∧ Has I Γ c t o := by
  unfold Place.type at h
  cases hl : ts[p.loc]? with
  | none =>
    rw [hl] at h
    have h' := h.symm.trans (foldl_bind_none (fun (t : UTy) (q : Nat ⊕ String) => match q with | .inl i => t.part? i | .inr n => t.field? n) p.parts)
    cases h'
  | some t0 =>
    rw [hl] at h
    obtain ⟨hlen, hh⟩ := List.forall₂_iff_get.1 hos
    obtain ⟨h1, rfl⟩ := List.getElem?_eq_some_iff.1 hl
    have h2 : p.loc < os.length := by omega
    have := parts_has p.parts (hh _ h1 h2) h
    unfold Place.obj
    rw [List.getElem?_eq_getElem h2]
    exact this

theorem parts_comp {Q : Expr F → Prop} : ∀ (l : List (Nat ⊕ String)) {o o' : Obj F}, o.Comp Q →
    l.foldl (fun o q => o.bind fun o => match q with | .inl i => partObj i o | .inr n => fieldObj n o) (some o) = some o' → o'.Comp Q
  | [], o, o', ho, h => by cases h; exact ho
  | .inl i :: l, o, o', ho, h => by
    rw [List.foldl_cons] at h
    cases hp : partObj i o with
    | none =>
      simp only [Option.bind_some, hp] at h
      rw [foldl_bind_none (fun (o : Obj F) (q : Nat ⊕ String) => match q with | .inl i => partObj i o | .inr n => fieldObj n o)] at h
      cases h
    | some o1 =>
      simp only [Option.bind_some, hp] at h
      refine parts_comp l ?_ h
      cases o with
      | struct k fs =>
        cases k <;> simp only [partObj, reduceCtorEq] at hp
        simp only [Obj.Comp] at ho
        exact ho.toList _ (List.mem_of_getElem? hp)
      | _ => simp [partObj] at hp
  | .inr n :: l, o, o', ho, h => by
    rw [List.foldl_cons] at h
    cases hp : fieldObj n o with
    | none =>
      simp only [Option.bind_some, hp] at h
      rw [foldl_bind_none (fun (o : Obj F) (q : Nat ⊕ String) => match q with | .inl i => partObj i o | .inr n => fieldObj n o)] at h
      cases h
    | some o1 =>
      simp only [Option.bind_some, hp] at h
      refine parts_comp l ?_ h
      cases o with
      | struct k fs =>
        cases k <;> simp only [fieldObj, reduceCtorEq] at hp <;> simp only [Obj.Comp] at ho <;> exact ho.lookup hp
      | _ => simp [fieldObj] at hp

/-- What is read from depends on the indices that the local variable depends on. -/
theorem place_comp {p : Place} {lv : List Nat} {ds : List (List Nat)} {os : List (Obj F)} {x : List Nat} {o : Obj F}
    (hd : List.Forall₂ (fun d (o : Obj F) => o.Comp (IdxIn lv d)) ds os) (hx : ds[p.loc]? = some x) (h : p.obj os = some o) :
    o.Comp (IdxIn lv x) := by
  obtain ⟨hl, hh⟩ := List.forall₂_iff_get.1 hd
  obtain ⟨h1, rfl⟩ := List.getElem?_eq_some_iff.1 hx
  have h2 : p.loc < os.length := by omega
  unfold Place.obj at h
  rw [List.getElem?_eq_getElem h2] at h
  exact parts_comp _ (hh _ h1 h2) h

/-- An array from outside that is read at the symbol in the body is a hint. -/
theorem hint {a body : Expr F} {is : List (Expr F)} {k c1 : Nat} {s : Sym} {τ τ' σ : Ty} {symbols : List Sym} {initial : Finset Sym}
    (ha : Sane I Γ c a τ) (h0 : freeIndices a = ∅) (hb : Sane I Γ' c1 body σ) (hsub : ∀ x, Γ x ≠ none → Γ' x ≠ none)
    (hnew : ∀ x ∈ symbols.toFinset ∪ initial, Γ x = none) (hl : is.length = k)
    (hr : Occurs (Phi.get (gets a is) (node (.store s τ') [])) body) :
    dimExpr a k ∈ candidates body (symbols.toFinset ∪ initial) s ∧ ∃ size, inferSize body symbols initial s = some size := by
  subst hl
  have hfv := fv_dimExpr ha.fine.scoping is.length
  have hd : Disjoint (fv (dimExpr (gets a is) 0)) (boundInside body symbols initial) := by
    rw [dimExpr_gets, Nat.zero_add, Finset.disjoint_left]
    intro x hx hx'
    have hΓ := ha.fine.fv_dom x (hfv hx)
    rw [boundInside, Finset.mem_union] at hx'
    rcases hx' with hx' | hx'
    · exact hΓ (hnew x hx')
    · exact hb.unbound_ctx (hsub x hΓ) hx'
  refine ⟨?_, C21_inferred hr hd⟩
  have := mem_candidates hr hd
  rw [dimExpr_gets, Nat.zero_add] at this
  rwa [atZero_of_none] at this
  refine Finset.eq_empty_of_forall_notMem fun x hx => ?_
  rw [freeIndices, Finset.mem_filter] at hx
  have : x ∈ freeIndices a := Finset.mem_filter.2 ⟨hfv hx.1, hx.2⟩
  rw [h0] at this
  cases this

theorem readsAll_get {b : Script F} {k : Nat} {l : List (Place × Nat)} (h : readsAll b k = some l) :
    l.length = k + 1 ∧ ∀ m ≤ k, ∃ p ax, reads b [] (k + 1) (k - m) = some (p, ax) ∧ l[m]? = some (p, ax) := by
  have hl : l.length = k + 1 := by rw [mapOpt_length h, List.length_range]
  refine ⟨hl, fun m hm => ?_⟩
  obtain ⟨⟨p, ax⟩, hq⟩ : ∃ q, l[m]? = some q := ⟨_, List.getElem?_eq_getElem (by omega)⟩
  have := hq
  rw [mapOpt_getElem? h, List.getElem?_range (by omega), Option.bind_some] at this
  exact ⟨p, ax, this, hq⟩

/-- The array that is read at an index, and the size that is inferred for it. -/
theorem auto_hint {k : Nat} {b : Script F} {ts : List UTy} {t te : UTy} {os : List (Obj F)} {lv : List Nat} {ds : List (List Nat)} {rb : Obj F}
    {body : Expr F} (hok : ∀ t ∈ ts, t.layout.ok = true) (hos : List.Forall₂ (Has I Γ c) ts os) (hΓ : Below Γ c)
    (hd : List.Forall₂ (fun d (o : Obj F) => o.Comp (IdxIn lv d)) ds os) (ht : typ b (List.replicate (k + 1) (.sc .int) ++ ts) = some t)
    (hrb : make b (opened os (List.range' c (k + 1))) (c + (k + 1)) = some (rb, c')) (hp : pack t.layout rb = some body)
    (hsane : Sane I (indexed Γ (List.range' c (k + 1))) c' body t.ty) {m : Nat} (hm : m ≤ k) {p : Place} {ax : Nat}
    (hq : reads b [] (k + 1) (k - m) = some (p, ax)) (htp : p.type ts = some (.arr te)) (hxp : ds[p.loc]? = some []) :
    ∃ a, p.obj os = some (.vec a te.layout) ∧ dimExpr a ax ∈ candidates body (((List.range' c (k + 1)).map Sym.idx).toFinset ∪ ∅) (.idx (c + m)) ∧
      ∃ size, inferSize body ((List.range' c (k + 1)).map .idx) ∅ (.idx (c + m)) = some size := by
  obtain ⟨oa, hoa, ha⟩ := place_has hos htp
  obtain ⟨a, rfl, hsa⟩ := ha.vec
  have hia := place_comp hd hxp hoa
  simp only [Obj.Comp] at hia
  obtain ⟨h1, h2, h3⟩ := locals_indexed (k + 1) hok hos hΓ
  have B := correct (I := I) b _ t _ _ _ rb c' h1 h2 h3 ht hrb
  obtain ⟨⟨is, hl, hfound⟩, -⟩ := keeps (I := I) b _ t _ _ _ rb c' [] (k + 1) (k - m) p ax (.idx (c + m)) (.scalar .int) a _ h1 h2 h3 ht hrb hq
    (opened_get os hm) (by rw [opened_drop]; exact hoa) (Known.nil _ _ _ _ _ _)
  have hext := extends_indexed hΓ (k + 1)
  refine ⟨a, hoa, hint (symbols := (List.range' c (k + 1)).map .idx) (initial := ∅) hsa hia.none_free hsane
    (fun x hx => by rw [hext.2 x (hext.1 x hx)]; exact hx) (fun x hx => ?_) hl (any_pack B.ok B.has hfound hp)⟩
  simp only [Finset.union_empty, List.mem_toFinset, List.mem_map, List.mem_range'_1] at hx
  obtain ⟨i, hi, rfl⟩ := hx
  exact fresh_below hΓ (s := .idx i) (by simpa [symNum] using hi.1)

theorem mapOpt_total {α β : Type} {f : α → Option β} : ∀ {l : List α}, (∀ x ∈ l, ∃ y, f x = some y) → ∃ bs, Phi.mapOpt f l = some bs
  | [], _ => ⟨[], rfl⟩
  | a :: l, h => by
    obtain ⟨y, hy⟩ := h a (by simp)
    obtain ⟨bs, hbs⟩ := mapOpt_total (l := l) fun x hx => h x (by simp [hx])
    exact ⟨y :: bs, by simp [Phi.mapOpt, hy, hbs]⟩

/-- The indices that local variables depend on, in the body of a comprehension. -/
theorem comp_indexed : ∀ (n : Nat) {lv : List Nat} {ds : List (List Nat)} {os : List (Obj F)} {c : Nat},
    List.Forall₂ (fun d (o : Obj F) => o.Comp (IdxIn lv d)) ds os →
    List.Forall₂ (fun d (o : Obj F) => o.Comp (IdxIn (lv ++ List.range' c n) d)) (((List.range' lv.length n).map fun i => [i]).reverse ++ ds)
      (opened os (List.range' c n))
  | 0, lv, ds, os, c, h => by simpa [opened] using h
  | n + 1, lv, ds, os, c, h => by
    have := comp_indexed n (lv := lv ++ [c]) (ds := [lv.length] :: ds) (os := .scalar (.scalar (at_ c)) :: os) (c := c + 1)
      (.cons (by
        simp only [Obj.Comp, wrap]
        intro i hi
        refine ⟨lv.length, by simp, ?_⟩
        obtain ⟨h1 | ⟨t, ht, _⟩, _⟩ := mem_fv.1 hi
        · cases h1; simp
        · cases ht) (h.imp fun _ _ h => h.deeper c))
    rw [List.range'_succ, List.range'_succ, opened_cons]
    simpa [List.append_assoc] using this

theorem fv_nest {i : Nat} {b : Expr F} : ∀ {l : List (Nat × Expr F)}, (∀ p ∈ l, freeIndices p.2 = ∅) → Sym.idx i ∈ fv (nest l b) →
    Sym.idx i ∈ fv b ∧ i ∉ l.map Prod.fst
  | [], _, h => ⟨h, by simp⟩
  | (j, n) :: l, hl, h => by
    obtain ⟨h1 | ⟨u, hu, h1⟩, h2⟩ := mem_fv.1 h
    · cases h1
    · simp only [List.mem_cons, List.not_mem_nil, or_false] at hu
      rcases hu with rfl | rfl
      · have : Sym.idx i ∈ freeIndices u := Finset.mem_filter.2 ⟨h1, rfl⟩
        rw [hl (j, u) (by simp)] at this
        cases this
      · obtain ⟨h3, h4⟩ := fv_nest (fun p hp => hl p (by simp [hp])) h1
        refine ⟨h3, ?_⟩
        simp only [List.map_cons, List.mem_cons, not_or]
        refine ⟨?_, h4⟩
        rintro rfl
        exact h2 (by simp [Lang.captured, Phi.Head.captured])

theorem IdxIn.nest {lv x : List Nat} {b : Expr F} {l : List (Nat × Expr F)} (hl : ∀ p ∈ l, freeIndices p.2 = ∅)
    (hb : IdxIn (lv ++ l.map Prod.fst) x b) : IdxIn lv (x.filter fun k => decide (k < lv.length)) (Frontend.nest l b) := by
  intro i hi
  obtain ⟨h1, h2⟩ := fv_nest hl hi
  obtain ⟨k, hk, h3⟩ := hb i h1
  by_cases h : k < lv.length
  · exact ⟨k, by simp [hk, h], by rwa [List.getElem?_append_left h] at h3⟩
  · rw [List.getElem?_append_right (by omega)] at h3
    exact absurd (List.mem_of_getElem? h3) h2

theorem traces_auto {k : Nat} {b : Script F} (hb : Traces I b) : Traces I (.auto k b) := by
  intro ts t os Γ c lv ds x hok hos hΓ ht hd hx
  simp only [typ, Option.bind_eq_some_iff] at ht
  obtain ⟨l, hl, ht⟩ := ht
  split at ht
  · rename_i hall
    obtain ⟨t, ht', rfl⟩ := Option.map_eq_some_iff.1 ht
    simp only [deps, hl, Option.bind_some] at hx
    split at hx
    · rename_i hnone
      obtain ⟨x2, hx2, rfl⟩ := Option.map_eq_some_iff.1 hx
      obtain ⟨h1, h2, h3⟩ := locals_indexed (k + 1) hok hos hΓ
      obtain ⟨rb, c3, hrb, hd3⟩ := hb _ t _ _ _ (lv ++ List.range' c (k + 1)) _ x2 h1 h2 h3 ht' (comp_indexed (k + 1) hd) (by simpa using hx2)
      have B := correct (I := I) b _ t _ _ _ rb c3 h1 h2 h3 ht' hrb
      obtain ⟨hbuild, hrok⟩ := Has.build B.ok B.has
      obtain ⟨body, hp, hsane⟩ := Has.pack B.ok B.has
      obtain ⟨ns, hns⟩ : ∃ ns, Phi.mapOpt (inferSize body ((List.range' c (k + 1)).map .idx) ∅) ((List.range' c (k + 1)).map .idx) = some ns := by
        refine mapOpt_total fun s hs => ?_
        simp only [List.mem_map, List.mem_range'_1] at hs
        obtain ⟨i, hi, rfl⟩ := hs
        obtain ⟨m, rfl⟩ := Nat.exists_eq_add_of_le hi.1
        have hm : m ≤ k := by omega
        obtain ⟨p, ax, hr, hq⟩ := (readsAll_get hl).2 m hm
        have hmem := List.mem_of_getElem? hq
        obtain ⟨te, hte⟩ := Option.isSome_iff_exists.1 (List.all_eq_true.1 hall _ hmem)
        obtain ⟨tp, htp, hte⟩ := Option.bind_eq_some_iff.1 hte
        cases elem_arr hte
        obtain ⟨a, _, _, h⟩ := auto_hint hok hos hΓ hd ht' hrb hp hsane hm hr htp (by simpa using List.all_eq_true.1 hnone _ hmem)
        exact h
      obtain ⟨hlen, hall', hN⟩ := Sane.inferred hΓ B.grows hsane hns
      have hfst : (((List.range' c (k + 1)).zip ns).map Prod.fst) = List.range' c (k + 1) := List.map_fst_zip (by simp [hlen])
      have hrb' : make b (((List.range' c (k + 1)).map fun i => Obj.scalar (.scalar (at_ i))).reverse ++ os) (c + (k + 1)) = some (rb, c3) := hrb
      refine ⟨.vec (nest ((List.range' c (k + 1)).zip ns) body) (vecLayouts k t.layout), c3, ?_, ?_⟩
      · simp only [make, arrayPy, hrb', Option.bind_some, hbuild, hp, arrayOf, inferSizes, hns, Option.map_some, vecLayouts, unpack, raising, hN.typed,
          Option.isSome_some, if_true]
      · simp only [Obj.Comp]
        refine IdxIn.nest (fun p hp => (hall' _ (List.of_mem_zip hp).2).2) ?_
        rw [hfst]
        exact IdxIn.packed hd3 hp
    · cases hx
  · cases ht

theorem traces_autoFold {z b : Script F} (hz : Traces I z) (hb : Traces I b) : Traces I (.autoFold z b) := by
  intro ts t os Γ c lv ds x hok hos hΓ ht hd hx
  simp only [typ, Option.bind_eq_some_iff] at ht
  obtain ⟨⟨p, k⟩, hq, te, ⟨tp, htp, hte⟩, t0, ht2, t3, ht3, ht⟩ := ht
  cases elem_arr hte
  split at ht
  · rename_i hsame
    cases ht
    cases UTy.same_eq hsame
    simp only [deps, hq, Option.bind_some, Option.bind_eq_some_iff] at hx
    obtain ⟨xp, hxp, hx⟩ := hx
    split at hx
    · rename_i h0
      subst h0
      simp only [Option.bind_eq_some_iff, Option.map_eq_some_iff] at hx
      obtain ⟨x2, hx2, x3, hx3, rfl⟩ := hx
      obtain ⟨oa, hoa, ha⟩ := place_has hos htp
      obtain ⟨a, rfl, hsa⟩ := ha.vec
      have hia := place_comp hd hxp hoa
      simp only [Obj.Comp] at hia
      obtain ⟨oz, c1, hmz, hdz⟩ := hz ts _ os Γ c lv ds x2 hok hos hΓ ht2 hd hx2
      have Z := correct (I := I) z ts _ os Γ c oz c1 hok hos hΓ ht2 hmz
      have hΓ1 := hΓ.mono Z.grows
      obtain ⟨hbz, hzok⟩ := Has.build Z.ok Z.has
      obtain ⟨ez, hpz, hsz⟩ := Has.pack Z.ok Z.has
      have hext : Extends c1 Γ ((Γ.set (.var (c1 + 1)) (some t.ty)).set (.var c1) (some (.scalar .int))) :=
        Extends.set (Extends.set (Extends.refl hΓ1) (Nat.le_succ c1)) (le_refl c1)
      have hos1 : List.Forall₂ (Has I ((Γ.set (.var (c1 + 1)) (some t.ty)).set (.var c1) (some (.scalar .int))) (c1 + 2)) (.sc .int :: t :: ts)
          (.scalar (.scalar (var c1 (.scalar .int))) :: unpack t.layout (var (c1 + 1) t.ty) :: os) :=
        .cons (by simp only [Has, wrap]; exact Sane.store (set_self _ _ _))
          (.cons (Sane.unpack Z.ok (Sane.store (by simp [TCtx.set])))
            (Has.locals_mono (by omega) hext (Has.locals_mono Z.grows (Extends.refl hΓ) hos)))
      have hΓ2 : Below ((Γ.set (.var (c1 + 1)) (some t.ty)).set (.var c1) (some (.scalar .int))) (c1 + 2) :=
        Below.set (Below.set (hΓ1.mono (by omega)) (by simp [symNum])) (by simp [symNum])
      have hok1 : ∀ u ∈ UTy.sc .int :: t :: ts, u.layout.ok = true := by simpa using ⟨rfl, Z.ok, hok⟩
      obtain ⟨rb, c3, hrb, hd3⟩ := hb (.sc .int :: t :: ts) t (.scalar (.scalar (var c1 (.scalar .int))) :: unpack t.layout (var (c1 + 1) t.ty) :: os)
        ((Γ.set (.var (c1 + 1)) (some t.ty)).set (.var c1) (some (.scalar .int))) (c1 + 2) lv ([] :: [] :: ds) x3 hok1 hos1 hΓ2 ht3
        (.cons (by simp only [Obj.Comp, wrap]; exact IdxIn.var)
          (.cons (IdxIn.unpacked _ IdxIn.var) hd)) hx3
      have B := correct (I := I) b _ t _ _ (c1 + 2) rb c3 hok1 hos1 hΓ2 ht3 hrb
      obtain ⟨body, hp, hsane⟩ := Has.pack B.ok B.has
      obtain ⟨⟨is, hl, hfound⟩, -⟩ := keeps (I := I) b _ t _ _ (c1 + 2) rb c3 [] 2 0 p k (.var c1) (.scalar .int) a _ hok1 hos1 hΓ2 ht3 hrb hq rfl
        (by simpa using hoa) (Known.nil _ _ _ _ _ _)
      have h0 := fresh_below hΓ1 (s := .var c1) (le_refl c1)
      have h1 := fresh_below hΓ1 (s := .var (c1 + 1)) (Nat.le_succ c1)
      obtain ⟨_, n, hn⟩ := hint (symbols := [.var c1]) (initial := {.var (c1 + 1)}) hsa hia.none_free hsane (fun x hx => by rw [hext.2 x (hext.1 x hx)]; exact hx)
        (by simpa using ⟨h0, h1⟩) hl (any_pack B.ok B.has hfound hp)
      have hn0 := (C21_scope hsane.fine.scoping hn).2
      refine ⟨_, _, by simp only [make, hmz, Option.bind_some, foldPy, hbz, hpz, hsz.typed, hrb, hp, Frontend.foldOf,
        Option.map_some, inferSizes, Option.map_none, mapOpt, hn, List.head?_cons]; rfl, ?_⟩
      refine IdxIn.unpacked _ ?_
      refine IdxIn.node (by simp [Phi.Head.symbol]) ?_
      simp only [List.mem_cons, List.not_mem_nil, or_false]
      rintro t (rfl | rfl | rfl)
      · exact (none_idxIn hn0).mono (by simp)
      · exact (IdxIn.packed hdz hpz).left
      · exact (IdxIn.packed hd3 hp).right
    · cases hx
  · cases ht

mutual
theorem all_traces : ∀ P : Script F, Traces I P
  | .loc n => traces_loc n
  | .lit s => traces_lit s
  | .assign a b => traces_assign (all_traces a) (all_traces b)
  | .un _ a => traces_un (all_traces a)
  | .bin _ a b => traces_bin (all_traces a) (all_traces b)
  | .choose a b d => traces_choose (all_traces a) (all_traces b) (all_traces d)
  | .item x i => traces_item (all_traces x) (all_traces i)
  | .size x _ => traces_size (all_traces x)
  | .array n b => traces_array (all_traces n) (all_traces b)
  | .fold n z b => traces_fold (all_traces n) (all_traces z) (all_traces b)
  | .reduce x z b => traces_reduce (all_traces x) (all_traces z) (all_traces b)
  | .concat x y => traces_concat (all_traces x) (all_traces y)
  | .record _ fs => traces_record (all_tracesF fs)
  | .field x _ => traces_field (all_traces x)
  | .part x _ => traces_part (all_traces x)
  | .auto _ b => traces_auto (all_traces b)
  | .autoFold z b => traces_autoFold (all_traces z) (all_traces b)
theorem all_tracesF : ∀ P : SFields F, TracesF I P
  | .nil => tracesF_nil
  | .cons _ a rest => tracesF_cons (all_traces a) (all_tracesF rest)
end

end Verif.Frontend
