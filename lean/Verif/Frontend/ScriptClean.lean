import Verif.Frontend.ScriptSays

/-! Programs of the user with sizes left out: the hints for a size are the arrays that the program reads at the index. -/

set_option linter.unusedSectionVars false

namespace Verif.Frontend
open Verif.Phi Verif.Term Verif.Midend Verif.Codegen Verif.Props
variable {F : Type} [FloatOps F] [DecidableEq F] {I : Ext F} {Γ Γ' : TCtx} {c c' : Nat} {lv : List Nat} {ds : List (List Nat)}
  {ts : List UTy} {os : List (Obj F)} {s : Sym} {R : Expr F → Prop}

/-! ### What is read at a symbol -/

/-- Only what is in `R` is read at the symbol. -/
def Only (s : Sym) (R : Expr F → Prop) (e : Expr F) : Prop :=
  ∀ (t : Expr F) (τ : Ty) (us : List (Expr F)), Occurs (node .get [t, node (.store s τ) us]) e → R t

/-- The expression is not the symbol, and only what is in `R` is read at it. -/
def Good (s : Sym) (R : Expr F → Prop) (e : Expr F) : Prop := (∀ (τ : Ty) (us : List (Expr F)), e ≠ node (.store s τ) us) ∧ Only s R e

theorem Only.node {h : Phi.Head F} {ts : List (Expr F)} (hg : h ≠ .get) (H : ∀ t ∈ ts, Only s R t) : Only s R (Term.node h ts) := by
  intro t τ us ho
  cases ho with
  | refl => exact absurd rfl hg
  | child hm ho => exact H _ hm t τ us ho

theorem Only.child {h : Phi.Head F} {ts : List (Expr F)} (H : Only s R (Term.node h ts)) {t : Expr F} (ht : t ∈ ts) : Only s R t :=
  fun u τ us ho => H u τ us (.child ht ho)

theorem Good.node {h : Phi.Head F} {ts : List (Expr F)} (hg : h ≠ .get) (hs : ∀ s τ, h ≠ .store s τ) (H : ∀ t ∈ ts, Only s R t) :
    Good s R (Term.node h ts) :=
  ⟨fun τ us he => by cases he; exact hs _ _ rfl, Only.node hg H⟩

theorem Good.cons {a b : Expr F} (ha : Good s R a) (hb : Good s R b) : Good s R (Phi.cons a b) :=
  Good.node (by simp) (by simp) (by simpa using ⟨ha.2, hb.2⟩)
theorem Good.fst {a : Expr F} (ha : Good s R a) : Good s R (Phi.fst a) := Good.node (by simp) (by simp) (by simpa using ha.2)
theorem Good.snd {a : Expr F} (ha : Good s R a) : Good s R (Phi.snd a) := Good.node (by simp) (by simp) (by simpa using ha.2)

theorem Good.unpack {e : Expr F} (l : Layout) (h : Good s R e) : (Frontend.unpack l e).Comp (Good s R) :=
  unpack_comp (P := Good s R) (fun _ h => h.fst) (fun _ h => h.snd) l h

theorem Good.pack {l : Layout} {o : Obj F} {e : Expr F} (h : o.Comp (Good s R)) (hp : Frontend.pack l o = some e) : Good s R e :=
  pack_comp (P := Good s R) (fun _ _ h1 h2 => h1.cons h2) l h hp

theorem Only.pack {l : Layout} {o : Obj F} {e : Expr F} (h : o.Comp (Only s R)) (hp : Frontend.pack l o = some e) : Only s R e :=
  pack_comp (P := Only s R) (fun _ _ h1 h2 => Only.node (by simp) (by simpa using ⟨h1, h2⟩)) l h hp

theorem Good.get {a i : Expr F} (ha : Good s R a) (hi : Only s R i) (H : ∀ τ us, i = Term.node (.store s τ) us → R a) : Good s R (Phi.get a i) := by
  refine ⟨fun τ us he => (by cases he), fun t τ us ho => ?_⟩
  cases ho with
  | refl => exact H τ us rfl
  | child hm ho =>
    simp only [List.mem_cons, List.not_mem_nil, or_false] at hm
    rcases hm with rfl | rfl
    · exact ha.2 t τ us ho
    · exact hi t τ us ho

theorem Only.store {s' : Sym} {τ : Ty} : Only s R (Term.node (.store s' τ) [] : Expr F) := Only.node (by simp) (by simp)

theorem Good.other {s' : Sym} {τ : Ty} (h : s' ≠ s) : Good s R (Term.node (.store s' τ) [] : Expr F) :=
  ⟨fun τ us he => by cases he; exact h rfl, Only.store⟩

theorem Only.dimExpr {e : Expr F} (h : Only s R e) (k : Nat) : Only s R (Codegen.dimExpr e k) := by
  induction e using ind generalizing k with
  | step hd ts ih =>
    by_cases hg : ∃ t i, hd = .get ∧ ts = [t, i]
    · obtain ⟨t, i, rfl, rfl⟩ := hg
      rw [dimExpr_get]
      exact ih t (by simp) (h.child (by simp)) (k + 1)
    · by_cases hve : ∃ j n b, hd = .vec j ∧ ts = [n, b] ∧ k = 0
      · obtain ⟨j, n, b, rfl, rfl, rfl⟩ := hve
        rw [dimExpr_vec]
        exact h.child (by simp)
      · rw [dimExpr_other (fun t i h => hg ⟨t, i, h⟩) (fun j n b h => hve ⟨j, n, b, h⟩)]
        exact Only.node (by simp) (by simpa using h)

theorem Only.method {a : Expr F} {b : ScalarLike F} (f : PyOp) (ha : Only s R a) (hb : Only s R (wrap b)) : Good s R (method f a b) := by
  cases f
  case truediv =>
    have : Only s R (op1 .reciprocal (wrap b)) := Only.node (by simp) (by simpa using hb)
    exact Good.node (by simp) (by simp) (by simpa [wrap] using ⟨ha, this⟩)
  all_goals exact Good.node (by simp) (by simp) (by simpa [wrap] using ⟨by assumption, by assumption⟩)

/-- A symbol in an expression is free in it, or bound. -/
theorem store_occurs {τ : Ty} {us : List (Expr F)} {e : Expr F} (h : Occurs (node (.store s τ) us) e) : s ∈ fv e ∨ s ∈ binders e := by
  induction h with
  | refl => exact .inl (mem_fv.2 ⟨.inl rfl, Finset.notMem_empty _⟩)
  | child hm ho ih =>
    rename_i hd _
    rcases ih with h | h
    · by_cases hc : s ∈ Lang.captured hd
      · exact .inr (mem_binders.2 (.inl hc))
      · exact .inl (mem_fv.2 ⟨.inr ⟨_, hm, h⟩, hc⟩)
    · exact .inr (mem_binders.2 (.inr ⟨_, hm, h⟩))

/-- New symbols do not occur. -/
theorem Sane.good {e : Expr F} {τ : Ty} (h : Sane I Γ c e τ) (hΓ : Below Γ c) (hs : c ≤ symNum s) : Good s R e := by
  have key : ∀ τ us, ¬ Occurs (node (.store s τ) us) e := by
    intro τ us ho
    rcases store_occurs ho with h1 | h1
    · exact h.fine.fv_dom s h1 (fresh_below hΓ hs)
    · exact h.unbound_new hs h1
  refine ⟨fun τ us he => key τ us (he ▸ .refl _), fun t τ us ho => absurd (Occurs.trans (.child (ts := [t, node (.store s τ) us]) (by simp) (.refl _)) ho) (key τ us)⟩

mutual
theorem Has.good (hΓ : Below Γ c) (hs : c ≤ symNum s) : ∀ {t : UTy} {o : Obj F}, Has I Γ c t o → o.Comp (Good s R)
  | .sc _, .scalar _, h => by simp only [Has] at h; simpa [Obj.Comp] using h.good hΓ hs
  | .arr _, .vec _ _, h => by simp only [Has] at h; simpa [Obj.Comp] using h.2.good hΓ hs
  | .record _ _, .struct _ _, h => by simp only [Has] at h; simpa [Obj.Comp] using HasF.good hΓ hs h.2
  | .sc _, .vec _ _, h | .sc _, .raw _ _, h | .sc _, .struct _ _, h | .arr _, .scalar _, h | .arr _, .raw _ _, h
  | .arr _, .struct _ _, h | .record _ _, .scalar _, h | .record _ _, .vec _ _, h | .record _ _, .raw _ _, h => by
    simp only [Has] at h
theorem HasF.good (hΓ : Below Γ c) (hs : c ≤ symNum s) : ∀ {t : UFields} {o : Fields F}, HasF I Γ c t o → o.Comp (Good s R)
  | .nil, .nil, _ => by simp [Fields.Comp]
  | .cons _ _ _, .cons _ _ _, h => by
    simp only [HasF] at h
    simpa [Fields.Comp] using ⟨Has.good hΓ hs h.2.1, HasF.good hΓ hs h.2.2⟩
  | .nil, .cons _ _ _, h | .cons _ _ _, .nil, h => by simp only [HasF] at h
end

theorem locals_good (h : Around I Γ c lv ts os ds) (hs : c ≤ symNum s) {i : Nat} {o : Obj F} (ho : os[i]? = some o) : o.Comp (Good s R) := by
  obtain ⟨hl, hh⟩ := List.forall₂_iff_get.1 h.has
  obtain ⟨h1, rfl⟩ := List.getElem?_eq_some_iff.1 ho
  exact (hh i (by omega) h1).good h.below hs

/-! ### Programs -/

/-- A local variable is a symbol, which is not in what stands for the others but to read from `R`; and `R` has what is read at places. -/
structure Watch (s : Sym) (τ : Ty) (R : Expr F → Prop) (lo j : Nat) (os : List (Obj F)) (c : Nat) (l : List (Place × Nat)) : Prop where
  here : os[j]? = some (.scalar (.scalar (node (.store s τ) [])))
  lt : symNum s < c
  rest : ∀ (i : Nat) (o : Obj F), i ≠ j → os[i]? = some o → o.Comp (Good s R)
  only : ∀ q ∈ l, ∀ (a : Expr F) (sub : Layout) (is : List (Expr F)), q.1.obj (os.drop lo) = some (.vec a sub) → is.length = q.2 → R (gets a is)

variable {τ : Ty} {lo j : Nat} {l l' : List (Place × Nat)}

theorem Watch.mono (w : Watch s τ R lo j os c l) (hc : c ≤ c') (hl : ∀ q ∈ l', q ∈ l) : Watch s τ R lo j os c' l' :=
  ⟨w.here, Nat.lt_of_lt_of_le w.lt hc, w.rest, fun q hq => w.only q (hl q hq)⟩

theorem Watch.cons (w : Watch s τ R lo j os c l) {o : Obj F} (ho : o.Comp (Good s R)) : Watch s τ R (lo + 1) (j + 1) (o :: os) c l := by
  refine ⟨by simpa using w.here, w.lt, fun i o' hi h => ?_, fun q hq a sub is h => w.only q hq a sub is (by simpa using h)⟩
  cases i with
  | zero => cases h; exact ho
  | succ i => exact w.rest i o' (by omega) (by simpa using h)

/-- What the induction shows: at the symbol only the arrays of the program are read. -/
def Clean (I : Ext F) (P : Script F) : Prop :=
  ∀ (ts : List UTy) (t : UTy) (os : List (Obj F)) (Γ : TCtx) (c : Nat) (o : Obj F) (c' : Nat) (lv : List Nat) (ds : List (List Nat)) (x : List Nat),
    Around I Γ c lv ts os ds → typ P ts = some t → make P os c = some (o, c') → deps P lv.length ds = some x → settled P lv.length ds = true →
    ∀ (lo j : Nat) (s : Sym) (τ : Ty) (l : List (Place × Nat)) (R : Expr F → Prop), uses P lo j = some l → Watch s τ R lo j os c l → o.Comp (Good s R)

def CleanF (I : Ext F) (P : SFields F) : Prop :=
  ∀ (ts : List UTy) (t : UFields) (os : List (Obj F)) (Γ : TCtx) (c : Nat) (o : Fields F) (c' : Nat) (lv : List Nat) (ds : List (List Nat)) (x : List Nat),
    Around I Γ c lv ts os ds → typFields P ts = some t → makeFields P os c = some (o, c') → depsFields P lv.length ds = some x →
    settledFields P lv.length ds = true →
    ∀ (lo j : Nat) (s : Sym) (τ : Ty) (l : List (Place × Nat)) (R : Expr F → Prop), usesFields P lo j = some l → Watch s τ R lo j os c l → o.Comp (Good s R)

/-- The same where the symbol itself may be a component. -/
def CleanIn (I : Ext F) (P : Script F) : Prop :=
  ∀ (ts : List UTy) (t : UTy) (os : List (Obj F)) (Γ : TCtx) (c : Nat) (o : Obj F) (c' : Nat) (lv : List Nat) (ds : List (List Nat)) (x : List Nat),
    Around I Γ c lv ts os ds → typ P ts = some t → make P os c = some (o, c') → deps P lv.length ds = some x → settled P lv.length ds = true →
    ∀ (lo j : Nat) (s : Sym) (τ : Ty) (l : List (Place × Nat)) (R : Expr F → Prop), usesIn P lo j = some l → Watch s τ R lo j os c l → o.Comp (Only s R)

def CleanInF (I : Ext F) (P : SFields F) : Prop :=
  ∀ (ts : List UTy) (t : UFields) (os : List (Obj F)) (Γ : TCtx) (c : Nat) (o : Fields F) (c' : Nat) (lv : List Nat) (ds : List (List Nat)) (x : List Nat),
    Around I Γ c lv ts os ds → typFields P ts = some t → makeFields P os c = some (o, c') → depsFields P lv.length ds = some x →
    settledFields P lv.length ds = true →
    ∀ (lo j : Nat) (s : Sym) (τ : Ty) (l : List (Place × Nat)) (R : Expr F → Prop), usesInFields P lo j = some l → Watch s τ R lo j os c l → o.Comp (Only s R)

theorem isLoc_eq {a : Script F} (h : isLoc j a = true) : a = .loc j := by
  cases a <;> simp [isLoc] at h
  rw [h]

/-- Operands of scalar operations. -/
theorem clean_operand {P : Script F} (hP : Clean I P) {t : UTy} {y : ScalarLike F} {x : List Nat} (h : Around I Γ c lv ts os ds) (ht : typ P ts = some t)
    (hm : make P os c = some (.scalar y, c')) (hx : deps P lv.length ds = some x) (hs : settled P lv.length ds = true)
    (hu : (if isLoc j P then some [] else uses P lo j) = some l) (w : Watch s τ R lo j os c l) : Only s R (wrap y) := by
  split at hu
  · rename_i hl
    cases isLoc_eq hl
    simp only [make, w.here, Option.map_some, Option.some.injEq, Prod.mk.injEq, Obj.scalar.injEq] at hm
    rw [← hm.1]
    exact Only.store
  · have := hP _ _ _ _ _ _ _ _ _ _ h ht hm hx hs _ _ _ _ _ _ hu w
    simp only [Obj.Comp] at this
    exact this.2

theorem clean_loc (n : Nat) : Clean I (.loc n : Script F) := by
  intro ts t os Γ c o c' lv ds x h ht hm hx hs lo j s τ l R hu w
  simp only [make, Option.map_eq_some_iff, Prod.mk.injEq] at hm
  obtain ⟨o, ho, rfl, rfl⟩ := hm
  simp only [uses] at hu
  split at hu
  · cases hu
  · rename_i hn
    exact w.rest n _ hn ho

theorem clean_lit (a : Scal F) : Clean I (.lit a : Script F) := by
  intro ts t os Γ c o c' lv ds x h ht hm hx hs lo j s τ l R hu w
  simp only [make, Option.some.injEq, Prod.mk.injEq] at hm
  obtain ⟨rfl, rfl⟩ := hm
  simp only [scalarObj, Obj.Comp, wrap]
  exact Good.node (by simp) (by simp) (by simp)

theorem clean_assign {a b : Script F} (ha : Clean I a) (hb : Clean I b) : Clean I (.assign a b) := by
  intro ts t os Γ c o c' lv ds x h ht hm hx hs lo j s τ l R hu w
  simp only [typ, Option.bind_eq_some_iff] at ht
  obtain ⟨t1, ht1, ht2⟩ := ht
  simp only [make, Option.bind_eq_some_iff] at hm
  obtain ⟨⟨o1, c1⟩, hm1, hm2⟩ := hm
  simp only [deps, Option.bind_eq_some_iff] at hx
  obtain ⟨x1, hx1, hx2⟩ := hx
  simp only [settled, hx1, Option.any_some, Bool.and_eq_true] at hs
  obtain ⟨l1, l2, hu1, hu2, rfl⟩ := bind_map_append hu
  have A := h.made ht1 hm1
  have := ha _ _ _ _ _ _ _ _ _ _ h ht1 hm1 hx1 hs.1 _ _ _ _ _ _ hu1 (w.mono (le_refl c) (by simp +contextual))
  exact hb _ _ _ _ _ _ _ _ _ _ (h.cons A.grows A.ok A.has (h.comps ht1 hm1 hx1)) ht2 hm2 hx2 hs.2 _ _ _ _ _ _ hu2
    ((w.mono A.grows (by simp +contextual)).cons this)

theorem clean_un {f : ScalarOp} {a : Script F} (ha : Clean I a) : Clean I (.un f a) := by
  intro ts t os Γ c o c' lv ds x h ht hm hx hs lo j s τ l R hu w
  simp only [typ, Option.bind_eq_some_iff, Option.map_eq_some_iff] at ht
  obtain ⟨k, ⟨t1, ht1, hk⟩, k', hk', rfl⟩ := ht
  simp only [make, Option.bind_eq_some_iff, Option.map_eq_some_iff, Prod.mk.injEq] at hm
  obtain ⟨⟨o1, c1⟩, hm1, y, hy, rfl, rfl⟩ := hm
  simp only [deps] at hx
  simp only [settled] at hs
  simp only [uses] at hu
  cases o1 <;> simp only [scalarOf, reduceCtorEq, Option.some.injEq] at hy
  subst hy
  simp only [scalarObj, Obj.Comp]
  exact Good.node (by simp) (by simp) (by simpa using clean_operand ha h ht1 hm1 hx hs hu w)

theorem clean_bin {f : PyOp} {a b : Script F} (ha : Clean I a) (hb : Clean I b) : Clean I (.bin f a b) := by
  intro ts t os Γ c o c' lv ds x h ht hm hx hs lo j s τ l R hu w
  simp only [typ, Option.bind_eq_some_iff, Option.map_eq_some_iff] at ht
  obtain ⟨k1, ⟨t1, ht1, hk1⟩, k2, ⟨t2, ht2, hk2⟩, k', hk', rfl⟩ := ht
  simp only [make, Option.bind_eq_some_iff, Option.map_eq_some_iff, Prod.mk.injEq] at hm
  obtain ⟨⟨o1, c1⟩, hm1, ⟨o2, c2⟩, hm2, y, hy, z, hz, rfl, rfl⟩ := hm
  simp only [deps, Option.bind_eq_some_iff, Option.map_eq_some_iff] at hx
  obtain ⟨x1, hx1, x2, hx2, rfl⟩ := hx
  simp only [settled, Bool.and_eq_true] at hs
  obtain ⟨l1, l2, hu1, hu2, rfl⟩ := bind_map_append hu
  cases o1 <;> simp only [scalarOf, reduceCtorEq, Option.some.injEq] at hy
  cases o2 <;> simp only [scalarOf, reduceCtorEq, Option.some.injEq] at hz
  subst hy hz
  have A := h.made ht1 hm1
  simp only [scalarObj, Obj.Comp]
  exact Only.method f (clean_operand ha h ht1 hm1 hx1 hs.1 hu1 (w.mono (le_refl c) (by simp +contextual)))
    (clean_operand hb (h.mono A.grows) ht2 hm2 hx2 hs.2 hu2 (w.mono A.grows (by simp +contextual)))

theorem clean_choose {a b e : Script F} (ha : Clean I a) (hb : Clean I b) (he : Clean I e) : Clean I (.choose a b e) := by
  intro ts t os Γ c o c' lv ds x h ht hm hx hs lo j s τ l R hu w
  simp only [typ, Option.bind_eq_some_iff, Option.map_eq_some_iff] at ht
  obtain ⟨k1, ⟨t1, ht1, hk1⟩, k2, ⟨t2, ht2, hk2⟩, k3, ⟨t3, ht3, hk3⟩, k', hk', rfl⟩ := ht
  simp only [make, Option.bind_eq_some_iff, Option.map_eq_some_iff, Prod.mk.injEq] at hm
  obtain ⟨⟨o1, c1⟩, hm1, ⟨o2, c2⟩, hm2, ⟨o3, c3⟩, hm3, y, hy, z, hz, v, hv, rfl, rfl⟩ := hm
  simp only [deps, Option.bind_eq_some_iff, Option.map_eq_some_iff] at hx
  obtain ⟨x1, hx1, x2, hx2, x3, hx3, rfl⟩ := hx
  simp only [settled, Bool.and_eq_true] at hs
  simp only [uses, Option.bind_eq_some_iff, Option.map_eq_some_iff] at hu
  obtain ⟨l1, hu1, l2, hu2, l3, hu3, rfl⟩ := hu
  cases o1 <;> simp only [scalarOf, reduceCtorEq, Option.some.injEq] at hy
  cases o2 <;> simp only [scalarOf, reduceCtorEq, Option.some.injEq] at hz
  cases o3 <;> simp only [scalarOf, reduceCtorEq, Option.some.injEq] at hv
  subst hy hz hv
  have h1 := h.mono (h.made ht1 hm1).grows
  have h2 := h1.mono (h1.made ht2 hm2).grows
  have g1 := (h.made ht1 hm1).grows
  have g2 := (h1.made ht2 hm2).grows
  have A := clean_operand ha h ht1 hm1 hx1 hs.1 hu1 (w.mono (le_refl c) (by simp +contextual))
  have B := clean_operand hb h1 ht2 hm2 hx2 hs.2.1 hu2 (w.mono g1 (by simp +contextual))
  have D := clean_operand he h2 ht3 hm3 hx3 hs.2.2 hu3 (w.mono (g1.trans g2) (by simp +contextual))
  simp only [scalarObj, Obj.Comp]
  exact Good.node (by simp) (by simp) (by simpa using ⟨A, B, D⟩)

/-- What is read from at a place is an array. -/
theorem place_vec {lo : Nat} {p : Place} {os : List (Obj F)} :
    ∀ {k : Nat} {x : Script F} {c c' : Nat} {e : Expr F} {sub : Layout}, placeOf lo x = some (p, k) →
    make x os c = some (.vec e sub, c') → ∃ a sub', p.obj (os.drop lo) = some (.vec a sub')
  | 0, x, c, c', e, sub, hp, hm => ⟨_, _, place_obj hp hm⟩
  | k + 1, x, c, c', e, sub, hp, hm => by
    cases x with
    | item x i =>
      simp only [placeOf, Option.map_eq_some_iff, Prod.mk.injEq] at hp
      obtain ⟨⟨p', k'⟩, hp', rfl, hk⟩ := hp
      simp only [Nat.add_right_cancel_iff] at hk
      subst hk
      simp only [make, Option.bind_eq_some_iff] at hm
      obtain ⟨⟨o1, c1⟩, hm1, ⟨o2, c2⟩, hm2, b, hb, hg⟩ := hm
      cases o1 with
      | vec e0 sub0 => exact place_vec hp' hm1
      | _ => simp [getItem] at hg
    | loc n => simp only [placeOf] at hp; split at hp <;> simp at hp
    | part x i =>
      simp only [placeOf, Option.bind_eq_some_iff] at hp
      obtain ⟨_, _, hp⟩ := hp
      split at hp <;> simp at hp
    | field x i =>
      simp only [placeOf, Option.bind_eq_some_iff] at hp
      obtain ⟨_, _, hp⟩ := hp
      split at hp <;> simp at hp
    | _ => simp [placeOf] at hp

theorem clean_item {a b : Script F} (ha : Clean I a) (hb : Clean I b) : Clean I (.item a b) := by
  intro ts t os Γ c o c' lv ds x h ht hm hx hs lo j s τ l R hu w
  simp only [typ, Option.bind_eq_some_iff, Option.some.injEq] at ht
  obtain ⟨t', ⟨t1, ht1, he⟩, k, ⟨t2, ht2, hk⟩, rfl⟩ := ht
  cases elem_arr he
  cases kind_sc hk
  simp only [make, Option.bind_eq_some_iff] at hm
  obtain ⟨⟨o1, c1⟩, hm1, ⟨o2, c2⟩, hm2, y, hy, hg⟩ := hm
  simp only [deps, Option.bind_eq_some_iff, Option.map_eq_some_iff] at hx
  obtain ⟨x1, hx1, x2, hx2, rfl⟩ := hx
  simp only [settled, Bool.and_eq_true] at hs
  simp only [uses, Option.bind_eq_some_iff] at hu
  obtain ⟨l1, hu1, hu⟩ := hu
  have MA := h.made ht1 hm1
  have h1 := h.mono MA.grows
  obtain ⟨e, rfl, he'⟩ := MA.has.vec
  obtain ⟨a', rfl, ha'⟩ := (h1.made ht2 hm2).has.scalar
  cases hy
  simp only [getItem, Option.some.injEq, Prod.mk.injEq] at hg
  obtain ⟨rfl, rfl⟩ := hg
  refine Good.unpack _ ?_
  split at hu
  · rename_i hl
    obtain ⟨q, hq, rfl⟩ := Option.map_eq_some_iff.1 hu
    have A := ha _ _ _ _ _ _ _ _ _ _ h ht1 hm1 hx1 hs.1 _ _ _ _ _ _ hu1 (w.mono (le_refl c) (by simp +contextual))
    simp only [Obj.Comp] at A
    cases isLoc_eq hl
    simp only [make, w.here, Option.map_some, Option.some.injEq, Prod.mk.injEq, Obj.scalar.injEq] at hm2
    obtain ⟨rfl, rfl⟩ := hm2
    refine A.get Only.store fun _ _ _ => ?_
    obtain ⟨p, k⟩ := q
    obtain ⟨a0, sub', h0⟩ := place_vec hq hm1
    obtain ⟨is, hlen, rfl⟩ := place_gets h0 hq hm1
    exact w.only (p, k) (by simp) _ _ _ h0 hlen
  · obtain ⟨l2, hu2, rfl⟩ := Option.map_eq_some_iff.1 hu
    have A := ha _ _ _ _ _ _ _ _ _ _ h ht1 hm1 hx1 hs.1 _ _ _ _ _ _ hu1 (w.mono (le_refl c) (by simp +contextual))
    have B := hb _ _ _ _ _ _ _ _ _ _ h1 ht2 hm2 hx2 hs.2 _ _ _ _ _ _ hu2 (w.mono MA.grows (by simp +contextual))
    simp only [Obj.Comp] at A B
    exact A.get B.2 fun τ us hi => absurd hi (B.1 τ us)

theorem clean_size {a : Script F} {k : Nat} (ha : Clean I a) : Clean I (.size a k) := by
  intro ts t os Γ c o c' lv ds x h ht hm hx hs lo j s τ l R hu w
  simp only [typ, Option.bind_eq_some_iff, Option.map_eq_some_iff] at ht
  obtain ⟨t', ⟨t1, ht1, he⟩, rfl⟩ := ht
  simp only [make, Option.bind_eq_some_iff, Option.map_eq_some_iff, Prod.mk.injEq] at hm
  obtain ⟨⟨o1, c1⟩, hm1, q, hq, rfl, rfl⟩ := hm
  simp only [deps] at hx
  simp only [settled] at hs
  simp only [uses] at hu
  have A := ha _ _ _ _ _ _ _ _ _ _ h ht1 hm1 hx hs _ _ _ _ _ _ hu w
  cases o1 <;> simp only [vecOf?, reduceCtorEq, Option.some.injEq] at hq
  subst hq
  simp only [Obj.Comp] at A
  simp only [scalarObj, Obj.Comp]
  exact Good.node (by simp) (by simp) (by simpa using A.2)

theorem clean_concat {a b : Script F} (ha : Clean I a) (hb : Clean I b) : Clean I (.concat a b) := by
  intro ts t os Γ c o c' lv ds x h ht hm hx hs lo j s τ l R hu w
  simp only [typ, Option.bind_eq_some_iff] at ht
  obtain ⟨t', ⟨t1, ht1, he⟩, t'', ⟨t2, ht2, he2⟩, ht⟩ := ht
  simp only [make, Option.bind_eq_some_iff] at hm
  obtain ⟨⟨o1, c1⟩, hm1, ⟨o2, c2⟩, hm2, q, hq, q', hq', hm⟩ := hm
  simp only [deps, Option.bind_eq_some_iff, Option.map_eq_some_iff] at hx
  obtain ⟨x1, hx1, x2, hx2, rfl⟩ := hx
  simp only [settled, Bool.and_eq_true] at hs
  obtain ⟨l1, l2, hu1, hu2, rfl⟩ := bind_map_append hu
  have g := (h.made ht1 hm1).grows
  have A := ha _ _ _ _ _ _ _ _ _ _ h ht1 hm1 hx1 hs.1 _ _ _ _ _ _ hu1 (w.mono (le_refl c) (by simp +contextual))
  have B := hb _ _ _ _ _ _ _ _ _ _ (h.mono g) ht2 hm2 hx2 hs.2 _ _ _ _ _ _ hu2 (w.mono g (by simp +contextual))
  cases o1 <;> simp only [vecOf?, reduceCtorEq, Option.some.injEq] at hq
  cases o2 <;> simp only [vecOf?, reduceCtorEq, Option.some.injEq] at hq'
  subst hq hq'
  simp only [Obj.Comp] at A B
  split at hm
  · simp only [Option.some.injEq, Prod.mk.injEq] at hm
    obtain ⟨rfl, rfl⟩ := hm
    simp only [Obj.Comp]
    exact Good.node (by simp) (by simp) (by simpa using ⟨A.2, B.2⟩)
  · cases hm

theorem clean_record {k : RecKind} {fs : SFields F} (hf : CleanF I fs) : Clean I (.record k fs) := by
  intro ts t os Γ c o c' lv ds x h ht hm hx hs lo j s τ l R hu w
  simp only [typ, Option.bind_eq_some_iff] at ht
  obtain ⟨ps, hps, ht⟩ := ht
  simp only [make, Option.map_eq_some_iff, Prod.mk.injEq] at hm
  obtain ⟨⟨o, c1⟩, hm1, rfl, rfl⟩ := hm
  simp only [Obj.Comp]
  exact hf _ _ _ _ _ _ _ _ _ _ h hps hm1 hx hs _ _ _ _ _ _ hu w

theorem clean_field {a : Script F} {n : String} (ha : Clean I a) : Clean I (.field a n) := by
  intro ts t os Γ c o c' lv ds x h ht hm hx hs lo j s τ l R hu w
  simp only [typ, Option.bind_eq_some_iff] at ht
  obtain ⟨t1, ht1, hf⟩ := ht
  simp only [make, Option.bind_eq_some_iff, Option.map_eq_some_iff, Prod.mk.injEq] at hm
  obtain ⟨⟨o1, c1⟩, hm1, o, ho, rfl, rfl⟩ := hm
  exact parts_comp [.inr n] (ha _ _ _ _ _ _ _ _ _ _ h ht1 hm1 hx hs _ _ _ _ _ _ hu w) (by simpa using ho)

theorem clean_part {a : Script F} {n : Nat} (ha : Clean I a) : Clean I (.part a n) := by
  intro ts t os Γ c o c' lv ds x h ht hm hx hs lo j s τ l R hu w
  simp only [typ, Option.bind_eq_some_iff] at ht
  obtain ⟨t1, ht1, hf⟩ := ht
  simp only [make, Option.bind_eq_some_iff, Option.map_eq_some_iff, Prod.mk.injEq] at hm
  obtain ⟨⟨o1, c1⟩, hm1, o, ho, rfl, rfl⟩ := hm
  exact parts_comp [.inl n] (ha _ _ _ _ _ _ _ _ _ _ h ht1 hm1 hx hs _ _ _ _ _ _ hu w) (by simpa using ho)

theorem cleanF_nil : CleanF I (.nil : SFields F) := by
  intro ts t os Γ c o c' lv ds x h ht hm hx hs lo j s τ l R hu w
  simp only [makeFields, Option.some.injEq, Prod.mk.injEq] at hm
  obtain ⟨rfl, rfl⟩ := hm
  simp only [Fields.Comp]

theorem cleanF_cons {n : String} {a : Script F} {rest : SFields F} (ha : Clean I a) (hr : CleanF I rest) : CleanF I (.cons n a rest) := by
  intro ts t os Γ c o c' lv ds x h ht hm hx hs lo j s τ l R hu w
  simp only [typFields, Option.bind_eq_some_iff, Option.map_eq_some_iff] at ht
  obtain ⟨t1, ht1, ps, hps, rfl⟩ := ht
  simp only [makeFields, Option.bind_eq_some_iff, Option.map_eq_some_iff, Prod.mk.injEq] at hm
  obtain ⟨⟨o1, c1⟩, hm1, ⟨o2, c2⟩, hm2, rfl, rfl⟩ := hm
  simp only [depsFields, Option.bind_eq_some_iff, Option.map_eq_some_iff] at hx
  obtain ⟨x1, hx1, x2, hx2, rfl⟩ := hx
  simp only [settledFields, Bool.and_eq_true] at hs
  obtain ⟨l1, l2, hu1, hu2, rfl⟩ := bind_map_append hu
  have g := (h.made ht1 hm1).grows
  simp only [Fields.Comp]
  exact ⟨ha _ _ _ _ _ _ _ _ _ _ h ht1 hm1 hx1 hs.1 _ _ _ _ _ _ hu1 (w.mono (le_refl c) (by simp +contextual)),
    hr _ _ _ _ _ _ _ _ _ _ (h.mono g) hps hm2 hx2 hs.2 _ _ _ _ _ _ hu2 (w.mono g (by simp +contextual))⟩

theorem cleanIn_of {P : Script F} (hP : Clean I P) (hu : ∀ lo j, usesIn P lo j = if isLoc j P then some [] else uses P lo j) : CleanIn I P := by
  intro ts t os Γ c o c' lv ds x h ht hm hx hs lo j s τ l R h' w
  rw [hu] at h'
  split at h'
  · rename_i hl
    cases isLoc_eq hl
    simp only [make, w.here, Option.map_some, Option.some.injEq, Prod.mk.injEq] at hm
    rw [← hm.1]
    simp only [Obj.Comp, wrap]
    exact Only.store
  · exact (hP _ _ _ _ _ _ _ _ _ _ h ht hm hx hs _ _ _ _ _ _ h' w).imp fun _ h => h.2

theorem cleanIn_assign {a b : Script F} (ha : Clean I a) (hb : CleanIn I b) : CleanIn I (.assign a b) := by
  intro ts t os Γ c o c' lv ds x h ht hm hx hs lo j s τ l R hu w
  simp only [typ, Option.bind_eq_some_iff] at ht
  obtain ⟨t1, ht1, ht2⟩ := ht
  simp only [make, Option.bind_eq_some_iff] at hm
  obtain ⟨⟨o1, c1⟩, hm1, hm2⟩ := hm
  simp only [deps, Option.bind_eq_some_iff] at hx
  obtain ⟨x1, hx1, hx2⟩ := hx
  simp only [settled, hx1, Option.any_some, Bool.and_eq_true] at hs
  obtain ⟨l1, l2, hu1, hu2, rfl⟩ := bind_map_append hu
  have A := h.made ht1 hm1
  have := ha _ _ _ _ _ _ _ _ _ _ h ht1 hm1 hx1 hs.1 _ _ _ _ _ _ hu1 (w.mono (le_refl c) (by simp +contextual))
  exact hb _ _ _ _ _ _ _ _ _ _ (h.cons A.grows A.ok A.has (h.comps ht1 hm1 hx1)) ht2 hm2 hx2 hs.2 _ _ _ _ _ _ hu2
    ((w.mono A.grows (by simp +contextual)).cons this)

theorem cleanIn_record {k : RecKind} {fs : SFields F} (hf : CleanInF I fs) : CleanIn I (.record k fs) := by
  intro ts t os Γ c o c' lv ds x h ht hm hx hs lo j s τ l R hu w
  simp only [typ, Option.bind_eq_some_iff] at ht
  obtain ⟨ps, hps, ht⟩ := ht
  simp only [make, Option.map_eq_some_iff, Prod.mk.injEq] at hm
  obtain ⟨⟨o, c1⟩, hm1, rfl, rfl⟩ := hm
  simp only [Obj.Comp]
  exact hf _ _ _ _ _ _ _ _ _ _ h hps hm1 hx hs _ _ _ _ _ _ hu w

theorem cleanInF_nil : CleanInF I (.nil : SFields F) := by
  intro ts t os Γ c o c' lv ds x h ht hm hx hs lo j s τ l R hu w
  simp only [makeFields, Option.some.injEq, Prod.mk.injEq] at hm
  obtain ⟨rfl, rfl⟩ := hm
  simp only [Fields.Comp]

theorem cleanInF_cons {n : String} {a : Script F} {rest : SFields F} (ha : CleanIn I a) (hr : CleanInF I rest) : CleanInF I (.cons n a rest) := by
  intro ts t os Γ c o c' lv ds x h ht hm hx hs lo j s τ l R hu w
  simp only [typFields, Option.bind_eq_some_iff, Option.map_eq_some_iff] at ht
  obtain ⟨t1, ht1, ps, hps, rfl⟩ := ht
  simp only [makeFields, Option.bind_eq_some_iff, Option.map_eq_some_iff, Prod.mk.injEq] at hm
  obtain ⟨⟨o1, c1⟩, hm1, ⟨o2, c2⟩, hm2, rfl, rfl⟩ := hm
  simp only [depsFields, Option.bind_eq_some_iff, Option.map_eq_some_iff] at hx
  obtain ⟨x1, hx1, x2, hx2, rfl⟩ := hx
  simp only [settledFields, Bool.and_eq_true] at hs
  obtain ⟨l1, l2, hu1, hu2, rfl⟩ := bind_map_append hu
  have g := (h.made ht1 hm1).grows
  simp only [Fields.Comp]
  exact ⟨ha _ _ _ _ _ _ _ _ _ _ h ht1 hm1 hx1 hs.1 _ _ _ _ _ _ hu1 (w.mono (le_refl c) (by simp +contextual)),
    hr _ _ _ _ _ _ _ _ _ _ (h.mono g) hps hm2 hx2 hs.2 _ _ _ _ _ _ hu2 (w.mono g (by simp +contextual))⟩

/-! ### Comprehensions and folds -/

theorem Watch.ne (w : Watch s τ R lo j os c l) {s' : Sym} (h : c ≤ symNum s') : s' ≠ s := by
  rintro rfl
  exact absurd w.lt (by omega)

theorem clean_array {n b : Script F} (hn : Clean I n) (hb : Clean I b) : Clean I (.array n b) := by
  intro ts t os Γ c o c' lv ds x h ht hm hx hs lo j s τ l R hu w
  simp only [typ, Option.bind_eq_some_iff] at ht
  obtain ⟨k, ⟨t1, ht1, hk⟩, ht⟩ := ht
  split at ht
  · obtain ⟨t, ht2, rfl⟩ := Option.map_eq_some_iff.1 ht
    simp only [deps, Option.bind_eq_some_iff] at hx
    obtain ⟨x1, hx1, hx⟩ := hx
    split at hx
    · obtain ⟨x2, hx2, rfl⟩ := Option.map_eq_some_iff.1 hx
      obtain ⟨c1, a, rb, lay, body, hm1, hrb, hl, hbody, rfl⟩ := array_parts hm
      simp only [settled, Bool.and_eq_true] at hs
      obtain ⟨l1, l2, hu1, hu2, rfl⟩ := bind_map_append hu
      have g := (h.made ht1 hm1).grows
      have A := hn _ _ _ _ _ _ _ _ _ _ h ht1 hm1 hx1 hs.1 _ _ _ _ _ _ hu1 (w.mono (le_refl c) (by simp +contextual))
      have w1 : Watch s τ R lo j os (c1 + 1) l2 := w.mono (by omega) (by simp +contextual)
      have B := hb _ _ _ _ _ _ _ _ _ _ (h.mono g).index ht2 hrb (by simpa using hx2) (by simpa using hs.2) _ _ _ _ _ _ hu2
        (w1.cons (o := .scalar (.scalar (at_ c1))) (by simp only [Obj.Comp, wrap]; exact Good.other (w.ne (by simpa [symNum] using g))))
      simp only [Obj.Comp] at A ⊢
      exact Good.node (by simp) (by simp) (by simpa using ⟨A.2, (Good.pack B hbody).2⟩)
    · cases hx
  · cases ht

/-- The local variables in the body of a fold. -/
theorem Watch.step (w : Watch s τ R lo j os c l) (hc : c ≤ c') (lay : Layout) (σ σ' : Ty) :
    Watch s τ R (lo + 2) (j + 2) (.scalar (.scalar (var c' σ')) :: unpack lay (var (c' + 1) σ) :: os) (c' + 2) l := by
  refine Watch.cons (lo := lo + 1) (j := j + 1) ((w.mono (by omega) fun _ h => h).cons (Good.unpack _ (Good.other (w.ne ?_)))) ?_
  · simp [symNum]; omega
  · simp only [Obj.Comp, wrap]
    exact Good.other (w.ne (by simpa [symNum] using hc))

theorem clean_fold {n z b : Script F} (hn : Clean I n) (hz : Clean I z) (hb : Clean I b) : Clean I (.fold n z b) := by
  intro ts t os Γ c o c' lv ds x h ht hm hx hs lo j s τ l R hu w
  simp only [typ, Option.bind_eq_some_iff] at ht
  obtain ⟨k, ⟨t1, ht1, hk⟩, ht⟩ := ht
  split at ht
  · simp only [Option.bind_eq_some_iff] at ht
    obtain ⟨t0, ht2, t3, ht3, ht⟩ := ht
    split at ht
    · rename_i hsame
      cases ht
      cases UTy.same_eq hsame
      simp only [deps, Option.bind_eq_some_iff, Option.map_eq_some_iff] at hx
      obtain ⟨x1, hx1, x2, hx2, x3, hx3, rfl⟩ := hx
      obtain ⟨oz, c0, c1, a, lay, ez, σ, rb, body, hmz, hm1, hl, hez, hτ, hrb, hbody, rfl⟩ := fold_parts hm
      simp only [settled, Bool.and_eq_true] at hs
      simp only [uses, Option.bind_eq_some_iff, Option.map_eq_some_iff] at hu
      obtain ⟨l1, hu1, l2, hu2, l3, hu3, rfl⟩ := hu
      have Z := h.made ht2 hmz
      have h0 := h.mono Z.grows
      have A := h0.made ht1 hm1
      have hZ := Z.has.mono A.grows (Extends.refl h0.below)
      cases (Has.build Z.ok hZ).1.symm.trans hl
      obtain ⟨ez', hpz, hsz⟩ := Has.pack Z.ok hZ
      cases hpz.symm.trans hez
      cases hsz.typed.symm.trans hτ
      have GZ := hz _ _ _ _ _ _ _ _ _ _ h ht2 hmz hx2 hs.2.1 _ _ _ _ _ _ hu2 (w.mono (le_refl c) (by simp +contextual))
      have GN := hn _ _ _ _ _ _ _ _ _ _ h0 ht1 hm1 hx1 hs.1 _ _ _ _ _ _ hu1 (w.mono Z.grows (by simp +contextual))
      have w3 : Watch s τ R lo j os c l3 := w.mono (le_refl c) (by simp +contextual)
      have GB := hb _ _ _ _ _ _ _ _ _ _ ((h0.mono A.grows).step Z.ok) ht3 hrb hx3 hs.2.2 _ _ _ _ _ _ hu3
        (w3.step (Z.grows.trans A.grows) _ _ _)
      simp only [Obj.Comp] at GN
      exact Good.unpack _ (Good.node (by simp) (by simp) (by simpa using ⟨GN.2, (Good.pack GZ hez).2, (Good.pack GB hbody).2⟩))
    · cases ht
  · cases ht

theorem clean_reduce {a z b : Script F} (ha : Clean I a) (hz : Clean I z) (hb : Clean I b) : Clean I (.reduce a z b) := by
  intro ts t os Γ c o c' lv ds x h ht hm hx hs lo j s τ l R hu w
  simp only [typ, Option.bind_eq_some_iff] at ht
  obtain ⟨t1, ⟨t0, ht1, hk⟩, t2, ht2, t3, ht3, ht⟩ := ht
  cases elem_arr hk
  split at ht
  · rename_i hsame
    cases ht
    rw [Bool.and_eq_true] at hsame
    cases UTy.same_eq hsame.1
    cases UTy.same_eq hsame.2
    simp only [make, Option.bind_eq_some_iff] at hm
    obtain ⟨⟨o1, c0⟩, hm1, ⟨oz, c1⟩, hmz, hq⟩ := hm
    simp only [deps, Option.bind_eq_some_iff, Option.map_eq_some_iff] at hx
    obtain ⟨x1, hx1, x2, hx2, x3, hx3, rfl⟩ := hx
    simp only [settled, Bool.and_eq_true] at hs
    simp only [uses, Option.bind_eq_some_iff, Option.map_eq_some_iff] at hu
    obtain ⟨l1, hu1, l2, hu2, l3, hu3, rfl⟩ := hu
    have A := h.made ht1 hm1
    have h0 := h.mono A.grows
    have Z := h0.made ht2 hmz
    have h1 := h0.mono Z.grows
    obtain ⟨e, rfl, he⟩ := A.has.vec
    obtain ⟨hbz, hzok⟩ := Has.build Z.ok Z.has
    obtain ⟨ez, hpz, hsz⟩ := Has.pack Z.ok Z.has
    simp only [reducePy, he.typed, Option.bind_eq_some_iff] at hq
    obtain ⟨⟨rb, c3⟩, hrb, lay, hl, hq⟩ := hq
    dsimp only at hl hq
    have h2 := h1.pair Z.ok
    have B := h2.made ht3 hrb
    obtain ⟨hbuild, hrok⟩ := Has.build B.ok B.has
    cases hbuild.symm.trans hl
    obtain ⟨body, hp, hsane⟩ := Has.pack B.ok B.has
    simp only [if_true, hbz, hpz, hp, Option.bind_some, Option.some.injEq, Prod.mk.injEq] at hq
    obtain ⟨rfl, rfl⟩ := hq
    have GA := ha _ _ _ _ _ _ _ _ _ _ h ht1 hm1 hx1 hs.1 _ _ _ _ _ _ hu1 (w.mono (le_refl c) (by simp +contextual))
    have GZ := hz _ _ _ _ _ _ _ _ _ _ h0 ht2 hmz hx2 hs.2.1 _ _ _ _ _ _ hu2 (w.mono A.grows (by simp +contextual))
    have g := A.grows.trans Z.grows
    have w3 : Watch s τ R lo j os (c1 + 2) l3 := w.mono (by omega) (by simp +contextual)
    have w4 : Watch s τ R (lo + 2) (j + 2) (unpack t.layout (var c1 t.ty) :: unpack t.layout (var (c1 + 1) t.ty) :: os) (c1 + 2) l3 := by
      refine Watch.cons (lo := lo + 1) (j := j + 1) (w3.cons (Good.unpack _ (Good.other (w.ne ?_)))) (Good.unpack _ (Good.other (w.ne ?_)))
      · simp [symNum]; omega
      · simpa [symNum] using g
    have GB := hb _ _ _ _ _ _ _ _ _ _ h2 ht3 hrb hx3 hs.2.2 _ _ _ _ _ _ hu3 w4
    simp only [Obj.Comp] at GA
    exact Good.unpack _ (Good.node (by simp) (by simp) (by simpa using ⟨(Good.pack GZ hpz).2, (Good.pack GB hp).2, GA.2⟩))
  · cases ht

/-- What holds of the local variables holds at places. -/
theorem place_all {Q : Expr F → Prop} {p : Place} {o : Obj F} (H : ∀ o, os[p.loc]? = some o → o.Comp Q) (h : p.obj os = some o) : o.Comp Q := by
  unfold Place.obj at h
  cases ho : os[p.loc]? with
  | none =>
    rw [ho] at h
    exact absurd (h.symm.trans (foldl_bind_none (fun (o : Obj F) (q : Nat ⊕ String) => match q with | .inl i => partObj i o | .inr n => fieldObj n o) p.parts)) (by simp)
  | some o' =>
    rw [ho] at h
    exact parts_comp _ (H o' ho) h

theorem locals_scoped (h : Around I Γ c lv ts os ds) {i : Nat} {o : Obj F} (ho : os[i]? = some o) : o.Comp Scoped := by
  obtain ⟨hl, hh⟩ := List.forall₂_iff_get.1 h.has
  obtain ⟨h1, rfl⟩ := List.getElem?_eq_some_iff.1 ho
  exact (hh i (by omega) h1).scoped

/-- The hints in a body are the sizes of the arrays that are read at the index. -/
theorem hints {b : Script F} (hb : CleanIn I b) (h : Around I Γ c lv ts os ds) {Γ' : TCtx} {c2 : Nat} {lv' : List Nat} {ts' : List UTy} {os' : List (Obj F)}
    {ds' : List (List Nat)} (h' : Around I Γ' c2 lv' ts' os' ds') {t : UTy} {rb : Obj F} {x : List Nat} {body : Expr F} (ht : typ b ts' = some t)
    (hrb : make b os' c2 = some (rb, c')) (hp : pack t.layout rb = some body) (hx : deps b lv'.length ds' = some x)
    (hs : settled b lv'.length ds' = true) (hu : usesIn b lo j = some l) (hdrop : os'.drop lo = os) (h0 : ∀ q ∈ l, ds[q.1.loc]? = some [])
    (here : os'[j]? = some (.scalar (.scalar (node (.store s τ) [])))) (hlt : symNum s < c2)
    (rest : ∀ (R : Expr F → Prop) (i : Nat) (o : Obj F), i ≠ j → os'[i]? = some o → o.Comp (Good s R)) {e : Expr F} {C : Finset Sym}
    (he : e ∈ candidates body C s) : ∃ q ∈ l, ∃ a sub, q.1.obj os = some (.vec a sub) ∧ e = dimExpr a q.2 := by
  have hg := hb _ _ _ _ _ _ _ _ _ _ h' ht hrb hx hs _ _ s τ _
    (fun t => ∃ q ∈ l, ∃ a sub, ∃ is : List (Expr F), q.1.obj os = some (.vec a sub) ∧ is.length = q.2 ∧ t = gets a is) hu
    ⟨here, hlt, fun i o => rest _ i o, fun q hq a sub is ha hl => ⟨q, hq, a, sub, is, by rw [← hdrop]; exact ha, hl, rfl⟩⟩
  obtain ⟨X, τ', us, ho, rfl⟩ := candidates_target he
  obtain ⟨q, hq, a, sub, is, ha, hl, rfl⟩ := Only.pack hg hp X τ' us ho
  refine ⟨q, hq, a, sub, ha, ?_⟩
  rw [dimExpr_gets, Nat.zero_add, hl]
  have hi := place_comp h.comp (h0 q hq) ha
  have hsc := place_all (Q := Scoped) (fun o ho => locals_scoped h ho) ha
  simp only [Obj.Comp] at hi hsc
  refine atZero_of_none (Finset.eq_empty_of_forall_notMem fun x hx => ?_)
  rw [freeIndices, Finset.mem_filter] at hx
  have : x ∈ freeIndices a := Finset.mem_filter.2 ⟨fv_dimExpr hsc q.2 hx.1, hx.2⟩
  rw [hi.none_free] at this
  cases this

/-- The hints for the sizes of a comprehension. -/
theorem auto_all {k : Nat} {b : Script F} (hb : CleanIn I b) (h : Around I Γ c lv ts os ds) {t : UTy} {rb : Obj F} {x : List Nat} {body : Expr F}
    (ht : typ b (List.replicate (k + 1) (.sc .int) ++ ts) = some t) (hrb : make b (opened os (List.range' c (k + 1))) (c + (k + 1)) = some (rb, c'))
    (hp : pack t.layout rb = some body)
    (hx : deps b (lv.length + (k + 1)) (((List.range' lv.length (k + 1)).map fun i => [i]).reverse ++ ds) = some x)
    (hs : settled b (lv.length + (k + 1)) (((List.range' lv.length (k + 1)).map fun i => [i]).reverse ++ ds) = true) {m : Nat} (hm : m ≤ k)
    (hu : usesIn b (k + 1) (k - m) = some l) (h0 : ∀ q ∈ l, ds[q.1.loc]? = some []) {e : Expr F} {C : Finset Sym}
    (he : e ∈ candidates body C (.idx (c + m))) : ∃ q ∈ l, ∃ a sub, q.1.obj os = some (.vec a sub) ∧ e = dimExpr a q.2 := by
  refine hints hb h (h.indices (k + 1)) ht hrb hp (by simpa using hx) (by simpa using hs) hu (opened_drop os c (k + 1)) h0 (opened_get os hm)
    (by simp [symNum]; omega) (fun R i o hi ho => ?_) he
  by_cases hik : i ≤ k
  · have := opened_get os (c := c) (n := k) (m := k - i) (by omega)
    rw [show k - (k - i) = i by omega, ho] at this
    cases this
    simp only [Obj.Comp, wrap]
    refine Good.other fun he => hi ?_
    simp only [Sym.idx.injEq] at he
    omega
  · refine locals_good h (i := i - (k + 1)) (by simp [symNum]) ?_
    rw [← opened_drop os c (k + 1), List.getElem?_drop, show k + 1 + (i - (k + 1)) = i by omega]
    exact ho

/-- The hints for the count of a fold. -/
theorem autoFold_all {b : Script F} (hb : CleanIn I b) (h : Around I Γ c lv ts os ds) {t : UTy} {rb : Obj F} {x : List Nat} {body : Expr F}
    (htok : t.layout.ok = true) (ht : typ b (.sc .int :: t :: ts) = some t)
    (hrb : make b (.scalar (.scalar (var c (.scalar .int))) :: unpack t.layout (var (c + 1) t.ty) :: os) (c + 2) = some (rb, c'))
    (hp : pack t.layout rb = some body) (hx : deps b lv.length ([] :: [] :: ds) = some x) (hs : settled b lv.length ([] :: [] :: ds) = true)
    (hu : usesIn b 2 0 = some l) (h0 : ∀ q ∈ l, ds[q.1.loc]? = some []) {e : Expr F} {C : Finset Sym}
    (he : e ∈ candidates body C (.var c)) : ∃ q ∈ l, ∃ a sub, q.1.obj os = some (.vec a sub) ∧ e = dimExpr a q.2 := by
  refine hints hb h (h.step htok) ht hrb hp hx hs hu rfl h0 rfl (by simp [symNum]) (fun R i o hi ho => ?_) he
  rcases i with _ | _ | i
  · exact absurd rfl hi
  · cases ho
    exact Good.unpack _ (Good.other (by simp))
  · exact locals_good h (i := i) (by simp [symNum]) (by simpa using ho)

theorem Watch.opened (w : Watch s τ R lo j os c l) : ∀ {is : List Nat}, (∀ i ∈ is, c ≤ i) →
    Watch s τ R (lo + is.length) (j + is.length) (Frontend.opened os is) c l := by
  intro is
  induction is generalizing os lo j with
  | nil => intro _; simpa [Frontend.opened] using w
  | cons i is ih =>
    intro hi
    rw [opened_cons, List.length_cons, show lo + (is.length + 1) = lo + 1 + is.length by omega, show j + (is.length + 1) = j + 1 + is.length by omega]
    refine ih (w.cons ?_) fun i' h' => hi i' (by simp [h'])
    simp only [Obj.Comp, wrap]
    exact Good.other (w.ne (by simpa [symNum] using hi i (by simp)))

/-- Inferred sizes are computed from the hints. -/
theorem only_inferred {body n : Expr F} {symbols : List Sym} {initial : Finset Sym} {s' : Sym} (hn : inferSize body symbols initial s' = some n)
    (H : ∀ e ∈ candidates body (symbols.toFinset ∪ initial) s', Only s R e) : Only s R n := by
  obtain ⟨e, he, ⟨rfl, -⟩ | rfl⟩ := inferSize_eq hn
  · exact H _ he
  · refine Only.node (by simp) fun t ht => ?_
    rcases List.mem_cons.1 ht with rfl | ht
    · exact H _ he
    · exact H _ (mem_distinct.1 ht)

/-- Sizes of arrays outside. -/
theorem Watch.size (w : Watch s τ R lo j os c l) {p : Place} {a : Expr F} {sub : Layout} (h : p.obj os = some (.vec a sub)) (k : Nat) :
    Only s R (dimExpr a k) := by
  refine Only.dimExpr ?_ k
  by_cases hj : p.loc = j
  · unfold Place.obj at h
    rw [hj, w.here] at h
    cases hp : p.parts with
    | nil => rw [hp] at h; cases h
    | cons q qs =>
      rw [hp, List.foldl_cons] at h
      cases q <;> exact absurd (h.symm.trans (foldl_bind_none (fun (o : Obj F) (q : Nat ⊕ String) => match q with | .inl i => partObj i o | .inr n => fieldObj n o) qs)) (by simp)
  · have := place_all (Q := Good s R) (fun o ho => w.rest _ o hj ho) h
    simp only [Obj.Comp] at this
    exact this.2

theorem good_nest {body : Expr F} : ∀ {l : List (Nat × Expr F)}, (∀ q ∈ l, Only s R q.2) → Good s R body → Good s R (nest l body)
  | [], _, hb => hb
  | (i, n) :: l, hl, hb => Good.node (by simp) (by simp) (by
      simpa using ⟨hl (i, n) (by simp), (good_nest (fun q hq => hl q (by simp [hq])) hb).2⟩)

theorem usesAll_get {b : Script F} {k : Nat} {ls : List (List (Place × Nat))} (h : usesAll b k = some ls) :
    ls.length = k + 1 ∧ ∀ m ≤ k, ∃ l, usesIn b (k + 1) (k - m) = some l ∧ ls[m]? = some l := by
  have hl : ls.length = k + 1 := by rw [mapOpt_length h, List.length_range]
  refine ⟨hl, fun m hm => ?_⟩
  obtain ⟨l, hq⟩ : ∃ q, ls[m]? = some q := ⟨_, List.getElem?_eq_getElem (by omega)⟩
  have := hq
  rw [mapOpt_getElem? h, List.getElem?_range (by omega), Option.bind_some] at this
  exact ⟨l, this, hq⟩

theorem clean_auto {k : Nat} {b : Script F} (hb : Clean I b) (hb' : CleanIn I b) : Clean I (.auto k b) := by
  intro ts t os Γ c o c' lv ds x h ht hm hx hs lo j s τ l R hu w
  simp only [typ, Option.bind_eq_some_iff] at ht
  obtain ⟨rs, hrs, ht⟩ := ht
  split at ht
  · obtain ⟨t, ht', rfl⟩ := Option.map_eq_some_iff.1 ht
    simp only [deps, hrs, Option.bind_some] at hx
    split at hx
    · obtain ⟨x2, hx2, rfl⟩ := Option.map_eq_some_iff.1 hx
      obtain ⟨rb, lay, body, ns, hrb, hlay, hbody, hns, rfl⟩ := auto_parts hm
      simp only [settled, Bool.and_eq_true, Option.any_eq_true] at hs
      obtain ⟨⟨ls, hls, hall⟩, hs2⟩ := hs
      simp only [uses] at hu
      have h1 := h.indices (k + 1)
      have B := h1.made ht' hrb
      cases (Has.build B.ok B.has).1.symm.trans hlay
      have w1 := (w.opened (is := List.range' c (k + 1)) fun i hi => (List.mem_range'_1.1 hi).1).mono (c' := c + (k + 1)) (by omega) fun _ h => h
      rw [List.length_range'] at w1
      have GB := hb _ _ _ _ _ _ _ _ _ _ h1 ht' hrb (by simpa using hx2) (by simpa using hs2) _ _ _ _ _ _ hu w1
      simp only [Obj.Comp]
      refine good_nest (fun q hq => ?_) (Good.pack GB hbody)
      obtain ⟨m, hm⟩ := List.getElem?_of_mem (List.of_mem_zip hq).2
      have hmk : m ≤ k := by
        have := (List.getElem?_eq_some_iff.1 hm).1
        rw [mapOpt_length hns] at this
        simp at this
        omega
      rw [mapOpt_getElem? hns, List.getElem?_map, List.getElem?_range' (by omega)] at hm
      simp only [Option.map_some, Option.bind_some, Nat.one_mul] at hm
      obtain ⟨lm, hlm, hget⟩ := (usesAll_get hls).2 m hmk
      refine only_inferred hm fun e he => ?_
      obtain ⟨q', _, a, sub, ha, rfl⟩ := auto_all hb' h ht' hrb hbody hx2 hs2 hmk hlm
        (fun q hq => by simpa using List.all_eq_true.1 (List.all_eq_true.1 hall _ (List.mem_of_getElem? hget)) q hq) he
      exact w.size ha _
    · cases hx
  · cases ht

theorem clean_autoFold {z b : Script F} (hz : Clean I z) (hb : Clean I b) (hb' : CleanIn I b) : Clean I (.autoFold z b) := by
  intro ts t os Γ c o c' lv ds x h ht hm hx hs lo j s τ l R hu w
  simp only [typ, Option.bind_eq_some_iff] at ht
  obtain ⟨⟨p, k⟩, hq, te, ⟨tp, htp, hte⟩, t0, ht2, t3, ht3, ht⟩ := ht
  split at ht
  · rename_i hsame
    cases ht
    cases UTy.same_eq hsame
    simp only [deps, hq, Option.bind_some, Option.bind_eq_some_iff] at hx
    obtain ⟨xp, hxp, hx⟩ := hx
    split at hx
    · simp only [Option.bind_eq_some_iff, Option.map_eq_some_iff] at hx
      obtain ⟨x2, hx2, x3, hx3, rfl⟩ := hx
      obtain ⟨oz, c1, lay, ez, σ, rb, body, n, hmz, hl, hez, hτ, hrb, hbody, hn, rfl⟩ := autoFold_parts hm
      simp only [settled, Bool.and_eq_true, Option.any_eq_true] at hs
      obtain ⟨⟨l0, hl0, hall⟩, hs1, hs2⟩ := hs
      obtain ⟨l1, l2, hu1, hu2, rfl⟩ := bind_map_append hu
      have Z := h.made ht2 hmz
      have h1 := h.mono Z.grows
      cases (Has.build Z.ok Z.has).1.symm.trans hl
      obtain ⟨ez', hpz, hsz⟩ := Has.pack Z.ok Z.has
      cases hpz.symm.trans hez
      cases hsz.typed.symm.trans hτ
      have GZ := hz _ _ _ _ _ _ _ _ _ _ h ht2 hmz hx2 hs1 _ _ _ _ _ _ hu1 (w.mono (le_refl c) (by simp +contextual))
      have w2 : Watch s τ R lo j os c l2 := w.mono (le_refl c) (by simp +contextual)
      have GB := hb _ _ _ _ _ _ _ _ _ _ (h1.step Z.ok) ht3 hrb hx3 hs2 _ _ _ _ _ _ hu2 (w2.step Z.grows _ _ _)
      have GN : Only s R n := by
        refine only_inferred hn fun e he => ?_
        obtain ⟨q', _, a, sub, ha, rfl⟩ := autoFold_all hb' h1 Z.ok ht3 hrb hbody hx3 hs2 hl0
          (fun q hq => by simpa using List.all_eq_true.1 hall q hq) he
        exact w.size ha _
      exact Good.unpack _ (Good.node (by simp) (by simp) (by simpa using ⟨GN, (Good.pack GZ hez).2, (Good.pack GB hbody).2⟩))
    · cases hx
  · cases ht

theorem Clean.both {P : Script F} (hP : Clean I P) (hu : ∀ lo j, usesIn P lo j = if isLoc j P then some [] else uses P lo j) :
    Clean I P ∧ CleanIn I P := ⟨hP, cleanIn_of hP hu⟩

mutual
/-- In what the library builds for a program, only the arrays that the program reads at an index are read at its symbol. -/
theorem cleans : ∀ P : Script F, Clean I P ∧ CleanIn I P
  | .assign a b => ⟨clean_assign (cleans a).1 (cleans b).1, cleanIn_assign (cleans a).1 (cleans b).2⟩
  | .record _ fs => ⟨clean_record (cleansF fs).1, cleanIn_record (cleansF fs).2⟩
  | .loc n => (clean_loc n).both fun _ _ => rfl
  | .lit s => (clean_lit s).both fun _ _ => rfl
  | .un _ a => (clean_un (cleans a).1).both fun _ _ => rfl
  | .bin _ a b => (clean_bin (cleans a).1 (cleans b).1).both fun _ _ => rfl
  | .choose a b d => (clean_choose (cleans a).1 (cleans b).1 (cleans d).1).both fun _ _ => rfl
  | .item x i => (clean_item (cleans x).1 (cleans i).1).both fun _ _ => rfl
  | .size x _ => (clean_size (cleans x).1).both fun _ _ => rfl
  | .array n b => (clean_array (cleans n).1 (cleans b).1).both fun _ _ => rfl
  | .fold n z b => (clean_fold (cleans n).1 (cleans z).1 (cleans b).1).both fun _ _ => rfl
  | .reduce x z b => (clean_reduce (cleans x).1 (cleans z).1 (cleans b).1).both fun _ _ => rfl
  | .concat x y => (clean_concat (cleans x).1 (cleans y).1).both fun _ _ => rfl
  | .field x _ => (clean_field (cleans x).1).both fun _ _ => rfl
  | .part x _ => (clean_part (cleans x).1).both fun _ _ => rfl
  | .auto _ b => (clean_auto (cleans b).1 (cleans b).2).both fun _ _ => rfl
  | .autoFold z b => (clean_autoFold (cleans z).1 (cleans b).1 (cleans b).2).both fun _ _ => rfl
theorem cleansF : ∀ P : SFields F, CleanF I P ∧ CleanInF I P
  | .nil => ⟨cleanF_nil, cleanInF_nil⟩
  | .cons _ a rest => ⟨cleanF_cons (cleans a).1 (cleansF rest).1, cleanInF_cons (cleans a).2 (cleansF rest).2⟩
end

/-- The same for bodies. -/
theorem cleanIn (P : Script F) : CleanIn I P := (cleans P).2

end Verif.Frontend
