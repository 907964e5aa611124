import Verif.Frontend.ScriptAuto

/-! Programs of the user: an array that a program reads by an index is read by it in the expression that is built. -/

set_option linter.unusedSectionVars false

namespace Verif.Frontend
open Verif.Phi Verif.Term Verif.Midend Verif.Codegen Verif.Props
variable {F : Type} [FloatOps F] [DecidableEq F] {I : Ext F} {Γ Γ' : TCtx} {c c' : Nat}

mutual
/-- Some component of the object satisfies `Q`. -/
def Obj.Any (Q : Expr F → Prop) : Obj F → Prop
  | .scalar a => Q (wrap a)
  | .vec e _ => Q e
  | .raw _ _ => False
  | .struct _ fs => fs.Any Q
def Fields.Any (Q : Expr F → Prop) : Fields F → Prop
  | .nil => False
  | .cons _ o rest => o.Any Q ∨ rest.Any Q
end

theorem occurs_sndIter {q e : Expr F} (h : Occurs q e) : ∀ i, Occurs q (sndIter i e)
  | 0 => h
  | i + 1 => .child (by simp) (occurs_sndIter h i)

theorem occurs_project {q e : Expr F} (h : Occurs q e) (i n : Nat) : Occurs q (project e i n) := by
  unfold project
  split
  · exact .child (by simp) (occurs_sndIter h i)
  · exact occurs_sndIter h i

/-- Something in an expression is in the object it is unpacked to. -/
theorem any_unpack {q : Expr F} : ∀ (l : Layout) {e : Expr F}, l.ok = true → Occurs q e → (unpack l e).Any (Occurs q)
  | .atom, e, _, h => by simpa [unpack, Obj.Any, wrap] using h
  | .vec _, e, _, h => by simpa [unpack, Obj.Any] using h
  | .struct k .nil, e, hl, h => by
    simp only [Layout.ok, Bool.and_eq_true] at hl
    exact absurd rfl (okNames_ne hl.1)
  | .struct k (.cons n l rest), e, hl, h => by
    simp only [Layout.ok, LFields.ok, Bool.and_eq_true] at hl
    simp only [unpack, unpackFields, Obj.Any, Fields.Any]
    exact .inl (any_unpack l hl.2.1 (occurs_project h _ _))

theorem occurs_consAll {q e : Expr F} (h : Occurs q e) : ∀ {es : List (Expr F)} {p : Expr F}, e ∈ es → consAll es = some p → Occurs q p
  | [x], p, he, hp => by
    cases hp
    rw [List.mem_singleton.1 he] at h
    exact h
  | x :: y :: l, p, he, hp => by
    simp only [consAll, Option.map_eq_some_iff] at hp
    obtain ⟨p', hp', rfl⟩ := hp
    rcases List.mem_cons.1 he with rfl | he
    · exact .child (by simp) h
    · exact .child (t := p') (by simp) (occurs_consAll h he (by simpa only [consAll, Option.map_eq_some_iff] using hp'))

mutual
/-- Something in an object is in the expression it is packed to. -/
theorem any_pack {q : Expr F} : ∀ {t : UTy} {o : Obj F} {e : Expr F}, t.layout.ok = true → Has I Γ c t o → o.Any (Occurs q) →
    Frontend.pack t.layout o = some e → Occurs q e
  | .sc _, .scalar a, e, _, _, h, hp => by
    simp only [Frontend.pack, UTy.layout, Option.some.injEq] at hp
    subst hp
    simpa only [Obj.Any] using h
  | .arr t, .vec x _, e, _, _, h, hp => by
    simp only [Frontend.pack, UTy.layout, Option.some.injEq] at hp
    subst hp
    simpa only [Obj.Any] using h
  | .record _ fs, .struct k os, e, ht, hh, h, hp => by
    simp only [Has] at hh
    obtain ⟨rfl, hh⟩ := hh
    simp only [UTy.layout, Layout.ok, Bool.and_eq_true] at ht
    obtain ⟨h4, h5, h6⟩ := HasF.build ht.2 hh
    simp only [Obj.Any] at h
    have hpos : ∃ es, packPos fs.layout os.toList = some es ∧ consAll es = some e := by
      rw [UTy.layout] at hp
      cases k with
      | positional =>
        simp only [Frontend.pack, Option.bind_eq_some_iff] at hp
        exact hp
      | dict =>
        rw [Frontend.pack, packLab_pos _ os _ h4 (fun n o hm => getName_of (by simp) (by rw [h6]; exact ht.1) hm)] at hp
        exact Option.bind_eq_some_iff.1 hp
      | data cl =>
        rw [Frontend.pack, packLab_pos _ os _ h4 (fun n o hm => getName_of (by simp) (by rw [h6]; exact ht.1) hm)] at hp
        exact Option.bind_eq_some_iff.1 hp
    obtain ⟨es, h1, h2⟩ := hpos
    obtain ⟨x, hx, hq⟩ := any_packPos ht.2 hh h h1
    exact occurs_consAll hq hx h2
  | .sc _, .vec _ _, _, _, h, _, _ | .sc _, .raw _ _, _, _, h, _, _ | .sc _, .struct _ _, _, _, h, _, _
  | .arr _, .scalar _, _, _, h, _, _ | .arr _, .raw _ _, _, _, h, _, _ | .arr _, .struct _ _, _, _, h, _, _
  | .record _ _, .scalar _, _, _, h, _, _ | .record _ _, .vec _ _, _, _, h, _, _ | .record _ _, .raw _ _, _, _, h, _, _ => by
    simp only [Has] at h
theorem any_packPos {q : Expr F} : ∀ {t : UFields} {o : Fields F} {es : List (Expr F)}, t.layout.ok = true → HasF I Γ c t o → o.Any (Occurs q) →
    packPos t.layout o.toList = some es → ∃ e ∈ es, Occurs q e
  | .nil, .nil, _, _, _, h, _ => by simp only [Fields.Any] at h
  | .cons n t rest, .cons n' o os, es, ht, hh, h, hp => by
    simp only [HasF] at hh
    simp only [UFields.layout, LFields.ok, Bool.and_eq_true] at ht
    simp only [UFields.layout, Fields.toList, packPos, Option.bind_eq_some_iff, Option.map_eq_some_iff] at hp
    obtain ⟨x, hx, xs, hxs, rfl⟩ := hp
    simp only [Fields.Any] at h
    rcases h with h | h
    · exact ⟨x, by simp, any_pack ht.1 hh.2.1 h hx⟩
    · obtain ⟨y, hy, hq⟩ := any_packPos ht.2 hh.2.2 h hxs
      exact ⟨y, by simp [hy], hq⟩
  | .nil, .cons _ _ _, _, _, h, _, _ | .cons _ _ _, .nil, _, _, h, _, _ => by simp only [HasF] at h
end

/-- `a[i]…[k]` -/
def gets (a : Expr F) (is : List (Expr F)) : Expr F := is.foldl Phi.get a

/-- The component of the local variables. -/
def Place.obj (p : Place) (os : List (Obj F)) : Option (Obj F) :=
  p.parts.foldl (fun o q => o.bind fun o => match q with
    | .inl i => partObj i o
    | .inr n => fieldObj n o) os[p.loc]?

theorem place_obj {lo : Nat} : ∀ {x : Script F} {p : Place} {os : List (Obj F)} {c c' : Nat} {o : Obj F}, placeOf lo x = some (p, 0) →
    make x os c = some (o, c') → p.obj (os.drop lo) = some o
  | .loc n, p, os, c, c', o, hp, hm => by
    simp only [placeOf] at hp
    split at hp
    · rename_i hn
      cases hp
      simp only [make, Option.map_eq_some_iff, Prod.mk.injEq] at hm
      obtain ⟨o', ho, rfl, rfl⟩ := hm
      simp only [Place.obj, List.foldl_nil, List.getElem?_drop]
      rw [show lo + (n - lo) = n by omega, ho]
    · cases hp
  | .part x i, p, os, c, c', o, hp, hm => by
    simp only [placeOf, Option.bind_eq_some_iff] at hp
    obtain ⟨⟨p', k⟩, hp', hp⟩ := hp
    dsimp only at hp
    split at hp
    · rename_i h0
      subst h0
      cases hp
      simp only [make, Option.bind_eq_some_iff, Option.map_eq_some_iff, Prod.mk.injEq] at hm
      obtain ⟨⟨o1, c1⟩, hm1, o', ho, rfl, rfl⟩ := hm
      have := place_obj hp' hm1
      simp only [Place.obj] at this ⊢
      rw [List.foldl_append, this]
      exact ho
    · cases hp
  | .field x n, p, os, c, c', o, hp, hm => by
    simp only [placeOf, Option.bind_eq_some_iff] at hp
    obtain ⟨⟨p', k⟩, hp', hp⟩ := hp
    dsimp only at hp
    split at hp
    · rename_i h0
      subst h0
      cases hp
      simp only [make, Option.bind_eq_some_iff, Option.map_eq_some_iff, Prod.mk.injEq] at hm
      obtain ⟨⟨o1, c1⟩, hm1, o', ho, rfl, rfl⟩ := hm
      have := place_obj hp' hm1
      simp only [Place.obj] at this ⊢
      rw [List.foldl_append, this]
      exact ho
    · cases hp
  | .item x i, p, os, c, c', o, hp, hm => by simp [placeOf] at hp
  | .lit _, _, _, _, _, _, hp, _ | .assign _ _, _, _, _, _, _, hp, _ | .un _ _, _, _, _, _, _, hp, _ | .bin _ _ _, _, _, _, _, _, hp, _
  | .choose _ _ _, _, _, _, _, _, hp, _ | .size _ _, _, _, _, _, _, hp, _ | .array _ _, _, _, _, _, _, hp, _ | .fold _ _ _, _, _, _, _, _, hp, _
  | .reduce _ _ _, _, _, _, _, _, hp, _ | .concat _ _, _, _, _, _, _, hp, _ | .record _ _, _, _, _, _, _, hp, _ | .auto _ _, _, _, _, _, _, hp, _
  | .autoFold _ _, _, _, _, _, _, hp, _ => by simp [placeOf] at hp

/-- `x[i]…[k]` is built from the array `x` by reading. -/
theorem place_gets {lo : Nat} {p : Place} {os : List (Obj F)} {a : Expr F} {sub : Layout} (ha : p.obj (os.drop lo) = some (.vec a sub)) :
    ∀ {k : Nat} {x : Script F} {c c' : Nat} {e : Expr F} {sub' : Layout}, placeOf lo x = some (p, k) →
    make x os c = some (.vec e sub', c') → ∃ is : List (Expr F), is.length = k ∧ e = gets a is
  | 0, x, c, c', e, sub', hp, hm => by
    cases (place_obj hp hm).symm.trans ha
    exact ⟨[], rfl, rfl⟩
  | k + 1, x, c, c', e, sub', hp, hm => by
    cases x with
    | item x i =>
      simp only [placeOf, Option.map_eq_some_iff, Prod.mk.injEq] at hp
      obtain ⟨⟨p', k'⟩, hp', rfl, hk⟩ := hp
      simp only [Nat.add_right_cancel_iff] at hk
      subst hk
      simp only [make, Option.bind_eq_some_iff] at hm
      obtain ⟨⟨o1, c1⟩, hm1, ⟨o2, c2⟩, hm2, b, hb, hg⟩ := hm
      cases o1 with
      | vec e0 sub0 =>
        obtain ⟨is, hl, rfl⟩ := place_gets ha hp' hm1
        simp only [getItem, Option.some.injEq, Prod.mk.injEq] at hg
        obtain ⟨hg, rfl⟩ := hg
        cases sub0 <;> simp only [unpack, reduceCtorEq, Obj.vec.injEq] at hg
        obtain ⟨rfl, rfl⟩ := hg
        exact ⟨is ++ [wrap b], by simp [hl], by simp [gets]⟩
      | _ => simp [getItem] at hg
    | loc n => simp only [placeOf] at hp; split at hp <;> simp at hp
    | part x i =>
      simp only [placeOf, Option.bind_eq_some_iff] at hp
      obtain ⟨_, _, hp⟩ := hp
      split at hp <;> simp at hp
    | field x i =>
      simp only [placeOf, Option.bind_eq_some_iff] at hp
      obtain ⟨_, _, hp⟩ := hp
      split at hp <;> simp at hp
    | _ => simp [placeOf] at hp

/-- In some component, `a[…]` is read by the symbol. -/
def Found (o : Obj F) (a : Expr F) (k : Nat) (s : Sym) (τ : Ty) : Prop :=
  ∃ is : List (Expr F), is.length = k ∧ o.Any (Occurs (Phi.get (gets a is) (node (.store s τ) [])))

theorem Found.up {o o' : Obj F} {a : Expr F} {k : Nat} {s : Sym} {τ : Ty} (h : Found o a k s τ)
    (H : ∀ q, o.Any (Occurs q) → o'.Any (Occurs q)) : Found o' a k s τ :=
  h.imp fun _ h => ⟨h.1, H _ h.2⟩

/-- The object is taken from an expression in which `a[…]` is read by the symbol. -/
def FoundIn (o : Obj F) (a : Expr F) (k : Nat) (s : Sym) (τ : Ty) : Prop :=
  ∃ is : List (Expr F), is.length = k ∧ ∃ l e, Layout.ok l = true ∧ o = unpack l e ∧ Occurs (Phi.get (gets a is) (node (.store s τ) [])) e

theorem FoundIn.found {o : Obj F} {a : Expr F} {k : Nat} {s : Sym} {τ : Ty} (h : FoundIn o a k s τ) : Found o a k s τ := by
  obtain ⟨is, hl, l, e, hok, rfl, ho⟩ := h
  exact ⟨is, hl, any_unpack l hok ho⟩

theorem Found.into {o : Obj F} {a e : Expr F} {k : Nat} {s : Sym} {τ : Ty} (h : Found o a k s τ) {l : Layout} (hl : l.ok = true)
    (H : ∀ q, o.Any (Occurs q) → Occurs q e) : FoundIn (unpack l e) a k s τ :=
  h.imp fun _ h => ⟨h.1, l, e, hl, rfl, H _ h.2⟩

/-- The arrays `σ` are read in the values of local variables. -/
def Known (σ : List (Option (Place × Nat))) (os : List (Obj F)) (p : Place) (a : Expr F) (k : Nat) (s : Sym) (τ : Ty) : Prop :=
  ∀ n : Nat, σ[n]? = some (some (p, k)) → ∃ o, os[n]? = some o ∧ FoundIn o a k s τ

theorem Known.cons {σ : List (Option (Place × Nat))} {os : List (Obj F)} {p : Place} {a : Expr F} {k : Nat} {s : Sym} {τ : Ty}
    (h : Known σ os p a k s τ) {q : Option (Place × Nat)} {o : Obj F} (ho : q = some (p, k) → FoundIn o a k s τ) : Known (q :: σ) (o :: os) p a k s τ
  | 0, hn => ⟨o, rfl, ho (by simpa using hn)⟩
  | n + 1, hn => by simpa using h n (by simpa using hn)

theorem Known.bind {σ : List (Option (Place × Nat))} {os : List (Obj F)} {p : Place} {a : Expr F} {k : Nat} {s : Sym} {τ : Ty}
    (h : Known σ os p a k s τ) (o : Obj F) : Known (none :: σ) (o :: os) p a k s τ := h.cons (by simp)

theorem Known.nil (os : List (Obj F)) (p : Place) (a : Expr F) (k : Nat) (s : Sym) (τ : Ty) : Known [] os p a k s τ := by
  intro n hn
  simp at hn

/-- What the induction shows: what is read by a symbol is read by it in the expression. -/
def Keeps (I : Ext F) (P : Script F) : Prop :=
  ∀ (ts : List UTy) (t : UTy) (os : List (Obj F)) (Γ : TCtx) (c : Nat) (o : Obj F) (c' : Nat) (σ : List (Option (Place × Nat))) (lo j : Nat) (p : Place) (k : Nat) (s : Sym) (τ : Ty)
    (a : Expr F) (sub : Layout),
    (∀ t ∈ ts, t.layout.ok = true) → List.Forall₂ (Has I Γ c) ts os → Below Γ c → typ P ts = some t → make P os c = some (o, c') →
    reads P σ lo j = some (p, k) → os[j]? = some (.scalar (.scalar (node (.store s τ) []))) → p.obj (os.drop lo) = some (.vec a sub) →
    Known σ os p a k s τ → Found o a k s τ ∧ (spread P = true → FoundIn o a k s τ)

def KeepsF (I : Ext F) (P : SFields F) : Prop :=
  ∀ (ts : List UTy) (t : UFields) (os : List (Obj F)) (Γ : TCtx) (c : Nat) (o : Fields F) (c' : Nat) (σ : List (Option (Place × Nat))) (lo j : Nat) (p : Place) (k : Nat) (s : Sym) (τ : Ty)
    (a : Expr F) (sub : Layout),
    (∀ t ∈ ts, t.layout.ok = true) → List.Forall₂ (Has I Γ c) ts os → Below Γ c → typFields P ts = some t → makeFields P os c = some (o, c') →
    readsFields P σ lo j = some (p, k) → os[j]? = some (.scalar (.scalar (node (.store s τ) []))) → p.obj (os.drop lo) = some (.vec a sub) →
    Known σ os p a k s τ →
    ∃ is : List (Expr F), is.length = k ∧ o.Any (Occurs (Phi.get (gets a is) (node (.store s τ) [])))

theorem not_occurs_const {x i : Expr F} {v : Scal F} : ¬ Occurs (Phi.get x i) (const v) := by
  intro h
  generalize hq : Phi.get x i = q at h
  cases h with
  | refl => cases hq
  | child hm _ => simp at hm

/-- An object that is not a record is taken from its expression. -/
theorem Found.whole {b : Bool} {t : UTy} {os : List (Obj F)} {o : Obj F} {a : Expr F} {k : Nat} {s : Sym} {τ : Ty}
    {m : List (PVal F) → Option (PVal F)} (A : Made I Γ c c' t os o m) (ht : ∀ r fs, t ≠ .record r fs) (h : Found o a k s τ) :
    Found o a k s τ ∧ (b = true → FoundIn o a k s τ) := by
  refine ⟨h, fun _ => ?_⟩
  obtain ⟨is, hl, hany⟩ := h
  cases t with
  | sc kd =>
    obtain ⟨x, rfl, _⟩ := A.has.scalar
    simp only [Obj.Any] at hany
    cases x with
    | scalar e => exact ⟨is, hl, .atom, e, rfl, rfl, hany⟩
    | _ => exact absurd hany not_occurs_const
  | arr te =>
    obtain ⟨e, rfl, _⟩ := A.has.vec
    simp only [Obj.Any] at hany
    exact ⟨is, hl, .vec te.layout, e, A.ok, rfl, hany⟩
  | record r fs => exact absurd rfl (ht r fs)

theorem flat_un {f : ScalarOp} {a : Script F} {ts : List UTy} {t : UTy} (h : typ (.un f a) ts = some t) : ∀ r fs, t ≠ .record r fs := by
  rintro r fs rfl
  simp [typ, Option.bind_eq_some_iff] at h

theorem flat_bin {f : PyOp} {a b : Script F} {ts : List UTy} {t : UTy} (h : typ (.bin f a b) ts = some t) : ∀ r fs, t ≠ .record r fs := by
  rintro r fs rfl
  simp [typ, Option.bind_eq_some_iff] at h

theorem flat_choose {a b d : Script F} {ts : List UTy} {t : UTy} (h : typ (.choose a b d) ts = some t) : ∀ r fs, t ≠ .record r fs := by
  rintro r fs rfl
  simp [typ, Option.bind_eq_some_iff] at h

theorem flat_size {a : Script F} {n : Nat} {ts : List UTy} {t : UTy} (h : typ (.size a n) ts = some t) : ∀ r fs, t ≠ .record r fs := by
  rintro r fs rfl
  simp [typ, Option.bind_eq_some_iff] at h

theorem flat_concat {a b : Script F} {ts : List UTy} {t : UTy} (h : typ (.concat a b) ts = some t) : ∀ r fs, t ≠ .record r fs := by
  rintro r fs rfl
  simp [typ, Option.bind_eq_some_iff] at h

theorem flat_array {a b : Script F} {ts : List UTy} {t : UTy} (h : typ (.array a b) ts = some t) : ∀ r fs, t ≠ .record r fs := by
  rintro r fs rfl
  simp [typ, Option.bind_eq_some_iff] at h

theorem flat_auto {n : Nat} {b : Script F} {ts : List UTy} {t : UTy} (h : typ (.auto n b) ts = some t) : ∀ r fs, t ≠ .record r fs := by
  rintro r fs rfl
  simp only [typ, Option.bind_eq_some_iff] at h
  obtain ⟨_, _, h⟩ := h
  split at h
  · obtain ⟨_, _, h⟩ := Option.map_eq_some_iff.1 h
    simp [UTy.arrs] at h
  · cases h

theorem keeps_loc {n : Nat} : Keeps I (.loc n : Script F) := by
  intro ts t os Γ c o c' σ lo j p k s τ e sub hok hos hΓ ht hm hr hj hp hσ
  simp only [reads, Option.join_eq_some_iff] at hr
  obtain ⟨o', ho, hF⟩ := hσ n hr
  simp only [make, ho, Option.map_some, Option.some.injEq, Prod.mk.injEq] at hm
  obtain ⟨rfl, rfl⟩ := hm
  exact ⟨hF.found, fun _ => hF⟩

theorem unpackFields_mem {e : Expr F} {o : Obj F} : ∀ (l : LFields) (i n : Nat), l.ok = true → o ∈ (unpackFields l e i n).toList →
    ∃ l' i', Layout.ok l' = true ∧ o = unpack l' (project e i' n)
  | .nil, _, _, _, h => by simp [unpackFields, Fields.toList] at h
  | .cons m l rest, i, n, hl, h => by
    simp only [LFields.ok, Bool.and_eq_true] at hl
    simp only [unpackFields, Fields.toList, List.mem_cons] at h
    rcases h with rfl | h
    · exact ⟨l, i, hl.1, rfl⟩
    · exact unpackFields_mem rest (i + 1) n hl.2 h

theorem lookup_mem_toList {n : String} {o : Obj F} : ∀ {fs : Fields F}, fs.lookup n = some o → o ∈ fs.toList
  | .nil, h => by simp [Fields.lookup] at h
  | .cons m o' rest, h => by
    simp only [Fields.lookup] at h
    split at h
    · cases h; simp [Fields.toList]
    · simp [Fields.toList, lookup_mem_toList h]

/-- A component of an object taken from an expression is taken from it. -/
theorem FoundIn.component {o o' : Obj F} {a : Expr F} {k : Nat} {s : Sym} {τ : Ty} (h : FoundIn o a k s τ)
    (ho : ∃ rk fs, o = .struct rk fs ∧ o' ∈ fs.toList) : FoundIn o' a k s τ := by
  obtain ⟨is, hl, l, e, hok, rfl, hoc⟩ := h
  obtain ⟨rk, fs, h1, h2⟩ := ho
  cases l <;> simp only [unpack, reduceCtorEq, Obj.struct.injEq] at h1
  obtain ⟨rfl, rfl⟩ := h1
  simp only [Layout.ok, Bool.and_eq_true] at hok
  obtain ⟨l', i', h3, rfl⟩ := unpackFields_mem _ _ _ hok.2 h2
  exact ⟨is, hl, l', _, h3, rfl, occurs_project hoc _ _⟩

theorem fieldObj_mem {n : String} {o o' : Obj F} (h : fieldObj n o = some o') : ∃ rk fs, o = .struct rk fs ∧ o' ∈ fs.toList := by
  cases o with
  | struct rk fs => cases rk <;> simp only [fieldObj, reduceCtorEq] at h <;> exact ⟨_, fs, rfl, lookup_mem_toList h⟩
  | _ => simp [fieldObj] at h

theorem partObj_mem {i : Nat} {o o' : Obj F} (h : partObj i o = some o') : ∃ rk fs, o = .struct rk fs ∧ o' ∈ fs.toList := by
  cases o with
  | struct rk fs => cases rk <;> simp only [partObj, reduceCtorEq] at h <;> exact ⟨_, fs, rfl, List.mem_of_getElem? h⟩
  | _ => simp [partObj] at h

theorem keeps_field {x : Script F} {n : String} (hx : Keeps I x) : Keeps I (.field x n) := by
  intro ts t os Γ c o c' σ lo j p k s τ e sub hok hos hΓ ht hm hr hj hp hσ
  simp only [typ, Option.bind_eq_some_iff] at ht
  obtain ⟨t1, ht1, _⟩ := ht
  simp only [make, Option.bind_eq_some_iff, Option.map_eq_some_iff, Prod.mk.injEq] at hm
  obtain ⟨⟨o1, c1⟩, hm1, o2, ho2, rfl, rfl⟩ := hm
  simp only [reads] at hr
  split at hr
  · rename_i hsp
    have := ((hx ts t1 os Γ c o1 c1 σ lo j p k s τ e sub hok hos hΓ ht1 hm1 hr hj hp hσ).2 hsp).component (fieldObj_mem ho2)
    exact ⟨this.found, fun _ => this⟩
  · cases hr

theorem keeps_part {x : Script F} {n : Nat} (hx : Keeps I x) : Keeps I (.part x n) := by
  intro ts t os Γ c o c' σ lo j p k s τ e sub hok hos hΓ ht hm hr hj hp hσ
  simp only [typ, Option.bind_eq_some_iff] at ht
  obtain ⟨t1, ht1, _⟩ := ht
  simp only [make, Option.bind_eq_some_iff, Option.map_eq_some_iff, Prod.mk.injEq] at hm
  obtain ⟨⟨o1, c1⟩, hm1, o2, ho2, rfl, rfl⟩ := hm
  simp only [reads] at hr
  split at hr
  · rename_i hsp
    have := ((hx ts t1 os Γ c o1 c1 σ lo j p k s τ e sub hok hos hΓ ht1 hm1 hr hj hp hσ).2 hsp).component (partObj_mem ho2)
    exact ⟨this.found, fun _ => this⟩
  · cases hr

theorem keeps_assign {a b : Script F} (ha : Keeps I a) (hb : Keeps I b) : Keeps I (.assign a b) := by
  intro ts t os Γ c o c' σ lo j p k s τ e sub hok hos hΓ ht hm hr hj hp hσ
  simp only [typ, Option.bind_eq_some_iff] at ht
  obtain ⟨t1, ht1, ht2⟩ := ht
  simp only [make, Option.bind_eq_some_iff] at hm
  obtain ⟨⟨o1, c1⟩, hm1, hm2⟩ := hm
  have A := correct (I := I) a ts t1 os Γ c o1 c1 hok hos hΓ ht1 hm1
  refine hb (t1 :: ts) t (o1 :: os) Γ c1 o c' _ (lo + 1) (j + 1) p k s τ e sub (by simpa using ⟨A.ok, hok⟩)
    (.cons A.has (Has.locals_mono A.grows (Extends.refl hΓ) hos)) (hΓ.mono A.grows) ht2 hm2 hr (by simpa using hj) (by simpa using hp)
    (hσ.cons fun hq => ?_)
  split at hq
  · rename_i hsp
    exact (ha ts t1 os Γ c o1 c1 σ lo j p k s τ e sub hok hos hΓ ht1 hm1 hq hj hp hσ).2 hsp
  · cases hq

theorem keeps_un {f : ScalarOp} {a : Script F} (ha : Keeps I a) : Keeps I (.un f a) := by
  intro ts t os Γ c o c' σ lo j p k s τ e sub hok hos hΓ ht hm hr hj hp hσ
  refine Found.whole (correct (I := I) _ ts t os Γ c o c' hok hos hΓ ht hm) (flat_un ht) ?_
  simp only [typ, Option.bind_eq_some_iff, Option.map_eq_some_iff] at ht
  obtain ⟨_, ⟨t1, ht1, hk⟩, _, _, rfl⟩ := ht
  simp only [make, Option.bind_eq_some_iff, Option.map_eq_some_iff, Prod.mk.injEq] at hm
  obtain ⟨⟨o1, c1⟩, hm1, x, hx, rfl, rfl⟩ := hm
  refine (ha ts t1 os Γ c o1 c1 σ lo j p k s τ e sub hok hos hΓ ht1 hm1 hr hj hp hσ).1.up fun q hq => ?_
  cases o1 <;> simp only [scalarOf, reduceCtorEq, Option.some.injEq] at hx
  subst hx
  simp only [Obj.Any, scalarObj] at hq ⊢
  exact .child (by simp) hq

theorem occurs_method {q a : Expr F} {b : ScalarLike F} (f : PyOp) (h : Occurs q a ∨ Occurs q (wrap b)) : Occurs q (method f a b) := by
  cases f
  case truediv =>
    rcases h with h | h
    · exact .child (by simp) h
    · exact .child (t := op1 .reciprocal (wrap b)) (by simp [wrap]) (.child (by simp) h)
  all_goals
    rcases h with h | h
    · exact .child (t := a) (by simp [wrap]) h
    · exact .child (t := wrap b) (by simp [wrap]) h

theorem or_some {α : Type} {x y : Option α} {v : α} (h : x.or y = some v) : x = some v ∨ y = some v := by
  cases x with
  | none => exact .inr h
  | some w => exact .inl h

theorem keeps_bin {f : PyOp} {a b : Script F} (ha : Keeps I a) (hb : Keeps I b) : Keeps I (.bin f a b) := by
  intro ts t os Γ c o c' σ lo j p k s τ e sub hok hos hΓ ht hm hr hj hp hσ
  refine Found.whole (correct (I := I) _ ts t os Γ c o c' hok hos hΓ ht hm) (flat_bin ht) ?_
  simp only [typ, Option.bind_eq_some_iff, Option.map_eq_some_iff] at ht
  obtain ⟨_, ⟨t1, ht1, _⟩, _, ⟨t2, ht2, _⟩, _, _, rfl⟩ := ht
  simp only [make, Option.bind_eq_some_iff, Option.map_eq_some_iff, Prod.mk.injEq] at hm
  obtain ⟨⟨o1, c1⟩, hm1, ⟨o2, c2⟩, hm2, x, hx, y, hy, rfl, rfl⟩ := hm
  have A := correct (I := I) a ts t1 os Γ c o1 c1 hok hos hΓ ht1 hm1
  cases o1 <;> simp only [scalarOf, reduceCtorEq, Option.some.injEq] at hx
  cases o2 <;> simp only [scalarOf, reduceCtorEq, Option.some.injEq] at hy
  subst hx
  subst hy
  rcases or_some hr with hr | hr
  · refine (ha ts t1 os Γ c _ c1 σ lo j p k s τ e sub hok hos hΓ ht1 hm1 hr hj hp hσ).1.up fun q hq => ?_
    simp only [Obj.Any, scalarObj] at hq ⊢
    exact occurs_method f (.inl hq)
  · refine (hb ts t2 os Γ c1 _ c2 σ lo j p k s τ e sub hok (Has.locals_mono A.grows (Extends.refl hΓ) hos) (hΓ.mono A.grows) ht2 hm2 hr hj hp hσ).1.up
      fun q hq => ?_
    simp only [Obj.Any, scalarObj] at hq ⊢
    exact occurs_method f (.inr hq)

theorem keeps_choose {a b d : Script F} (ha : Keeps I a) (hb : Keeps I b) (hd : Keeps I d) : Keeps I (.choose a b d) := by
  intro ts t os Γ c o c' σ lo j p k s τ e sub hok hos hΓ ht hm hr hj hp hσ
  refine Found.whole (correct (I := I) _ ts t os Γ c o c' hok hos hΓ ht hm) (flat_choose ht) ?_
  simp only [typ, Option.bind_eq_some_iff, Option.map_eq_some_iff] at ht
  obtain ⟨_, ⟨t1, ht1, _⟩, _, ⟨t2, ht2, _⟩, _, ⟨t3, ht3, _⟩, _, _, rfl⟩ := ht
  simp only [make, Option.bind_eq_some_iff, Option.map_eq_some_iff, Prod.mk.injEq] at hm
  obtain ⟨⟨o1, c1⟩, hm1, ⟨o2, c2⟩, hm2, ⟨o3, c3⟩, hm3, x, hx, y, hy, z, hz, rfl, rfl⟩ := hm
  have A := correct (I := I) a ts t1 os Γ c o1 c1 hok hos hΓ ht1 hm1
  have hos1 := Has.locals_mono A.grows (Extends.refl hΓ) hos
  have hΓ1 := hΓ.mono A.grows
  have B := correct (I := I) b ts t2 os Γ c1 o2 c2 hok hos1 hΓ1 ht2 hm2
  cases o1 <;> simp only [scalarOf, reduceCtorEq, Option.some.injEq] at hx
  cases o2 <;> simp only [scalarOf, reduceCtorEq, Option.some.injEq] at hy
  cases o3 <;> simp only [scalarOf, reduceCtorEq, Option.some.injEq] at hz
  subst hx
  subst hy
  subst hz
  rcases or_some hr with hr | hr
  · refine (ha ts t1 os Γ c _ c1 σ lo j p k s τ e sub hok hos hΓ ht1 hm1 hr hj hp hσ).1.up fun q hq => ?_
    simp only [Obj.Any, scalarObj] at hq ⊢
    exact .child (by simp) hq
  rcases or_some hr with hr | hr
  · refine (hb ts t2 os Γ c1 _ c2 σ lo j p k s τ e sub hok hos1 hΓ1 ht2 hm2 hr hj hp hσ).1.up fun q hq => ?_
    simp only [Obj.Any, scalarObj] at hq ⊢
    exact .child (by simp) hq
  · refine (hd ts t3 os Γ c2 _ c3 σ lo j p k s τ e sub hok (Has.locals_mono B.grows (Extends.refl hΓ1) hos1) (hΓ1.mono B.grows) ht3 hm3 hr hj hp hσ).1.up
      fun q hq => ?_
    simp only [Obj.Any, scalarObj] at hq ⊢
    exact .child (by simp) hq

theorem keeps_item {x i : Script F} (hx : Keeps I x) (hi : Keeps I i) : Keeps I (.item x i) := by
  intro ts t os Γ c o c' σ lo j p k s τ e sub hok hos hΓ ht hm hr hj hp hσ
  suffices h : FoundIn o e k s τ from ⟨h.found, fun _ => h⟩
  simp only [typ, Option.bind_eq_some_iff, Option.some.injEq] at ht
  obtain ⟨t', ⟨t1, ht1, he⟩, _, ⟨t2, ht2, hk⟩, rfl⟩ := ht
  cases elem_arr he
  cases kind_sc hk
  simp only [make, Option.bind_eq_some_iff] at hm
  obtain ⟨⟨o1, c1⟩, hm1, ⟨o2, c2⟩, hm2, b, hb, hg⟩ := hm
  have A := correct (I := I) x ts _ os Γ c o1 c1 hok hos hΓ ht1 hm1
  have hok' : t'.layout.ok = true := by simpa [UTy.layout, Layout.ok] using A.ok
  obtain ⟨e1, rfl, he1⟩ := A.has.vec
  cases o2 <;> simp only [scalarOf, reduceCtorEq, Option.some.injEq] at hb
  subst hb
  simp only [getItem, Option.some.injEq, Prod.mk.injEq] at hg
  obtain ⟨rfl, rfl⟩ := hg
  rcases or_some hr with hr1 | hr
  · split at hr1
    · rename_i hl
      cases i <;> simp only [isLoc, Bool.false_eq_true, decide_eq_true_eq] at hl
      subst hl
      simp only [make, hj, Option.map_some, Option.some.injEq, Prod.mk.injEq, Obj.scalar.injEq] at hm2
      obtain ⟨rfl, rfl⟩ := hm2
      obtain ⟨is, hl, rfl⟩ := place_gets hp hr1 hm1
      exact ⟨is, hl, _, _, hok', rfl, .refl _⟩
    · cases hr1
  rcases or_some hr with hr | hr
  · refine (hx ts _ os Γ c _ c1 σ lo j p k s τ e sub hok hos hΓ ht1 hm1 hr hj hp hσ).1.into hok' fun q hq => ?_
    simp only [Obj.Any] at hq
    exact .child (by simp) hq
  · refine (hi ts _ os Γ c1 _ c2 σ lo j p k s τ e sub hok (Has.locals_mono A.grows (Extends.refl hΓ) hos) (hΓ.mono A.grows) ht2 hm2 hr hj hp hσ).1.into hok' fun q hq => ?_
    simp only [Obj.Any] at hq
    exact .child (by simp) hq

theorem keeps_size {x : Script F} {n : Nat} (hx : Keeps I x) : Keeps I (.size x n) := by
  intro ts t os Γ c o c' σ lo j p k s τ e sub hok hos hΓ ht hm hr hj hp hσ
  refine Found.whole (correct (I := I) _ ts t os Γ c o c' hok hos hΓ ht hm) (flat_size ht) ?_
  simp only [typ, Option.bind_eq_some_iff, Option.map_eq_some_iff] at ht
  obtain ⟨_, ⟨t1, ht1, _⟩, rfl⟩ := ht
  simp only [make, Option.bind_eq_some_iff, Option.map_eq_some_iff, Prod.mk.injEq] at hm
  obtain ⟨⟨o1, c1⟩, hm1, y, hy, rfl, rfl⟩ := hm
  refine (hx ts t1 os Γ c o1 c1 σ lo j p k s τ e sub hok hos hΓ ht1 hm1 hr hj hp hσ).1.up fun q hq => ?_
  cases o1 <;> simp only [vecOf?, reduceCtorEq, Option.some.injEq] at hy
  subst hy
  simp only [Obj.Any, scalarObj] at hq ⊢
  exact .child (by simp) hq

theorem keeps_concat {x y : Script F} (hx : Keeps I x) (hy : Keeps I y) : Keeps I (.concat x y) := by
  intro ts t os Γ c o c' σ lo j p k s τ e sub hok hos hΓ ht hm hr hj hp hσ
  refine Found.whole (correct (I := I) _ ts t os Γ c o c' hok hos hΓ ht hm) (flat_concat ht) ?_
  simp only [typ, Option.bind_eq_some_iff] at ht
  obtain ⟨_, ⟨t1, ht1, _⟩, _, ⟨t2, ht2, _⟩, _⟩ := ht
  simp only [make, Option.bind_eq_some_iff] at hm
  obtain ⟨⟨o1, c1⟩, hm1, ⟨o2, c2⟩, hm2, d1, hd1, d2, hd2, hm⟩ := hm
  have A := correct (I := I) x ts t1 os Γ c o1 c1 hok hos hΓ ht1 hm1
  cases o1 <;> simp only [vecOf?, reduceCtorEq, Option.some.injEq] at hd1
  cases o2 <;> simp only [vecOf?, reduceCtorEq, Option.some.injEq] at hd2
  subst hd1
  subst hd2
  split at hm
  · cases hm
    rcases or_some hr with hr | hr
    · refine (hx ts t1 os Γ c _ c1 σ lo j p k s τ e sub hok hos hΓ ht1 hm1 hr hj hp hσ).1.up fun q hq => ?_
      simp only [Obj.Any] at hq ⊢
      exact .child (by simp) hq
    · refine (hy ts t2 os Γ c1 _ c2 σ lo j p k s τ e sub hok (Has.locals_mono A.grows (Extends.refl hΓ) hos) (hΓ.mono A.grows) ht2 hm2 hr hj hp hσ).1.up
        fun q hq => ?_
      simp only [Obj.Any] at hq ⊢
      exact .child (by simp) hq
  · cases hm

theorem keeps_record {f : RecKind} {fs : SFields F} (h : KeepsF I fs) : Keeps I (.record f fs) := by
  intro ts t os Γ c o c' σ lo j p k s τ e sub hok hos hΓ ht hm hr hj hp hσ
  refine ⟨?_, by simp [spread]⟩
  simp only [typ, Option.bind_eq_some_iff] at ht
  obtain ⟨ps, hps, ht⟩ := ht
  simp only [make, Option.map_eq_some_iff, Prod.mk.injEq] at hm
  obtain ⟨⟨o, c1⟩, hm1, rfl, rfl⟩ := hm
  obtain ⟨is, h1, h2⟩ := h ts ps os Γ c o c1 σ lo j p k s τ e sub hok hos hΓ hps hm1 hr hj hp hσ
  exact ⟨is, h1, by simpa only [Obj.Any] using h2⟩

theorem keepsF_cons {n : String} {a : Script F} {rest : SFields F} (ha : Keeps I a) (hr' : KeepsF I rest) : KeepsF I (.cons n a rest) := by
  intro ts t os Γ c o c' σ lo j p k s τ e sub hok hos hΓ ht hm hr hj hp hσ
  simp only [typFields, Option.bind_eq_some_iff, Option.map_eq_some_iff] at ht
  obtain ⟨t1, ht1, ps, hps, rfl⟩ := ht
  simp only [makeFields, Option.bind_eq_some_iff, Option.map_eq_some_iff, Prod.mk.injEq] at hm
  obtain ⟨⟨o1, c1⟩, hm1, ⟨o2, c2⟩, hm2, rfl, rfl⟩ := hm
  have A := correct (I := I) a ts _ os Γ c o1 c1 hok hos hΓ ht1 hm1
  rcases or_some hr with hr | hr
  · obtain ⟨is, h1, h2⟩ := ha ts t1 os Γ c _ c1 σ lo j p k s τ e sub hok hos hΓ ht1 hm1 hr hj hp hσ |>.1
    exact ⟨is, h1, by simp only [Fields.Any]; exact .inl h2⟩
  · obtain ⟨is, h1, h2⟩ := hr' ts ps os Γ c1 _ c2 σ lo j p k s τ e sub hok (Has.locals_mono A.grows (Extends.refl hΓ) hos) (hΓ.mono A.grows) hps hm2 hr hj hp hσ
    exact ⟨is, h1, by simp only [Fields.Any]; exact .inr h2⟩

/-- The body of a comprehension. -/
theorem keeps_body {b : Script F} (hb : Keeps I b) {ts : List UTy} {t : UTy} {os : List (Obj F)} {rb : Obj F} {lo j : Nat} {p : Place} {k : Nat}
    {s : Sym} {τ : Ty} {e : Expr F} {sub l : Layout} {body : Expr F}
    (hok : ∀ t ∈ ts, t.layout.ok = true) (hos : List.Forall₂ (Has I Γ c) ts os) (hΓ : Below Γ c) (ht : typ b (.sc .int :: ts) = some t)
    (hrb : make b (.scalar (.scalar (at_ c)) :: os) (c + 1) = some (rb, c')) (hl : build rb = some l) (hbody : pack l rb = some body)
    {σ : List (Option (Place × Nat))} (hσ : Known σ os p e k s τ)
    (hr : reads b (none :: σ) (lo + 1) (j + 1) = some (p, k)) (hj : os[j]? = some (.scalar (.scalar (node (.store s τ) []))))
    (hp : p.obj (os.drop lo) = some (.vec e sub)) :
    ∃ is : List (Expr F), is.length = k ∧ Occurs (Phi.get (gets e is) (node (.store s τ) [])) body := by
  have hext : Extends c Γ (Γ.set (.idx c) (some (.scalar .int))) := Extends.set (Extends.refl hΓ) (le_refl c)
  have h1 : ∀ t ∈ UTy.sc .int :: ts, t.layout.ok = true := by simpa using ⟨rfl, hok⟩
  have h2 : List.Forall₂ (Has I (Γ.set (.idx c) (some (.scalar .int))) (c + 1)) (.sc .int :: ts) (.scalar (.scalar (at_ c)) :: os) :=
    .cons (by simp only [Has, wrap]; exact Sane.store (set_self _ _ _)) (Has.locals_mono (by omega) hext hos)
  have h3 : Below (Γ.set (.idx c) (some (.scalar .int))) (c + 1) := Below.set (hΓ.mono (by omega)) (Nat.lt_succ_self c)
  have B := correct (I := I) b _ t _ _ (c + 1) rb c' h1 h2 h3 ht hrb
  obtain ⟨is, g1, g2⟩ := hb _ t _ _ (c + 1) rb c' _ (lo + 1) (j + 1) p k s τ e sub h1 h2 h3 ht hrb hr (by simpa using hj) (by simpa using hp)
    (hσ.bind _) |>.1
  obtain ⟨hbuild, _⟩ := Has.build B.ok B.has
  cases hbuild.symm.trans hl
  exact ⟨is, g1, any_pack B.ok B.has g2 hbody⟩

theorem keeps_array {n b : Script F} (hn : Keeps I n) (hb : Keeps I b) : Keeps I (.array n b) := by
  intro ts t os Γ c o c' σ lo j p k s τ e sub hok hos hΓ ht hm hr hj hp hσ
  refine Found.whole (correct (I := I) _ ts t os Γ c o c' hok hos hΓ ht hm) (flat_array ht) ?_
  simp only [typ, Option.bind_eq_some_iff] at ht
  obtain ⟨_, ⟨t1, ht1, hk⟩, ht⟩ := ht
  cases kind_sc hk
  split at ht
  · rename_i hint
    subst hint
    obtain ⟨t, ht2, rfl⟩ := Option.map_eq_some_iff.1 ht
    simp only [make, Option.bind_eq_some_iff, Option.map_eq_some_iff, Prod.mk.injEq] at hm
    obtain ⟨⟨o1, c1⟩, hm1, a, ha, ⟨q, c2⟩, hq, o, ho, rfl, rfl⟩ := hm
    have A := correct (I := I) n ts _ os Γ c o1 c1 hok hos hΓ ht1 hm1
    cases o1 <;> simp only [scalarOf, reduceCtorEq, Option.some.injEq] at ha
    subst ha
    simp only [arrayPy, List.range'_one, List.map_cons, List.map_nil, List.cons_append, List.nil_append, Option.bind_eq_some_iff,
      Option.map_eq_some_iff, Prod.mk.injEq] at hq
    obtain ⟨⟨rb, c3⟩, hrb, l, hl, body, hbody, e', he, rfl, rfl⟩ := hq
    simp only [arrayOf, List.map_cons, List.map_nil, inferSizes, List.length_cons, List.length_nil, if_true, Option.map_some,
      List.zip_cons_cons, List.zip_nil_right, nest, Option.some.injEq] at he
    subst he
    simp only [vecLayouts, unpack, raising] at ho
    split at ho
    · cases ho
      rcases or_some hr with hr | hr
      · refine (hn ts _ os Γ c _ c1 σ lo j p k s τ e sub hok hos hΓ ht1 hm1 hr hj hp hσ).1.up fun q hq => ?_
        simp only [Obj.Any] at hq ⊢
        exact .child (by simp) hq
      · obtain ⟨is, g1, g2⟩ := keeps_body hb hok (Has.locals_mono A.grows (Extends.refl hΓ) hos) (hΓ.mono A.grows) ht2 hrb hl hbody hσ hr hj hp
        exact ⟨is, g1, by simp only [Obj.Any]; exact .child (by simp) g2⟩
    · cases ho
  · cases ht

theorem occurs_nest {q b : Expr F} (h : Occurs q b) : ∀ l : List (Nat × Expr F), Occurs q (nest l b)
  | [] => h
  | (i, n) :: l => .child (t := nest l b) (by simp) (occurs_nest h l)

theorem opened_drop_add (os : List (Obj F)) (c n lo : Nat) : (opened os (List.range' c n)).drop (lo + n) = os.drop lo := by
  rw [Nat.add_comm, ← List.drop_drop, opened_drop]

theorem opened_get_add (os : List (Obj F)) (c n j : Nat) : (opened os (List.range' c n))[j + n]? = os[j]? := by
  have := congrArg (fun l => l[0]?) (opened_drop_add os c n j)
  simpa [List.getElem?_drop] using this

theorem Known.opened {σ : List (Option (Place × Nat))} {os : List (Obj F)} {p : Place} {a : Expr F} {k : Nat} {s : Sym} {τ : Ty}
    (h : Known σ os p a k s τ) (c n : Nat) : Known (List.replicate n none ++ σ) (opened os (List.range' c n)) p a k s τ := by
  intro m hm
  by_cases hmn : m < n
  · rw [List.getElem?_append_left (by simpa using hmn), List.getElem?_replicate] at hm
    simp [hmn] at hm
  · rw [List.getElem?_append_right (by simpa using hmn), List.length_replicate] at hm
    obtain ⟨o, ho, hF⟩ := h _ hm
    refine ⟨o, ?_, hF⟩
    rw [← ho, ← opened_get_add os c n, show m - n + n = m by omega]

theorem keeps_auto {n : Nat} {b : Script F} (hb : Keeps I b) : Keeps I (.auto n b) := by
  intro ts t os Γ c o c' σ lo j p k s τ e sub hok hos hΓ ht hm hr hj hp hσ
  refine Found.whole (correct (I := I) _ ts t os Γ c o c' hok hos hΓ ht hm) (flat_auto ht) ?_
  simp only [typ, Option.bind_eq_some_iff] at ht
  obtain ⟨q, hq, ht⟩ := ht
  split at ht
  · obtain ⟨t, ht', rfl⟩ := Option.map_eq_some_iff.1 ht
    obtain ⟨rb, l, body, ns, hrb, hl, hbody, hns, rfl⟩ := auto_parts hm
    obtain ⟨h1, h2, h3⟩ := locals_indexed (n + 1) hok hos hΓ
    have B := correct (I := I) b _ t _ _ _ rb c' h1 h2 h3 ht' hrb
    obtain ⟨is, g1, g2⟩ := hb _ t _ _ _ rb c' _ (lo + (n + 1)) (j + (n + 1)) p k s τ e sub h1 h2 h3 ht' hrb hr
      (by rw [opened_get_add]; exact hj) (by rw [opened_drop_add]; exact hp) (hσ.opened c (n + 1)) |>.1
    obtain ⟨hbuild, _⟩ := Has.build B.ok B.has
    cases hbuild.symm.trans hl
    exact ⟨is, g1, by simp only [Obj.Any]; exact occurs_nest (any_pack B.ok B.has g2 hbody) _⟩
  · cases ht

/-- The body of a fold. -/
theorem keeps_step {b : Script F} (hb : Keeps I b) {ts : List UTy} {t : UTy} {os : List (Obj F)} {rb : Obj F} {lo j : Nat} {p : Place} {k : Nat}
    {s : Sym} {τ : Ty} {e : Expr F} {sub : Layout} {body : Expr F} (htok : t.layout.ok = true)
    (hok : ∀ t ∈ ts, t.layout.ok = true) (hos : List.Forall₂ (Has I Γ c) ts os) (hΓ : Below Γ c) (ht : typ b (.sc .int :: t :: ts) = some t)
    (hrb : make b (.scalar (.scalar (var c (.scalar .int))) :: unpack t.layout (var (c + 1) t.ty) :: os) (c + 2) = some (rb, c'))
    (hbody : pack t.layout rb = some body)
    {σ : List (Option (Place × Nat))} (hσ : Known σ os p e k s τ)
    (hr : reads b (none :: none :: σ) (lo + 2) (j + 2) = some (p, k)) (hj : os[j]? = some (.scalar (.scalar (node (.store s τ) []))))
    (hp : p.obj (os.drop lo) = some (.vec e sub)) :
    ∃ is : List (Expr F), is.length = k ∧ Occurs (Phi.get (gets e is) (node (.store s τ) [])) body := by
  have hext : Extends c Γ ((Γ.set (.var (c + 1)) (some t.ty)).set (.var c) (some (.scalar .int))) :=
    Extends.set (Extends.set (Extends.refl hΓ) (Nat.le_succ c)) (le_refl c)
  have h1 : ∀ u ∈ UTy.sc .int :: t :: ts, u.layout.ok = true := by simpa using ⟨rfl, htok, hok⟩
  have h2 : List.Forall₂ (Has I ((Γ.set (.var (c + 1)) (some t.ty)).set (.var c) (some (.scalar .int))) (c + 2)) (.sc .int :: t :: ts)
      (.scalar (.scalar (var c (.scalar .int))) :: unpack t.layout (var (c + 1) t.ty) :: os) :=
    .cons (by simp only [Has, wrap]; exact Sane.store (set_self _ _ _))
      (.cons (Sane.unpack htok (Sane.store (by simp [TCtx.set]))) (Has.locals_mono (by omega) hext hos))
  have h3 : Below ((Γ.set (.var (c + 1)) (some t.ty)).set (.var c) (some (.scalar .int))) (c + 2) :=
    Below.set (Below.set (hΓ.mono (by omega)) (by simp [symNum])) (by simp [symNum])
  have B := correct (I := I) b _ t _ _ (c + 2) rb c' h1 h2 h3 ht hrb
  obtain ⟨is, g1, g2⟩ := hb _ t _ _ (c + 2) rb c' _ (lo + 2) (j + 2) p k s τ e sub h1 h2 h3 ht hrb hr (by simpa using hj) (by simpa using hp)
    ((hσ.bind _).bind _) |>.1
  exact ⟨is, g1, any_pack B.ok B.has g2 hbody⟩

theorem keeps_fold {n z b : Script F} (hn : Keeps I n) (hz : Keeps I z) (hb : Keeps I b) : Keeps I (.fold n z b) := by
  intro ts t os Γ c o c' σ lo j p k s τ e sub hok hos hΓ ht hm hr hj hp hσ
  suffices h : FoundIn o e k s τ from ⟨h.found, fun _ => h⟩
  simp only [typ, Option.bind_eq_some_iff] at ht
  obtain ⟨_, ⟨t1, ht1, hk⟩, ht⟩ := ht
  cases kind_sc hk
  split at ht
  · rename_i hint
    subst hint
    simp only [Option.bind_eq_some_iff] at ht
    obtain ⟨t0, ht2, t3, ht3, ht⟩ := ht
    split at ht
    · rename_i hsame
      cases ht
      cases UTy.same_eq hsame
      simp only [make, Option.bind_eq_some_iff] at hm
      obtain ⟨⟨oz, c0⟩, hmz, ⟨o1, c1⟩, hm1, a, ha, hq⟩ := hm
      have Z := correct (I := I) z ts _ os Γ c oz c0 hok hos hΓ ht2 hmz
      have hΓ0 := hΓ.mono Z.grows
      have hos0 := Has.locals_mono Z.grows (Extends.refl hΓ) hos
      have A := correct (I := I) n ts _ os Γ c0 o1 c1 hok hos0 hΓ0 ht1 hm1
      cases o1 <;> simp only [scalarOf, reduceCtorEq, Option.some.injEq] at ha
      subst ha
      obtain ⟨hbz, hzok⟩ := Has.build Z.ok Z.has
      obtain ⟨ez, hpz, hsz⟩ := Has.pack Z.ok Z.has
      simp only [foldPy, hbz, hpz, hsz.typed, Option.bind_some, Option.bind_eq_some_iff, Option.map_eq_some_iff, Prod.mk.injEq] at hq
      obtain ⟨⟨rb, c3⟩, hrb, body, hbody, e', he, rfl, rfl⟩ := hq
      simp only [Frontend.foldOf, Option.map_some, inferSizes, List.length_cons, List.length_nil, if_true, Option.bind_some, List.head?_cons,
        Option.some.injEq] at he
      subst he
      rcases or_some hr with hr | hr
      · refine (hn ts _ os Γ c0 _ c1 σ lo j p k s τ e sub hok hos0 hΓ0 ht1 hm1 hr hj hp hσ).1.into Z.ok fun q hq => ?_
        simp only [Obj.Any] at hq
        exact .child (by simp) hq
      rcases or_some hr with hr | hr
      · refine (hz ts _ os Γ c _ c0 σ lo j p k s τ e sub hok hos hΓ ht2 hmz hr hj hp hσ).1.into Z.ok fun q hq => ?_
        exact .child (t := ez) (by simp) (any_pack Z.ok Z.has hq hpz)
      · obtain ⟨is, g1, g2⟩ := keeps_step hb Z.ok hok (Has.locals_mono A.grows (Extends.refl hΓ0) hos0) (hΓ0.mono A.grows) ht3 hrb hbody hσ hr hj hp
        exact ⟨is, g1, _, _, Z.ok, rfl, .child (by simp) g2⟩
    · cases ht
  · cases ht

theorem keeps_autoFold {z b : Script F} (hz : Keeps I z) (hb : Keeps I b) : Keeps I (.autoFold z b) := by
  intro ts t os Γ c o c' σ lo j p k s τ e sub hok hos hΓ ht hm hr hj hp hσ
  suffices h : FoundIn o e k s τ from ⟨h.found, fun _ => h⟩
  simp only [typ, Option.bind_eq_some_iff] at ht
  obtain ⟨q, hq, _, _, t0, ht2, t3, ht3, ht⟩ := ht
  split at ht
  · rename_i hsame
    cases ht
    cases UTy.same_eq hsame
    obtain ⟨oz, c1, l, ez, τ', rb, body, n, hmz, hl, hez, hτ, hrb, hbody, hn, rfl⟩ := autoFold_parts hm
    have Z := correct (I := I) z ts _ os Γ c oz c1 hok hos hΓ ht2 hmz
    obtain ⟨hbz, hzok⟩ := Has.build Z.ok Z.has
    cases hbz.symm.trans hl
    obtain ⟨ez', hpz, hsz⟩ := Has.pack Z.ok Z.has
    cases hpz.symm.trans hez
    cases hsz.typed.symm.trans hτ
    rcases or_some hr with hr | hr
    · refine (hz ts _ os Γ c _ c1 σ lo j p k s τ e sub hok hos hΓ ht2 hmz hr hj hp hσ).1.into Z.ok fun q hq => ?_
      exact .child (t := ez) (by simp) (any_pack Z.ok Z.has hq hpz)
    · obtain ⟨is, g1, g2⟩ := keeps_step hb Z.ok hok (Has.locals_mono Z.grows (Extends.refl hΓ) hos) (hΓ.mono Z.grows) ht3 hrb hbody hσ hr hj hp
      exact ⟨is, g1, _, _, Z.ok, rfl, .child (by simp) g2⟩
  · cases ht

theorem keeps_reduce {x z b : Script F} (hx : Keeps I x) (hz : Keeps I z) (hb : Keeps I b) : Keeps I (.reduce x z b) := by
  intro ts t os Γ c o c' σ lo j p k s τ e sub hok hos hΓ ht hm hr hj hp hσ
  suffices h : FoundIn o e k s τ from ⟨h.found, fun _ => h⟩
  simp only [typ, Option.bind_eq_some_iff] at ht
  obtain ⟨t1, ⟨t0, ht1, hk⟩, t2, ht2, t3, ht3, ht⟩ := ht
  cases elem_arr hk
  split at ht
  · rename_i hsame
    cases ht
    rw [Bool.and_eq_true] at hsame
    cases UTy.same_eq hsame.1
    cases UTy.same_eq hsame.2
    simp only [make, Option.bind_eq_some_iff] at hm
    obtain ⟨⟨o1, c0⟩, hm1, ⟨oz, c1⟩, hmz, hq⟩ := hm
    have A := correct (I := I) x ts _ os Γ c o1 c0 hok hos hΓ ht1 hm1
    have hΓ0 := hΓ.mono A.grows
    have hos0 := Has.locals_mono A.grows (Extends.refl hΓ) hos
    have Z := correct (I := I) z ts _ os Γ c0 oz c1 hok hos0 hΓ0 ht2 hmz
    have hΓ1 : Below Γ c1 := hΓ0.mono Z.grows
    obtain ⟨e1, rfl, he1⟩ := A.has.vec
    obtain ⟨hbz, hzok⟩ := Has.build Z.ok Z.has
    obtain ⟨ez, hpz, hsz⟩ := Has.pack Z.ok Z.has
    simp only [reducePy, he1.typed, Option.bind_eq_some_iff] at hq
    obtain ⟨⟨rb, c3⟩, hrb, l, hl, hq⟩ := hq
    dsimp only at hl hq
    have hext : Extends c1 Γ ((Γ.set (.var c1) (some t.ty)).set (.var (c1 + 1)) (some t.ty)) :=
      Extends.set (Extends.set (Extends.refl hΓ1) (le_refl c1)) (Nat.le_succ c1)
    have g1 : ∀ u ∈ t :: t :: ts, u.layout.ok = true := by simpa using ⟨Z.ok, hok⟩
    have g2 : List.Forall₂ (Has I ((Γ.set (.var c1) (some t.ty)).set (.var (c1 + 1)) (some t.ty)) (c1 + 2)) (t :: t :: ts)
        (unpack t.layout (var c1 t.ty) :: unpack t.layout (var (c1 + 1) t.ty) :: os) :=
      .cons (Sane.unpack Z.ok (Sane.store (by simp [TCtx.set])))
        (.cons (Sane.unpack Z.ok (Sane.store (by simp [TCtx.set])))
          (Has.locals_mono (by omega) hext (Has.locals_mono Z.grows (Extends.refl hΓ0) hos0)))
    have g3 : Below ((Γ.set (.var c1) (some t.ty)).set (.var (c1 + 1)) (some t.ty)) (c1 + 2) :=
      Below.set (Below.set (hΓ1.mono (by omega)) (by simp [symNum])) (by simp [symNum])
    have B := correct (I := I) b _ t _ _ (c1 + 2) rb c3 g1 g2 g3 ht3 hrb
    obtain ⟨hbuild, hrok⟩ := Has.build B.ok B.has
    cases hbuild.symm.trans hl
    obtain ⟨body, hpb, hsane⟩ := Has.pack B.ok B.has
    simp only [if_true, hbz, hpz, hpb, Option.bind_some, Option.some.injEq, Prod.mk.injEq] at hq
    obtain ⟨rfl, rfl⟩ := hq
    rcases or_some hr with hr | hr
    · refine (hx ts _ os Γ c _ c0 σ lo j p k s τ e sub hok hos hΓ ht1 hm1 hr hj hp hσ).1.into Z.ok fun q hq => ?_
      simp only [Obj.Any] at hq
      exact .child (by simp) hq
    rcases or_some hr with hr | hr
    · refine (hz ts _ os Γ c0 _ c1 σ lo j p k s τ e sub hok hos0 hΓ0 ht2 hmz hr hj hp hσ).1.into Z.ok fun q hq => ?_
      exact .child (t := ez) (by simp) (any_pack Z.ok Z.has hq hpz)
    · obtain ⟨is, g4, g5⟩ := hb _ t _ _ (c1 + 2) rb c3 _ (lo + 2) (j + 2) p k s τ e sub g1 g2 g3 ht3 hrb hr (by simpa using hj) (by simpa using hp)
        ((hσ.bind _).bind _) |>.1
      exact ⟨is, g4, _, _, Z.ok, rfl, .child (t := body) (by simp) (any_pack B.ok B.has g5 hpb)⟩
  · cases ht

mutual
theorem keeps : ∀ P : Script F, Keeps I P
  | .loc _ => keeps_loc
  | .lit _ => by
    intro ts t os Γ c o c' σ lo j p k s τ e sub _ _ _ _ _ hr
    simp [reads] at hr
  | .field x _ => keeps_field (keeps x)
  | .part x _ => keeps_part (keeps x)
  | .assign a b => keeps_assign (keeps a) (keeps b)
  | .un _ a => keeps_un (keeps a)
  | .bin _ a b => keeps_bin (keeps a) (keeps b)
  | .choose a b d => keeps_choose (keeps a) (keeps b) (keeps d)
  | .item x i => keeps_item (keeps x) (keeps i)
  | .size x _ => keeps_size (keeps x)
  | .array n b => keeps_array (keeps n) (keeps b)
  | .fold n z b => keeps_fold (keeps n) (keeps z) (keeps b)
  | .reduce x z b => keeps_reduce (keeps x) (keeps z) (keeps b)
  | .concat x y => keeps_concat (keeps x) (keeps y)
  | .record _ fs => keeps_record (keepsF fs)
  | .auto _ b => keeps_auto (keeps b)
  | .autoFold z b => keeps_autoFold (keeps z) (keeps b)
theorem keepsF : ∀ P : SFields F, KeepsF I P
  | .nil => by
    intro ts t os Γ c o c' σ lo j p k s τ e sub _ _ _ _ _ hr
    simp [readsFields] at hr
  | .cons _ a rest => keepsF_cons (keeps a) (keepsF rest)
end

end Verif.Frontend
