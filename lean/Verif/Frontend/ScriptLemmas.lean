import Verif.Frontend.Script
import Verif.Frontend.ObjSizes

/-! Objects of a type, built in a context: what the library's operations keep. -/

set_option linter.unusedSectionVars false

namespace Verif.Frontend
open Verif.Phi Verif.Term Verif.Midend Verif.Codegen
variable {F : Type} [FloatOps F] [DecidableEq F] (I : Ext F)

/-- An expression of a type: every symbol is bound once on every path, and used with the type it was made with, and all
bound symbols have numbers below `c`. -/
structure Sane (Γ : TCtx) (c : Nat) (e : Expr F) (τ : Ty) : Prop where
  typed : Phi.typeOf e = some τ
  fine : Fine false I e Γ
  below : NumBelow c e
  noShadow : NoShadow e

mutual
/-- An object of a type. -/
def Has (Γ : TCtx) (c : Nat) : UTy → Obj F → Prop
  | .sc k, .scalar a => Sane I Γ c (wrap a) (.scalar k)
  | .arr t, .vec e sub => sub = t.layout ∧ Sane I Γ c e (.vector t.ty)
  | .record k fs, .struct k' os => k' = k ∧ HasF Γ c fs os
  | _, _ => False
def HasF (Γ : TCtx) (c : Nat) : UFields → Fields F → Prop
  | .nil, .nil => True
  | .cons n t rest, .cons n' o os => n' = n ∧ Has Γ c t o ∧ HasF Γ c rest os
  | _, _ => False
end

variable {I} {Γ Γ' : TCtx} {c c' : Nat}

/-! ### Monotonicity -/

/-- The context is below the supply, and its indices are integers. -/
structure Below (Γ : TCtx) (c : Nat) : Prop where
  lt : ∀ s, Γ s ≠ none → symNum s < c
  idx : ∀ i σ, Γ (.idx i) = some σ → σ = .scalar .int

theorem Below.mono (h : Below Γ c) (hc : c ≤ c') : Below Γ c' := ⟨fun s hs => Nat.lt_of_lt_of_le (h.lt s hs) hc, h.idx⟩

theorem Below.set {s : Sym} {τ : Option Ty} (h : Below Γ c) (hs : symNum s < c)
    (hi : ∀ i, s = .idx i → τ = some (.scalar .int) := by simp) : Below (Γ.set s τ) c := by
  refine ⟨fun s' hs' => ?_, fun i σ hσ => ?_⟩
  · by_cases he : s' = s
    · rwa [he]
    · rw [TCtx.set, if_neg he] at hs'; exact h.lt s' hs'
  · by_cases he : Sym.idx i = s
    · rw [TCtx.set, if_pos he, hi i he.symm] at hσ
      cases hσ
      rfl
    · rw [TCtx.set, if_neg he] at hσ; exact h.idx i σ hσ

/-- `Γ'` is `Γ` below `c`, and `Γ` has no symbols from `c` on. -/
def Extends (c : Nat) (Γ Γ' : TCtx) : Prop :=
  (∀ s, Γ s ≠ none → symNum s < c) ∧ ∀ s, symNum s < c → Γ' s = Γ s

theorem Extends.refl (h : Below Γ c) : Extends c Γ Γ := ⟨h.lt, fun _ _ => rfl⟩

theorem Sane.mono {e : Expr F} {τ : Ty} (h : Sane I Γ c e τ) (hc : c ≤ c') (hΓ : Extends c Γ Γ') : Sane I Γ' c' e τ where
  typed := h.typed
  fine := h.fine.agree fun s hs => hΓ.2 s (by
    rcases hs with hs | hs
    · exact hΓ.1 s (h.fine.fv_dom s hs)
    · exact h.below s hs)
  below := h.below.mono hc
  noShadow := h.noShadow

mutual
theorem Has.mono (hc : c ≤ c') (hΓ : Extends c Γ Γ') : ∀ {t : UTy} {o : Obj F}, Has I Γ c t o → Has I Γ' c' t o
  | .sc _, .scalar _, h => by simp only [Has] at h ⊢; exact Sane.mono h hc hΓ
  | .arr _, .vec _ _, h => by simp only [Has] at h ⊢; exact ⟨h.1, Sane.mono h.2 hc hΓ⟩
  | .record _ _, .struct _ _, h => by simp only [Has] at h ⊢; exact ⟨h.1, HasF.mono hc hΓ h.2⟩
  | .sc _, .vec _ _, h | .sc _, .raw _ _, h | .sc _, .struct _ _, h | .arr _, .scalar _, h | .arr _, .raw _ _, h
  | .arr _, .struct _ _, h | .record _ _, .scalar _, h | .record _ _, .vec _ _, h | .record _ _, .raw _ _, h => by
    simp only [Has] at h
theorem HasF.mono (hc : c ≤ c') (hΓ : Extends c Γ Γ') : ∀ {t : UFields} {o : Fields F}, HasF I Γ c t o → HasF I Γ' c' t o
  | .nil, .nil, _ => by simp [HasF]
  | .cons _ _ _, .cons _ _ _, h => by
    simp only [HasF] at h ⊢; exact ⟨h.1, Has.mono hc hΓ h.2.1, HasF.mono hc hΓ h.2.2⟩
  | .nil, .cons _ _ _, h | .cons _ _ _, .nil, h => by simp only [HasF] at h
end

/-! ### Layouts -/

def UTy.ok (t : UTy) : Prop := t.layout.ok = true

mutual
theorem Has.build : ∀ {t : UTy} {o : Obj F}, t.layout.ok = true → Has I Γ c t o → Frontend.build o = some t.layout ∧ o.ok = true
  | .sc _, .scalar _, _, _ => by simp [Frontend.build, UTy.layout, Obj.ok]
  | .arr t, .vec _ _, ht, h => by
    simp only [Has] at h
    obtain ⟨rfl, _⟩ := h
    exact ⟨by simp [Frontend.build, UTy.layout], by simpa [Obj.ok, UTy.layout, Layout.ok] using ht⟩
  | .record _ fs, .struct k os, ht, h => by
    simp only [Has] at h
    obtain ⟨rfl, h⟩ := h
    simp only [UTy.layout, Layout.ok, Bool.and_eq_true] at ht
    obtain ⟨h1, h2, h3⟩ := HasF.build ht.2 h
    refine ⟨?_, by simp only [Obj.ok, Bool.and_eq_true]; exact ⟨by rw [h3]; exact ht.1, h2⟩⟩
    cases os with
    | nil =>
      cases fs with
      | nil => exact absurd rfl (okNames_ne ht.1)
      | cons => simp [HasF] at h
    | cons n o rest => cases k <;> simp [Frontend.build, h1, UTy.layout]
  | .sc _, .vec _ _, _, h | .sc _, .raw _ _, _, h | .sc _, .struct _ _, _, h | .arr _, .scalar _, _, h | .arr _, .raw _ _, _, h
  | .arr _, .struct _ _, _, h | .record _ _, .scalar _, _, h | .record _ _, .vec _ _, _, h | .record _ _, .raw _ _, _, h => by
    simp only [Has] at h
theorem HasF.build : ∀ {t : UFields} {o : Fields F}, t.layout.ok = true → HasF I Γ c t o →
    buildFields o = some t.layout ∧ o.ok = true ∧ namesOf o = t.layout.names
  | .nil, .nil, _, _ => by simp [buildFields, UFields.layout, Fields.ok, namesOf, LFields.names]
  | .cons _ t rest, .cons _ o os, ht, h => by
    simp only [HasF] at h
    simp only [UFields.layout, LFields.ok, Bool.and_eq_true] at ht
    obtain ⟨rfl, h1, h2⟩ := h
    obtain ⟨h3, h4⟩ := Has.build ht.1 h1
    obtain ⟨h5, h6, h7⟩ := HasF.build ht.2 h2
    simp [buildFields, h3, h5, UFields.layout, Fields.ok, h4, h6, namesOf, LFields.names, h7]
  | .nil, .cons _ _ _, _, h | .cons _ _ _, .nil, _, h => by simp only [HasF] at h
end

/-! ### Packing -/

theorem noShadow_plain {h : Phi.Head F} {ts : List (Expr F)} (hc : h.captured = ∅) (H : ∀ t ∈ ts, NoShadow t) :
    NoShadow (node h ts) := by
  refine .node (fun t _ => ?_) (fun v b e hv _ => ?_) H
  · change Disjoint h.captured _
    rw [hc]
    exact Finset.disjoint_empty_left _
  · cases h <;> simp [Lang.letVar, Phi.Head.letVar, Phi.Head.captured] at hv hc

/-- An operation that binds nothing. -/
theorem Sane.plain {h : Phi.Head F} {ts : List (Expr F)} {τ : Ty} (hc : h.captured = ∅) (ht : Phi.typeOf (node h ts) = some τ)
    (ho : headOk I h ts Γ) (H : ∀ t ∈ ts, ∃ σ, Sane I Γ c t σ) : Sane I Γ c (node h ts) τ where
  typed := ht
  fine := Fine.plain hc ht (by simp) ho fun t ht => (H t ht).elim fun _ h => h.fine
  below := NumBelow.plain hc fun t ht => (H t ht).elim fun _ h => h.below
  noShadow := noShadow_plain hc fun t ht => (H t ht).elim fun _ h => h.noShadow

theorem Sane.cons {a b : Expr F} {σ τ : Ty} (ha : Sane I Γ c a σ) (hb : Sane I Γ c b τ) : Sane I Γ c (Phi.cons a b) (.pair σ τ) :=
  .plain rfl (typeOf_cons ha.typed hb.typed) trivial (by
    simp only [List.mem_cons, List.not_mem_nil, or_false]; rintro t (rfl | rfl); exacts [⟨_, ha⟩, ⟨_, hb⟩])
theorem Sane.fst {a : Expr F} {σ τ : Ty} (ha : Sane I Γ c a (.pair σ τ)) : Sane I Γ c (Phi.fst a) σ :=
  .plain rfl (typeOf_fst ha.typed) trivial (by simp only [List.mem_singleton]; rintro t rfl; exact ⟨_, ha⟩)
theorem Sane.snd {a : Expr F} {σ τ : Ty} (ha : Sane I Γ c a (.pair σ τ)) : Sane I Γ c (Phi.snd a) τ :=
  .plain rfl (typeOf_snd ha.typed) trivial (by simp only [List.mem_singleton]; rintro t rfl; exact ⟨_, ha⟩)

mutual
theorem Has.pack : ∀ {t : UTy} {o : Obj F}, t.layout.ok = true → Has I Γ c t o →
    ∃ e, Frontend.pack t.layout o = some e ∧ Sane I Γ c e t.ty
  | .sc _, .scalar a, _, h => ⟨wrap a, by simp [Frontend.pack, UTy.layout], by simpa [Has, UTy.ty] using h⟩
  | .arr t, .vec e _, ht, h => ⟨e, by simp [Frontend.pack, UTy.layout], by simp only [Has] at h; exact h.2⟩
  | .record _ fs, .struct k os, ht, h => by
    have hb := (Has.build ht h).1
    simp only [Has] at h
    obtain ⟨rfl, h⟩ := h
    simp only [UTy.layout, Layout.ok, Bool.and_eq_true] at ht
    have hne : fs ≠ .nil := by rintro rfl; exact okNames_ne ht.1 rfl
    obtain ⟨es, p, h1, h2, h3⟩ := HasF.pack ht.2 hne h
    obtain ⟨h4, h5, h6⟩ := HasF.build ht.2 h
    refine ⟨p, ?_, by rw [UTy.ty]; exact h3⟩
    rw [UTy.layout]
    cases k with
    | positional => simp [Frontend.pack, h1, h2]
    | dict =>
      rw [Frontend.pack, packLab_pos _ os _ h4 (fun n o hm => getName_of (by simp) (by rw [h6]; exact ht.1) hm), h1,
        Option.bind_some, h2]
    | data cl =>
      rw [Frontend.pack, packLab_pos _ os _ h4 (fun n o hm => getName_of (by simp) (by rw [h6]; exact ht.1) hm), h1,
        Option.bind_some, h2]
  | .sc _, .vec _ _, _, h | .sc _, .raw _ _, _, h | .sc _, .struct _ _, _, h | .arr _, .scalar _, _, h | .arr _, .raw _ _, _, h
  | .arr _, .struct _ _, _, h | .record _ _, .scalar _, _, h | .record _ _, .vec _ _, _, h | .record _ _, .raw _ _, _, h => by
    simp only [Has] at h
theorem HasF.pack : ∀ {t : UFields} {o : Fields F}, t.layout.ok = true → t ≠ .nil → HasF I Γ c t o →
    ∃ es p, packPos t.layout o.toList = some es ∧ consAll es = some p ∧ Sane I Γ c p t.ty
  | .nil, _, _, hn, _ => absurd rfl hn
  | .cons _ t .nil, .cons _ o .nil, ht, _, h => by
    simp only [HasF] at h
    simp only [UFields.layout, LFields.ok, Bool.and_eq_true] at ht
    obtain ⟨e, h1, h2⟩ := Has.pack ht.1 h.2.1
    exact ⟨[e], e, by simp [UFields.layout, Fields.toList, packPos, h1], rfl, by simpa [UFields.ty] using h2⟩
  | .cons n t (.cons m s rest), .cons n' o os, ht, _, h => by
    rw [HasF] at h
    rw [UFields.layout, LFields.ok, Bool.and_eq_true] at ht
    obtain ⟨e, h1, h2⟩ := Has.pack ht.1 h.2.1
    obtain ⟨es, p, h3, h4, h5⟩ := HasF.pack ht.2 (by simp) h.2.2
    refine ⟨e :: es, Phi.cons e p, ?_, ?_, by rw [UFields.ty]; exact h2.cons h5⟩
    · rw [UFields.layout, Fields.toList, packPos, h1, h3]; rfl
    · cases es with
      | nil => cases h4
      | cons x xs => simp [consAll, h4]
  | .cons _ t .nil, .cons _ o (.cons _ _ _), _, _, h => by simp [HasF] at h
  | .cons _ _ _, .nil, _, _, h => by simp only [HasF] at h
end

mutual
theorem Sane.unpack : ∀ {t : UTy} {e : Expr F}, t.layout.ok = true → Sane I Γ c e t.ty → Has I Γ c t (Frontend.unpack t.layout e)
  | .sc _, e, _, h => by simpa [Frontend.unpack, UTy.layout, Has, wrap, UTy.ty] using h
  | .arr t, e, _, h => by simpa [Frontend.unpack, UTy.layout, Has, UTy.ty] using h
  | .record k fs, e, ht, h => by
    simp only [UTy.layout, Layout.ok, Bool.and_eq_true] at ht
    have hne : fs ≠ .nil := by rintro rfl; exact okNames_ne ht.1 rfl
    simp only [Frontend.unpack, UTy.layout, Has, true_and]
    exact Sane.unpackFields ht.2 hne (i := 0) (n := fs.layout.length) (by omega) h
theorem Sane.unpackFields : ∀ {t : UFields} {e : Expr F} {i n : Nat}, t.layout.ok = true → t ≠ .nil → i + t.layout.length = n →
    Sane I Γ c (sndIter i e) t.ty → HasF I Γ c t (Frontend.unpackFields t.layout e i n)
  | .nil, _, _, _, _, h, _, _ => absurd rfl h
  | .cons m t .nil, e, i, n, ht, _, hn, h => by
    simp only [UFields.layout, LFields.ok, Bool.and_eq_true] at ht
    simp only [UFields.layout, LFields.length] at hn
    simp only [UFields.layout, Frontend.unpackFields, HasF, and_true, true_and]
    rw [project, if_neg (by omega)]
    exact Sane.unpack ht.1 h
  | .cons m t (.cons m' s rest), e, i, n, ht, _, hn, h => by
    rw [UFields.layout, LFields.ok, Bool.and_eq_true] at ht
    rw [UFields.ty] at h
    rw [UFields.layout, LFields.length] at hn
    rw [UFields.layout, Frontend.unpackFields, HasF]
    refine ⟨rfl, ?_, Sane.unpackFields ht.2 (by simp) (by omega) h.snd⟩
    rw [project, if_pos (by rw [UFields.layout, LFields.length] at hn; omega)]
    exact Sane.unpack ht.1 h.fst
end

/-! ### Values -/

theorem Sane.run_congr {e : Expr F} {τ : Ty} (h : Sane I Γ c e τ) {env env' : Env (D F)} (he : ∀ s, Γ s ≠ none → env' s = env s) :
    run I e env' = run I e env :=
  run_agree h.fine.scoping fun s hs => he s (h.fine.fv_dom s hs)

mutual
theorem Has.value_congr {env env' : Env (D F)} (he : ∀ s, Γ s ≠ none → env' s = env s) : ∀ {t : UTy} {o : Obj F},
    Has I Γ c t o → value I env' o = value I env o
  | .sc _, .scalar _, h => by simp only [Has] at h; simp only [value, h.run_congr he]
  | .arr _, .vec _ _, h => by simp only [Has] at h; simp only [value, h.2.run_congr he]
  | .record _ _, .struct _ _, h => by simp only [Has] at h; simp only [value, HasF.value_congr he h.2]
  | .sc _, .vec _ _, h | .sc _, .raw _ _, h | .sc _, .struct _ _, h | .arr _, .scalar _, h | .arr _, .raw _ _, h
  | .arr _, .struct _ _, h | .record _ _, .scalar _, h | .record _ _, .vec _ _, h | .record _ _, .raw _ _, h => by
    simp only [Has] at h
theorem HasF.value_congr {env env' : Env (D F)} (he : ∀ s, Γ s ≠ none → env' s = env s) : ∀ {t : UFields} {o : Fields F},
    HasF I Γ c t o → valueFields I env' o = valueFields I env o
  | .nil, .nil, _ => by simp [valueFields]
  | .cons _ _ _, .cons _ _ _, h => by
    simp only [HasF] at h
    simp only [valueFields, Has.value_congr he h.2.1, HasF.value_congr he h.2.2]
  | .nil, .cons _ _ _, h | .cons _ _ _, .nil, h => by simp only [HasF] at h
end

mutual
theorem Has.scoped : ∀ {t : UTy} {o : Obj F}, Has I Γ c t o → o.Comp Scoped
  | .sc _, .scalar _, h => by simp only [Has] at h; simpa [Obj.Comp] using h.fine.scoping
  | .arr _, .vec _ _, h => by simp only [Has] at h; simpa [Obj.Comp] using h.2.fine.scoping
  | .record _ _, .struct _ _, h => by simp only [Has] at h; simpa [Obj.Comp] using HasF.scoped h.2
  | .sc _, .vec _ _, h | .sc _, .raw _ _, h | .sc _, .struct _ _, h | .arr _, .scalar _, h | .arr _, .raw _ _, h
  | .arr _, .struct _ _, h | .record _ _, .scalar _, h | .record _ _, .vec _ _, h | .record _ _, .raw _ _, h => by
    simp only [Has] at h
theorem HasF.scoped : ∀ {t : UFields} {o : Fields F}, HasF I Γ c t o → o.Comp Scoped
  | .nil, .nil, _ => by simp [Fields.Comp]
  | .cons _ _ _, .cons _ _ _, h => by
    simp only [HasF] at h
    simpa [Fields.Comp] using ⟨Has.scoped h.2.1, HasF.scoped h.2.2⟩
  | .nil, .cons _ _ _, h | .cons _ _ _, .nil, h => by simp only [HasF] at h
end

/-! ### Decidable equality of types and shapes -/

mutual
theorem UTy.same_eq : ∀ {t s : UTy}, t.same s = true → t = s
  | .sc _, .sc _, h => by simpa [UTy.same] using h
  | .arr t, .arr s, h => by rw [UTy.same_eq (t := t) (s := s) (by simpa [UTy.same] using h)]
  | .record _ _, .record _ _, h => by
    simp only [UTy.same, Bool.and_eq_true, decide_eq_true_eq] at h
    rw [h.1, UFields.same_eq h.2]
  | .sc _, .arr _, h | .sc _, .record _ _, h | .arr _, .sc _, h | .arr _, .record _ _, h | .record _ _, .sc _, h
  | .record _ _, .arr _, h => by simp [UTy.same] at h
theorem UFields.same_eq : ∀ {t s : UFields}, t.same s = true → t = s
  | .nil, .nil, _ => rfl
  | .cons _ _ _, .cons _ _ _, h => by
    simp only [UFields.same, Bool.and_eq_true, decide_eq_true_eq] at h
    rw [h.1.1, UTy.same_eq h.1.2, UFields.same_eq h.2]
  | .nil, .cons _ _ _, h | .cons _ _ _, .nil, h => by simp [UFields.same] at h
end

mutual
theorem PVal.sameShape_iff : ∀ {a b : PVal F}, PVal.sameShape a b = true ↔ PVal.SameShape a b
  | .sc _, b => by cases b <;> simp [PVal.sameShape, PVal.SameShape]
  | .arr l, b => by
    cases b <;> simp only [PVal.sameShape, PVal.SameShape, Bool.false_eq_true]
    exact PVal.sameShapes_iff
  | .record k fs, b => by
    cases b <;> simp only [PVal.sameShape, PVal.SameShape, Bool.false_eq_true, Bool.and_eq_true, decide_eq_true_eq]
    rw [PVal.sameShapeFields_iff]
theorem PVal.sameShapes_iff : ∀ {a b : List (PVal F)}, PVal.sameShapes a b = true ↔ PVal.SameShapes a b
  | [], b => by cases b <;> simp [PVal.sameShapes, PVal.SameShapes]
  | a :: l, b => by
    cases b with
    | nil => simp [PVal.sameShapes, PVal.SameShapes]
    | cons b l' => rw [PVal.sameShapes, PVal.SameShapes, Bool.and_eq_true, PVal.sameShape_iff, PVal.sameShapes_iff]
theorem PVal.sameShapeFields_iff : ∀ {a b : List (String × PVal F)}, PVal.sameShapeFields a b = true ↔ PVal.SameShapeFields a b
  | [], b => by cases b <;> simp [PVal.sameShapeFields, PVal.SameShapeFields]
  | (n, a) :: l, b => by
    cases b with
    | nil => simp [PVal.sameShapeFields, PVal.SameShapeFields]
    | cons b l' =>
      obtain ⟨m, b⟩ := b
      rw [PVal.sameShapeFields, PVal.SameShapeFields, Bool.and_eq_true, Bool.and_eq_true, decide_eq_true_eq,
        PVal.sameShape_iff, PVal.sameShapeFields_iff, and_assoc]
end

theorem rows_eq {l : List (PVal F)} {v : PVal F} (h : rows l = some v) :
    v = .arr l ∧ ∀ a ∈ l, ∀ b ∈ l, PVal.SameShape a b := by
  simp only [rows] at h
  split at h
  · rename_i hl
    cases h
    simp only [List.all_eq_true, PVal.sameShape_iff] at hl
    exact ⟨rfl, hl⟩
  · cases h

end Verif.Frontend
