import Verif.Frontend.Objects

/-!
The values of Python objects: numbers, arrays of values, and records of values. Specification for the properties of
the frontend on objects, and how it relates to the packing of records into pairs.
-/

set_option linter.unusedSectionVars false

namespace Verif.Frontend
open Verif.Phi Verif.Term Verif.Midend Verif.Codegen
variable {F : Type}

/-- What a Python object stands for: a number, an array, or a record with named fields. -/
inductive PVal (F : Type) where
  | sc (s : Scal F)
  | arr (l : List (PVal F))
  | record (k : RecKind) (fs : List (String × PVal F))

mutual
/-- Equality of values, for the examples. -/
def PVal.same [DecidableEq F] : PVal F → PVal F → Bool
  | .sc a, .sc b => decide (a = b)
  | .arr l, .arr l' => PVal.sameList l l'
  | .record k fs, .record k' fs' => decide (k = k') && PVal.sameFields fs fs'
  | _, _ => false
def PVal.sameList [DecidableEq F] : List (PVal F) → List (PVal F) → Bool
  | [], [] => true
  | a :: l, b :: l' => PVal.same a b && PVal.sameList l l'
  | _, _ => false
def PVal.sameFields [DecidableEq F] : List (String × PVal F) → List (String × PVal F) → Bool
  | [], [] => true
  | (n, a) :: l, (m, b) :: l' => decide (n = m) && PVal.same a b && PVal.sameFields l l'
  | _, _ => false
end

mutual
theorem PVal.same_iff [DecidableEq F] : ∀ a b : PVal F, PVal.same a b = true ↔ a = b
  | .sc a, b => by cases b <;> simp [PVal.same]
  | .arr l, b => by
    cases b <;> simp [PVal.same]
    exact PVal.sameList_iff _ _
  | .record k fs, b => by
    cases b <;> simp [PVal.same]
    rintro -
    exact PVal.sameFields_iff _ _
theorem PVal.sameList_iff [DecidableEq F] : ∀ a b : List (PVal F), PVal.sameList a b = true ↔ a = b
  | [], b => by cases b <;> simp [PVal.sameList]
  | a :: l, b => by
    cases b with
    | nil => simp [PVal.sameList]
    | cons x xs => simp [PVal.sameList, PVal.same_iff a x, PVal.sameList_iff l xs]
theorem PVal.sameFields_iff [DecidableEq F] : ∀ a b : List (String × PVal F), PVal.sameFields a b = true ↔ a = b
  | [], b => by cases b <;> simp [PVal.sameFields]
  | (n, a) :: l, b => by
    cases b with
    | nil => simp [PVal.sameFields]
    | cons x xs =>
      obtain ⟨m, x⟩ := x
      simp [PVal.sameFields, PVal.same_iff a x, PVal.sameFields_iff l xs]
end

instance [DecidableEq F] : DecidableEq (PVal F) := fun a b => decidable_of_iff _ (PVal.same_iff a b)

mutual
/-- Records are right-nested pairs: the value that is meant by nested pairs, for a layout. -/
def view : Layout → D F → Option (PVal F)
  | .atom, .sc s => some (.sc s)
  | .vec sub, .vec vs => (mapOpt (view sub) vs).map .arr
  | .struct k subs, v => (viewFields subs v).map (.record k)
  | _, _ => none
def viewFields : LFields → D F → Option (List (String × PVal F))
  | .nil, _ => none
  | .cons n l .nil, v => (view l v).map fun x => [(n, x)]
  | .cons n l (.cons m l' rest), .pair a b =>
    (view l a).bind fun x => (viewFields (.cons m l' rest) b).map fun xs => (n, x) :: xs
  | _, _ => none
end

variable [FloatOps F] (I : Ext F)

mutual
/-- The value of an object where symbols have the values `env`: every component is evaluated separately. -/
def value (env : Env (D F)) : Obj F → Option (PVal F)
  | .scalar a => (run I (wrap a) env).bind (view .atom)
  | .vec e sub => (run I e env).bind (view (.vec sub))
  | .raw v τ => (unambiguous τ).bind fun l => view l v
  | .struct k fs => (valueFields env fs).map (.record k)
def valueFields (env : Env (D F)) : Fields F → Option (List (String × PVal F))
  | .nil => some []
  | .cons n o rest => (value env o).bind fun x => (valueFields env rest).map fun xs => (n, x) :: xs
end

/-! ### Layouts and objects as Python has them -/

/-- The field names of a record. -/
def namesOf : Fields F → List String
  | .nil => []
  | .cons n _ rest => n :: namesOf rest

def LFields.names : LFields → List String
  | .nil => []
  | .cons n _ rest => n :: rest.names

/-- No record is empty, names are distinct, and no key of a dict is the name of a method of `dict` (the conditions of
C16). -/
def okNames (k : RecKind) (names : List String) : Bool :=
  decide (names ≠ []) && (decide (k = .positional) || decide names.Nodup) &&
    (decide (k ≠ .dict) || names.all fun n => decide (n ∉ dictAttrs))

mutual
def Layout.ok : Layout → Bool
  | .atom => true
  | .vec sub => sub.ok
  | .struct k subs => okNames k subs.names && subs.ok
def LFields.ok : LFields → Bool
  | .nil => true
  | .cons _ l rest => l.ok && rest.ok
end

mutual
/-- Objects with such names, the arrays of which are wrapped in `Vec`s. -/
def Obj.ok : Obj F → Bool
  | .scalar _ => true
  | .vec _ sub => sub.ok
  | .raw _ _ => false
  | .struct k fs => okNames k (namesOf fs) && fs.ok
def Fields.ok : Fields F → Bool
  | .nil => true
  | .cons _ o rest => o.ok && rest.ok
end

/-! ### Unpacking -/

theorem run_fst (e : Expr F) (env : Env (D F)) : run I (Phi.fst e) env = fstOf (run I e env) := by
  rw [Phi.fst, run_node]; rfl

theorem run_snd (e : Expr F) (env : Env (D F)) : run I (Phi.snd e) env = sndOf (run I e env) := by
  rw [Phi.snd, run_node]; rfl

theorem run_cons (a b : Expr F) (env : Env (D F)) : run I (Phi.cons a b) env = consOf (run I a env) (run I b env) := by
  rw [Phi.cons, run_node]; rfl

omit [FloatOps F] in
theorem okNames_ne {k : RecKind} {names : List String} (h : okNames k names = true) : names ≠ [] := by
  simp only [okNames, Bool.and_eq_true, decide_eq_true_eq] at h
  exact h.1.1

mutual
/-- An unpacked expression stands for its value, seen through the layout. -/
theorem value_unpack (env : Env (D F)) : ∀ (l : Layout), l.ok = true → ∀ e : Expr F,
    value I env (unpack l e) = (run I e env).bind (view l)
  | .atom, _, e => by simp only [unpack, value, wrap]
  | .vec sub, _, e => by simp only [unpack, value]
  | .struct k subs, h, e => by
    simp only [Layout.ok, Bool.and_eq_true] at h
    have hne : subs ≠ .nil := by rintro rfl; exact okNames_ne h.1 rfl
    simp only [unpack, value]
    rw [value_unpackFields env subs h.2 hne e 0 _ (by omega)]
    simp only [sndIter]
    cases run I e env with
    | none => rfl
    | some v => simp [view]
theorem value_unpackFields (env : Env (D F)) : ∀ (l : LFields), l.ok = true → l ≠ .nil → ∀ (e : Expr F) (i n : Nat),
    i + l.length = n → valueFields I env (unpackFields l e i n) = (run I (sndIter i e) env).bind (viewFields l)
  | .nil, _, h, _, _, _, _ => absurd rfl h
  | .cons m l .nil, h, _, e, i, n, hn => by
    simp only [LFields.ok, Bool.and_eq_true] at h
    simp only [LFields.length] at hn
    simp only [unpackFields, valueFields]
    rw [project, if_neg (by omega), value_unpack env l h.1]
    cases run I (sndIter i e) env with
    | none => rfl
    | some v =>
      simp only [Option.bind_some, viewFields]
      cases view l v <;> rfl
  | .cons m l (.cons m' l' rest), h, _, e, i, n, hn => by
    have h1 : l.ok = true := by simp only [LFields.ok, Bool.and_eq_true] at h; exact h.1
    have h2 : (LFields.cons m' l' rest).ok = true := by
      rw [LFields.ok, Bool.and_eq_true] at h; exact h.2
    rw [unpackFields, valueFields, value_unpackFields env (.cons m' l' rest) h2 (by simp) e (i + 1) n (by
      rw [LFields.length] at hn; omega), project, if_pos (by simp only [LFields.length] at hn; omega), value_unpack env l h1]
    rw [sndIter, run_fst, run_snd]
    cases run I (sndIter i e) env with
    | none => rfl
    | some v =>
      cases v with
      | sc s => rfl
      | vec vs => rfl
      | pair a b =>
        simp only [fstOf, sndOf, Option.bind_some, viewFields]
end

/-! ### Packing -/

theorem lookup_names {fs : Fields F} (h : (namesOf fs).Nodup) (n : String) (o : Obj F)
    (hm : (n, o) ∈ (namesOf fs).zip fs.toList) : fs.lookup n = some o := by
  induction fs using Fields.rec (motive_1 := fun _ => True) with
  | scalar | vec | raw | struct => trivial
  | nil => simp [namesOf] at hm
  | cons m x rest _ ih =>
    simp only [namesOf, Fields.toList, List.zip_cons_cons, List.mem_cons, Prod.mk.injEq, List.nodup_cons] at h hm
    rw [Fields.lookup]
    rcases hm with ⟨rfl, rfl⟩ | hm
    · rw [if_pos rfl]
    · rw [if_neg, ih h.2 hm]
      rintro rfl
      exact h.1 (List.of_mem_zip hm).1

theorem getName_of {k : RecKind} {fs : Fields F} (hk : k ≠ .positional) (h : okNames k (namesOf fs) = true) {n : String}
    {o : Obj F} (hm : (n, o) ∈ (namesOf fs).zip fs.toList) : getName n (.struct k fs) = some o := by
  simp only [okNames, Bool.and_eq_true, Bool.or_eq_true, decide_eq_true_eq, List.all_eq_true] at h
  obtain ⟨⟨-, h1⟩, h2⟩ := h
  have hl := lookup_names (h1.resolve_left hk) n o hm
  cases k with
  | positional => exact absurd rfl hk
  | dict => rw [getName, if_neg ((h2.resolve_left (by simp)) n (List.of_mem_zip hm).1), hl]
  | data c => rw [getName, hl]

theorem packLab_pos (O : Obj F) : ∀ (fs : Fields F) (lfs : LFields), buildFields fs = some lfs →
    (∀ n o, (n, o) ∈ (namesOf fs).zip fs.toList → getName n O = some o) → packLab lfs O = packPos lfs fs.toList
  | .nil, lfs, hb, _ => by
    simp only [buildFields, Option.some.injEq] at hb
    subst hb; simp [packLab, packPos, Fields.toList]
  | .cons n o rest, lfs, hb, h => by
    simp only [buildFields, Option.bind_eq_some_iff, Option.map_eq_some_iff] at hb
    obtain ⟨l, _, lr, hr, rfl⟩ := hb
    rw [packLab, Fields.toList, packPos, h n o (by simp [namesOf, Fields.toList]), Option.bind_some, packLab_pos O rest lr hr]
    intro m x hm
    exact h m x (by simp [namesOf, Fields.toList, hm])

theorem buildFields_names : ∀ {fs : Fields F} {lfs : LFields}, buildFields fs = some lfs → lfs.names = namesOf fs
  | .nil, lfs, h => by simp only [buildFields, Option.some.injEq] at h; subst h; rfl
  | .cons n o rest, lfs, h => by
    simp only [buildFields, Option.bind_eq_some_iff, Option.map_eq_some_iff] at h
    obtain ⟨l, _, lr, hr, rfl⟩ := h
    simp [LFields.names, namesOf, buildFields_names hr]

/-- What is known of an object: it has a layout and can be packed, and its value is that of the packed expression. -/
def PacksTo (o : Obj F) : Prop :=
  ∃ l e, build o = some l ∧ l.ok = true ∧ pack l o = some e ∧ ∀ env, value I env o = (run I e env).bind (view l)

mutual
theorem packsTo : ∀ o : Obj F, o.ok = true → PacksTo I o
  | .scalar a, _ => ⟨.atom, wrap a, by simp [build], rfl, by simp [pack], fun env => by simp only [value]⟩
  | .vec e sub, h => ⟨.vec sub, e, by simp [build], by simpa [Layout.ok, Obj.ok] using h, by simp [pack],
      fun env => by simp only [value]⟩
  | .raw _ _, h => by simp [Obj.ok] at h
  | .struct k fs, h => by
    simp only [Obj.ok, Bool.and_eq_true] at h
    have hne : fs ≠ .nil := by rintro rfl; exact okNames_ne h.1 rfl
    obtain ⟨lfs, es, hb, hl, hp, hlen, p, hc, hv⟩ := packsToFields fs h.2 hne
    have hbuild : build (.struct k fs) = some (.struct k lfs) := by
      cases fs with
      | nil => exact absurd rfl hne
      | cons n o rest => cases k <;> simp [build, hb]
    refine ⟨.struct k lfs, p, hbuild, ?_, ?_, fun env => ?_⟩
    · simp only [Layout.ok, Bool.and_eq_true]
      exact ⟨by rw [buildFields_names hb]; exact h.1, hl⟩
    · cases k with
      | positional => simp [pack, hp, hc]
      | dict =>
        rw [pack, packLab_pos _ fs lfs hb (fun n o hm => getName_of (by simp) h.1 hm), hp, Option.bind_some, hc]
      | data c =>
        rw [pack, packLab_pos _ fs lfs hb (fun n o hm => getName_of (by simp) h.1 hm), hp, Option.bind_some, hc]
    · rw [value, hv env]
      cases run I p env with
      | none => rfl
      | some v => simp [view]
theorem packsToFields : ∀ fs : Fields F, fs.ok = true → fs ≠ .nil →
    ∃ lfs es, buildFields fs = some lfs ∧ lfs.ok = true ∧ packPos lfs fs.toList = some es ∧ es ≠ [] ∧
      ∃ p, consAll es = some p ∧ ∀ env, valueFields I env fs = (run I p env).bind (viewFields lfs)
  | .nil, _, h => absurd rfl h
  | .cons n o .nil, h, _ => by
    simp only [Fields.ok, Bool.and_eq_true] at h
    obtain ⟨l, e, h1, h2, h3, h4⟩ := packsTo o h.1
    refine ⟨.cons n l .nil, [e], by simp [buildFields, h1], by simp [LFields.ok, h2],
      by simp [Fields.toList, packPos, h3], by simp, e, rfl, fun env => ?_⟩
    simp only [valueFields, h4 env]
    cases run I e env with
    | none => rfl
    | some v =>
      simp only [Option.bind_some, viewFields]
      cases view l v <;> rfl
  | .cons n o (.cons n' o' rest), h, _ => by
    have ho : o.ok = true := by simp only [Fields.ok, Bool.and_eq_true] at h; exact h.1
    have hr : (Fields.cons n' o' rest).ok = true := by rw [Fields.ok, Bool.and_eq_true] at h; exact h.2
    obtain ⟨l, e, h1, h2, h3, h4⟩ := packsTo o ho
    obtain ⟨lfs, es, g1, g2, g3, g4, p, g5, g6⟩ := packsToFields (.cons n' o' rest) hr (by simp)
    have hlfs : ∃ l' lr, lfs = .cons n' l' lr := by
      simp only [buildFields, Option.bind_eq_some_iff, Option.map_eq_some_iff] at g1
      obtain ⟨l', _, lr, _, rfl⟩ := g1
      exact ⟨l', lr, rfl⟩
    refine ⟨.cons n l lfs, e :: es, by rw [buildFields, h1, g1]; rfl, by simp [LFields.ok, h2, g2],
      by rw [Fields.toList, packPos, h3, g3]; rfl, by simp, Phi.cons e p, ?_, fun env => ?_⟩
    · cases es with
      | nil => exact absurd rfl g4
      | cons x xs => simp [consAll, g5]
    · obtain ⟨l', lr, rfl⟩ := hlfs
      rw [valueFields, h4 env, g6 env, run_cons]
      cases run I e env with
      | none => rfl
      | some v =>
        cases run I p env with
        | none => simp [consOf]
        | some w => simp only [consOf, Option.bind_some, viewFields]
end

mutual
/-- What is unpacked has good names, too. -/
theorem ok_unpack : ∀ (l : Layout), l.ok = true → ∀ e : Expr F, (unpack l e).ok = true
  | .atom, _, _ => by simp [unpack, Obj.ok]
  | .vec sub, h, _ => by simpa [unpack, Obj.ok, Layout.ok] using h
  | .struct k subs, h, e => by
    simp only [Layout.ok, Bool.and_eq_true] at h
    simp only [unpack, Obj.ok, Bool.and_eq_true]
    obtain ⟨h1, h2⟩ := ok_unpackFields subs h.2 e 0 subs.length
    exact ⟨by rw [h2]; exact h.1, h1⟩
theorem ok_unpackFields : ∀ (l : LFields), l.ok = true → ∀ (e : Expr F) (i n : Nat),
    (unpackFields l e i n).ok = true ∧ namesOf (unpackFields l e i n) = l.names
  | .nil, _, _, _, _ => by simp [unpackFields, Fields.ok, namesOf, LFields.names]
  | .cons m l rest, h, e, i, n => by
    simp only [LFields.ok, Bool.and_eq_true] at h
    obtain ⟨h1, h2⟩ := ok_unpackFields rest h.2 e (i + 1) n
    simp only [unpackFields, Fields.ok, namesOf, LFields.names, Bool.and_eq_true]
    exact ⟨⟨ok_unpack l h.1 _, h1⟩, by rw [h2]⟩
end

mutual
/-- What is unpacked has the layout. -/
theorem build_unpack : ∀ (l : Layout), l.ok = true → ∀ e : Expr F, build (unpack l e) = some l
  | .atom, _, _ => by simp [unpack, build]
  | .vec sub, _, _ => by simp [unpack, build]
  | .struct k subs, h, e => by
    simp only [Layout.ok, Bool.and_eq_true] at h
    have := build_unpackFields subs h.2 e 0 subs.length
    cases subs with
    | nil => exact absurd rfl (okNames_ne h.1)
    | cons n l rest =>
      rw [unpackFields] at this
      rw [unpack, unpackFields]
      cases k <;> rw [build, this] <;> rfl
theorem build_unpackFields : ∀ (l : LFields), l.ok = true → ∀ (e : Expr F) (i n : Nat),
    buildFields (unpackFields l e i n) = some l
  | .nil, _, _, _, _ => by simp [unpackFields, buildFields]
  | .cons m l rest, h, e, i, n => by
    simp only [LFields.ok, Bool.and_eq_true] at h
    simp [unpackFields, buildFields, build_unpack l h.1, build_unpackFields rest h.2]
end

end Verif.Frontend
