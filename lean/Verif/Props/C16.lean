import Verif.Frontend.Layout
import Verif.Toy

/-! C16: record layouts round-trip. -/

namespace Verif.Props
open Verif.Phi Verif.Term Verif.Frontend
variable {F : Type} [FloatOps F] (I : Ext F) (env : Env (D F))

/-! ### Specification -/

/-- The field names of a record. -/
def fieldNames : Fields F → List String
  | .nil => []
  | .cons n _ rest => n :: fieldNames rest

mutual
/-- Records whose components are ein scalars, numbers and `Vec`s that have a value; no record is empty;
names are distinct (as Python guarantees), and no key of a dict is the name of a method of `dict`. -/
def Packable : Obj F → Prop
  | .scalar a => (∃ v, run I (wrap a) env = some v) ∧ ∃ k, typeOf (wrap a) = some (.scalar k)
  | .vec e _ => (∃ v, run I e env = some v) ∧ ∃ τ, typeOf e = some (.vector τ)
  | .raw _ _ => False
  | .struct k fs => fs ≠ .nil ∧ (k ≠ .positional → (fieldNames fs).Nodup) ∧
      (k = .dict → ∀ n ∈ fieldNames fs, n ∉ dictAttrs) ∧ PackableFields fs
def PackableFields : Fields F → Prop
  | .nil => True
  | .cons _ o rest => Packable o ∧ PackableFields rest
end

mutual
/-- `o'` has the same containers, field names and positions as `o`, and each component of `o'` has the
value and the type of the corresponding component of `o`. -/
def Same : Obj F → Obj F → Prop
  | .scalar a, .scalar b =>
    run I (wrap b) env = run I (wrap a) env ∧ typeOf (wrap b) = typeOf (wrap a)
  | .vec e s, .vec e' s' => run I e' env = run I e env ∧ typeOf e' = typeOf e ∧ s' = s
  | .struct k fs, .struct k' fs' => k' = k ∧ SameFields fs fs'
  | _, _ => False
def SameFields : Fields F → Fields F → Prop
  | .nil, .nil => True
  | .cons n o rest, .cons n' o' rest' => n' = n ∧ Same o o' ∧ SameFields rest rest'
  | _, _ => False
end

/-! ### Proof -/

def fieldCount : Fields F → Nat
  | .nil => 0
  | .cons _ _ rest => fieldCount rest + 1

omit [FloatOps F] in
theorem lookup_of_nodup {fs : Fields F} (h : (fieldNames fs).Nodup) (n : String) (o : Obj F)
    (hm : (n, o) ∈ (fieldNames fs).zip fs.toList) : fs.lookup n = some o := by
  induction fs using Fields.rec (motive_1 := fun _ => True) with
  | scalar | vec | raw | struct => trivial
  | nil => simp [fieldNames] at hm
  | cons m x rest _ ih =>
    simp only [fieldNames, Fields.toList, List.zip_cons_cons, List.mem_cons, Prod.mk.injEq,
      List.nodup_cons] at h hm
    rw [Fields.lookup]
    rcases hm with ⟨rfl, rfl⟩ | hm
    · rw [if_pos rfl]
    · rw [if_neg, ih h.2 hm]
      rintro rfl
      exact h.1 (List.of_mem_zip hm).1

omit [FloatOps F] in
theorem packLab_eq (O : Obj F) : ∀ (fs : Fields F) (lfs : LFields), buildFields fs = some lfs →
    (∀ n o, (n, o) ∈ (fieldNames fs).zip fs.toList → getName n O = some o) →
    packLab lfs O = packPos lfs fs.toList
  | .nil, lfs, hb, _ => by
    simp only [buildFields, Option.some.injEq] at hb
    subst hb; simp [packLab, packPos, Fields.toList]
  | .cons n o rest, lfs, hb, h => by
    simp only [buildFields, Option.bind_eq_some_iff, Option.map_eq_some_iff] at hb
    obtain ⟨l, _, lr, hr, rfl⟩ := hb
    rw [packLab, Fields.toList, packPos, h n o (by simp [fieldNames, Fields.toList]),
      Option.bind_some, packLab_eq O rest lr hr]
    intro m x hm
    exact h m x (by simp [fieldNames, Fields.toList, hm])

theorem run_fst_of {e : Expr F} {x y : D F} (h : run I e env = some (.pair x y)) :
    run I (Phi.fst e) env = some x := by
  rw [Phi.fst, run_node]; simp only [List.map, runDen, fstOf, h, Option.bind_some]

theorem run_snd_of {e : Expr F} {x y : D F} (h : run I e env = some (.pair x y)) :
    run I (Phi.snd e) env = some y := by
  rw [Phi.snd, run_node]; simp only [List.map, runDen, sndOf, h, Option.bind_some]

theorem run_cons_of {a b : Expr F} {x y : D F} (ha : run I a env = some x)
    (hb : run I b env = some y) : run I (Phi.cons a b) env = some (.pair x y) := by
  rw [Phi.cons, run_node]; simp only [List.map, runDen, consOf, ha, hb, Option.bind_some]

omit [FloatOps F] in
theorem typeOf_fst_of {e : Expr F} {σ τ : Ty} (h : typeOf e = some (.pair σ τ)) :
    typeOf (Phi.fst e) = some σ := by
  rw [Phi.fst, typeOf_node]; simp only [List.map, typeStep, h]

omit [FloatOps F] in
theorem typeOf_snd_of {e : Expr F} {σ τ : Ty} (h : typeOf e = some (.pair σ τ)) :
    typeOf (Phi.snd e) = some τ := by
  rw [Phi.snd, typeOf_node]; simp only [List.map, typeStep, h]

omit [FloatOps F] in
theorem typeOf_cons_of {a b : Expr F} {σ τ : Ty} (ha : typeOf a = some σ) (hb : typeOf b = some τ) :
    typeOf (Phi.cons a b) = some (.pair σ τ) := by
  rw [Phi.cons, typeOf_node]; simp only [List.map, typeStep, ha, hb]

/-- What is shown by induction for objects … -/
def Packs (o : Obj F) : Prop :=
  ∃ l e v τ, build o = some l ∧ pack l o = some e ∧ run I e env = some v ∧ typeOf e = some τ ∧
    l.matches τ = true ∧
    ∀ e', run I e' env = some v → typeOf e' = some τ → Same I env o (unpack l e')

/-- … and for the fields of a record. -/
def PacksFields (fs : Fields F) : Prop :=
  ∃ lfs es, buildFields fs = some lfs ∧ packPos lfs fs.toList = some es ∧ lfs.length = fieldCount fs ∧
    es.length = fieldCount fs ∧
    (fs ≠ .nil → ∃ p v τ, consAll es = some p ∧ run I p env = some v ∧ typeOf p = some τ ∧
      lfs.matches τ = true ∧
      ∀ e' i n, i + fieldCount fs = n → run I (sndIter i e') env = some v →
        typeOf (sndIter i e') = some τ → SameFields I env fs (unpackFields lfs e' i n))

mutual
theorem packs : ∀ o : Obj F, Packable I env o → Packs I env o
  | .scalar a, h => by
    obtain ⟨⟨v, hv⟩, k, hk⟩ := h
    refine ⟨.atom, wrap a, v, .scalar k, by simp [build], by simp [pack], hv, hk,
      by simp [Layout.matches], fun e' h1 h2 => ?_⟩
    simp only [unpack, Same]
    exact ⟨by rw [hv]; exact h1, by rw [hk]; exact h2⟩
  | .vec e s, h => by
    obtain ⟨⟨v, hv⟩, τ, hτ⟩ := h
    refine ⟨.vec s, e, v, .vector τ, by simp [build], by simp [pack], hv, hτ,
      by simp [Layout.matches], fun e' h1 h2 => ?_⟩
    simp only [unpack, Same]
    exact ⟨by rw [hv]; exact h1, by rw [hτ]; exact h2, trivial⟩
  | .raw _ _, h => by simp only [Packable] at h
  | .struct k fs, h => by
    simp only [Packable] at h
    obtain ⟨hne, hnd, hda, hf⟩ := h
    obtain ⟨lfs, es, hb, hp, hl, hel, hrest⟩ := packsFields fs hf
    obtain ⟨p, v, τ, hc, hv, hτ, hm, hs⟩ := hrest hne
    have hbuild : build (.struct k fs) = some (.struct k lfs) := by
      cases fs with
      | nil => exact absurd rfl hne
      | cons n o rest => cases k <;> simp [build, hb]
    have hlab : k ≠ .positional → packLab lfs (.struct k fs) = some es := by
      intro hk
      rw [packLab_eq _ fs lfs hb, hp]
      intro n o hno
      have := lookup_of_nodup (hnd hk) n o hno
      cases k with
      | positional => exact absurd rfl hk
      | dict => rw [getName, if_neg (hda rfl n (List.of_mem_zip hno).1), this]
      | data c => rw [getName, this]
    refine ⟨.struct k lfs, p, v, τ, hbuild, ?_, hv, hτ, by rw [Layout.matches]; exact hm, ?_⟩
    · cases k with
      | positional => simp [pack, hp, hc]
      | dict => simp [pack, hlab, hc]
      | data c => simp [pack, hlab, hc]
    · intro e' h1 h2
      rw [unpack, Same]
      exact ⟨rfl, hs e' 0 _ (by rw [hl]; omega) h1 h2⟩
theorem packsFields : ∀ fs : Fields F, PackableFields I env fs → PacksFields I env fs
  | .nil, _ => ⟨.nil, [], by simp [buildFields], by simp [packPos, Fields.toList], rfl, rfl,
      fun h => absurd rfl h⟩
  | .cons n o rest, h => by
    obtain ⟨ho, hr⟩ := h
    obtain ⟨l, e, v, τ, h1, h2, h3, h4, h5, h6⟩ := packs o ho
    obtain ⟨lfs, es, g1, g2, g3, g4, g5⟩ := packsFields rest hr
    refine ⟨.cons n l lfs, e :: es, by simp [buildFields, h1, g1],
      by simp [Fields.toList, packPos, h2, g2], by simp [LFields.length, fieldCount, g3],
      by simp [fieldCount, g4], fun _ => ?_⟩
    cases rest with
    | nil =>
      simp only [buildFields, Option.some.injEq] at g1
      subst g1
      simp only [fieldCount, List.length_eq_zero_iff] at g4
      subst g4
      refine ⟨e, v, τ, by simp [consAll], h3, h4, by simpa [LFields.matches] using h5, ?_⟩
      intro e' i m hm hv' hτ'
      simp only [fieldCount] at hm
      rw [unpackFields, SameFields]
      refine ⟨rfl, ?_, by simp [unpackFields, SameFields]⟩
      rw [project, if_neg (by omega)]
      exact h6 _ hv' hτ'
    | cons n2 o2 rest2 =>
      obtain ⟨p, v2, τ2, k1, k2, k3, k4, k5⟩ := g5 (by simp)
      have hes : es ≠ [] := by
        intro he; rw [he] at g4; simp [fieldCount] at g4
      refine ⟨Phi.cons e p, .pair v v2, .pair τ τ2, ?_, run_cons_of I env h3 k2, typeOf_cons_of h4 k3,
        ?_, ?_⟩
      · cases es with
        | nil => exact absurd rfl hes
        | cons x xs => simp [consAll, k1]
      · cases lfs with
        | nil => simp [LFields.length, fieldCount] at g3
        | cons m l' lr => simp [LFields.matches, h5, k4]
      · intro e' i m hm hv' hτ'
        simp only [fieldCount] at hm
        rw [unpackFields, SameFields]
        refine ⟨rfl, ?_, ?_⟩
        · rw [project, if_pos (by omega)]
          exact h6 _ (run_fst_of I env hv') (typeOf_fst_of hτ')
        · exact k5 e' (i + 1) m (by simp only [fieldCount]; omega) (run_snd_of I env hv')
            (typeOf_snd_of hτ')
end

/-! ### Properties -/

/-- C16: packing a record succeeds, its layout matches the type of the packed expression, and unpacking
the packed expression - or any other expression of the same value and type, such as the variable of a
loop - returns every component in its place, with its value and type. -/
theorem C16_roundtrip_partial (o : Obj F) (h : Packable I env o) :
    ∃ l e τ, build o = some l ∧ pack l o = some e ∧ typeOf e = some τ ∧ l.matches τ = true ∧
      Same I env o (unpack l e) ∧
      ∀ e', run I e' env = run I e env → typeOf e' = typeOf e → Same I env o (unpack l e') := by
  obtain ⟨l, e, v, τ, h1, h2, h3, h4, h5, h6⟩ := packs I env o h
  exact ⟨l, e, τ, h1, h2, h4, h5, h6 e h3 h4, fun e' a b => h6 e' (a.trans h3) (b.trans h4)⟩

/-- Without the condition on the keys of dicts: `{"items": x}` cannot be packed, since `get` finds the
method `dict.items`. -/
theorem C16_dict_key_counterexample :
    let o : Obj Int := .struct .dict (.cons "items" (.scalar (.int 1)) .nil)
    ∃ l, build o = some l ∧ pack l o = none := by
  exact ⟨.struct .dict (.cons "items" .atom .nil), by simp [build, buildFields],
    by simp [pack, packLab, getName, dictAttrs]⟩

/-- Arrays that are not wrapped have a layout but cannot be packed: `lambda a: a.expr` is applied to the
array itself. -/
theorem C16_raw_array_counterexample :
    let o : Obj Int := .struct .positional (.cons "" (.scalar (.int 1))
      (.cons "" (.raw (Toy.ints [1, 2]) (.vector (.scalar .int))) .nil))
    ∃ l, build o = some l ∧ pack l o = none := by
  exact ⟨.struct .positional (.cons "" .atom (.cons "" (.vec .atom) .nil)),
    by simp [build, buildFields, unambiguous], by simp [pack, packPos, Fields.toList]⟩

/-- The layout of a vector matches every vector type, not only those of its elements' layout. -/
theorem C16_match_vector_counterexample :
    (Layout.vec .atom).matches (.vector (.pair (.scalar .int) (.scalar .int))) = true := by
  simp [Layout.matches]

/-- A record with three fields, one a nested pair and one a vector. -/
def C16_example : Obj Int :=
  .struct (.data 0) (.cons "x" (.scalar (.scalar (Toy.ivar 0)))
    (.cons "yz" (.struct .positional (.cons "" (.scalar (.int 4)) (.cons "" (.scalar (.bool true)) .nil)))
      (.cons "v" (.vec (Phi.var 1 (.vector (.scalar .int))) .atom) .nil)))

/-- Non-vacuity. -/
example : Packable Toy.noExt (Toy.envOf [(0, .int 3), (1, Toy.ints [1, 2])]) C16_example := by
  simp only [C16_example, Packable, PackableFields, fieldNames, wrap]
  refine ⟨by simp, by simp, by simp, ⟨⟨_, rfl⟩, .int, rfl⟩, ⟨by simp, by simp, by simp,
    ⟨⟨_, rfl⟩, .int, rfl⟩, ⟨⟨_, rfl⟩, .bool, rfl⟩, trivial⟩, ⟨⟨_, rfl⟩, _, rfl⟩, trivial⟩

end Verif.Props
