import Verif.Midend.StructsArr

/-! Records flattened to left-nested pairs of their components, as the struct-of-arrays pass does for
reductions. -/

set_option linter.unusedSectionVars false

namespace Verif.Midend
open Verif.Phi Verif.Term
variable {F : Type}

/-- The components of a record type, from left to right. -/
def leafTys : Ty → List Ty
  | .pair a b => leafTys a ++ leafTys b
  | t => [t]

/-- The components of a record of the given type. -/
def leafVals : Ty → D F → List (D F)
  | .pair a b, v => leafVals a v.left ++ leafVals b v.right
  | _, v => [v]

/-- Not a record. -/
def isLeaf : Ty → Bool
  | .pair _ _ => false
  | _ => true

theorem leafTys_leaf {t : Ty} (h : isLeaf t = true) : leafTys t = [t] := by cases t <;> first | rfl | cases h

theorem leafVals_leaf {t : Ty} (h : isLeaf t = true) (v : D F) : leafVals t v = [v] := by
  cases t <;> first | rfl | cases h

theorem isLeaf_of_isArr {t : Ty} (h : isArr t = true) : isLeaf t = true := by cases t <;> first | rfl | cases h

theorem leafTys_ne (t : Ty) : leafTys t ≠ [] := by
  cases t with
  | pair a b => simp [leafTys, leafTys_ne a]
  | _ => simp [leafTys]

theorem isLeaf_leafTys {t : Ty} : ∀ q ∈ leafTys t, isLeaf q = true := by
  induction t with
  | pair a b iha ihb =>
    intro q hq
    rcases List.mem_append.1 hq with h | h
    · exact iha q h
    · exact ihb q h
  | scalar k => intro q hq; rw [List.mem_singleton.1 hq]; rfl
  | vector k => intro q hq; rw [List.mem_singleton.1 hq]; rfl

theorem flat_leafTys {t : Ty} (hf : flat t = true) : ∀ q ∈ leafTys t, flat q = true := by
  induction t with
  | pair a b iha ihb =>
    simp only [flat, Bool.and_eq_true] at hf
    intro q hq
    rcases List.mem_append.1 hq with h | h
    · exact iha hf.1 q h
    · exact ihb hf.2 q h
  | scalar k => intro q hq; rw [List.mem_singleton.1 hq]; rfl
  | vector k => intro q hq; rw [List.mem_singleton.1 hq]; exact hf

theorem leafVals_length (t : Ty) : ∀ v : D F, (leafVals t v).length = (leafTys t).length := by
  induction t with
  | pair a b iha ihb => intro v; simp [leafVals, leafTys, iha, ihb]
  | _ => intro v; rfl

theorem leafTys_foldl (l : List Ty) : ∀ a : Ty, leafTys (l.foldl .pair a) = leafTys a ++ l.flatMap leafTys := by
  induction l with
  | nil => intro a; simp
  | cons b l ih => intro a; rw [List.foldl_cons, ih]; simp [leafTys]

theorem flatMap_leaf {l : List Ty} (h : ∀ q ∈ l, isLeaf q = true) : l.flatMap leafTys = l := by
  induction l with
  | nil => rfl
  | cons b l ih =>
    rw [List.flatMap_cons, leafTys_leaf (h b (by simp)), ih fun q hq => h q (by simp [hq])]
    rfl

theorem flat_foldl {l : List Ty} : ∀ {a : Ty}, flat a = true → (∀ q ∈ l, flat q = true) → flat (l.foldl .pair a) = true := by
  induction l with
  | nil => intro a h _; exact h
  | cons b l ih =>
    intro a ha hl
    rw [List.foldl_cons]
    exact ih (by simp [flat, ha, hl b (by simp)]) fun q hq => hl q (by simp [hq])

/-- The components of left-nested records. -/
theorem leafVals_foldl {l : List Ty} {ws : List (D F)} (h : l.length = ws.length) : ∀ (a : Ty) (w : D F),
    leafVals (l.foldl .pair a) (ws.foldl .pair w) = leafVals a w ++ (List.zipWith leafVals l ws).flatten := by
  induction l generalizing ws with
  | nil =>
    intro a w
    cases ws with
    | nil => simp
    | cons _ _ => cases h
  | cons b l ih =>
    intro a w
    cases ws with
    | nil => cases h
    | cons v ws =>
      rw [List.foldl_cons, List.foldl_cons, ih (by simpa using h)]
      simp [leafVals, Val.left, Val.right]

theorem zip_leaf {l : List Ty} (h : ∀ q ∈ l, isLeaf q = true) : ∀ {ws : List (D F)}, l.length = ws.length →
    (List.zipWith leafVals l ws).flatten = ws := by
  induction l with
  | nil => intro ws hl; cases ws with
    | nil => rfl
    | cons _ _ => cases hl
  | cons b l ih =>
    intro ws hl
    cases ws with
    | nil => cases hl
    | cons w ws =>
      simp only [List.zipWith_cons_cons, List.flatten_cons, leafVals_leaf (h b (by simp))]
      rw [ih (fun q hq => h q (by simp [hq])) (by simpa using hl)]
      rfl

theorem hasType_foldl {l : List Ty} {ws : List (D F)} (h : List.Forall₂ (fun t v => HasType v t) l ws) :
    ∀ {a : Ty} {w : D F}, HasType w a → HasType (ws.foldl .pair w) (l.foldl .pair a) := by
  induction h with
  | nil => intro a w hw; exact hw
  | cons h1 _ ih => intro a w hw; exact ih (.pair hw h1)

theorem hasType_leafVals {t : Ty} {v : D F} (h : HasType v t) :
    List.Forall₂ (fun t v => HasType v t) (leafTys t) (leafVals t v) := by
  induction h with
  | sc s => exact .cons (.sc s) .nil
  | vec h ih => exact .cons (.vec h) .nil
  | pair h1 h2 ih1 ih2 => exact List.rel_append ih1 ih2

/-! ### Terms -/

section closed
variable {Q : Expr F → Prop}

theorem inTuple_all (h1 : ∀ a, Q a → Q (fst a)) (h2 : ∀ a, Q a → Q (snd a)) (P : Ty) : ∀ {sub : Expr F}, Q sub →
    ∀ t ∈ inTuple P sub, Q t := by
  induction P with
  | pair a b iha ihb =>
    intro sub hs t ht
    rcases List.mem_append.1 ht with h | h
    · exact iha (h1 _ hs) t h
    · exact ihb (h2 _ hs) t h
  | scalar k => intro sub hs t ht; rw [List.mem_singleton.1 ht]; exact hs
  | vector k => intro sub hs t ht; rw [List.mem_singleton.1 ht]; exact hs

theorem foldl_cons_all (h : ∀ a b, Q a → Q b → Q (cons a b)) {l : List (Expr F)} : ∀ {e : Expr F}, Q e → (∀ t ∈ l, Q t) →
    Q (l.foldl cons e) := by
  induction l with
  | nil => intro e he _; exact he
  | cons b l ih => intro e he hl; exact ih (h _ _ he (hl b (by simp))) fun t ht => hl t (by simp [ht])

theorem intoLike_all (h : ∀ a b, Q a → Q b → Q (cons a b)) (P : Ty) : ∀ {args : List (Expr F)} {r : Expr F × List (Expr F)},
    intoLike P args = some r → (∀ t ∈ args, Q t) → Q r.1 ∧ ∀ t ∈ r.2, Q t := by
  induction P with
  | pair a b iha ihb =>
    intro args r hr hQ
    simp only [intoLike, Option.bind_eq_some_iff] at hr
    obtain ⟨r1, h1, r2, h2, h3⟩ := hr
    cases h3
    obtain ⟨q1, q2⟩ := iha h1 hQ
    obtain ⟨q3, q4⟩ := ihb h2 q2
    exact ⟨h _ _ q1 q3, q4⟩
  | scalar k =>
    intro args r hr hQ
    cases args with
    | nil => cases hr
    | cons e es => cases hr; exact ⟨hQ _ (by simp), fun t ht => hQ t (by simp [ht])⟩
  | vector k =>
    intro args r hr hQ
    cases args with
    | nil => cases hr
    | cons e es => cases hr; exact ⟨hQ _ (by simp), fun t ht => hQ t (by simp [ht])⟩

end closed

section terms
variable {fl : Bool} {I : Ext F} {Γ : TCtx}

/-- A well-formed term of the given type. -/
def FineAt (fl : Bool) (I : Ext F) (Γ : TCtx) (t : Expr F) (q : Ty) : Prop := Fine fl I t Γ ∧ typeOf t = some q

theorem inTuple_fine (P : Ty) : ∀ {sub : Expr F}, FineAt fl I Γ sub P →
    List.Forall₂ (FineAt fl I Γ) (inTuple P sub) (leafTys P) := by
  induction P with
  | pair a b iha ihb =>
    intro sub h
    exact List.rel_append (iha ⟨h.1.fst h.2, typeOf_fst h.2⟩) (ihb ⟨h.1.snd h.2, typeOf_snd h.2⟩)
  | scalar k => intro sub h; exact .cons h .nil
  | vector k => intro sub h; exact .cons h .nil

theorem foldl_cons_fine {l : List (Expr F)} {ls : List Ty} (h : List.Forall₂ (FineAt fl I Γ) l ls) :
    ∀ {e : Expr F} {a : Ty}, FineAt fl I Γ e a → FineAt fl I Γ (l.foldl cons e) (ls.foldl .pair a) := by
  induction h with
  | nil => intro e a he; exact he
  | cons h1 _ ih => intro e a he; exact ih ⟨he.1.cons h1.1, typeOf_cons he.2 h1.2⟩

theorem intoLike_fine (P : Ty) : ∀ {args : List (Expr F)} {T : List Ty}, List.Forall₂ (FineAt fl I Γ) args (leafTys P ++ T) →
    ∃ r, intoLike P args = some r ∧ FineAt fl I Γ r.1 P ∧ List.Forall₂ (FineAt fl I Γ) r.2 T := by
  induction P with
  | pair a b iha ihb =>
    intro args T h
    rw [leafTys, List.append_assoc] at h
    obtain ⟨r1, h1, h2, h3⟩ := iha h
    obtain ⟨r2, h4, h5, h6⟩ := ihb h3
    exact ⟨(cons r1.1 r2.1, r2.2), by simp [intoLike, h1, h4], ⟨h2.1.cons h5.1, typeOf_cons h2.2 h5.2⟩, h6⟩
  | scalar k => intro args T h; rcases h with _ | ⟨h1, h2⟩; exact ⟨_, rfl, h1, h2⟩
  | vector k => intro args T h; rcases h with _ | ⟨h1, h2⟩; exact ⟨_, rfl, h1, h2⟩

variable [FloatOps F] {env : Env (D F)}

/-- The term has the given value. -/
def RunAt (I : Ext F) (env : Env (D F)) (t : Expr F) (v : D F) : Prop := run I t env = some v

theorem inTuple_run (P : Ty) : ∀ {sub : Expr F} {w : D F}, RunAt I env sub w → HasType w P →
    List.Forall₂ (RunAt I env) (inTuple P sub) (leafVals P w) := by
  induction P with
  | pair a b iha ihb =>
    intro sub w h hw
    cases hw with
    | pair h1 h2 =>
      refine List.rel_append (iha ?_ h1) (ihb ?_ h2)
      · show run I (fst sub) env = _
        rw [run_fst, h]; rfl
      · show run I (snd sub) env = _
        rw [run_snd, h]; rfl
  | scalar k => intro sub w h _; exact .cons h .nil
  | vector k => intro sub w h _; exact .cons h .nil

theorem foldl_cons_run {l : List (Expr F)} {ws : List (D F)} (h : List.Forall₂ (RunAt I env) l ws) :
    ∀ {e : Expr F} {w : D F}, RunAt I env e w → RunAt I env (l.foldl cons e) (ws.foldl .pair w) := by
  induction h with
  | nil => intro e a he; exact he
  | cons h1 _ ih =>
    intro e a he
    refine ih ?_
    show run I (cons _ _) env = _
    rw [run_cons, he, h1]; rfl

theorem intoLike_run (P : Ty) : ∀ {args : List (Expr F)} {w : D F} {W : List (D F)} {r : Expr F × List (Expr F)},
    HasType w P → List.Forall₂ (RunAt I env) args (leafVals P w ++ W) → intoLike P args = some r →
    RunAt I env r.1 w ∧ List.Forall₂ (RunAt I env) r.2 W := by
  induction P with
  | pair a b iha ihb =>
    intro args w W r hw h hr
    cases hw with
    | pair t1 t2 =>
      rw [leafVals, List.append_assoc] at h
      simp only [intoLike, Option.bind_eq_some_iff] at hr
      obtain ⟨r1, h1, r2, h2, h3⟩ := hr
      cases h3
      obtain ⟨q1, q2⟩ := iha t1 h h1
      obtain ⟨q3, q4⟩ := ihb t2 q2 h2
      refine ⟨?_, q4⟩
      show run I (cons _ _) env = _
      rw [run_cons, q1, q3]; rfl
  | scalar k =>
    intro args w W r hw h hr
    rcases h with _ | ⟨h1, h2⟩
    cases hr; exact ⟨h1, h2⟩
  | vector k =>
    intro args w W r hw h hr
    rcases h with _ | ⟨h1, h2⟩
    cases hr; exact ⟨h1, h2⟩

end terms

/-! ### Rows -/

theorem leafTys_soaVec {e : Ty} (hf : flat (soaVec e) = true) :
    leafTys (soaVec e) = (leafTys (soaTy e)).map .vector := by
  induction e with
  | scalar k => rfl
  | vector u ih =>
    rw [soaTy, leafTys_leaf (isLeaf_of_isArr (show isArr (soaVec u) = true from hf))]
    rfl
  | pair a b iha ihb =>
    simp only [soaVec, flat, Bool.and_eq_true] at hf
    simp [soaVec, soaTy, leafTys, iha hf.1, ihb hf.2]

theorem mapOpt_append {α β : Type} {f : α → Option β} {l1 l2 : List α} {r1 r2 : List β}
    (h1 : mapOpt f l1 = some r1) (h2 : mapOpt f l2 = some r2) : mapOpt f (l1 ++ l2) = some (r1 ++ r2) := by
  induction l1 generalizing r1 with
  | nil => cases h1; exact h2
  | cons a l1 ih =>
    simp only [mapOpt, Option.bind_eq_some_iff, List.cons_append] at h1 ⊢
    obtain ⟨b, hb, bs, hbs, h3⟩ := h1
    cases h3
    exact ⟨b, hb, _, ih hbs, rfl⟩

/-- The components of an array of records, row by row. -/
theorem leaf_rows {e : Ty} (hf : flat (soaVec e) = true) : ∀ {vs : List (D F)}, (∀ v ∈ vs, HasType v e) →
    ∃ ls : List (List (D F)), leafVals (soaVec e) (soaVals e vs) = ls.map .vec ∧ ls ≠ [] ∧
      (∀ l ∈ ls, l.length = vs.length) ∧
      ∀ (k : Nat) (v : D F), vs[k]? = some v → mapOpt (fun l : List (D F) => l[k]?) ls = some (leafVals (soaTy e) (soaVal e v)) := by
  induction e with
  | scalar k =>
    intro vs h
    refine ⟨[vs], rfl, by simp, by simp, ?_⟩
    intro k v hv
    simp only [mapOpt, hv]
    cases h v (List.mem_of_getElem? hv) with | sc s => rfl
  | vector u ih =>
    intro vs h
    refine ⟨[vs.map (onVec (soaVals u))], rfl, by simp, by simp, ?_⟩
    intro k v hv
    have : (vs.map (onVec (soaVals u)))[k]? = some (onVec (soaVals u) v) := by simp [hv]
    simp only [mapOpt, this]
    rw [soaTy, leafVals_leaf (isLeaf_of_isArr (show isArr (soaVec u) = true from hf))]
    cases h v (List.mem_of_getElem? hv) with | vec s => rfl
  | pair a b iha ihb =>
    intro vs h
    simp only [soaVec, flat, Bool.and_eq_true] at hf
    have hL : ∀ w ∈ vs.map Val.left, HasType w a := by
      intro w hw
      obtain ⟨w', hw', rfl⟩ := List.mem_map.1 hw
      cases h w' hw' with | pair h1 h2 => exact h1
    have hR : ∀ w ∈ vs.map Val.right, HasType w b := by
      intro w hw
      obtain ⟨w', hw', rfl⟩ := List.mem_map.1 hw
      cases h w' hw' with | pair h1 h2 => exact h2
    obtain ⟨l1, p1, p2, p3, p4⟩ := iha hf.1 hL
    obtain ⟨l2, q1, q2, q3, q4⟩ := ihb hf.2 hR
    refine ⟨l1 ++ l2, ?_, by simp [p2], ?_, ?_⟩
    · simp only [soaVec, soaVals, leafVals, Val.left, Val.right, List.map_append]
      rw [← p1, ← q1]
    · intro l hl
      rcases List.mem_append.1 hl with h | h
      · simpa using p3 l h
      · simpa using q3 l h
    · intro k v hv
      have h1 := p4 k v.left (by simp [hv])
      have h2 := q4 k v.right (by simp [hv])
      rw [mapOpt_append h1 h2]
      cases h v (List.mem_of_getElem? hv) with | pair h1 h2 => rfl

/-! ### Left-nested records -/

/-- The type of the left-nested record of the components. -/
def flatTy (P : Ty) : Ty :=
  match leafTys P with
  | [] => P
  | t :: ts => ts.foldl .pair t

/-- The left-nested record of the components. -/
def flatVal (P : Ty) (w : D F) : D F :=
  match leafVals P w with
  | [] => w
  | v :: vs => vs.foldl .pair v

theorem leafVals_ne (P : Ty) (w : D F) : leafVals P w ≠ [] := by
  intro h
  have := leafVals_length P w
  rw [h] at this
  exact leafTys_ne P (List.length_eq_zero_iff.1 this.symm)

theorem leafTys_flatTy (P : Ty) : leafTys (flatTy P) = leafTys P := by
  have hl := @isLeaf_leafTys P
  unfold flatTy
  cases h : leafTys P with
  | nil => exact absurd h (leafTys_ne P)
  | cons t ts =>
    rw [h] at hl
    simp only
    rw [leafTys_foldl, leafTys_leaf (hl t (by simp)), flatMap_leaf fun q hq => hl q (by simp [hq])]
    rfl

theorem leafVals_flat (P : Ty) (w : D F) : leafVals (flatTy P) (flatVal P w) = leafVals P w := by
  have hl := @isLeaf_leafTys P
  have hlen := leafVals_length P w
  unfold flatTy flatVal
  cases h : leafTys P with
  | nil => exact absurd h (leafTys_ne P)
  | cons t ts =>
    cases h' : leafVals P w with
    | nil => exact absurd h' (leafVals_ne P w)
    | cons v vs =>
      rw [h] at hl hlen
      rw [h'] at hlen
      simp only
      have e : ts.length = vs.length := by simpa using hlen.symm
      rw [leafVals_foldl e, leafVals_leaf (hl t (by simp)), zip_leaf (fun q hq => hl q (by simp [hq])) e]
      rfl

theorem flat_flatTy {P : Ty} (h : flat P = true) : flat (flatTy P) = true := by
  have hl := flat_leafTys h
  unfold flatTy
  cases h' : leafTys P with
  | nil => exact h
  | cons t ts =>
    rw [h'] at hl
    exact flat_foldl (hl t (by simp)) fun q hq => hl q (by simp [hq])

theorem hasType_flatVal {P : Ty} {w : D F} (h : HasType w P) : HasType (flatVal P w) (flatTy P) := by
  have h1 := hasType_leafVals h
  unfold flatTy flatVal
  cases h' : leafTys P with
  | nil => exact absurd h' (leafTys_ne P)
  | cons t ts =>
    rw [h'] at h1
    cases h2 : leafVals P w with
    | nil => exact absurd h2 (leafVals_ne P w)
    | cons v vs =>
      rw [h2] at h1
      rcases h1 with _ | ⟨h3, h4⟩
      exact hasType_foldl h4 h3

theorem pairAll_leafVals (P : Ty) (w : D F) : pairAll (leafVals P w) = some (flatVal P w) := by
  unfold flatVal
  cases h2 : leafVals P w with
  | nil => exact absurd h2 (leafVals_ne P w)
  | cons v vs => rfl

section nest
variable {fl : Bool} {I : Ext F} {Γ : TCtx}

theorem intoTuple_fine {P : Ty} {sub r : Expr F} (h : FineAt fl I Γ sub P) (hr : intoTuple (inTuple P sub) = some r) :
    FineAt fl I Γ r (flatTy P) := by
  have h1 := inTuple_fine P h
  unfold flatTy
  generalize inTuple P sub = l at h1 hr
  generalize leafTys P = ls at h1
  cases h1 with
  | nil => cases hr
  | cons h2 h3 => cases hr; exact foldl_cons_fine h3 h2

theorem intoTuple_all {Q : Expr F → Prop} (h1 : ∀ a, Q a → Q (fst a)) (h2 : ∀ a, Q a → Q (snd a))
    (h3 : ∀ a b, Q a → Q b → Q (cons a b)) {P : Ty} {sub r : Expr F} (h : Q sub)
    (hr : intoTuple (inTuple P sub) = some r) : Q r := by
  have h1 := inTuple_all h1 h2 P h
  generalize inTuple P sub = l at h1 hr
  cases l with
  | nil => cases hr
  | cons e es => cases hr; exact foldl_cons_all h3 (h1 _ (by simp)) fun t ht => h1 t (by simp [ht])

theorem unflat_fine {P : Ty} {sub r : Expr F} (h : FineAt fl I Γ sub (flatTy P))
    (hr : intoTupleLike P (inTuple (flatTy P) sub) = some r) : FineAt fl I Γ r P := by
  have h1 := inTuple_fine _ h
  rw [leafTys_flatTy, ← List.append_nil (leafTys P)] at h1
  obtain ⟨r', h2, h3, _⟩ := intoLike_fine P h1
  rw [intoTupleLike, h2] at hr
  cases hr; exact h3

theorem unflat_all {Q : Expr F → Prop} (h1 : ∀ a, Q a → Q (fst a)) (h2 : ∀ a, Q a → Q (snd a))
    (h3 : ∀ a b, Q a → Q b → Q (cons a b)) {P P' : Ty} {sub r : Expr F} (h : Q sub)
    (hr : intoTupleLike P (inTuple P' sub) = some r) : Q r := by
  obtain ⟨r', h4, rfl⟩ := Option.map_eq_some_iff.1 hr
  exact (intoLike_all h3 P h4 (inTuple_all h1 h2 P' h)).1

variable [FloatOps F] {env : Env (D F)}

theorem intoTuple_run {P : Ty} {sub r : Expr F} {w : D F} (h : RunAt I env sub w) (hw : HasType w P)
    (hr : intoTuple (inTuple P sub) = some r) : RunAt I env r (flatVal P w) := by
  have h1 := inTuple_run P h hw
  unfold flatVal
  generalize inTuple P sub = l at h1 hr
  generalize leafVals P w = ls at h1
  cases h1 with
  | nil => cases hr
  | cons h2 h3 => cases hr; exact foldl_cons_run h3 h2

theorem unflat_run {P : Ty} {sub r : Expr F} {w : D F} (h : RunAt I env sub (flatVal P w)) (hw : HasType w P)
    (hr : intoTupleLike P (inTuple (flatTy P) sub) = some r) : RunAt I env r w := by
  have h1 := inTuple_run _ h (hasType_flatVal hw)
  rw [leafVals_flat, ← List.append_nil (leafVals P w)] at h1
  obtain ⟨r', h2, rfl⟩ := Option.map_eq_some_iff.1 hr
  exact (intoLike_run P hw h1 h2).1

end nest

end Verif.Midend
