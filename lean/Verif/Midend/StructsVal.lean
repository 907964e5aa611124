import Verif.Midend.Structs
import Verif.Phi.Regular

/-! Values of arrays of records as records of arrays. -/

namespace Verif.Midend
open Verif.Phi Verif.Term

/-- Scalars and arrays of scalars. -/
def isArr : Ty → Bool
  | .scalar _ => true
  | .vector t => isArr t
  | .pair _ _ => false

/-- No array of records: records of scalars and arrays of scalars. -/
def flat : Ty → Bool
  | .scalar _ => true
  | .vector t => isArr t
  | .pair a b => flat a && flat b

theorem flat_of_isArr {t : Ty} (h : isArr t = true) : flat t = true := by
  cases t with
  | scalar k => rfl
  | vector t => exact h
  | pair a b => cases h

theorem soaVec_arr {t : Ty} (h : isArr t = true) : soaVec t = .vector t := by
  induction t with
  | scalar k => rfl
  | vector t ih => rw [soaVec, ih h]
  | pair a b => cases h

theorem soaTy_flat {t : Ty} (h : flat t = true) : soaTy t = t := by
  induction t with
  | scalar k => rfl
  | vector t ih => exact soaVec_arr h
  | pair a b iha ihb =>
    simp only [flat, Bool.and_eq_true] at h
    rw [soaTy, iha h.1, ihb h.2]

theorem isArr_of_soaVec_eq {t : Ty} (h : soaVec t = .vector t) : isArr t = true := by
  induction t with
  | scalar k => rfl
  | vector t ih => exact ih (by simpa [soaVec] using h)
  | pair a b => cases h

/-- The types the pass leaves alone are those without arrays of records. -/
theorem flat_of_soaTy_eq {t : Ty} (h : soaTy t = t) : flat t = true := by
  induction t with
  | scalar k => rfl
  | vector t ih => exact isArr_of_soaVec_eq h
  | pair a b iha ihb =>
    simp only [soaTy, Ty.pair.injEq] at h
    simp [flat, iha h.1, ihb h.2]

theorem isArr_of_soaVec {t : Ty} (h : isArr (soaVec t) = true) : isArr t = true := by
  induction t with
  | scalar k => rfl
  | vector t ih => exact ih h
  | pair a b => cases h

theorem flat_soaTy_of_soaVec {t : Ty} (h : flat (soaVec t) = true) : flat (soaTy t) = true := by
  induction t with
  | scalar k => rfl
  | vector t ih =>
    have := isArr_of_soaVec h
    rw [soaTy, soaVec_arr this]; exact this
  | pair a b iha ihb =>
    simp only [soaVec, flat, Bool.and_eq_true] at h
    simp [soaTy, flat, iha h.1, ihb h.2]

theorem soaVec_soaTy {t : Ty} (h : flat (soaVec t) = true) : soaVec (soaTy t) = soaVec t := by
  induction t with
  | scalar k => rfl
  | vector t ih =>
    have := isArr_of_soaVec h
    rw [soaTy, soaVec_arr this]
  | pair a b iha ihb =>
    simp only [soaVec, flat, Bool.and_eq_true] at h
    simp [soaTy, soaVec, iha h.1, ihb h.2]

section vals
variable {S T : Type}

/-- The first component. -/
def _root_.Verif.Val.left : Val S → Val S
  | .pair a _ => a
  | v => v

/-- The second component. -/
def _root_.Verif.Val.right : Val S → Val S
  | .pair _ b => b
  | v => v

/-- Apply a function to the elements of a vector. -/
def onVec (f : List (Val S) → Val S) : Val S → Val S
  | .vec vs => f vs
  | v => v

/-- The vector with elements `vs` of the given type, as a record of vectors if they are records. -/
def soaVals : Ty → List (Val S) → Val S
  | .scalar _, vs => .vec vs
  | .pair a b, vs => .pair (soaVals a (vs.map Val.left)) (soaVals b (vs.map Val.right))
  | .vector t, vs => .vec (vs.map (onVec (soaVals t)))

/-- The value in the representation of `soaTy`. -/
def soaVal : Ty → Val S → Val S
  | .pair a b, .pair v w => .pair (soaVal a v) (soaVal b w)
  | .vector t, .vec vs => soaVals t vs
  | _, v => v

theorem soaVal_sc (τ : Ty) (s : S) : soaVal τ (.sc s) = .sc s := by cases τ <;> rfl

theorem soaVals_arr {t : Ty} (h : isArr t = true) : ∀ vs : List (Val S), soaVals t vs = .vec vs := by
  induction t with
  | scalar k => intro vs; rfl
  | vector t ih =>
    intro vs
    rw [soaVals]
    have : onVec (soaVals t) = (id : Val S → Val S) := by
      funext v
      cases v <;> simp [onVec, ih h]
    rw [this, List.map_id]
  | pair a b => cases h

theorem soaVal_flat {t : Ty} (h : flat t = true) (v : Val S) : soaVal t v = v := by
  induction t generalizing v with
  | scalar k => cases v <;> rfl
  | vector t ih =>
    cases v with
    | vec vs => exact soaVals_arr h vs
    | sc s => rfl
    | pair a b => rfl
  | pair a b iha ihb =>
    simp only [flat, Bool.and_eq_true] at h
    cases v with
    | pair v w => rw [soaVal, iha h.1, ihb h.2]
    | sc s => rfl
    | vec vs => rfl

theorem map_left (f : S → T) (v : Val S) : (v.map f).left = v.left.map f := by
  cases v <;> simp [Val.map, Val.left]

theorem map_right (f : S → T) (v : Val S) : (v.map f).right = v.right.map f := by
  cases v <;> simp [Val.map, Val.right]

theorem soaVals_map (f : S → T) (t : Ty) : ∀ vs : List (Val S),
    soaVals t (vs.map (Val.map f)) = (soaVals t vs).map f := by
  induction t with
  | scalar k => intro vs; simp [soaVals, Val.map_vec]
  | vector t ih =>
    intro vs
    simp only [soaVals, Val.map_vec, List.map_map]
    congr 1
    refine List.map_congr_left fun v _ => ?_
    cases v with
    | vec ws => simp only [Function.comp, Val.map_vec, onVec]; exact ih ws
    | sc s => simp [Val.map, onVec]
    | pair a b => simp [Val.map, onVec]
  | pair a b iha ihb =>
    intro vs
    simp only [soaVals, Val.map, ← iha, ← ihb, List.map_map]
    congr 2
    · exact List.map_congr_left fun v _ => map_left f v
    · exact List.map_congr_left fun v _ => map_right f v

theorem soaVal_map (f : S → T) (t : Ty) (v : Val S) : soaVal t (v.map f) = (soaVal t v).map f := by
  induction t generalizing v with
  | scalar k => cases v <;> simp [soaVal, Val.map]
  | vector t ih =>
    cases v with
    | vec vs => simp only [Val.map_vec, soaVal]; exact soaVals_map f t vs
    | sc s => simp [soaVal, Val.map]
    | pair a b => simp [soaVal, Val.map]
  | pair a b iha ihb =>
    cases v with
    | pair v w => simp [soaVal, Val.map, iha, ihb]
    | sc s => simp [soaVal, Val.map]
    | vec vs => simp [soaVal, Val.map]

theorem shape_soaVal {t : Ty} {v w : Val S} (h : v.shape = w.shape) :
    (soaVal t v).shape = (soaVal t w).shape := by
  unfold Val.shape at *
  rw [← soaVal_map, ← soaVal_map, h]

theorem uniform_map {f : Val S → Val S} (hf : ∀ v w : Val S, v.shape = w.shape → (f v).shape = (f w).shape)
    {vs : List (Val S)} (h : Val.uniform vs = true) : Val.uniform (vs.map f) = true := by
  rw [Val.uniform_iff] at h ⊢
  intro v hv w hw
  obtain ⟨v', hv', rfl⟩ := List.mem_map.1 hv
  obtain ⟨w', hw', rfl⟩ := List.mem_map.1 hw
  exact hf _ _ (h v' hv' w' hw')

theorem shape_left {v w : Val S} (h : v.shape = w.shape) : v.left.shape = w.left.shape := by
  unfold Val.shape at *
  rw [← map_left, ← map_left, h]

theorem shape_right {v w : Val S} (h : v.shape = w.shape) : v.right.shape = w.right.shape := by
  unfold Val.shape at *
  rw [← map_right, ← map_right, h]

theorem shape_onVec {t : Ty} {v w : Val S} (h : v.shape = w.shape) :
    (onVec (soaVals t) v).shape = (onVec (soaVals t) w).shape := by
  have : ∀ v : Val S, onVec (soaVals t) v = soaVal (.vector t) v := fun v => by cases v <;> rfl
  rw [this, this]
  exact shape_soaVal h

end vals

section typed
variable {F : Type}

theorem hasType_soaVals {t : Ty} : ∀ {vs : List (D F)}, (∀ v ∈ vs, HasType v t) →
    HasType (soaVals t vs) (soaVec t) := by
  induction t with
  | scalar k => intro vs h; exact .vec h
  | vector t ih =>
    intro vs h
    refine .vec fun w hw => ?_
    obtain ⟨v, hv, rfl⟩ := List.mem_map.1 hw
    cases h v hv with
    | vec hws => exact ih hws
  | pair a b iha ihb =>
    intro vs h
    refine .pair (iha fun w hw => ?_) (ihb fun w hw => ?_)
    · obtain ⟨v, hv, rfl⟩ := List.mem_map.1 hw
      cases h v hv with
      | pair h1 h2 => exact h1
    · obtain ⟨v, hv, rfl⟩ := List.mem_map.1 hw
      cases h v hv with
      | pair h1 h2 => exact h2

theorem hasType_soaVal {t : Ty} {v : D F} (h : HasType v t) : HasType (soaVal t v) (soaTy t) := by
  induction h with
  | sc s => exact .sc s
  | vec h ih => exact hasType_soaVals h
  | pair h1 h2 ih1 ih2 => exact .pair ih1 ih2

/-- Converting the elements first makes no difference, if one conversion is enough. -/
theorem soaVals_soaVal {t : Ty} (hf : flat (soaVec t) = true) : ∀ {vs : List (D F)}, (∀ v ∈ vs, HasType v t) →
    soaVals (soaTy t) (vs.map (soaVal t)) = soaVals t vs := by
  induction t with
  | scalar k =>
    intro vs h
    have : soaVal (.scalar k) = (id : D F → D F) := by funext v; cases v <;> rfl
    rw [this, List.map_id]; rfl
  | vector t ih =>
    intro vs h
    have ha : isArr (.vector t) = true := isArr_of_soaVec hf
    have : soaVal (.vector t) = (id : D F → D F) := by
      funext v; exact soaVal_flat (flat_of_isArr ha) v
    rw [this, List.map_id, soaTy_flat (flat_of_isArr ha)]
  | pair a b iha ihb =>
    intro vs h
    simp only [soaVec, flat, Bool.and_eq_true] at hf
    have h1 : ∀ v ∈ vs.map Val.left, HasType v a := by
      intro w hw
      obtain ⟨v, hv, rfl⟩ := List.mem_map.1 hw
      cases h v hv with | pair h1 h2 => exact h1
    have h2 : ∀ v ∈ vs.map Val.right, HasType v b := by
      intro w hw
      obtain ⟨v, hv, rfl⟩ := List.mem_map.1 hw
      cases h v hv with | pair h1 h2 => exact h2
    simp only [soaTy, soaVals, ← iha hf.1 h1, ← ihb hf.2 h2, List.map_map]
    congr 2
    · refine List.map_congr_left fun v hv => ?_
      cases h v hv with | pair h1 h2 => rfl
    · refine List.map_congr_left fun v hv => ?_
      cases h v hv with | pair h1 h2 => rfl

end typed
end Verif.Midend
