import Verif.Midend.StructsTotal
import Verif.Codegen.Decl
import Verif.Toy

/-!
C11 — the struct-of-arrays pass keeps every component.

`C11_partial`: whenever the pass returns, the new program has the type and the value of the old one and
no expression in it has a type with an array of records. `C11_components` is the same for a part of a program
whose own type may contain arrays of records: the value of the rewritten part is a record of arrays whose
components are the arrays of the components.

`C11_returns` says exactly when the pass returns. The full property fails: the pass stops with an assertion on every program that contains an array of arrays of
records (`C11_nested_counterexample`) and on every program that returns an array of records
(`C11_result_counterexample`).
-/

set_option linter.unusedSectionVars false

namespace Verif.Props
open Verif.Phi Verif.Term Verif.Midend Verif.Codegen
variable {F : Type} [FloatOps F] {I : Ext F}

/-! ### Specification -/

/-- No vector in the type has records as its elements, at any depth. -/
def noRecordArrays : Ty → Bool
  | .scalar _ => true
  | .pair a b => noRecordArrays a && noRecordArrays b
  | .vector (.pair _ _) => false
  | .vector t => noRecordArrays t

/-- Elements of arrays contain no arrays of records: no array of arrays of records, at any depth. -/
def singleLevel : Ty → Bool
  | .scalar _ => true
  | .pair a b => singleLevel a && singleLevel b
  | .vector t => noRecordArrays t

/-- The type a constant or an external function is declared with. -/
def declaredType : Head F → Option Ty
  | .const _ τ | .ext _ τ => some τ
  | _ => none

/-- One of the two components of a pair. -/
def side (right : Bool) : D F → Option (D F)
  | .pair a b => some (if right then b else a)
  | _ => none

/-- The components named by a path of projections from a value made of pairs. -/
def project : List Bool → D F → Option (D F)
  | [], v => some v
  | b :: π, v => (side b v).bind (project π)

/-- One of the two components of a pair or of the elements of an array of pairs. -/
def column (right : Bool) : D F → Option (D F)
  | .vec vs => (mapOpt (side right) vs).map .vec
  | v => side right v

/-- The components named by a path of projections from a value in which arrays may have records as
elements. -/
def columns : List Bool → D F → Option (D F)
  | [], v => some v
  | b :: π, v => (column b v).bind (columns π)

/-- The path leads from the type to a scalar or an array of scalars. -/
def Leads : List Bool → Ty → Prop
  | [], τ => isArr τ = true
  | b :: π, .pair σ ρ => Leads π (if b then ρ else σ)
  | b :: π, .vector (.pair σ ρ) => Leads π (.vector (if b then ρ else σ))
  | _ :: _, _ => False

/-! ### Link to the definitions of the proof -/

theorem noRecordArrays_arr {τ : Ty} : isArr τ = true → noRecordArrays τ = true := by
  induction τ with
  | scalar k => exact fun _ => rfl
  | pair a b => intro h; cases h
  | vector t ih =>
    intro h
    cases t with
    | pair a b => cases h
    | scalar k => rfl
    | vector t => exact ih h

theorem noRecordArrays_flat {τ : Ty} : flat τ = true ↔ noRecordArrays τ = true := by
  induction τ with
  | scalar k => exact Iff.rfl
  | pair a b iha ihb => simp only [flat, noRecordArrays, Bool.and_eq_true, iha, ihb]
  | vector t ih =>
    cases t with
    | pair a b => exact ⟨(fun h => nomatch h), (fun h => nomatch h)⟩
    | scalar k => exact ⟨fun _ => rfl, fun _ => rfl⟩
    | vector t => exact ih

theorem flat_soaVec {τ : Ty} : flat (soaVec τ) = true ↔ flat τ = true := by
  induction τ with
  | scalar k => exact Iff.rfl
  | pair a b iha ihb => simp only [flat, soaVec, Bool.and_eq_true, iha, ihb]
  | vector t ih =>
    refine ⟨fun h => isArr_of_soaVec (t := .vector t) h, fun h => ?_⟩
    rw [soaVec_arr (t := .vector t) h]; exact h

theorem singleLevel_flat {τ : Ty} : flat (soaTy τ) = true ↔ singleLevel τ = true := by
  induction τ with
  | scalar k => exact Iff.rfl
  | pair a b iha ihb => simp only [flat, soaTy, singleLevel, Bool.and_eq_true, iha, ihb]
  | vector t ih => exact flat_soaVec.trans noRecordArrays_flat

theorem singleLevel_ok {e : Expr F} : SoaOk e ↔ ∀ u, Occurs u e → (∀ τ, typeOf u = some τ → singleLevel τ = true) ∧
    ∀ τ, declaredType u.head = some τ → noRecordArrays τ = true := by
  constructor
  · rintro h ⟨hd, ts⟩ hu
    refine ⟨fun τ hτ => singleLevel_flat.1 ((h hd ts hu).1 τ hτ), fun τ hτ => ?_⟩
    have := (h hd ts hu).2
    cases hd <;> cases hτ
    · exact noRecordArrays_flat.1 this
    · exact noRecordArrays_flat.1 this
  · intro h hd ts hu
    refine ⟨fun τ hτ => singleLevel_flat.2 ((h _ hu).1 τ hτ), ?_⟩
    have := (h _ hu).2
    cases hd with
    | const v σ => exact noRecordArrays_flat.2 (this σ rfl)
    | ext fn σ => exact noRecordArrays_flat.2 (this σ rfl)
    | _ => trivial

theorem mapOpt_side {a b : Ty} (right : Bool) : ∀ {vs : List (D F)}, (∀ v ∈ vs, HasType v (.pair a b)) →
    mapOpt (side right) vs = some (vs.map (if right then Val.right else Val.left)) ∧
    ∀ w ∈ vs.map (if right then Val.right else Val.left), HasType w (if right then b else a) := by
  intro vs
  induction vs with
  | nil => exact fun _ => ⟨rfl, by simp⟩
  | cons v vs ih =>
    intro h
    obtain ⟨h1, h2⟩ := ih fun v hv => h v (by simp [hv])
    cases h v (by simp) with
    | pair ha hb =>
      cases right <;>
        exact ⟨by simp [mapOpt, side, h1, Val.left, Val.right],
          by simpa [Val.left, Val.right, ha, hb] using h2⟩

theorem columns_soaVals {t : Ty} : ∀ {π : List Bool} {vs : List (D F)}, (∀ v ∈ vs, HasType v t) →
    Leads π (.vector t) → project π (soaVals t vs) = columns π (.vec vs) := by
  induction t with
  | scalar k => intro π vs h hl; cases π with
    | nil => rfl
    | cons b π => exact hl.elim
  | vector t ih => intro π vs h hl; cases π with
    | nil => exact congrArg some (soaVals_arr (t := .vector t) hl vs)
    | cons b π => exact hl.elim
  | pair a b iha ihb => intro π vs h hl; cases π with
    | nil => cases hl
    | cons right π =>
      obtain ⟨h1, h2⟩ := mapOpt_side right h
      rw [columns, column, h1, project, soaVals]
      cases right with
      | false => exact iha h2 hl
      | true => exact ihb h2 hl

/-- The components of the converted value are the components of the value. -/
theorem columns_soaVal {τ : Ty} {v : D F} (h : HasType v τ) : ∀ {π : List Bool}, Leads π τ →
    project π (soaVal τ v) = columns π v := by
  induction h with
  | sc s => intro π hl; cases π with
    | nil => rfl
    | cons b π => exact hl.elim
  | vec h _ => intro π hl; exact columns_soaVals h hl
  | pair h1 h2 ih1 ih2 => intro π hl; cases π with
    | nil => cases hl
    | cons right π =>
      cases right with
      | false => exact ih1 hl
      | true => exact ih2 hl

/-! ### The theorems -/

/-- C11 for a part of a program: the value of the rewritten part has, along every path of projections, the
component of the original value, and no expression in the rewritten part has a type with an array of
records. -/
theorem C11_components {p : Expr F} {Γ : TCtx} {c n : Nat} {r : Expr F × Nat} {τ : Ty} (h : SoaInput I p Γ c)
    (hΓ : ∀ s σ, Γ s = some σ → noRecordArrays σ = true) (ht : typeOf p = some τ) (hr : soaGo n p c = some r) :
    (∀ u, Occurs u r.1 → ∃ σ, typeOf u = some σ ∧ noRecordArrays σ = true) ∧
    ∀ env v, EnvTyped Γ env → run I p env = some v →
      ∃ v', run I r.1 env = some v' ∧ ∀ π, Leads π τ → project π v' = columns π v := by
  obtain ⟨_, h2, h3⟩ := soaGo_value h (fun s σ hs => noRecordArrays_flat.2 (hΓ s σ hs)) ht hr
  refine ⟨fun u hu => ?_, fun env v he hv => ?_⟩
  · obtain ⟨σ, h4, h5⟩ := h2 u hu
    exact ⟨σ, h4, noRecordArrays_flat.1 h5⟩
  · exact ⟨_, h3 env v he hv, fun π hl => columns_soaVal (run_hasType h.declared ht he hv) hl⟩

variable [DecidableEq F]

/-- C11: if the pass returns a program, then it has the type and the value of the original, and no expression
in it has a type with an array of records. Missing: that the pass returns a program; that is
false in general, see `C11_returns`. -/
theorem C11_partial {p p' : Expr F} {Γ : TCtx} {c n : Nat} (h : SoaInput I p Γ c)
    (hΓ : ∀ s σ, Γ s = some σ → noRecordArrays σ = true) (hr : structOfArrays n c p = some p') :
    typeOf p' = typeOf p ∧ (∀ u, Occurs u p' → ∃ σ, typeOf u = some σ ∧ noRecordArrays σ = true) ∧
    ∀ env v, EnvTyped Γ env → run I p env = some v → run I p' env = some v := by
  obtain ⟨h1, h2, h3⟩ := structOfArrays_value h (fun s σ hs => noRecordArrays_flat.2 (hΓ s σ hs)) hr
  refine ⟨h1, fun u hu => ?_, h3⟩
  obtain ⟨σ, h4, h5⟩ := h2 u hu
  exact ⟨σ, h4, noRecordArrays_flat.1 h5⟩

/-- C11, when the pass returns: exactly on the programs without arrays of arrays of records that return no array
of records, and whose constants and external functions give none. On these the theorems above apply. -/
theorem C11_returns {p : Expr F} {Γ : TCtx} {c : Nat} {τ : Ty} (h : SoaInput I p Γ c)
    (hΓ : ∀ s σ, Γ s = some σ → noRecordArrays σ = true) (ht : typeOf p = some τ) :
    (∃ n p', structOfArrays n c p = some p') ↔ noRecordArrays τ = true ∧
      ∀ u, Occurs u p → (∀ σ, typeOf u = some σ → singleLevel σ = true) ∧
        ∀ σ, declaredType u.head = some σ → noRecordArrays σ = true := by
  have hΓ' : ∀ s σ, Γ s = some σ → flat σ = true := fun s σ hs => noRecordArrays_flat.2 (hΓ s σ hs)
  constructor
  · rintro ⟨n, p', hr⟩
    obtain ⟨h1, h2, _⟩ := C11_partial h hΓ hr
    obtain ⟨σ, h3, h4⟩ := h2 p' (.refl _)
    rw [h1, ht] at h3
    cases h3
    refine ⟨h4, singleLevel_ok.1 ?_⟩
    simp only [structOfArrays, Option.bind_eq_some_iff] at hr
    obtain ⟨_, _, r, hr, _⟩ := hr
    exact soaOk_of_goes h hΓ' hr
  · rintro ⟨h1, h2⟩
    exact structOfArrays_goes h hΓ' (singleLevel_ok.2 h2) ht (noRecordArrays_flat.2 h1)

/-- The result does not depend on the depth allowed for the recursion. -/
theorem C11_depth {p p' : Expr F} {c n m : Nat} (hnm : n ≤ m) (h : structOfArrays n c p = some p') :
    structOfArrays m c p = some p' := structOfArrays_mono hnm h

/-! ### Where the pass fails -/

/-- The pass stops on every program in which some expression is an array of arrays of records. -/
theorem C11_nested_counterexample {p u : Expr F} {Γ : TCtx} {c n : Nat} {a b : Ty} (h : SoaInput I p Γ c)
    (hΓ : ∀ s σ, Γ s = some σ → noRecordArrays σ = true) (hu : Occurs u p)
    (ht : typeOf u = some (.vector (.vector (.pair a b)))) : structOfArrays n c p = none := by
  cases hr : structOfArrays n c p with
  | none => rfl
  | some p' =>
    simp only [structOfArrays, Option.bind_eq_some_iff] at hr
    obtain ⟨τ, hτ, r, hr, _⟩ := hr
    have hΓ' : CtxFlat Γ := fun s σ hs => by
      have := noRecordArrays_flat.2 (hΓ s σ hs)
      rw [soaTy_flat this]; exact this
    exact absurd (soaGo_occurs hu n c r hr Γ h.fine hΓ' h.below h.ctxBelow _ ht) (by simp [soaTy, soaVec, flat, isArr])

/-- The pass stops on every program whose result contains an array of records. -/
theorem C11_result_counterexample {p : Expr F} {Γ : TCtx} {c n : Nat} {τ : Ty} (h : SoaInput I p Γ c)
    (hΓ : ∀ s σ, Γ s = some σ → noRecordArrays σ = true) (ht : typeOf p = some τ)
    (hτ : noRecordArrays τ = false) : structOfArrays n c p = none := by
  cases hr : structOfArrays n c p with
  | none => rfl
  | some p' =>
    obtain ⟨h1, h2, _⟩ := C11_partial h hΓ hr
    obtain ⟨σ, h3, h4⟩ := h2 p' (.refl _)
    rw [h1, ht] at h3
    cases h3
    rw [hτ] at h4; cases h4

/-! ### Examples -/

namespace C11Example

/-- No external functions anywhere. -/
def noExtAt (u : Expr Int) : Bool := match u.head with
  | .ext _ _ => false
  | _ => true

/-- The hypotheses of the theorems, by evaluation. -/
theorem soaInput_of {p : Expr Int} {l : List (Nat × Ty)} {c : Nat} (h1 : (typeOf p).isSome = true)
    (h2 : declB p (ctxOf l) = true) (h3 : NoShadow p)
    (h4 : ∀ s ∈ binders p, ctxOf l s = none) (h5 : ∀ u ∈ occurrences p, noExtAt u = true)
    (h6 : ∀ s ∈ binders p, symNum s < c) (h7 : ∀ q ∈ l, q.1 < c) : SoaInput Toy.noExt p (ctxOf l) c where
  typed := Option.isSome_iff_exists.1 h1
  declared := declB_declared _ _ _ h2
  noShadow := h3
  binders := h4
  extFlat := by
    intro fn τ ts ho
    exact nomatch h5 _ (mem_occurrences.2 ho)
  below := h6
  ctxBelow := by
    rintro (v | i) hs
    · simp only [ctxOf, ne_eq, Option.map_eq_none_iff, List.find?_eq_none, not_forall] at hs
      obtain ⟨q, hq, hv⟩ := hs
      simp only [decide_eq_true_eq, not_not] at hv
      exact hv ▸ h7 q hq
    · exact absurd rfl hs

/-- Points `(k, (k², n))` for `k < n`. -/
def points (n : Nat) : Expr Int :=
  vec 10 (Toy.ivar n) (cons (at_ 10) (cons (op2 .multiply (at_ 10) (at_ 10)) (Toy.ivar n)))

/-- The type of `points`. -/
def pointsTy : Ty := .vector (.pair (.scalar .int) (.pair (.scalar .int) (.scalar .int)))

/-- `points` after the pass. -/
example : (soaGo 20 (points 0) 20).map (fun r => run Toy.noExt r.1 (Toy.envOf [(0, .int 3)])) =
    some (some (.pair (Toy.ints [0, 1, 2]) (.pair (Toy.ints [0, 1, 4]) (Toy.ints [3, 3, 3])))) := by
  decide +kernel

/-- `C11_components` applies to it: three components of an array of records. -/
example : SoaInput Toy.noExt (points 0) (ctxOf [(0, .scalar .int)]) 20 ∧
    typeOf (points 0) = some pointsTy ∧ (soaGo 20 (points 0) 20).isSome = true ∧
    Leads [false] pointsTy ∧ Leads [true, false] pointsTy ∧ Leads [true, true] pointsTy ∧
    columns [true, false] (.vec [.pair (.int 0) (.pair (.int 0) (.int 3)), .pair (.int 1) (.pair (.int 1) (.int 3)),
      .pair (.int 2) (.pair (.int 4) (.int 3))] : D Int) = some (Toy.ints [0, 1, 4]) :=
  ⟨soaInput_of (by decide +kernel) (by decide +kernel) (by decide +kernel) (by decide +kernel) (by decide +kernel)
    (by decide +kernel) (by decide +kernel), by decide +kernel, by decide +kernel, rfl, rfl, rfl, by decide +kernel⟩

/-- Every construct on an array of records: a comprehension, a read, a size, a concatenation, a loop with a
record accumulator and a reduction with a record body. -/
def program : Expr Int :=
  let a : Expr Int := var 1 pointsTy
  letIn 1 (points 0) <| letIn 2 (node .concat [a, a]) <|
    let a2 : Expr Int := var 2 pointsTy
    let acc : Expr Int := var 4 (.pair (.scalar .int) (.pair (.scalar .int) (.scalar .int)))
    let x : Expr Int := var 5 (.pair (.scalar .int) (.pair (.scalar .int) (.scalar .int)))
    let y : Expr Int := var 6 (.pair (.scalar .int) (.pair (.scalar .int) (.scalar .int)))
    cons (fst (snd (Phi.get a2 (int 4)))) <| cons (dim a2 0) <| cons
      (fold 3 4 (int 2) (Phi.get a (int 0))
        (cons (op2 .add (fst acc) (fst (Phi.get a2 (Toy.ivar 3)))) (snd (Phi.get a (Toy.ivar 3)))))
      (node (.reduce 5 6) [Phi.get a (int 0), cons (op2 .add (fst x) (fst y))
        (cons (op2 .max (fst (snd x)) (fst (snd y))) (op2 .add (snd (snd x)) (snd (snd y)))), a2])

/-- `C11_partial` applies to the program; the value is not trivial. -/
example : SoaInput Toy.noExt program (ctxOf [(0, .scalar .int)]) 20 ∧
    (structOfArrays 40 20 program).isSome = true ∧
    run Toy.noExt program (Toy.envOf [(0, .int 3)]) =
      some (.pair (.int 1) (.pair (.int 6) (.pair (.pair (.int 1) (.pair (.int 1) (.int 3)))
        (.pair (.int 6) (.pair (.int 4) (.int 21)))))) :=
  ⟨soaInput_of (by decide +kernel) (by decide +kernel) (by decide +kernel) (by decide +kernel) (by decide +kernel)
    (by decide +kernel) (by decide +kernel), by decide +kernel, by decide +kernel⟩

/-- Can the pass return, as far as this expression is concerned? -/
def fitsAt (u : Expr Int) : Bool := (typeOf u).all singleLevel && (declaredType u.head).all noRecordArrays

/-- The conditions of `C11_returns` hold of the program. -/
example : (∃ τ, typeOf program = some τ ∧ noRecordArrays τ = true) ∧
    ∀ u, Occurs u program → (∀ σ, typeOf u = some σ → singleLevel σ = true) ∧
      ∀ σ, declaredType u.head = some σ → noRecordArrays σ = true := by
  refine ⟨Toy.exists_of_any (by decide +kernel), fun u hu => ?_⟩
  have h : ∀ u ∈ occurrences program, fitsAt u = true := by decide +kernel
  have := h u (mem_occurrences.2 hu)
  simp only [fitsAt, Bool.and_eq_true, Option.all_eq_true] at this
  exact this

/-- A matrix of pairs, of which one number is returned. -/
def matrix : Expr Int :=
  fst (Phi.get (Phi.get (vec 10 (Toy.ivar 0) (vec 11 (Toy.ivar 0) (cons (at_ 10) (at_ 11)))) (int 1)) (int 2))

/-- The program has a value, but the pass does not return a program, whatever the depth of the recursion. -/
theorem matrix_fails : run Toy.noExt matrix (Toy.envOf [(0, .int 3)]) = some (.int 1) ∧
    ∀ n, structOfArrays n 20 matrix = none := by
  refine ⟨by decide +kernel, fun n => ?_⟩
  refine C11_nested_counterexample (I := Toy.noExt) (Γ := ctxOf [(0, .scalar .int)])
    (u := vec 10 (Toy.ivar 0) (vec 11 (Toy.ivar 0) (cons (at_ 10) (at_ 11)))) (a := .scalar .int) (b := .scalar .int)
    (soaInput_of (by decide +kernel) (by decide +kernel) (by decide +kernel) (by decide +kernel) (by decide +kernel)
      (by decide +kernel) (by decide +kernel)) ?_ (mem_occurrences.1 (by decide +kernel)) (by decide +kernel)
  rintro (v | i) σ hs
  · simp only [ctxOf, List.find?] at hs
    split at hs
    · cases hs; rfl
    · cases hs
  · cases hs

/-- The pass does not return a program for one that returns an array of records. -/
example : SoaInput Toy.noExt (points 0) (ctxOf [(0, .scalar .int)]) 20 ∧ noRecordArrays pointsTy = false ∧
    structOfArrays 20 20 (points 0) = none :=
  ⟨soaInput_of (by decide +kernel) (by decide +kernel) (by decide +kernel) (by decide +kernel) (by decide +kernel)
    (by decide +kernel) (by decide +kernel), by decide +kernel, by decide +kernel⟩

end C11Example
end Verif.Props
