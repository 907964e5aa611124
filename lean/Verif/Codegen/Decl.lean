import Verif.Codegen.Checked
import Verif.Toy

/-! Decision procedures for the hypotheses of the theorems about compiled code, used by the examples. -/

set_option linter.unusedSectionVars false

namespace Verif.Codegen
open Verif.Phi Verif.Term Verif.Yarr Verif.Arr
variable {F : Type}

/-- One node of `declWith`. -/
def declStepB (ok : Nat → Ty → List (Option Ty) → Bool) : Phi.Head F → List (Expr F × (TCtx → Bool)) → TCtx → Bool
  | .const v τ, _, _ => hasTy τ v
  | .store s τ, _, Γ => decide (Γ s = some τ)
  | .letv v, [(b, pb), (_, pe)], Γ => pb Γ && pe (Γ.set (.var v) (Phi.typeOf b))
  | .vec i, [(_, pn), (_, pb)], Γ => pn Γ && pb (Γ.set (.idx i) (some (.scalar .int)))
  | .fold c a, [(_, pn), (z, pz), (_, pb)], Γ =>
    pn Γ && pz Γ && pb ((Γ.set (.var a) (Phi.typeOf z)).set (.var c) (some (.scalar .int)))
  | .reduce x y, (z, pz) :: (_, pb) :: vs, Γ =>
    pz Γ && vs.all (fun p => p.2 Γ) && pb ((Γ.set (.var x) (Phi.typeOf z)).set (.var y) (Phi.typeOf z))
  | .letv _, _, _ | .vec _, _, _ | .fold _ _, _, _ | .reduce _ _, _, _ => false
  | .ext fn τ, ps, Γ => ps.all (fun p => p.2 Γ) && ok fn τ (ps.map fun p => Phi.typeOf p.1)
  | _, ps, Γ => ps.all fun p => p.2 Γ

/-- A test for `Declared`, where `ok` tests the types of an external function. -/
def declWith (ok : Nat → Ty → List (Option Ty) → Bool) (e : Expr F) : TCtx → Bool := para (declStepB ok) e

/-- A test for `Declared`, for programs without external functions. -/
def declB (e : Expr F) : TCtx → Bool := declWith (fun _ _ _ => false) e

variable [FloatOps F]

theorem declWith_declared (I : Ext F) {ok : Nat → Ty → List (Option Ty) → Bool}
    (hok : ∀ fn τ σs, ok fn τ σs = true → ∀ args r,
      List.Forall₂ (fun v σ => ∃ τ, σ = some τ ∧ HasType v τ) args σs → I fn args = some r → HasType r τ)
    (e : Expr F) : ∀ Γ, declWith ok e Γ = true → Phi.Declared I e Γ := by
  induction e using ind with
  | step h ts ih =>
    intro Γ hd
    have e1 : declWith ok (node h ts) = declStepB ok h (ts.map fun t => (t, declWith ok t)) := para_node _ _ _
    rw [e1] at hd
    rw [Phi.declared_node]
    have all : ∀ l : List (Expr F), (∀ t ∈ l, t ∈ ts) → ((l.map fun t => (t, declWith ok t)).all fun p => p.2 Γ) = true →
        ∀ p ∈ l.map (fun t => (t, Phi.Declared I t)), p.2 Γ := by
      intro l hl h p hp
      obtain ⟨t, ht, rfl⟩ := List.mem_map.1 hp
      exact ih t (hl t ht) Γ (List.all_eq_true.1 h _ (List.mem_map.2 ⟨t, ht, rfl⟩))
    cases h with
    | const v τ => exact hasTy_iff.1 hd
    | store s τ => 
      have : Γ s = some τ := by simpa [declStepB] using hd
      exact this
    | letv v =>
      rcases ts with _ | ⟨a, _ | ⟨b, _ | ⟨c, l⟩⟩⟩ <;> try (cases hd; done)
      simp only [List.map, declStepB, Bool.and_eq_true] at hd
      exact ⟨ih a (by simp) _ hd.1, ih b (by simp) _ hd.2⟩
    | vec v =>
      rcases ts with _ | ⟨a, _ | ⟨b, _ | ⟨c, l⟩⟩⟩ <;> try (cases hd; done)
      simp only [List.map, declStepB, Bool.and_eq_true] at hd
      exact ⟨ih a (by simp) _ hd.1, ih b (by simp) _ hd.2⟩
    | fold v a =>
      rcases ts with _ | ⟨a, _ | ⟨b, _ | ⟨c, _ | ⟨d, l⟩⟩⟩⟩ <;> try (cases hd; done)
      simp only [List.map, declStepB, Bool.and_eq_true] at hd
      exact ⟨ih a (by simp) _ hd.1.1, ih b (by simp) _ hd.1.2, ih c (by simp) _ hd.2⟩
    | reduce x y =>
      rcases ts with _ | ⟨a, _ | ⟨b, l⟩⟩ <;> try (cases hd; done)
      simp only [List.map, declStepB, Bool.and_eq_true] at hd
      exact ⟨ih a (by simp) _ hd.1.1, all l (by intro t ht; simp [ht]) hd.1.2, ih b (by simp) _ hd.2⟩
    | ext fn τ =>
      simp only [declStepB, Bool.and_eq_true] at hd
      refine ⟨all ts (fun _ h => h) hd.1, fun args r ha hr => hok fn τ _ hd.2 args r ?_ hr⟩
      rw [List.map_map, Function.comp_def]
      rw [List.map_map, Function.comp_def, List.map_id'] at ha
      rw [List.forall₂_map_right_iff]
      exact ha
    | assertEq | dim _ | get | concat | cons | fst | snd | op _ => exact all _ (by simp) hd

theorem declB_declared (I : Ext F) (e : Expr F) : ∀ Γ, declB e Γ = true → Phi.Declared I e Γ :=
  declWith_declared I (fun _ _ _ h => by cases h) e

/-- The types of the variables of a list. -/
def ctxOf (l : List (Nat × Ty)) : TCtx
  | .var v => (l.find? (fun p => p.1 = v)).map Prod.snd
  | .idx _ => none

/-- The arrays of the variables of a list. -/
def yenvOf (l : List (Nat × A F)) : Env (YVal F)
  | .var v => (l.find? (fun p => p.1 = v)).map fun p => .arr p.2
  | .idx _ => none

/-- A vector as an array. -/
def vecArr (l : List (Scal F)) : A F := ⟨[l.length], l, by simp⟩

/-- A test for `Reps`. -/
def repsB {S : Type} [DecidableEq S] : List Nat → (List Nat → Option S) → Val S → Bool
  | [], f, .sc x => decide (f [] = some x)
  | n :: s, f, .vec vs => decide (0 < n) && decide (vs.length = n) &&
      (List.range n).all fun i => (vs[i]?).all fun w => repsB s (fun jx => f (i :: jx)) w
  | _, _, _ => false

theorem repsB_reps {S : Type} [DecidableEq S] : ∀ {s : List Nat} {f : List Nat → Option S} {v : Val S},
    repsB s f v = true → Reps s f v
  | [], f, .sc x, h => ⟨x, rfl, by simpa [repsB] using h⟩
  | n :: s, f, .vec vs, h => by
    simp only [repsB, Bool.and_eq_true, decide_eq_true_eq, List.all_eq_true, List.mem_range] at h
    refine ⟨h.1.1, vs, rfl, h.1.2, fun i w hw => repsB_reps ?_⟩
    have := h.2 i (by rw [← h.1.2]; exact (List.getElem?_eq_some_iff.1 hw).1)
    rw [hw] at this
    exact this
  | [], _, .vec _, h => by simp [repsB] at h
  | [], _, .pair _ _, h => by simp [repsB] at h
  | _ :: _, _, .sc _, h => by simp [repsB] at h
  | _ :: _, _, .pair _ _, h => by simp [repsB] at h

/-- The symbols, types, values and arrays of a list of inputs. -/
def inputSyms (l : List (Nat × Ty × D F × A F)) : Finset Sym := (l.map fun q => Sym.var q.1).toFinset
def inputTypes (l : List (Nat × Ty × D F × A F)) : TCtx := ctxOf (l.map fun q => (q.1, q.2.1))
def inputValues (l : List (Nat × Ty × D F × A F)) : Env (D F)
  | .var v => (l.find? (fun p => p.1 = v)).map fun q => q.2.2.1
  | .idx _ => none
def inputArrays (l : List (Nat × Ty × D F × A F)) : Env (YVal F) := yenvOf (l.map fun q => (q.1, q.2.2.2))

/-- Have the values the types, and represent the arrays the values? -/
def inputsOk [DecidableEq F] (l : List (Nat × Ty × D F × A F)) : Bool :=
  l.all fun q => hasTy q.2.1 q.2.2.1 && repsB q.2.2.2.shape q.2.2.2.get? q.2.2.1

end Verif.Codegen
