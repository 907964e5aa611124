import Verif.Midend.StructsParts

/-! What the struct-of-arrays pass guarantees of a term, and the cases other than reductions. -/

set_option linter.unusedSectionVars false

namespace Verif.Midend
open Verif.Phi Verif.Term
variable {F : Type}

/-- The context with the types of the pass. -/
def soaCtx (Γ : TCtx) : TCtx := fun s => (Γ s).map soaTy

/-- The environment with the values of the pass. -/
def soaEnv (Γ : TCtx) (env : Env (D F)) : Env (D F) := fun s =>
  match Γ s with
  | some τ => (env s).map (soaVal τ)
  | none => env s

/-- One conversion is enough for the types of the context. -/
def CtxFlat (Γ : TCtx) : Prop := ∀ s τ, Γ s = some τ → flat (soaTy τ) = true

/-- The symbols of the context have numbers below `c`. -/
def CtxBelow (c : Nat) (Γ : TCtx) : Prop := ∀ s, Γ s ≠ none → symNum s < c

section ctx
variable {Γ : TCtx} {c c' : Nat} {s : Sym} {τ : Ty} {env : Env (D F)} {v : D F}

theorem soaCtx_set (o : Option Ty) : soaCtx (Γ.set s o) = (soaCtx Γ).set s (o.map soaTy) := by
  funext s'; simp only [soaCtx, TCtx.set]; split <;> rfl

theorem soaCtx_none (h : Γ s = none) : soaCtx Γ s = none := by simp [soaCtx, h]

theorem soaCtx_soaCtx (h : CtxFlat Γ) : soaCtx (soaCtx Γ) = soaCtx Γ := by
  funext s
  simp only [soaCtx]
  cases hs : Γ s with
  | none => rfl
  | some τ => simp [soaTy_flat (h s τ hs)]

theorem CtxFlat.soa (h : CtxFlat Γ) : CtxFlat (soaCtx Γ) := by
  intro s τ hs
  simp only [soaCtx] at hs
  cases h' : Γ s with
  | none => rw [h'] at hs; cases hs
  | some σ =>
    rw [h'] at hs; cases hs
    rw [soaTy_flat (h s σ h')]; exact h s σ h'

theorem CtxFlat.set (h : CtxFlat Γ) (ht : flat (soaTy τ) = true) : CtxFlat (Γ.set s (some τ)) := by
  intro s' σ hs
  simp only [TCtx.set] at hs
  split at hs
  · cases hs; exact ht
  · exact h s' σ hs

theorem CtxBelow.soa (h : CtxBelow c Γ) : CtxBelow c (soaCtx Γ) := by
  intro s hs
  refine h s fun h0 => hs ?_
  simp [soaCtx, h0]

theorem CtxBelow.mono (h : CtxBelow c Γ) (hc : c ≤ c') : CtxBelow c' Γ :=
  fun s hs => Nat.lt_of_lt_of_le (h s hs) hc

theorem CtxBelow.set (h : CtxBelow c Γ) (hs : symNum s < c) {o : Option Ty} : CtxBelow c (Γ.set s o) := by
  intro s' hs'
  simp only [TCtx.set] at hs'
  split at hs'
  · rename_i e; rw [e]; exact hs
  · exact h s' hs'

theorem CtxBelow.fresh (h : CtxBelow c Γ) (hs : c ≤ symNum s) : Γ s = none := by
  by_contra h0
  exact absurd (h s h0) (by omega)

theorem soaEnv_set : soaEnv (Γ.set s (some τ)) (env.set s (some v)) = (soaEnv Γ env).set s (some (soaVal τ v)) := by
  funext s'
  simp only [soaEnv, TCtx.set, Env.set]
  by_cases h : s' = s <;> simp [h]

theorem soaEnv_flat (h : ∀ s τ, Γ s = some τ → flat τ = true) (env : Env (D F)) : soaEnv Γ env = env := by
  funext s
  simp only [soaEnv]
  cases hs : Γ s with
  | none => rfl
  | some τ =>
    have : soaVal τ = (id : D F → D F) := by funext v; exact soaVal_flat (h s τ hs) v
    simp [this]

theorem CtxFlat.flat_soa (h : CtxFlat Γ) : ∀ s τ, soaCtx Γ s = some τ → flat τ = true := by
  intro s τ hs
  simp only [soaCtx] at hs
  cases h' : Γ s with
  | none => rw [h'] at hs; cases hs
  | some σ => rw [h'] at hs; cases hs; exact h s σ h'

theorem EnvTyped.soa (h : EnvTyped Γ env) : EnvTyped (soaCtx Γ) (soaEnv Γ env) := by
  intro s τ hs
  simp only [soaCtx] at hs
  cases h' : Γ s with
  | none => rw [h'] at hs; cases hs
  | some σ =>
    rw [h'] at hs; cases hs
    obtain ⟨v, h1, h2⟩ := h s σ h'
    exact ⟨soaVal σ v, by simp [soaEnv, h', h1], hasType_soaVal h2⟩

end ctx

section
variable [FloatOps F]

theorem run_hasType {I : Ext F} {e : Expr F} {Γ : TCtx} {env : Env (D F)} {τ : Ty} {v : D F} (hd : Declared I e Γ)
    (ht : typeOf e = some τ) (he : EnvTyped Γ env) (hv : run I e env = some v) : HasType v τ := by
  have h := runRes_good False I e Γ env τ hd (fun h => h.elim) ht he
  rw [← runRes_toOption] at hv
  cases hr : runRes I e env with
  | error x => rw [hr] at hv; cases hv
  | ok w => rw [hr] at hv h; cases hv; exact h

/-- What the pass guarantees: the result is well-typed with the types of the pass, it contains no array of
records, and its value is the converted value of the term. -/
def Spec (I : Ext F) (e : Expr F) (c : Nat) (e' : Expr F) (c' : Nat) : Prop :=
  ∀ Γ τ, Fine false I e Γ → typeOf e = some τ → CtxFlat Γ → NumBelow c e → CtxBelow c Γ →
    c ≤ c' ∧ NumBelow c' e' ∧ Fine true I e' (soaCtx Γ) ∧ typeOf e' = some (soaTy τ) ∧
    ∀ env v, EnvTyped Γ env → run I e env = some v → run I e' (soaEnv Γ env) = some (soaVal τ v)

variable {I : Ext F} {rec : Expr F → Nat → Option (Expr F × Nat)}

/-- All terms of a list, in the same context. -/
theorem goList_spec (hrec : ∀ e c r, rec e c = some r → Spec I e c r.1 r.2) {Γ : TCtx} (hΓ : CtxFlat Γ) :
    ∀ {ts : List (Expr F)} {c : Nat} {r : List (Expr F) × Nat}, goList rec ts c = some r →
    (∀ t ∈ ts, Fine false I t Γ) → (∀ t ∈ ts, NumBelow c t) → CtxBelow c Γ →
    c ≤ r.2 ∧ List.Forall₂ (fun t t' => NumBelow r.2 t' ∧ Fine true I t' (soaCtx Γ) ∧ ∃ τ, typeOf t = some τ ∧
      typeOf t' = some (soaTy τ) ∧
      ∀ env v, EnvTyped Γ env → run I t env = some v → run I t' (soaEnv Γ env) = some (soaVal τ v)) ts r.1 := by
  intro ts
  induction ts with
  | nil => intro c r h _ _ _; cases h; exact ⟨Nat.le_refl _, .nil⟩
  | cons t ts ih =>
    intro c r h hf hb hc
    simp only [goList, Option.bind_eq_some_iff] at h
    obtain ⟨⟨t', c1⟩, h1, ⟨ts', c2⟩, h2, h3⟩ := h
    cases h3
    obtain ⟨τ, ht, _⟩ := (hf t (by simp)).typed
    obtain ⟨p1, p2, p3, p4, p5⟩ := hrec t c _ h1 Γ τ (hf t (by simp)) ht hΓ (hb t (by simp)) hc
    obtain ⟨q1, q2⟩ := ih h2 (fun t ht => hf t (by simp [ht])) (fun t ht => (hb t (by simp [ht])).mono p1) (hc.mono p1)
    exact ⟨Nat.le_trans p1 q1, .cons ⟨p2.mono q1, p3, τ, ht, p4, p5⟩ q2⟩

end
end Verif.Midend
