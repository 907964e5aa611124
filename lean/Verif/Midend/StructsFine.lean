import Verif.Midend.StructsVal
import Verif.Phi.Sound
import Verif.Phi.Busy

/-! Well-typed terms without shadowing, in a context. -/

set_option linter.unusedSectionVars false

namespace Verif.Midend
open Verif.Phi Verif.Term
variable {F : Type}

/-! ### The type of a node -/

/-- Only comprehensions look at the free indices of a sub-term. -/
theorem typeStep_free (h : Head F) (hv : ∀ i, h ≠ .vec i) (ps : List (Option Ty × Finset Sym)) :
    typeStep h ps = typeStep h (ps.map fun p => (p.1, ∅)) := by
  cases h with
  | vec i => exact absurd rfl (hv i)
  | const _ _ | store _ _ => cases ps <;> rfl
  | letv v =>
    rcases ps with _ | ⟨⟨_ | _, _⟩, _ | ⟨⟨_, _⟩, _ | ⟨_, _⟩⟩⟩ <;> rfl
  | assertEq =>
    rcases ps with _ | ⟨⟨a, _⟩, _ | ⟨⟨_ | σ, _⟩, l⟩⟩ <;> try rfl
    simp only [List.map, typeStep, List.all_map]
    rfl
  | dim k => rcases ps with _ | ⟨⟨_ | _, _⟩, _ | ⟨_, _⟩⟩ <;> rfl
  | get => rcases ps with _ | ⟨⟨_ | ⟨_ | _ | _⟩, _⟩, _ | ⟨⟨_ | ⟨_ | _ | _⟩, _⟩, _ | ⟨_, _⟩⟩⟩ <;> rfl
  | concat => rcases ps with _ | ⟨⟨_ | ⟨_ | _ | _⟩, _⟩, _ | ⟨⟨_ | _, _⟩, _ | ⟨_, _⟩⟩⟩ <;> rfl
  | cons => rcases ps with _ | ⟨⟨_ | _, _⟩, _ | ⟨⟨_ | _, _⟩, _ | ⟨_, _⟩⟩⟩ <;> rfl
  | fst => rcases ps with _ | ⟨⟨_ | ⟨_ | _ | _⟩, _⟩, _ | ⟨_, _⟩⟩ <;> rfl
  | snd => rcases ps with _ | ⟨⟨_ | ⟨_ | _ | _⟩, _⟩, _ | ⟨_, _⟩⟩ <;> rfl
  | fold c a =>
    rcases ps with _ | ⟨⟨_ | ⟨⟨_ | _ | _⟩ | _ | _⟩, _⟩, _ | ⟨⟨_ | _, _⟩, _ | ⟨⟨_ | _, _⟩, _ | ⟨_, _⟩⟩⟩⟩ <;> rfl
  | reduce x y =>
    rcases ps with _ | ⟨⟨_ | σ, _⟩, _ | ⟨⟨_ | τ, _⟩, l⟩⟩ <;> try rfl
    simp only [List.map, typeStep, List.map_map]
    rfl
  | op o =>
    simp only [typeStep, List.foldr_map]
  | ext fn τ =>
    simp only [typeStep, List.all_map]
    rfl


/-! What a typed node consists of. -/
section inv
variable {ts : List (Expr F)} {τ : Ty}

theorem inv_letv {v : Nat} (h : typeOf (node (.letv v) ts) = some τ) :
    ∃ a b σ, ts = [a, b] ∧ typeOf a = some σ ∧ typeOf b = some τ := by
  rw [typeOf_node] at h
  rcases ts with _ | ⟨a, _ | ⟨b, _ | ⟨c, l⟩⟩⟩ <;> simp only [List.map] at h
  · simp [typeStep] at h
  · simp [typeStep] at h
  · cases ha : typeOf a <;> rw [ha] at h <;> simp [typeStep] at h
    exact ⟨a, b, _, rfl, ha, h⟩
  · cases ha : typeOf a <;> rw [ha] at h <;> simp [typeStep] at h

theorem inv_vec {i : Nat} (h : typeOf (node (.vec i) ts) = some τ) :
    ∃ n b σ, ts = [n, b] ∧ typeOf n = some (.scalar .int) ∧ freeIndices n = ∅ ∧ typeOf b = some σ ∧
      τ = .vector σ := by
  rw [typeOf_node] at h
  rcases ts with _ | ⟨a, _ | ⟨b, _ | ⟨c, l⟩⟩⟩ <;> simp only [List.map] at h
  · simp [typeStep] at h
  · rcases ha : typeOf a with _ | ⟨⟨_ | _ | _⟩ | _ | _⟩ <;> rw [ha] at h <;> simp [typeStep] at h
  · rcases ha : typeOf a with _ | ⟨⟨_ | _ | _⟩ | _ | _⟩ <;> rw [ha] at h <;>
      rcases hb : typeOf b with _ | σ <;> rw [hb] at h <;> simp [typeStep] at h
    exact ⟨a, b, σ, rfl, ha, h.1, hb, h.2.symm⟩
  · rcases ha : typeOf a with _ | ⟨⟨_ | _ | _⟩ | _ | _⟩ <;> rw [ha] at h <;>
      rcases hb : typeOf b with _ | σ <;> rw [hb] at h <;> simp [typeStep] at h

theorem inv_fold {c a : Nat} (h : typeOf (node (.fold c a) ts) = some τ) :
    ∃ n z b, ts = [n, z, b] ∧ typeOf n = some (.scalar .int) ∧ typeOf z = some τ ∧ typeOf b = some τ := by
  rw [typeOf_node] at h
  rcases ts with _ | ⟨n, _ | ⟨z, _ | ⟨b, _ | ⟨c, l⟩⟩⟩⟩ <;> simp only [List.map] at h
  · simp [typeStep] at h
  · rcases ha : typeOf n with _ | ⟨⟨_ | _ | _⟩ | _ | _⟩ <;> rw [ha] at h <;> simp [typeStep] at h
  · rcases ha : typeOf n with _ | ⟨⟨_ | _ | _⟩ | _ | _⟩ <;> rw [ha] at h <;>
      rcases hz : typeOf z with _ | σ <;> rw [hz] at h <;> simp [typeStep] at h
  · rcases ha : typeOf n with _ | ⟨⟨_ | _ | _⟩ | _ | _⟩ <;> rw [ha] at h <;>
      rcases hz : typeOf z with _ | σ <;> rw [hz] at h <;>
      rcases hb : typeOf b with _ | ρ <;> rw [hb] at h <;> simp [typeStep] at h
    obtain ⟨rfl, rfl⟩ := h
    exact ⟨n, z, b, rfl, ha, hz, hb⟩
  · rcases ha : typeOf n with _ | ⟨⟨_ | _ | _⟩ | _ | _⟩ <;> rw [ha] at h <;>
      rcases hz : typeOf z with _ | σ <;> rw [hz] at h <;>
      rcases hb : typeOf b with _ | ρ <;> rw [hb] at h <;> simp [typeStep] at h

theorem inv_dim {k : Nat} (h : typeOf (node (.dim k) ts) = some τ) :
    ∃ a σ, ts = [a] ∧ typeOf a = some σ ∧ τ = .scalar .int := by
  rw [typeOf_node] at h
  rcases ts with _ | ⟨a, _ | ⟨b, l⟩⟩ <;> simp only [List.map] at h
  · simp [typeStep] at h
  · rcases ha : typeOf a with _ | σ <;> rw [ha] at h <;> simp [typeStep] at h
    exact ⟨a, σ, rfl, ha, h.symm⟩
  · rcases ha : typeOf a with _ | σ <;> rw [ha] at h <;> simp [typeStep] at h

theorem inv_fst (h : typeOf (node .fst ts) = some τ) : ∃ a σ, ts = [a] ∧ typeOf a = some (.pair τ σ) := by
  rw [typeOf_node] at h
  rcases ts with _ | ⟨a, _ | ⟨b, l⟩⟩ <;> simp only [List.map] at h
  · simp [typeStep] at h
  · rcases ha : typeOf a with _ | ⟨_ | _ | ⟨ρ, σ⟩⟩ <;> rw [ha] at h <;> simp [typeStep] at h
    exact ⟨a, σ, rfl, by rw [ha, h]⟩
  · rcases ha : typeOf a with _ | ⟨_ | _ | ⟨ρ, σ⟩⟩ <;> rw [ha] at h <;> simp [typeStep] at h

theorem inv_snd (h : typeOf (node .snd ts) = some τ) : ∃ a σ, ts = [a] ∧ typeOf a = some (.pair σ τ) := by
  rw [typeOf_node] at h
  rcases ts with _ | ⟨a, _ | ⟨b, l⟩⟩ <;> simp only [List.map] at h
  · simp [typeStep] at h
  · rcases ha : typeOf a with _ | ⟨_ | _ | ⟨ρ, σ⟩⟩ <;> rw [ha] at h <;> simp [typeStep] at h
    exact ⟨a, ρ, rfl, by rw [ha, h]⟩
  · rcases ha : typeOf a with _ | ⟨_ | _ | ⟨ρ, σ⟩⟩ <;> rw [ha] at h <;> simp [typeStep] at h

theorem inv_cons (h : typeOf (node .cons ts) = some τ) :
    ∃ a b σ ρ, ts = [a, b] ∧ typeOf a = some σ ∧ typeOf b = some ρ ∧ τ = .pair σ ρ := by
  rw [typeOf_node] at h
  rcases ts with _ | ⟨a, _ | ⟨b, _ | ⟨c, l⟩⟩⟩ <;> simp only [List.map] at h
  · simp [typeStep] at h
  · rcases ha : typeOf a with _ | σ <;> rw [ha] at h <;> simp [typeStep] at h
  · rcases ha : typeOf a with _ | σ <;> rw [ha] at h <;>
      rcases hb : typeOf b with _ | ρ <;> rw [hb] at h <;> simp [typeStep] at h
    exact ⟨a, b, σ, ρ, rfl, ha, hb, h.symm⟩
  · rcases ha : typeOf a with _ | σ <;> rw [ha] at h <;>
      rcases hb : typeOf b with _ | ρ <;> rw [hb] at h <;> simp [typeStep] at h

theorem inv_get (h : typeOf (node .get ts) = some τ) :
    ∃ a b k, ts = [a, b] ∧ typeOf a = some (.vector τ) ∧ typeOf b = some (.scalar k) := by
  rw [typeOf_node] at h
  rcases ts with _ | ⟨a, _ | ⟨b, _ | ⟨c, l⟩⟩⟩ <;> simp only [List.map] at h
  · simp [typeStep] at h
  · rcases ha : typeOf a with _ | ⟨_ | σ | _⟩ <;> rw [ha] at h <;> simp [typeStep] at h
  · rcases ha : typeOf a with _ | ⟨_ | σ | _⟩ <;> rw [ha] at h <;>
      rcases hb : typeOf b with _ | ⟨k | _ | _⟩ <;> rw [hb] at h <;> simp [typeStep] at h
    exact ⟨a, b, k, rfl, by rw [ha, h], hb⟩
  · rcases ha : typeOf a with _ | ⟨_ | σ | _⟩ <;> rw [ha] at h <;>
      rcases hb : typeOf b with _ | ⟨k | _ | _⟩ <;> rw [hb] at h <;> simp [typeStep] at h

theorem inv_concat (h : typeOf (node .concat ts) = some τ) :
    ∃ a b σ, ts = [a, b] ∧ typeOf a = some (.vector σ) ∧ typeOf b = some (.vector σ) ∧ τ = .vector σ := by
  rw [typeOf_node] at h
  rcases ts with _ | ⟨a, _ | ⟨b, _ | ⟨c, l⟩⟩⟩ <;> simp only [List.map] at h
  · simp [typeStep] at h
  · rcases ha : typeOf a with _ | ⟨_ | σ | _⟩ <;> rw [ha] at h <;> simp [typeStep] at h
  · rcases ha : typeOf a with _ | ⟨_ | σ | _⟩ <;> rw [ha] at h <;>
      rcases hb : typeOf b with _ | ρ <;> rw [hb] at h <;> simp [typeStep] at h
    exact ⟨a, b, σ, rfl, ha, by rw [hb, h.1], h.2.symm⟩
  · rcases ha : typeOf a with _ | ⟨_ | σ | _⟩ <;> rw [ha] at h <;>
      rcases hb : typeOf b with _ | ρ <;> rw [hb] at h <;> simp [typeStep] at h

theorem inv_assertEq (h : typeOf (node .assertEq ts) = some τ) : ∃ a l, ts = a :: l ∧ typeOf a = some τ := by
  rw [typeOf_node] at h
  rcases ts with _ | ⟨a, _ | ⟨b, l⟩⟩ <;> simp only [List.map] at h
  · simp [typeStep] at h
  · exact ⟨a, [], rfl, h⟩
  · refine ⟨a, b :: l, rfl, ?_⟩
    rcases hb : typeOf b with _ | ρ <;> rw [hb] at h <;> simp [typeStep] at h
    exact h.2

theorem inv_store {s : Sym} {σ : Ty} (h : typeOf (node (.store s σ) ts) = some τ) : ts = [] ∧ σ = τ := by
  rw [typeOf_node] at h
  rcases ts with _ | ⟨a, l⟩
  · simpa [typeStep] using h
  · simp [typeStep] at h

theorem inv_const {v : D F} {σ : Ty} (h : typeOf (node (.const v σ) ts) = some τ) : ts = [] ∧ σ = τ := by
  rw [typeOf_node] at h
  rcases ts with _ | ⟨a, l⟩
  · simpa [typeStep] using h
  · simp [typeStep] at h

theorem pairFold_none {l : List (Option Ty)} : l.foldl (fun a b => match a, b with
    | some a, some b => some (Ty.pair a b) | _, _ => none) none = none := by
  induction l with
  | nil => rfl
  | cons b l ih => exact ih

theorem pairFold_elems {e τ : Ty} {vs : List (Expr F)} (h : (vs.map ((fun v => match v.1 with
    | some (.vector e) => some e | _ => none) ∘ fun t : Expr F => (typeOf t, freeIndices t))).foldl
    (fun a b => match a, b with | some a, some b => some (Ty.pair a b) | _, _ => none) (some e) = some τ) :
    ∃ es, List.Forall₂ (fun t e => typeOf t = some (.vector e)) vs es ∧ es.foldl .pair e = τ := by
  induction vs generalizing e with
  | nil => cases h; exact ⟨[], .nil, rfl⟩
  | cons v vs ih =>
    simp only [List.map, List.foldl, Function.comp] at h
    cases hv : typeOf v with
    | none => rw [hv] at h; rw [pairFold_none] at h; cases h
    | some tv =>
      rw [hv] at h
      cases tv with
      | scalar k => simp only at h; rw [pairFold_none] at h; cases h
      | pair a b => simp only at h; rw [pairFold_none] at h; cases h
      | vector e' =>
        obtain ⟨es, h1, h2⟩ := ih h
        exact ⟨e' :: es, .cons hv h1, h2⟩

/-- The elements of the vectors of a reduction make up its type. -/
theorem inv_reduce {x y : Nat} (h : typeOf (node (.reduce x y) ts) = some τ) :
    ∃ z b v vs e es, ts = z :: b :: v :: vs ∧ typeOf z = some τ ∧ typeOf b = some τ ∧
      typeOf v = some (.vector e) ∧ List.Forall₂ (fun t e => typeOf t = some (.vector e)) vs es ∧
      es.foldl .pair e = τ := by
  rw [typeOf_node] at h
  rcases ts with _ | ⟨z, _ | ⟨b, l⟩⟩ <;> simp only [List.map] at h
  · simp [typeStep] at h
  · rcases ha : typeOf z with _ | σ <;> rw [ha] at h <;> simp [typeStep] at h
  · rcases hz : typeOf z with _ | σ <;> rw [hz] at h <;>
      rcases hb : typeOf b with _ | ρ <;> rw [hb] at h <;> simp only [typeStep] at h <;> try (cases h; done)
    split at h
    · cases h
    · rename_i hne
      have hne : σ = ρ := by simpa using hne
      subst hne
      rcases l with _ | ⟨v, vs⟩
      · simp at h
      · simp only [List.map, List.map_map] at h
        split at h
        · rename_i elems he
          split at h
          · rename_i hr
            cases h
            subst hr
            cases hv : typeOf v with
            | none => rw [hv] at he; exact nomatch (pairFold_none.symm.trans he : (none : Option Ty) = some _)
            | some tv =>
              rw [hv] at he
              cases tv with
              | scalar k => exact nomatch (pairFold_none.symm.trans he : (none : Option Ty) = some _)
              | pair a b => exact nomatch (pairFold_none.symm.trans he : (none : Option Ty) = some _)
              | vector e =>
                obtain ⟨es, h1, h2⟩ := pairFold_elems he
                exact ⟨z, b, v, vs, e, es, rfl, hz, hb, hv, h1, h2⟩
          · cases h
        · cases h

end inv

/-- A node keeps its type if its sub-terms keep theirs and get no new free indices. -/
theorem typeOf_congr {h : Head F} {ts ts' : List (Expr F)}
    (hs : List.Forall₂ (fun t t' => typeOf t' = typeOf t ∧ (freeIndices t = ∅ → freeIndices t' = ∅)) ts ts')
    {τ : Ty} (ht : typeOf (node h ts) = some τ) : typeOf (node h ts') = some τ := by
  by_cases hv : ∀ i, h ≠ .vec i
  · rw [typeOf_node] at ht ⊢
    rw [typeStep_free h hv, List.map_map] at ht ⊢
    rw [← ht]
    congr 1
    clear ht
    induction hs with
    | nil => rfl
    | cons h1 _ ih => simp only [List.map, Function.comp, h1.1, ih]
  · push Not at hv
    obtain ⟨i, rfl⟩ := hv
    obtain ⟨n, b, σ, rfl, hn, hf, hb, rfl⟩ := inv_vec ht
    rcases hs with _ | ⟨h1, _ | ⟨h2, _ | _⟩⟩
    rw [typeOf_node]
    simp only [List.map, h1.1, h2.1, hn, hb, typeStep, if_pos (h1.2 hf)]

/-! ### Contexts -/

/-- The type of a symbol bound at a node. -/
def bindTy : Head F → List (Expr F) → Sym → Option Ty
  | .letv _, ts, _ => ts[0]?.bind typeOf
  | .vec _, _, _ => some (.scalar .int)
  | .fold c _, ts, s => if s = .var c then some (.scalar .int) else ts[1]?.bind typeOf
  | .reduce _ _, ts, _ => ts[0]?.bind typeOf
  | _, _, _ => none

/-- The context of the `k`-th sub-term of a node. -/
def childCtx (h : Head F) (ts : List (Expr F)) (k : Nat) (Γ : TCtx) : TCtx := fun s =>
  if outside h k = false ∧ s ∈ h.captured then bindTy h ts s else Γ s

/-- What a node needs besides its sub-terms: a variable is used with the type of its binder, constants and
external functions have the types written on them, and no array of records is given to an external
function. -/
def headOk (I : Ext F) (h : Head F) (ts : List (Expr F)) (Γ : TCtx) : Prop :=
  match h with
  | .const v τ => HasType v τ
  | .store s τ => Γ s = some τ
  | .ext fn τ => (∀ t ∈ ts, ∀ σ, typeOf t = some σ → flat σ = true) ∧
    ∀ args r, TypedArgs ts args → I fn args = some r → HasType r τ
  | _ => True

/-- Well-typed in a context, no symbol bound twice on a path; if `fl` is set, no sub-term is an array of
records. -/
inductive Fine (fl : Bool) (I : Ext F) : Expr F → TCtx → Prop
  | node {h : Head F} {ts : List (Expr F)} {Γ : TCtx} (τ : Ty) :
      typeOf (node h ts) = some τ → (fl = true → flat τ = true) → headOk I h ts Γ →
      (∀ s ∈ h.captured, Γ s = none) → (∀ k t, ts[k]? = some t → Fine fl I t (childCtx h ts k Γ)) →
      Fine fl I (node h ts) Γ

namespace Fine
variable {fl : Bool} {I : Ext F} {h : Head F} {ts : List (Expr F)} {e : Expr F} {Γ : TCtx}

theorem typed (hf : Fine fl I e Γ) : ∃ τ, typeOf e = some τ ∧ (fl = true → flat τ = true) := by
  cases hf with | node τ h1 h2 => exact ⟨τ, h1, h2⟩

theorem ok (hf : Fine fl I (Term.node h ts) Γ) : headOk I h ts Γ := by
  cases hf with | node τ h1 h2 h3 => exact h3

theorem fresh (hf : Fine fl I (Term.node h ts) Γ) : ∀ s ∈ h.captured, Γ s = none := by
  cases hf with | node τ h1 h2 h3 h4 => exact h4

theorem child (hf : Fine fl I (Term.node h ts) Γ) : ∀ k t, ts[k]? = some t → Fine fl I t (childCtx h ts k Γ) := by
  cases hf with | node τ h1 h2 h3 h4 h5 => exact h5

theorem child_mem (hf : Fine fl I (Term.node h ts) Γ) (hc : h.captured = ∅) : ∀ t ∈ ts, Fine fl I t Γ := by
  intro t ht
  obtain ⟨k, hk⟩ := List.getElem?_of_mem ht
  have := hf.child k t hk
  have e : childCtx h ts k Γ = Γ := by funext s; simp [childCtx, hc]
  rwa [e] at this

theorem fv_dom (hf : Fine fl I e Γ) : ∀ s ∈ fv e, Γ s ≠ none := by
  induction hf with
  | @node h ts Γ τ _ _ hok _ _ ih =>
    intro s hs
    rw [mem_fv] at hs
    obtain ⟨hs | ⟨t, ht, hs⟩, hc⟩ := hs
    · change Head.symbol h = some s at hs
      cases h <;> simp only [Head.symbol, reduceCtorEq, Option.some.injEq] at hs
      subst hs
      simp only [headOk] at hok
      rw [hok]; simp
    · obtain ⟨k, hk⟩ := List.getElem?_of_mem ht
      have := ih k t hk s hs
      simp only [childCtx] at this
      rw [if_neg fun h => hc h.2] at this
      exact this

theorem binders_out (hf : Fine fl I e Γ) : ∀ s ∈ binders e, Γ s = none := by
  induction hf with
  | @node h ts Γ τ _ _ _ hfr _ ih =>
    intro s hs
    rcases mem_binders.1 hs with hs | ⟨t, ht, hs⟩
    · exact hfr s hs
    · obtain ⟨k, hk⟩ := List.getElem?_of_mem ht
      have := ih k t hk s hs
      simp only [childCtx] at this
      split at this
      · rename_i h; exact hfr s h.2
      · exact this

theorem scoping (hf : Fine fl I e Γ) : Scoped e := by
  induction hf with
  | @node h ts Γ τ _ _ _ hfr hch ih =>
    refine .node (fun k t hk ho => ?_) (fun t ht => ?_)
    · refine Finset.disjoint_left.2 fun s hs hst => ?_
      have := (hch k t hk).fv_dom s hst
      rw [childCtx, if_neg (by have : outside h k = true := ho; simp [this])] at this
      exact this (hfr s hs)
    · obtain ⟨k, hk⟩ := List.getElem?_of_mem ht
      exact ih k t hk

theorem agree (hf : Fine fl I e Γ) : ∀ {Γ' : TCtx}, (∀ s, s ∈ fv e ∨ s ∈ binders e → Γ' s = Γ s) → Fine fl I e Γ' := by
  induction hf with
  | @node h ts Γ τ h1 h2 hok hfr hch ih =>
    intro Γ' ha
    refine .node τ h1 h2 ?_ (fun s hs => ?_) (fun k t hk => ih k t hk fun s hs => ?_)
    · cases h with
      | store s σ =>
        simp only [headOk] at hok ⊢
        rw [ha s (.inl (mem_fv.2 ⟨.inl rfl, by simp [Lang.captured, Head.captured]⟩)), hok]
      | _ => exact hok
    · rw [ha s (.inr (mem_binders.2 (.inl hs))), hfr s hs]
    · simp only [childCtx]
      split
      · rfl
      · rename_i hn
        by_cases hc : s ∈ h.captured
        · exact ha s (.inr (mem_binders.2 (.inl hc)))
        · refine ha s ?_
          rcases hs with hs | hs
          · exact .inl (mem_fv.2 ⟨.inr ⟨t, List.mem_of_getElem? hk, hs⟩, hc⟩)
          · exact .inr (mem_binders.2 (.inr ⟨t, List.mem_of_getElem? hk, hs⟩))

theorem relax (hf : Fine fl I e Γ) : Fine false I e Γ := by
  induction hf with
  | node τ h1 h2 hok hfr hch ih => exact .node τ h1 (by simp) hok hfr ih

end Fine

/-! The contexts of the sub-terms of the binding forms. -/
section ctx
variable (Γ : TCtx)

theorem childCtx_let0 (v : Nat) (ts : List (Expr F)) : childCtx (.letv v) ts 0 Γ = Γ := by
  funext s; simp [childCtx, outside]

theorem childCtx_let1 (v : Nat) (a b : Expr F) :
    childCtx (.letv v) [a, b] 1 Γ = Γ.set (.var v) (typeOf a) := by
  funext s; simp [childCtx, outside, Head.captured, bindTy, TCtx.set]

theorem childCtx_vec0 (i : Nat) (ts : List (Expr F)) : childCtx (.vec i) ts 0 Γ = Γ := by
  funext s; simp [childCtx, outside]

theorem childCtx_vec1 (i : Nat) (ts : List (Expr F)) :
    childCtx (.vec i) ts 1 Γ = Γ.set (.idx i) (some (.scalar .int)) := by
  funext s; simp [childCtx, outside, Head.captured, bindTy, TCtx.set]

theorem childCtx_fold0 (c a : Nat) (ts : List (Expr F)) : childCtx (.fold c a) ts 0 Γ = Γ := by
  funext s; simp [childCtx, outside]

theorem childCtx_fold1 (c a : Nat) (ts : List (Expr F)) : childCtx (.fold c a) ts 1 Γ = Γ := by
  funext s; simp [childCtx, outside]

theorem childCtx_fold2 (c a : Nat) (n z b : Expr F) : childCtx (.fold c a) [n, z, b] 2 Γ =
    (Γ.set (.var a) (typeOf z)).set (.var c) (some (.scalar .int)) := by
  funext s
  simp only [childCtx, outside, Head.captured, bindTy, TCtx.set, Finset.mem_insert, Finset.mem_singleton]
  by_cases h1 : s = .var c <;> by_cases h2 : s = .var a <;> simp [h1, h2]

theorem childCtx_reduce1 (x y : Nat) (z b : Expr F) (vs : List (Expr F)) :
    childCtx (.reduce x y) (z :: b :: vs) 1 Γ = (Γ.set (.var x) (typeOf z)).set (.var y) (typeOf z) := by
  funext s
  simp only [childCtx, outside, Head.captured, bindTy, TCtx.set, Finset.mem_insert, Finset.mem_singleton]
  by_cases h1 : s = .var x <;> by_cases h2 : s = .var y <;> simp [h1, h2]

theorem childCtx_reduce (x y : Nat) (ts : List (Expr F)) {k : Nat} (hk : k ≠ 1) :
    childCtx (.reduce x y) ts k Γ = Γ := by
  funext s; simp [childCtx, outside, hk]

theorem childCtx_none (h : Head F) (hc : h.captured = ∅) (ts : List (Expr F)) (k : Nat) : childCtx h ts k Γ = Γ := by
  funext s; simp [childCtx, hc]

end ctx

theorem Fine.declared [FloatOps F] {fl : Bool} {I : Ext F} {e : Expr F} {Γ : TCtx} (hf : Fine fl I e Γ) : Declared I e Γ := by
  induction hf with
  | @node h ts Γ τ ht _ hok hfr hch ih =>
    rw [declared_node]
    have all : h.captured = ∅ → ∀ p ∈ ts.map (fun t => (t, Declared I t)), p.2 Γ := by
      intro hc p hp
      obtain ⟨t, ht, rfl⟩ := List.mem_map.1 hp
      obtain ⟨k, hk⟩ := List.getElem?_of_mem ht
      have := ih k t hk
      rwa [childCtx_none Γ h hc] at this
    cases h with
    | const v σ => exact hok
    | store s σ => exact hok
    | letv v =>
      obtain ⟨a, b, σ, rfl, _, _⟩ := inv_letv ht
      have h0 := ih 0 a rfl
      have h1 := ih 1 b rfl
      rw [childCtx_let0] at h0
      rw [childCtx_let1] at h1
      exact ⟨h0, h1⟩
    | vec i =>
      obtain ⟨a, b, σ, rfl, _⟩ := inv_vec ht
      have h0 := ih 0 a rfl
      have h1 := ih 1 b rfl
      rw [childCtx_vec0] at h0
      rw [childCtx_vec1] at h1
      exact ⟨h0, h1⟩
    | fold c a =>
      obtain ⟨n, z, b, rfl, _⟩ := inv_fold ht
      have h0 := ih 0 n rfl
      have h1 := ih 1 z rfl
      have h2 := ih 2 b rfl
      rw [childCtx_fold0] at h0
      rw [childCtx_fold1] at h1
      rw [childCtx_fold2] at h2
      exact ⟨h0, h1, h2⟩
    | reduce x y =>
      obtain ⟨z, b, v, vs, e, es, rfl, _⟩ := inv_reduce ht
      have h0 := ih 0 z rfl
      have h1 := ih 1 b rfl
      rw [childCtx_reduce _ _ _ _ (by decide)] at h0
      rw [childCtx_reduce1] at h1
      refine ⟨h0, fun p hp => ?_, h1⟩
      obtain ⟨t, ht, rfl⟩ := List.mem_map.1 hp
      obtain ⟨k, hk⟩ := List.getElem?_of_mem ht
      have := ih (k + 2) t (by simpa using hk)
      rwa [childCtx_reduce _ _ _ _ (by omega)] at this
    | ext fn σ => exact ⟨all rfl, fun args r ha => hok.2 args r (by simpa [List.map_map, Function.comp_def] using ha)⟩
    | assertEq | dim _ | get | concat | cons | fst | snd | op _ => exact all rfl

end Verif.Midend
