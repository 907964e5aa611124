import Verif.Term

/-! Model of `ein/midend/substitution.py`. -/

namespace Verif.Midend
open Term
variable {H V : Type} [Lang H]

/-- Look a symbol up in a substitution, given as an association list (a Python mapping). -/
def lookup {K A : Type} [DecidableEq K] (s : K) : List (K × A) → Option A
  | [] => none
  | (k, a) :: l => if s = k then some a else lookup s l

/-- `set(subs)` (`substitution.py:9`) -/
def keys {K A : Type} [DecidableEq K] (σ : List (K × A)) : Finset K := (σ.map Prod.fst).toFinset

theorem lookup_isSome {K A : Type} [DecidableEq K] {s : K} {σ : List (K × A)} :
    (lookup s σ).isSome ↔ s ∈ keys σ := by
  unfold keys
  induction σ with
  | nil => simp [lookup]
  | cons p σ ih =>
    obtain ⟨k, a⟩ := p
    unfold lookup
    by_cases h : s = k
    · simp [h]
    · simp [h, ih] at *

theorem lookup_none {K A : Type} [DecidableEq K] {s : K} {σ : List (K × A)} :
    lookup s σ = none ↔ s ∉ keys σ := by
  rw [← lookup_isSome]; cases lookup s σ <;> simp

theorem lookup_mem {K A : Type} [DecidableEq K] {s : K} {a : A} {σ : List (K × A)}
    (h : lookup s σ = some a) : (s, a) ∈ σ := by
  induction σ with
  | nil => simp [lookup] at h
  | cons p σ ih =>
    obtain ⟨k, b⟩ := p
    unfold lookup at h
    split_ifs at h with hk
    · simp at h; simp [hk, h]
    · exact List.mem_cons_of_mem _ (ih h)

/-- The substituted term at a leaf (`substitution.py:15-17`). -/
def substAt (σ : List (Sym × Term H)) (h : H) : Option (Term H) :=
  (Lang.symbol h).bind (fun s => lookup s σ)

mutual
/-- `substitute.go` (`substitution.py:11-18`); the `@cache` does not change the result because
`go` is a function of `t` alone. -/
def substitute (σ : List (Sym × Term H)) : Term H → Term H
  | node h ts =>
    if Disjoint (fv (node h ts)) (keys σ) then node h ts
    else match substAt σ h with
      | some u => u
      | none => node h (substituteList σ ts)
/-- `t.map(go)` (`substitution.py:18`) -/
def substituteList (σ : List (Sym × Term H)) : List (Term H) → List (Term H)
  | [] => []
  | t :: ts => substitute σ t :: substituteList σ ts
end

theorem substituteList_eq (σ : List (Sym × Term H)) (ts : List (Term H)) :
    substituteList σ ts = ts.map (substitute σ) := by
  induction ts with
  | nil => rfl
  | cons t ts ih => simp [substituteList, ih]

theorem substitute_node (σ : List (Sym × Term H)) (h : H) (ts : List (Term H)) :
    substitute σ (node h ts) =
      if Disjoint (fv (node h ts)) (keys σ) then node h ts
      else match substAt σ h with
        | some u => u
        | none => node h (ts.map (substitute σ)) := by
  rw [substitute, substituteList_eq]

/-- The environment in which the substituted symbols stand for the values of their replacements. -/
def substEnv (S : Sem H V) (σ : List (Sym × Term H)) (env : Env V) : Env V :=
  fun s => match lookup s σ with
    | some u => S.eval u env
    | none => env s

/-- All free symbols of the replacement terms. -/
def rangeFv {K : Type} (σ : List (K × Term H)) : Finset Sym :=
  (σ.map (fun p => fv p.2)).foldr (· ∪ ·) ∅

theorem mem_rangeFv {K : Type} {σ : List (K × Term H)} {s : Sym} :
    s ∈ rangeFv σ ↔ ∃ p ∈ σ, s ∈ fv p.2 := by
  unfold rangeFv; rw [mem_foldr_union]; simp

theorem substitute_eval (S : Sem H V) (σ : List (Sym × Term H)) (t : Term H) :
    Disjoint (binders t) (keys σ ∪ rangeFv σ) → ∀ env,
    S.eval (substitute σ t) env = S.eval t (substEnv S σ env) := by
  induction t using ind with
  | step h ts ih =>
    intro hd env
    rw [substitute_node]
    split_ifs with hdis
    · refine S.eval_agree _ (fun s hs => ?_)
      unfold substEnv
      rw [lookup_none.2 (Finset.disjoint_left.1 hdis hs)]
    · cases hsub : substAt σ h with
      | some u =>
        unfold substAt at hsub
        rw [Option.bind_eq_some_iff] at hsub
        obtain ⟨s, hs, hlk⟩ := hsub
        show S.eval u env = _
        rw [S.eval_symbol hs, substEnv, hlk]
      | none =>
        refine S.eval_congr ?_ ?_
        · intro s hs
          unfold substAt at hsub
          rw [hs] at hsub
          simp only [Option.bind_some] at hsub
          unfold substEnv; rw [hsub]
        · rw [List.forall₂_map_left_iff, List.forall₂_same]
          intro t ht ext
          have hdt : Disjoint (binders t) (keys σ ∪ rangeFv σ) :=
            Finset.disjoint_of_subset_left (binders_child_subset ht) hd
          rw [ih t ht hdt]
          congr 1
          funext s
          have hcap : Disjoint (Lang.captured h) (keys σ ∪ rangeFv σ) :=
            Finset.disjoint_of_subset_left captured_subset_binders hd
          unfold substEnv Env.override
          by_cases hc : s ∈ Lang.captured h
          · have : s ∉ keys σ := fun hk =>
              Finset.disjoint_left.1 hcap hc (Finset.mem_union_left _ hk)
            rw [lookup_none.2 this]; simp [hc]
          · simp only [hc, if_false]
            cases hlk : lookup s σ with
            | none => simp
            | some u =>
              simp only
              refine S.eval_agree _ (fun x hx => ?_)
              have : x ∉ Lang.captured h := fun hxc =>
                Finset.disjoint_left.1 hcap hxc (Finset.mem_union_right _
                  (mem_rangeFv.2 ⟨_, lookup_mem hlk, hx⟩))
              simp [this]

theorem substitute_eq_self (σ : List (Sym × Term H)) (t : Term H)
    (hd : Disjoint (fv t) (keys σ)) : substitute σ t = t := by
  obtain ⟨h, ts⟩ := t
  rw [substitute_node, if_pos hd]

theorem fv_substitute (σ : List (Sym × Term H)) (t : Term H) :
    fv (substitute σ t) ⊆ (fv t \ keys σ) ∪ rangeFv σ := by
  induction t using ind with
  | step h ts ih =>
    intro s hs
    rw [substitute_node] at hs
    split_ifs at hs with hdis
    · exact Finset.mem_union_left _ (Finset.mem_sdiff.2 ⟨hs, Finset.disjoint_left.1 hdis hs⟩)
    · cases hsub : substAt σ h with
      | some u =>
        rw [hsub] at hs
        unfold substAt at hsub
        rw [Option.bind_eq_some_iff] at hsub
        obtain ⟨s', hs', hlk⟩ := hsub
        exact Finset.mem_union_right _ (mem_rangeFv.2 ⟨_, lookup_mem hlk, hs⟩)
      | none =>
        rw [hsub] at hs
        simp only at hs
        rw [mem_fv] at hs
        obtain ⟨hs, hnc⟩ := hs
        rcases hs with hs | ⟨t', ht', hs⟩
        · refine Finset.mem_union_left _ (Finset.mem_sdiff.2 ⟨mem_fv.2 ⟨Or.inl hs, hnc⟩, ?_⟩)
          unfold substAt at hsub
          rw [hs] at hsub
          exact lookup_none.1 hsub
        · obtain ⟨t, ht, rfl⟩ := List.mem_map.1 ht'
          rcases Finset.mem_union.1 (ih t ht hs) with h1 | h1
          · rw [Finset.mem_sdiff] at h1
            exact Finset.mem_union_left _
              (Finset.mem_sdiff.2 ⟨mem_fv.2 ⟨Or.inr ⟨t, ht, h1.1⟩, hnc⟩, h1.2⟩)
          · exact Finset.mem_union_right _ h1

end Verif.Midend
