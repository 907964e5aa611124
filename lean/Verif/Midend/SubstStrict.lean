import Verif.Midend.Strict

/-! Substitution and strict evaluation. -/

set_option linter.unusedSectionVars false

namespace Verif.Midend
open Term
variable {H V : Type} [Lang H] [DecidableEq H]

theorem Le.antisymm {α : Type} {a b : Option α} (h : Le a b) (h' : Le b a) : a = b := by
  cases a with
  | some x => exact (h x rfl).symm
  | none => cases b with
    | none => rfl
    | some y => exact h' y rfl

namespace Strict
variable (R : Strict H V)

theorem eval_congr {h : H} {ts us : List (Term H)} {env env' : Env V} (hl : ts.length = us.length)
    (hs : ∀ s, Lang.symbol h = some s → env s = env' s)
    (hc : ∀ k t u, ts[k]? = some t → us[k]? = some u →
      (Lang.outside h k = true → R.eval t env = R.eval u env') ∧
      (Lang.outside h k = false → ∀ ext : Env V,
        R.eval t (env.override (Lang.captured h) ext) =
          R.eval u (env'.override (Lang.captured h) ext))) :
    R.eval (node h ts) env = R.eval (node h us) env' := by
  refine Le.antisymm ?_ ?_
  · exact R.eval_mono hl (fun s hs' => Le.of_eq (hs s hs')) (fun k t u h1 h2 =>
      ⟨fun ho => Le.of_eq ((hc k t u h1 h2).1 ho), fun ho ext => Le.of_eq ((hc k t u h1 h2).2 ho ext)⟩)
  · exact R.eval_mono hl.symm (fun s hs' => Le.of_eq (hs s hs').symm) (fun k t u h1 h2 =>
      ⟨fun ho => Le.of_eq ((hc k u t h2 h1).1 ho).symm,
        fun ho ext => Le.of_eq ((hc k u t h2 h1).2 ho ext).symm⟩)

theorem eval_agree_eq (t : Term H) (hs : Scoped t) {env env' : Env V}
    (ha : Env.AgreeOn (fv t) env env') : R.eval t env = R.eval t env' :=
  Le.antisymm (R.eval_agree t hs (fun s hs => Le.of_eq (ha s hs)))
    (R.eval_agree t hs (fun s hs => Le.of_eq (ha s hs).symm))

end Strict

/-- The environment in which the substituted symbols have the values of their replacements. -/
def bindEnv (ev : Term H → Env V → Option V) (σ : List (Sym × Term H)) (env : Env V) : Env V :=
  fun s => match lookup s σ with
    | some u => ev u env
    | none => env s

theorem substitute_strict (R : Strict H V)
    (hR : ∀ h fs s env, Lang.symbol h = some s → R.den h fs env = env s)
    (σ : List (Sym × Term H)) (hσ : ∀ p ∈ σ, Scoped p.2) (t : Term H) : Scoped t →
    Disjoint (binders t) (keys σ ∪ rangeFv σ) → ∀ env,
    R.eval (substitute σ t) env = R.eval t (bindEnv R.eval σ env) := by
  induction t using ind with
  | step h ts ih =>
    intro hsc hd env
    rw [substitute_node]
    split_ifs with hdis
    · refine R.eval_agree_eq _ hsc (fun s hs => ?_)
      unfold bindEnv
      rw [lookup_none.2 (Finset.disjoint_left.1 hdis hs)]
    · cases hsub : substAt σ h with
      | some u =>
        unfold substAt at hsub
        rw [Option.bind_eq_some_iff] at hsub
        obtain ⟨s, hs, hlk⟩ := hsub
        show R.eval u env = _
        rw [R.eval_node, hR h _ s _ hs, bindEnv, hlk]
      | none =>
        refine R.eval_congr (by simp) ?_ ?_
        · intro s hs
          unfold substAt at hsub
          rw [hs] at hsub
          simp only [Option.bind_some] at hsub
          unfold bindEnv; rw [hsub]
        · intro k u t hk1 hk2
          rw [List.getElem?_map, hk2] at hk1
          cases hk1
          have ht := List.mem_of_getElem? hk2
          have hdt : Disjoint (binders t) (keys σ ∪ rangeFv σ) :=
            Finset.disjoint_of_subset_left (binders_child_subset ht) hd
          refine ⟨fun _ => ih t ht (hsc.children _ ht) hdt env, fun _ ext => ?_⟩
          rw [ih t ht (hsc.children _ ht) hdt]
          congr 1
          funext s
          have hcap : Disjoint (Lang.captured h) (keys σ ∪ rangeFv σ) :=
            Finset.disjoint_of_subset_left captured_subset_binders hd
          unfold bindEnv Env.override
          by_cases hc : s ∈ Lang.captured h
          · have : s ∉ keys σ := fun hk =>
              Finset.disjoint_left.1 hcap hc (Finset.mem_union_left _ hk)
            rw [lookup_none.2 this]; simp [hc]
          · simp only [hc, if_false]
            cases hlk : lookup s σ with
            | none => simp
            | some u =>
              simp only
              refine R.eval_agree_eq _ (hσ _ (lookup_mem hlk)) (fun x hx => ?_)
              have : x ∉ Lang.captured h := fun hxc =>
                Finset.disjoint_left.1 hcap hxc (Finset.mem_union_right _
                  (mem_rangeFv.2 ⟨_, lookup_mem hlk, hx⟩))
              simp [this]

end Verif.Midend
