import Verif.Codegen.AlongEval

/-! Tuples of arrays. -/

set_option linter.unusedSectionVars false

namespace Verif.Codegen
open Verif.Phi Verif.Term Verif.Yarr Verif.Arr
variable {F : Type} [FloatOps F]

/-- The value of a tuple of arrays; a tuple of one array is that array (`axial.py:26-27`). -/
def pack : List (A F) → YVal F
  | [a] => .arr a
  | as => .tup as

omit [FloatOps F] in
theorem pack_arrs (as : List (A F)) : (pack as).arrs = as := by
  unfold pack; split <;> rfl

theorem forall₂_single {α β : Type} {R : α → β → Prop} {as : List α} {b : β} (h : List.Forall₂ R as [b]) :
    ∃ a, as = [a] ∧ R a b := by
  cases h with
  | cons h1 h2 => cases h2; exact ⟨_, rfl, h1⟩

theorem mapOpt_exists {α β : Type} {f : α → Option β} {P : α → β → Prop} {l : List α}
    (h : ∀ a ∈ l, ∃ b, f a = some b ∧ P a b) : ∃ bs, mapOpt f l = some bs ∧ List.Forall₂ P l bs := by
  induction l with
  | nil => exact ⟨[], rfl, .nil⟩
  | cons a l ih =>
    obtain ⟨b, h1, h2⟩ := h a (by simp)
    obtain ⟨bs, h3, h4⟩ := ih fun x hx => h x (by simp [hx])
    exact ⟨b :: bs, by simp [mapOpt, h1, h3], .cons h2 h4⟩

/-- The values of a list of code. -/
theorem eval_tuple {J : YExt F} {env : Env (YVal F)} {es : List (YExpr F)} {as : List (A F)}
    (h : List.Forall₂ (fun e a => Yarr.eval J e env = some (.arr a)) es as) :
    Yarr.eval J (node .tuple es) env = some (.tup as) := by
  rw [Yarr.eval_node]
  have : arrsOf ((es.map (Yarr.eval J)).map (· env)) = some as := by
    unfold arrsOf
    induction h with
    | nil => rfl
    | cons h1 _ ih => simp only [List.map_cons, mapOpt, h1, Option.bind_some, YVal.asArr, ih]
  simp only [Yarr.den, this, Option.bind_some]

theorem eval_tupleMaybe {J : YExt F} {env : Env (YVal F)} {es : List (YExpr F)} {as : List (A F)}
    (h : List.Forall₂ (fun e a => Yarr.eval J e env = some (.arr a)) es as) :
    Yarr.eval J (tupleMaybe es) env = some (pack as) := by
  rcases h with _ | ⟨h1, _ | ⟨h2, h3⟩⟩
  · exact eval_tuple .nil
  · exact h1
  · exact eval_tuple (.cons h1 (.cons h2 h3))

theorem rankOk_tupleMaybe {J : YExt F} {env : Env (YVal F)} {es : List (YExpr F)}
    (h : ∀ e ∈ es, RankOk J env e) : RankOk J env (tupleMaybe es) := by
  rcases es with _ | ⟨e, _ | ⟨e', es⟩⟩
  · exact rankOk_node (by trivial) h
  · exact h e (by simp)
  · exact rankOk_node (by trivial) h

/-- The parts of a tuple. -/
theorem untupleMaybe_spec {J : YExt F} {env : Env (YVal F)} {e : YExpr F} {as : List (A F)} {τ : PTy}
    (hτ : Yarr.typeOf e = some τ) (he : Yarr.eval J e env = some (pack as)) (hr : RankOk J env e) :
    ∃ es, mapOpt (untupleMaybe e) (List.range as.length) = some es ∧
      List.Forall₂ (fun e a => Yarr.eval J e env = some (.arr a)) es as ∧ ∀ e ∈ es, RankOk J env e := by
  have hl : τ.length = as.length := by
    have := congrArg List.length (hr _ _ hτ he)
    rw [pack_arrs] at this
    simpa using this.symm
  obtain ⟨es, h1, h2⟩ := mapOpt_exists (f := untupleMaybe e) (l := List.range as.length)
    (P := fun i y => (∀ a, as[i]? = some a → Yarr.eval J y env = some (.arr a)) ∧ RankOk J env y) (by
      intro i hi
      simp only [List.mem_range] at hi
      unfold untupleMaybe arityOf
      rw [hτ]
      refine ⟨_, rfl, ?_, ?_⟩
      · intro a ha
        simp only [hl]
        split
        · rename_i h1
          have hi0 : i = 0 := by omega
          subst hi0
          rcases as with _ | ⟨a', _ | ⟨b, as⟩⟩
          · simp at h1
          · simp at ha; subst ha; exact he
          · simp at h1
        · rename_i h1
          rw [Yarr.eval_node]
          simp only [List.map_cons, List.map_nil, Yarr.den, he, Option.bind_some]
          have : pack as = .tup as := by
            unfold pack
            split
            · simp at h1
            · rfl
          rw [this]
          simp [ha]
      · simp only []
        split
        · exact hr
        · exact rankOk_node (by trivial) (by intro t ht; simp at ht; subst ht; exact hr))
  refine ⟨es, h1, ?_, ?_⟩
  · rw [List.forall₂_iff_get] at h2 ⊢
    refine ⟨by have := h2.1; simp at this; omega, fun i h3 h4 => ?_⟩
    have := (h2.2 i (by simpa using h4) h3).1 as[i]
    simp at this
    simpa using this
  · intro y hy
    obtain ⟨i, hi⟩ := List.getElem_of_mem hy
    obtain ⟨hi, rfl⟩ := hi
    rw [List.forall₂_iff_get] at h2
    have hi' : i < as.length := by have := h2.1; simp at this; omega
    have := (h2.2 i (by simpa using hi') hi).2
    simpa using this

end Verif.Codegen
