import Verif.Phi.Sem
import Verif.Midend.Strict

/-! The reference meaning `run` and the compositional meaning `sem` of phi expressions. -/

set_option linter.unusedSectionVars false

namespace Verif.Phi
open Verif.Term Verif.Midend
variable {F : Type} [FloatOps F]

/-- On let-free, well scoped terms both meanings are the same function. -/
theorem run_eq_eval (I : Ext F) (e : Expr F) : LetFree e → Scoped e →
    ∀ env, run I e env = (sem I).eval e env := by
  induction e using ind with
  | step h ts ih =>
    intro hl hs env
    have ih' : ∀ t ∈ ts, run I t = (sem I).eval t := fun t ht => by
      funext env'; exact ih t ht (LetFree.children hl _ ht) (hs.children _ ht) env'
    have hm : ts.map (run I) = ts.map (sem I).eval := List.map_congr_left ih'
    rw [run_node, hm, Sem.eval_node]
    have hout := fun k t h1 (h2 : outside h k = true) =>
      eval_hide I (show Disjoint h.captured (fv t) from hs.out k t h1 h2) env
    change runDen I h _ env = den I h _ env
    cases h with
    | letv v => exact absurd (hl _ _ (.refl _)) (by simp [Lang.letVar, Head.letVar])
    | vec i =>
      rcases ts with _ | ⟨n, _ | ⟨b, _ | ⟨_, _⟩⟩⟩ <;> try rfl
      have h0 := hout 0 n rfl rfl
      simp only [Head.captured] at h0
      simp only [List.map, runDen, den, h0]
    | fold c a =>
      rcases ts with _ | ⟨n, _ | ⟨z, _ | ⟨b, _ | ⟨_, _⟩⟩⟩⟩ <;> try rfl
      have h0 := hout 0 n rfl rfl
      have h1 := hout 1 z rfl rfl
      simp only [Head.captured] at h0 h1
      simp only [List.map, runDen, den, h0, h1]
    | reduce x y =>
      rcases ts with _ | ⟨z, _ | ⟨b, vs⟩⟩ <;> try rfl
      have h0 := hout 0 z rfl rfl
      simp only [Head.captured] at h0
      simp only [List.map, runDen, den, List.map_map, h0]
      congr 1
      refine List.map_congr_left (fun t ht => ?_)
      obtain ⟨k, hk⟩ := List.getElem?_of_mem ht
      exact (hout (k + 2) t (by simpa using hk) (by simp [outside])).symm
    | _ => rcases ts with _ | ⟨_, _ | ⟨_, _ | ⟨_, _⟩⟩⟩ <;> rfl

/-! ### `run` refines `sem` -/

theorem mapOpt_le {α β γ : Type} {p : α → Option γ} {q : β → Option γ} {l : List α} {m : List β}
    (h : List.Forall₂ (fun a b => Le (p a) (q b)) l m) : Le (mapOpt p l) (mapOpt q m) := by
  induction h with
  | nil => exact Le.rfl
  | cons h1 _ ih => exact h1.bind (fun x _ => ih.bind (fun y _ => Le.rfl))

theorem loopOpt_le {α β : Type} {f g : β → α → Option β} {b : β} {l : List α}
    (h : ∀ a b, Le (f b a) (g b a)) : Le (loopOpt f b l) (loopOpt g b l) :=
  fun _ hv => loopOpt_mono (fun a _ b b' hb => h a b b' hb) hv

/-- A value computed by the (strict, eager) reference meaning is the value of the compositional
meaning. -/
theorem run_eval (I : Ext F) (e : Expr F) : Scoped e →
    ∀ env v, run I e env = some v → (sem I).eval e env = some v := by
  induction e using ind with
  | step h ts ih =>
    intro hs env
    have ih' : ∀ t ∈ ts, ∀ env, Le (run I t env) ((sem I).eval t env) :=
      fun t ht env => ih t ht (hs.children _ ht) env
    have hall : ∀ (l : List (Expr F)), (∀ t ∈ l, t ∈ ts) → ∀ {γ : Type} (p : D F → Option γ),
        Le (mapOpt (fun v : Option (D F) => v.bind p) ((l.map (run I)).map (· env)))
          (mapOpt (fun v : Option (D F) => v.bind p) ((l.map (sem I).eval).map (· env))) := by
      intro l hl γ p
      simp only [List.map_map, mapOpt_map, Function.comp_apply]
      refine mapOpt_le ?_
      rw [List.forall₂_same]
      intro t ht
      exact (ih' t (hl t ht) env).bind (fun _ _ => Le.rfl)
    have hout := fun k t h1 (h2 : outside h k = true) =>
      eval_hide I (show Disjoint h.captured (fv t) from hs.out k t h1 h2) env
    rw [run_node, Sem.eval_node]
    change Le (runDen I h _ env) (den I h _ env)
    cases h with
    | const v τ => exact Le.rfl
    | store s τ => exact Le.rfl
    | letv v =>
      rcases ts with _ | ⟨a, _ | ⟨b, _ | ⟨_, _⟩⟩⟩ <;> try exact Le.rfl
      have ha := ih' a (by simp) env
      have hb := ih' b (by simp)
      have h0 := hout 0 a rfl rfl
      simp only [Head.captured, hide, ← set_override] at h0
      simp only [List.map, runDen, den, h0]
      intro w hw
      obtain ⟨x, hx, hw⟩ := Option.bind_eq_some_iff.1 hw
      rw [ha x hx]
      exact hb _ w hw
    | assertEq =>
      rcases ts with _ | ⟨a, l⟩ <;> try exact Le.rfl
      simp only [List.map, runDen, den, assertOf]
      refine (hall l (fun t ht => List.mem_cons_of_mem _ ht) Val.asInt).bind (fun ns _ => ?_)
      rcases ns with _ | ⟨n, ns⟩
      · exact Le.rfl
      · dsimp only
        split_ifs
        · exact ih' a (by simp) env
        · exact Le.rfl
    | dim k =>
      rcases ts with _ | ⟨a, _ | ⟨b, l⟩⟩ <;> try exact Le.rfl
      exact ((ih' a (by simp) env).bind (fun _ _ => Le.rfl)).bind (fun _ _ => Le.rfl)
    | fst | snd =>
      rcases ts with _ | ⟨a, _ | ⟨b, l⟩⟩ <;> try exact Le.rfl
      exact (ih' a (by simp) env).bind (fun _ _ => Le.rfl)
    | get =>
      rcases ts with _ | ⟨a, _ | ⟨b, _ | ⟨_, _⟩⟩⟩ <;> try exact Le.rfl
      exact ((ih' a (by simp) env).bind (fun _ _ => Le.rfl)).bind (fun _ _ =>
        ((ih' b (by simp) env).bind (fun _ _ => Le.rfl)).bind (fun _ _ => Le.rfl))
    | concat =>
      rcases ts with _ | ⟨a, _ | ⟨b, _ | ⟨_, _⟩⟩⟩ <;> try exact Le.rfl
      exact ((ih' a (by simp) env).bind (fun _ _ => Le.rfl)).bind (fun _ _ =>
        ((ih' b (by simp) env).bind (fun _ _ => Le.rfl)).bind (fun _ _ => Le.rfl))
    | cons =>
      rcases ts with _ | ⟨a, _ | ⟨b, _ | ⟨_, _⟩⟩⟩ <;> try exact Le.rfl
      exact (ih' a (by simp) env).bind (fun _ _ => (ih' b (by simp) env).bind (fun _ _ => Le.rfl))
    | vec i =>
      rcases ts with _ | ⟨n, _ | ⟨b, _ | ⟨_, _⟩⟩⟩ <;> try exact Le.rfl
      have h0 := hout 0 n rfl rfl
      simp only [Head.captured] at h0
      simp only [List.map, runDen, den, h0, vecOf]
      refine ((ih' n (by simp) env).bind (fun _ _ => Le.rfl)).bind (fun k _ => ?_)
      refine Le.bind (mapOpt_le ?_) (fun _ _ => Le.rfl)
      rw [List.forall₂_same]
      intro j _
      exact ih' b (by simp) _
    | fold c a =>
      rcases ts with _ | ⟨n, _ | ⟨z, _ | ⟨b, _ | ⟨_, _⟩⟩⟩⟩ <;> try exact Le.rfl
      have h0 := hout 0 n rfl rfl
      have h1 := hout 1 z rfl rfl
      simp only [Head.captured] at h0 h1
      simp only [List.map, runDen, den, h0, h1, foldOf]
      refine ((ih' n (by simp) env).bind (fun _ _ => Le.rfl)).bind (fun k _ => ?_)
      refine (ih' z (by simp) env).bind (fun _ _ => loopOpt_le (fun j acc => ?_))
      exact ih' b (by simp) _
    | reduce x y =>
      rcases ts with _ | ⟨z, _ | ⟨b, vs⟩⟩ <;> try exact Le.rfl
      have h0 := hout 0 z rfl rfl
      simp only [Head.captured] at h0
      have hv : (vs.map (sem I).eval).map (· (hide {.var x, .var y} env)) =
          (vs.map (sem I).eval).map (· env) := by
        rw [List.map_map, List.map_map]
        refine List.map_congr_left (fun t ht => ?_)
        obtain ⟨k, hk⟩ := List.getElem?_of_mem ht
        exact hout (k + 2) t (by simpa using hk) (by simp [outside])
      simp only [List.map, runDen, den, h0, reduceOf]
      rw [hv]
      refine (hall vs (fun t ht => by simp [ht]) Val.asVec).bind (fun ls _ => ?_)
      rcases ls with _ | ⟨l, ls⟩
      · exact Le.rfl
      · dsimp only
        split_ifs
        · refine (ih' z (by simp) env).bind (fun _ _ => loopOpt_le (fun j acc => ?_))
          exact Le.bind Le.rfl (fun row _ => ih' b (by simp) _)
        · exact Le.rfl
    | op o =>
      exact (hall ts (fun _ h => h) Val.asScal).bind (fun _ _ => Le.rfl)
    | ext fn τ =>
      have := hall ts (fun _ h => h) (fun v => some v)
      have hid : (fun v : Option (D F) => v.bind fun v => some v) = fun v => v := by
        funext v; cases v <;> rfl
      rw [hid] at this
      exact this.bind (fun _ _ => Le.rfl)

/-- Two successful evaluations of terms with the same compositional meaning agree. -/
theorem run_unique (I : Ext F) {e e' : Expr F} {env : Env (D F)} (he : Scoped e) (he' : Scoped e')
    (h : (sem I).eval e env = (sem I).eval e' env) {v w : D F} (hv : run I e env = some v)
    (hw : run I e' env = some w) : v = w := by
  have a := run_eval I e he env v hv
  have b := run_eval I e' he' env w hw
  rw [h, b] at a
  exact (Option.some.inj a).symm

end Verif.Phi
