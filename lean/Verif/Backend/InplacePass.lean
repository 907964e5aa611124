import Verif.Backend.InplaceSim

/-! The in-place pass: where it puts marks, and what the marks change. -/

set_option linter.unusedSectionVars false

namespace Verif.Backend
open Verif.Term Verif.Phi Verif.Arr Verif.Yarr Verif.Midend
variable {F : Type}

/-- The node made by the pass. -/
theorem inplaceStep_cases (h : Yarr.Head F) (ts : List (YExpr F)) :
    (∃ o f g, ts = [f, g] ∧ inplaceStep h ts = node (.elem o (some 0)) ts ∧ isTemp f.head = true) ∨
    (∃ o f g, ts = [f, g] ∧ inplaceStep h ts = node (.elem o (some 1)) ts ∧ isTemp g.head = true) ∨
    (∃ k, inplaceStep h ts = node k ts ∧ ∀ o n, k ≠ .elem o (some n)) := by
  cases h with
  | elem o ip =>
    rcases ts with _ | ⟨f, _ | ⟨g, _ | ⟨t, ts⟩⟩⟩
    · exact .inr (.inr ⟨_, rfl, by simp⟩)
    · exact .inr (.inr ⟨_, rfl, by simp⟩)
    · simp only [inplaceStep]
      split
      · split
        · rename_i hc
          exact .inl ⟨o, f, g, rfl, rfl, hc.2.2⟩
        · split
          · rename_i hc
            exact .inr (.inl ⟨o, f, g, rfl, rfl, hc.2.2⟩)
          · exact .inr (.inr ⟨_, rfl, by simp⟩)
      · exact .inr (.inr ⟨_, rfl, by simp⟩)
    · exact .inr (.inr ⟨_, rfl, by simp⟩)
  | _ => exact .inr (.inr ⟨_, rfl, by simp⟩)

/-- The pass marks temporaries only. -/
theorem marked_applyInplace (e : YExpr F) : Marked (applyInplace e) := by
  induction e using Term.ind with
  | step h ts ih =>
    rw [applyInplace_node]
    have hch : ∀ u, ∀ k, Occurs u (node k (ts.map applyInplace)) → u = node k (ts.map applyInplace) ∨
        ∃ t ∈ ts, Occurs u (applyInplace t) := by
      intro u k ho
      cases ho with
      | refl => exact .inl rfl
      | child hm ho =>
        obtain ⟨t, ht, rfl⟩ := List.mem_map.1 hm
        exact .inr ⟨t, ht, ho⟩
    rcases inplaceStep_cases h (ts.map applyInplace) with ⟨o, f, g, he, hs, ht⟩ | ⟨o, f, g, he, hs, ht⟩ | ⟨k, hs, hk⟩
    · rw [hs]
      intro o' f' g'
      refine ⟨fun ho => ?_, fun ho => ?_⟩
      · rcases hch _ _ ho with e | ⟨t, hm, ho⟩
        · rw [he] at e; cases e; exact ht
        · exact (ih t hm o' f' g').1 ho
      · rcases hch _ _ ho with e | ⟨t, hm, ho⟩
        · cases e
        · exact (ih t hm o' f' g').2 ho
    · rw [hs]
      intro o' f' g'
      refine ⟨fun ho => ?_, fun ho => ?_⟩
      · rcases hch _ _ ho with e | ⟨t, hm, ho⟩
        · cases e
        · exact (ih t hm o' f' g').1 ho
      · rcases hch _ _ ho with e | ⟨t, hm, ho⟩
        · rw [he] at e; cases e; exact ht
        · exact (ih t hm o' f' g').2 ho
    · rw [hs]
      intro o' f' g'
      refine ⟨fun ho => ?_, fun ho => ?_⟩
      · rcases hch _ _ ho with e | ⟨t, hm, ho⟩
        · injection e with e1 e2; exact absurd e1.symm (hk _ _)
        · exact (ih t hm o' f' g').1 ho
      · rcases hch _ _ ho with e | ⟨t, hm, ho⟩
        · injection e with e1 e2; exact absurd e1.symm (hk _ _)
        · exact (ih t hm o' f' g').2 ho

variable [FloatOps F]

theorem eval_inplaceStep (J : YExt F) (h : Yarr.Head F) (ts : List (YExpr F)) :
    Yarr.eval J (inplaceStep h ts) = Yarr.eval J (node h ts) := by
  have key : ∀ o ip ip', Yarr.eval J (node (.elem o ip) ts) = Yarr.eval J (node (.elem o ip') ts) := by
    intro o ip ip'
    rw [Yarr.eval_node, Yarr.eval_node]
    funext env
    rfl
  cases h with
  | elem o ip =>
    rcases ts with _ | ⟨f, _ | ⟨g, _ | ⟨t, ts⟩⟩⟩
    · exact key _ _ _
    · exact key _ _ _
    · simp only [inplaceStep]
      split
      · split
        · exact key _ _ _
        · split <;> exact key _ _ _
      · exact key _ _ _
    · exact key _ _ _
  | _ => rfl

/-- The marks do not matter for the value of the program. -/
theorem eval_applyInplace (J : YExt F) (e : YExpr F) : Yarr.eval J (applyInplace e) = Yarr.eval J e := by
  induction e using Term.ind with
  | step h ts ih =>
    rw [applyInplace_node, eval_inplaceStep, Yarr.eval_node, Yarr.eval_node, List.map_map]
    congr 1
    exact List.map_congr_left ih

/-! ### What an in-place operation computes -/

/-- Operations whose result is a boolean whatever the operands are. -/
def compares : ScalarOp → Bool
  | .less => true
  | .lessEqual => true
  | .equal => true
  | .notEqual => true
  | _ => false

/-- Other binary operations have results of the dtype of their operands. -/
theorem outCast_applyOp {o : ScalarOp} (ho : compares o = false) {x y z : Scal F}
    (h : applyOp o [x, y] = some z) : outCast x z = some z ∧ outCast y z = some z := by
  cases o <;> simp only [compares, Bool.true_eq_false] at ho <;> cases x <;> cases y <;>
    first
    | (simp only [applyOp, Option.some.injEq] at h; subst h; exact ⟨rfl, rfl⟩)
    | (exfalso; revert h; simp [applyOp])

theorem bcastIx_self {s ix : List Nat} (h : InRange s ix) : NArr.bcastIx s ix = ix := by
  have hl := h.length
  unfold NArr.bcastIx
  rw [hl, Nat.sub_self, List.drop_zero]
  clear hl
  induction s generalizing ix with
  | nil => cases ix <;> simp_all
  | cons d s ih =>
    cases ix with
    | nil => simp at h
    | cons i ix =>
      rw [inRange_cons] at h
      rw [List.zipWith_cons_cons, ih h.2]
      congr 1
      split <;> omega

theorem writeOut_eq {o : ScalarOp} (ho : compares o = false) {a b r c w : A F}
    (hr : NArr.zipAll (applyOp o) [a, b] = some r) (hc : c = a ∨ c = b) (hw : writeOut c r = some w) :
    w = r := by
  unfold writeOut at hw
  split at hw
  · cases hw
  · split at hw
    · rename_i hs
      obtain ⟨h1, h2⟩ := NArr.ofFn?_eq_some.1 hw
      refine NArr.ext_get? (h1.trans hs.symm) (fun ix hix => ?_)
      rw [h1] at hix
      rw [(h2 ix hix).1]
      obtain ⟨x, hx⟩ := NArr.get?_exists hix
      obtain ⟨z, hz⟩ := NArr.get?_exists (hs ▸ hix)
      rw [hx, hz, Option.bind_some, Option.bind_some]
      unfold NArr.zipAll at hr
      simp only [Option.bind_eq_some_iff] at hr
      obtain ⟨s, _, hr⟩ := hr
      obtain ⟨h3, h4⟩ := NArr.ofFn?_eq_some.1 hr
      have h5 := (h4 ix (by rw [← h3, hs]; exact hix)).1
      rw [hz] at h5
      simp only [mapOpt] at h5
      cases ha : a.get? (NArr.bcastIx a.shape ix) with
      | none => rw [ha] at h5; cases h5
      | some xa =>
        cases hb : b.get? (NArr.bcastIx b.shape ix) with
        | none => rw [ha, hb] at h5; cases h5
        | some xb =>
          rw [ha, hb] at h5
          have h6 := outCast_applyOp ho (show applyOp o [xa, xb] = some z from h5.symm)
          rcases hc with rfl | rfl
          · rw [bcastIx_self hix, hx] at ha; cases ha; exact h6.1
          · rw [bcastIx_self hix, hx] at hb; cases hb; exact h6.2
    · cases hw

/-- No comparison is executed in place. -/
def NoInplaceCompare (e : YExpr F) : Prop :=
  ∀ o n ts, Occurs (node (.elem o (some n)) ts) e → compares o = false

theorem denI_le (J : YExt F) {h : Yarr.Head F} (hh : ∀ o n, h = .elem o (some n) → compares o = false)
    (fs : List (Env (YVal F) → Option (YVal F))) (env : Env (YVal F)) :
    Le (denI J h fs env) (Yarr.den J h fs env) := by
  intro v hv
  unfold denI at hv
  split at hv
  · rename_i o f g
    simp only [Option.bind_eq_some_iff, Option.some.injEq] at hv
    obtain ⟨a, ⟨ya, hya, ha⟩, b, ⟨yb, hyb, hb⟩, r, hr, w, hw, rfl⟩ := hv
    have := writeOut_eq (hh o 0 rfl) hr (.inl rfl) hw
    subst this
    simp only [Yarr.den, arrsOf, List.map_cons, List.map_nil, mapOpt, hya, hyb, Option.bind_some, ha, hb, hr]
  · rename_i o f g
    simp only [Option.bind_eq_some_iff, Option.some.injEq] at hv
    obtain ⟨a, ⟨ya, hya, ha⟩, b, ⟨yb, hyb, hb⟩, r, hr, w, hw, rfl⟩ := hv
    have := writeOut_eq (hh o 1 rfl) hr (.inr rfl) hw
    subst this
    simp only [Yarr.den, arrsOf, List.map_cons, List.map_nil, mapOpt, hya, hyb, Option.bind_some, ha, hb, hr]
  · exact hv

/-- If no comparison is executed in place, the value is the one of the program without marks. -/
theorem evalI_le (J : YExt F) : ∀ e : YExpr F, NoInplaceCompare e → ∀ env, Le (evalI J e env) (Yarr.eval J e env) := by
  refine Term.ind (fun h ts ih hn env => ?_)
  have ih' : ∀ t ∈ ts, ∀ env, Le (evalI J t env) (Yarr.eval J t env) :=
    fun t ht => ih t ht (fun o n us ho => hn o n us (.child ht ho))
  rw [evalI_node, Yarr.eval_node]
  intro v hv
  have h1 := denI_le J (h := h) (fun o n e => hn o n ts (e ▸ .refl _)) _ _ v hv
  refine den_mono J h _ _ env env (by simp) (fun s hs => Le.rfl) (fun k f g hf hg => ?_) v h1
  simp only [List.getElem?_map, Option.map_eq_some_iff] at hf hg
  obtain ⟨t, ht, rfl⟩ := hf
  obtain ⟨t', ht', rfl⟩ := hg
  rw [ht] at ht'
  cases ht'
  have := ih' t (List.mem_of_getElem? ht)
  exact ⟨fun _ => this _, fun _ ext => this _⟩

end Verif.Backend
