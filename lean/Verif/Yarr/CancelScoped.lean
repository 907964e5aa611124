import Verif.Yarr.Cancel
import Verif.Midend.Cse
import Verif.Midend.Inline

/-! The simplifications of array code keep binders and scopes. -/

set_option linter.unusedSectionVars false

namespace Verif.Yarr
open Verif.Term Verif.Phi Verif.Arr Verif.Midend
variable {F : Type}

/-! ### Typed code -/

theorem typed_occurs {e u : YExpr F} (ho : Occurs u e) : ∀ τ, typeOf e = some τ → ∃ σ, typeOf u = some σ := by
  induction ho with
  | refl => exact fun τ h => ⟨τ, h⟩
  | child ht _ ih =>
    intro τ h
    obtain ⟨σ, hσ⟩ := children_typed h _ ht
    exact ih σ hσ

theorem typed_letv {v : Nat} {ts : List (YExpr F)} {τ : PTy} (h : typeOf (node (.letv v) ts) = some τ) :
    ts.length = 2 := by
  rw [typeOf_node] at h
  rcases ts with _ | ⟨a, _ | ⟨b, _ | ⟨c, ts⟩⟩⟩ <;> simp [typeStep] at h ⊢

theorem typed_fold {c a : Nat} {ts : List (YExpr F)} {τ : PTy} (h : typeOf (node (.fold c a) ts) = some τ) :
    ts.length = 3 := by
  rw [typeOf_node] at h
  rcases ts with _ | ⟨x, _ | ⟨y, _ | ⟨z, _ | ⟨w, ts⟩⟩⟩⟩ <;> simp [typeStep] at h ⊢

theorem letArity_of_typed {e : YExpr F} {τ : PTy} (h : typeOf e = some τ) : LetArity e := by
  intro hd ts ho hl
  obtain ⟨σ, hσ⟩ := typed_occurs ho τ h
  cases hd with
  | letv v => exact typed_letv hσ
  | _ => cases hl

/-- In well-scoped code a captured symbol is mentioned in one operand only. -/
theorem single_of_scoped {e : YExpr F} {τ : PTy} (ht : typeOf e = some τ) (hs : Scoped e) :
    ∀ (h : Head F) ts s, Occurs (node h ts) e → s ∈ Lang.captured h →
      ∀ (i j : Nat) (a b : YExpr F), ts[i]? = some a → ts[j]? = some b → s ∈ fv a → s ∈ fv b → i = j := by
  intro h ts s ho hc
  obtain ⟨σ, hσ⟩ := typed_occurs ho τ ht
  have inside : ∀ (k : Nat) (t : YExpr F), ts[k]? = some t → s ∈ fv t → outside h k = false ∧ k < ts.length := by
    intro k t hk hst
    refine ⟨?_, (List.getElem?_eq_some_iff.1 hk).1⟩
    by_contra hn
    rw [Bool.not_eq_false] at hn
    exact Finset.disjoint_left.1 ((hs.occurs ho).out k t hk hn) hc hst
  intro i j a b hi hj ha hb
  obtain ⟨h1, h2⟩ := inside i a hi ha
  obtain ⟨h3, h4⟩ := inside j b hj hb
  cases h with
  | letv v =>
    have := typed_letv hσ
    simp [outside] at h1 h3
    omega
  | fold c x =>
    have := typed_fold hσ
    simp [outside] at h1 h3
    omega
  | reduce x y k =>
    simp [outside] at h1 h3
    omega
  | _ => cases hc

/-! ### Nodes of simplified code -/

theorem noop_silent {h : Head F} (hn : h.noop = true) : Head.captured h = ∅ ∧ Head.symbol h = none := by
  cases h <;> first | exact ⟨rfl, rfl⟩ | cases hn

theorem cancelShape_source (e : YExpr F) : ∀ u, Occurs u (cancelShape e) →
    ∃ w, Occurs w e ∧ cancelShape w = u ∧ w.head = u.head := by
  induction e using ind with
  | step h ts ih =>
    intro u hu
    rw [cancelShape_node] at hu
    rcases cancelShapeStep_cases h (ts.map cancelShape) with ⟨hn, r, hr, he⟩ | he
    · rw [he] at hu
      have hm : r ∈ ts.map cancelShape := by rw [hr]; simp
      obtain ⟨t, ht, rfl⟩ := List.mem_map.1 hm
      obtain ⟨w, h1, h2⟩ := ih t ht u hu
      exact ⟨w, .child ht h1, h2⟩
    · rw [he] at hu
      cases hu with
      | refl => exact ⟨node h ts, .refl _, by rw [cancelShape_node, he], rfl⟩
      | child hm ho =>
        obtain ⟨t, ht, rfl⟩ := List.mem_map.1 hm
        obtain ⟨w, h1, h2⟩ := ih t ht u ho
        exact ⟨w, .child ht h1, h2⟩

theorem fv_subset_node {h : Head F} (hc : Head.captured h = ∅) {ts : List (YExpr F)} {t : YExpr F} (ht : t ∈ ts) :
    fv t ⊆ fv (node h ts) := fun s hs => mem_fv.2 ⟨.inr ⟨t, ht, hs⟩, by change s ∉ Head.captured h; simp [hc]⟩

theorem fv_node_mono {h : Head F} {ts us : List (YExpr F)} (hsub : ∀ u ∈ us, ∃ t ∈ ts, fv u ⊆ fv t) :
    fv (node h us) ⊆ fv (node h ts) := by
  intro s hs
  obtain ⟨h1 | ⟨u, hu, h1⟩, h2⟩ := mem_fv.1 hs
  · exact mem_fv.2 ⟨.inl h1, h2⟩
  · obtain ⟨t, ht, hh⟩ := hsub u hu
    exact mem_fv.2 ⟨.inr ⟨t, ht, hh h1⟩, h2⟩

theorem fv_cancelShape (e : YExpr F) : fv (cancelShape e) ⊆ fv e := by
  induction e using ind with
  | step h ts ih =>
    rw [cancelShape_node]
    rcases cancelShapeStep_cases h (ts.map cancelShape) with ⟨hn, r, hr, he⟩ | he
    · rw [he]
      have hm : r ∈ ts.map cancelShape := by rw [hr]; simp
      obtain ⟨t, ht, rfl⟩ := List.mem_map.1 hm
      exact (ih t ht).trans (fv_subset_node (noop_silent hn).1 ht)
    · rw [he]
      refine fv_node_mono fun u hu => ?_
      obtain ⟨t, ht, rfl⟩ := List.mem_map.1 hu
      exact ⟨t, ht, ih t ht⟩

theorem scoped_cancelShape (e : YExpr F) (hs : Scoped e) : Scoped (cancelShape e) := by
  induction e using ind with
  | step h ts ih =>
    rw [cancelShape_node]
    rcases cancelShapeStep_cases h (ts.map cancelShape) with ⟨hn, r, hr, he⟩ | he
    · rw [he]
      have hm : r ∈ ts.map cancelShape := by rw [hr]; simp
      obtain ⟨t, ht, rfl⟩ := List.mem_map.1 hm
      exact ih t ht (hs.children t ht)
    · rw [he]
      refine .node (fun k u hk ho => ?_) fun u hu => ?_
      · rw [List.getElem?_map, Option.map_eq_some_iff] at hk
        obtain ⟨t, ht, rfl⟩ := hk
        exact Disjoint.mono_right (fv_cancelShape t) (hs.out k t ht ho)
      · obtain ⟨t, ht, rfl⟩ := List.mem_map.1 hu
        exact ih t ht (hs.children t ht)

/-- How a node is simplified: a component of a simplified tuple, or a node of simplified operands. -/
theorem cancelTuple_cases {h : Head F} {ts : List (YExpr F)} {r : YExpr F} (hr : cancelTuple (node h ts) = some r) :
    (∃ t rs, t ∈ ts ∧ Head.captured h = ∅ ∧ cancelTuple t = some (node .tuple rs) ∧ r ∈ rs) ∨
    ∃ rs, mapOpt cancelTuple ts = some rs ∧ r = node h rs := by
  by_cases hc : ∃ i k es, h = .untuple i k ∧ ts = [node .tuple es]
  · obtain ⟨i, k, es, rfl, rfl⟩ := hc
    left
    rw [cancelTuple_node] at hr
    simp only [List.map, cancelTupleStep, cancelTuple_tuple, Option.bind_eq_some_iff] at hr
    obtain ⟨r', ⟨rs, h1, h2⟩, h3⟩ := hr
    cases h2
    exact ⟨node .tuple es, rs, by simp, rfl, by rw [cancelTuple_tuple, h1]; rfl, List.mem_of_getElem? h3⟩
  · right
    rw [cancelTupleStep_other (fun i k es h1 h2 => hc ⟨i, k, es, h1, h2⟩)] at hr
    obtain ⟨rs, h1, h2⟩ := Option.bind_eq_some_iff.1 hr
    cases h2
    exact ⟨rs, h1, rfl⟩

theorem mapOpt_mem_inv {α β : Type} {f : α → Option β} {l : List α} {bs : List β} (h : mapOpt f l = some bs) {b : β}
    (hb : b ∈ bs) : ∃ a ∈ l, f a = some b := by
  obtain ⟨k, hk⟩ := List.getElem?_of_mem hb
  rw [mapOpt_getElem? h k] at hk
  obtain ⟨a, ha, hf⟩ := Option.bind_eq_some_iff.1 hk
  exact ⟨a, List.mem_of_getElem? ha, hf⟩

theorem cancelTuple_source (e : YExpr F) : ∀ r, cancelTuple e = some r → ∀ u, Occurs u r →
    ∃ w, Occurs w e ∧ cancelTuple w = some u ∧ w.head = u.head := by
  induction e using ind with
  | step h ts ih =>
    intro r hr u hu
    rcases cancelTuple_cases hr with ⟨t, rs, ht, -, h1, h2⟩ | ⟨rs, h1, rfl⟩
    · obtain ⟨w, h3, h4⟩ := ih t ht _ h1 u (.child h2 hu)
      exact ⟨w, .child ht h3, h4⟩
    · cases hu with
      | refl => exact ⟨node h ts, .refl _, hr, rfl⟩
      | child hm ho =>
        obtain ⟨t, ht, h2⟩ := mapOpt_mem_inv h1 hm
        obtain ⟨w, h3, h4⟩ := ih t ht _ h2 u ho
        exact ⟨w, .child ht h3, h4⟩

theorem fv_cancelTuple (e : YExpr F) : ∀ r, cancelTuple e = some r → fv r ⊆ fv e := by
  induction e using ind with
  | step h ts ih =>
    intro r hr
    rcases cancelTuple_cases hr with ⟨t, rs, ht, hc, h1, h2⟩ | ⟨rs, h1, rfl⟩
    · exact ((fv_subset_node (h := .tuple) rfl h2).trans (ih t ht _ h1)).trans (fv_subset_node hc ht)
    · refine fv_node_mono fun u hu => ?_
      obtain ⟨t, ht, h2⟩ := mapOpt_mem_inv h1 hu
      exact ⟨t, ht, ih t ht _ h2⟩

theorem scoped_cancelTuple (e : YExpr F) (hs : Scoped e) : ∀ r, cancelTuple e = some r → Scoped r := by
  induction e using ind with
  | step h ts ih =>
    intro r hr
    rcases cancelTuple_cases hr with ⟨t, rs, ht, hc, h1, h2⟩ | ⟨rs, h1, rfl⟩
    · exact (ih t ht (hs.children t ht) _ h1).children r h2
    · refine .node (fun k u hk ho => ?_) fun u hu => ?_
      · rw [mapOpt_getElem? h1 k] at hk
        obtain ⟨t, ht, hf⟩ := Option.bind_eq_some_iff.1 hk
        exact Disjoint.mono_right (fv_cancelTuple t u hf) (hs.out k t ht ho)
      · obtain ⟨t, ht, h2⟩ := mapOpt_mem_inv h1 hu
        exact ih t ht (hs.children t ht) _ h2

/-! ### What is kept -/

/-- A symbol is bound by one node, which is not free. -/
structure BoundOnce (p : YExpr F) : Prop where
  uniq : ∀ (h : Head F) ts (k : Head F) us s, Occurs (node h ts) p → Occurs (node k us) p →
    s ∈ Head.captured h → s ∈ Head.captured k → node h ts = node k us
  closed : ∀ h ts s, Occurs (node h ts) p → s ∈ Head.captured h → s ∉ fv p

theorem BoundOnce.image {f : YExpr F → Option (YExpr F)} {p r : YExpr F} (hp : BoundOnce p) (hfv : fv r ⊆ fv p)
    (hsrc : ∀ u, Occurs u r → ∃ w, Occurs w p ∧ f w = some u ∧ w.head = u.head) : BoundOnce r := by
  refine ⟨fun h ts k us s h1 h2 hs hs' => ?_, fun h ts s h1 hs hf => ?_⟩
  · obtain ⟨⟨g, l⟩, o1, e1, hh1⟩ := hsrc _ h1
    obtain ⟨⟨g', l'⟩, o2, e2, hh2⟩ := hsrc _ h2
    cases hh1
    cases hh2
    have := hp.uniq _ _ _ _ s o1 o2 hs hs'
    rw [this, e2] at e1
    exact (Option.some.inj e1).symm
  · obtain ⟨⟨g, l⟩, o1, e1, hh1⟩ := hsrc _ h1
    cases hh1
    exact hp.closed _ _ s o1 hs (hfv hf)

theorem BoundOnce.cancel {p r : YExpr F} (hp : BoundOnce p) (hr : cancelTuple (cancelShape p) = some r) : BoundOnce r := by
  have h1 : BoundOnce (cancelShape p) := hp.image (f := fun w => some (cancelShape w)) (fv_cancelShape p) fun u hu => by
    obtain ⟨w, h1, h2, h3⟩ := cancelShape_source p u hu
    exact ⟨w, h1, by rw [h2], h3⟩
  exact h1.image (fv_cancelTuple _ _ hr) (cancelTuple_source _ _ hr)

theorem BoundOnce.unique [DecidableEq F] {p : YExpr F} (hp : BoundOnce p) {τ : PTy} (ht : typeOf p = some τ) (hs : Scoped p) :
    UniqueBinders p := by
  refine ⟨hp.uniq, Finset.disjoint_left.2 fun s hb hf => ?_, single_of_scoped ht hs⟩
  obtain ⟨h, ts, ho, hc⟩ := mem_binders_iff.1 hb
  exact hp.closed h ts s ho hc hf

theorem letFree_cancel {p r : YExpr F} (hp : LetFree p) (hr : cancelTuple (cancelShape p) = some r) : LetFree r := by
  intro h ts ho
  obtain ⟨⟨g, l⟩, o1, -, hh⟩ := cancelTuple_source _ _ hr _ ho
  cases hh
  obtain ⟨⟨g', l'⟩, o2, -, hh⟩ := cancelShape_source _ _ o1
  cases hh
  exact hp _ _ o2

end Verif.Yarr
