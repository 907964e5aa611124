import Verif.Yarr.Strict

/-! The peephole simplifications of array code (`ein/codegen/phi_to_yarr.py:318-344`). -/

set_option linter.unusedSectionVars false

namespace Verif.Yarr
open Verif.Term Verif.Phi Verif.Arr Verif.Midend
variable {F : Type}

/-- The operations `cancel_shape_ops` removes: a permutation that moves no axis, and inserting or removing
no axes. -/
def Head.noop : Head F → Bool
  | .transpose perm => decide (perm = List.range perm.length)
  | .unsqueeze axes => decide (axes = [])
  | .squeeze axes => decide (axes = [])
  | _ => false

/-- One node of `cancel_shape_ops`. -/
def cancelShapeStep (h : Head F) (rs : List (YExpr F)) : YExpr F :=
  match h.noop, rs with
  | true, [r] => r
  | _, rs => node h rs

/-- `cancel_shape_ops` (`phi_to_yarr.py:318-333`). The cache only saves work. Rebuilding a node evaluates its
type again; `typeOf_cancelShape` shows that this cannot fail. -/
def cancelShape : YExpr F → YExpr F := cata cancelShapeStep

theorem cancelShape_node (h : Head F) (ts : List (YExpr F)) :
    cancelShape (node h ts) = cancelShapeStep h (ts.map cancelShape) := cata_node _ _ _

/-- One node of `cancel_tuple_ops`; the results of the sub-terms are paired with the sub-terms. The result
for the operand `elems[at]` is found among the operands of the result for the tuple, since a tuple is
rebuilt from the results of its operands. `none` is an `IndexError`. -/
def cancelTupleStep (h : Head F) (rs : List (YExpr F × Option (YExpr F))) : Option (YExpr F) :=
  match h, rs with
  | .untuple i _, [(node .tuple _, r)] => r.bind fun r => r.subs[i]?
  | h, rs => (mapOpt Prod.snd rs).bind fun rs => some (node h rs)

/-- `cancel_tuple_ops` (`phi_to_yarr.py:336-344`) -/
def cancelTuple : YExpr F → Option (YExpr F) := para cancelTupleStep

theorem cancelTuple_node (h : Head F) (ts : List (YExpr F)) :
    cancelTuple (node h ts) = cancelTupleStep h (ts.map (fun t => (t, cancelTuple t))) := para_node _ _ _

theorem mapOpt_snd (f : YExpr F → Option (YExpr F)) (ts : List (YExpr F)) :
    mapOpt Prod.snd (ts.map (fun t => (t, f t))) = mapOpt f ts := by rw [mapOpt_map]

theorem cancelTuple_tuple (es : List (YExpr F)) :
    cancelTuple (node .tuple es) = (mapOpt cancelTuple es).bind fun rs => some (node .tuple rs) := by
  rw [cancelTuple_node]
  simp only [cancelTupleStep, mapOpt_snd]

/-- The equation in the source: a projection from a tuple is replaced by the simplified component (if the
other components can be simplified). -/
theorem cancelTuple_untuple (i k : Nat) (es : List (YExpr F)) (rs : List (YExpr F))
    (h : mapOpt cancelTuple es = some rs) :
    cancelTuple (node (.untuple i k) [node .tuple es]) = (es[i]?).bind cancelTuple := by
  rw [cancelTuple_node]
  simp only [List.map, cancelTupleStep, cancelTuple_tuple, h, Option.bind_some, subs]
  exact mapOpt_getElem? h i

theorem cancelTupleStep_other {h : Head F} {ts : List (YExpr F)}
    (hn : ∀ i k es, h = .untuple i k → ts ≠ [node .tuple es]) :
    cancelTuple (node h ts) = (mapOpt cancelTuple ts).bind fun rs => some (node h rs) := by
  rw [cancelTuple_node]
  unfold cancelTupleStep
  split
  · rename_i i k es r heq
    rcases ts with _ | ⟨t, _ | ⟨t', ts⟩⟩ <;> simp at heq
    exact absurd (by rw [heq.1]) (hn _ _ es rfl)
  · rw [mapOpt_snd]

/-! ### Types -/

theorem deltaTy_zero (a : Phi.Arr) : deltaTy 0 [a] = some [a] := by
  simp [deltaTy, deltaArr, mapOpt]

theorem typeStep_noop {h : Head F} (hn : h.noop = true) {t : Option PTy} {τ : PTy}
    (ht : typeStep h [t] = some τ) : t = some τ := by
  cases h <;> simp only [Head.noop, decide_eq_true_eq, Bool.false_eq_true] at hn
  all_goals
    rcases t with _ | _ | ⟨a, _ | ⟨b, l⟩⟩ <;> try (simp [typeStep] at ht; done)
    simp only [typeStep] at ht
    split_ifs at ht
  · exact ht
  · subst hn
    simpa [deltaTy_zero] using ht
  · subst hn
    simpa [deltaTy_zero] using ht

theorem cancelShapeStep_cases (h : Head F) (rs : List (YExpr F)) :
    (h.noop = true ∧ ∃ r, rs = [r] ∧ cancelShapeStep h rs = r) ∨ cancelShapeStep h rs = node h rs := by
  unfold cancelShapeStep
  split
  · rename_i r hn; exact .inl ⟨hn, r, rfl, rfl⟩
  · exact .inr rfl

theorem typeStep_congr {h : Head F} {ts us : List (Option PTy)} {τ : PTy}
    (hle : List.Forall₂ (fun t u => ∀ τ, t = some τ → u = some τ) ts us)
    (hall : ∀ t ∈ ts, t.isSome) (ht : typeStep h ts = some τ) : typeStep h us = some τ := by
  have : ts = us := by
    clear ht
    induction hle with
    | nil => rfl
    | cons h1 _ ih =>
      rw [ih (fun t h => hall t (List.mem_cons_of_mem _ h))]
      obtain ⟨x, hx⟩ := Option.isSome_iff_exists.1 (hall _ List.mem_cons_self)
      rw [hx, h1 x hx]
  rwa [← this]

/-- A node with a type has operands with types. -/
theorem typeStep_operands {h : Head F} {ts : List (Option PTy)} {τ : PTy}
    (ht : typeStep h ts = some τ) : ∀ t ∈ ts, t.isSome := by
  have hm : ∀ {l : List (Option PTy)} {bs}, mapOpt (fun t : Option PTy => t.bind single) l = some bs →
      ∀ t ∈ l, t.isSome := fun hb t hl => bind_isSome_left (mapOpt_isSome (Option.isSome_iff_exists.2 ⟨_, hb⟩) t hl)
  unfold typeStep at ht
  split at ht
  all_goals first
    | (cases ht; done)
    | (intro t hl; simp at hl; done)
    | skip
  · intro t hl
    simp only [List.mem_cons, List.not_mem_nil, or_false] at hl
    rcases hl with rfl | rfl
    · rfl
    · simp [ht]
  · intro t hl; simp at hl; simp [hl]
  · intro t hl; simp at hl; simp [hl]
  · split_ifs at ht with hc
    rw [List.all_eq_true] at hc
    intro t hl
    rcases List.mem_cons.1 hl with rfl | hl
    · rfl
    · simp [of_decide_eq_true (hc t hl)]
  · intro t hl; simp at hl; simp [hl]
  · intro t hl; simp at hl; simp [hl]
  · intro t hl; simp at hl; simp [hl]
  · intro t hl; simp at hl; rcases hl with rfl | rfl <;> rfl
  · rw [ite_eq_iff] at ht
    obtain ⟨-, ht⟩ | ⟨-, ht⟩ := ht
    · simp only [Option.bind_eq_some_iff] at ht
      obtain ⟨bs, hbs, -⟩ := ht
      intro t hl
      rcases List.mem_cons.1 hl with rfl | hl
      · rfl
      · exact hm hbs t hl
    · cases ht
  · split_ifs at ht with hc
    intro t hl
    rcases List.mem_cons.1 hl with rfl | hl
    · rfl
    · exact List.all_eq_true.1 hc.2.2.2 t hl
  · split_ifs at ht with hc
    intro t hl
    rcases List.mem_cons.1 hl with rfl | hl
    · rfl
    · exact List.all_eq_true.1 hc.2.2.2 t hl
  · intro t hl; simp at hl; rcases hl with rfl | rfl <;> rfl
  · intro t hl; simp at hl; simp [hl]
  · intro t hl; simp at hl; simp [hl]
  · simp only [Option.bind_eq_some_iff] at ht
    obtain ⟨bs, hbs, -⟩ := ht
    exact hm hbs
  · intro t hl; simp at hl; rcases hl with rfl | rfl | rfl <;> rfl
  · intro t hl; simp at hl; rcases hl with rfl | rfl | rfl <;> rfl
  · exact hm ht
  · intro t hl; simp at hl; simp [hl]
  · simp only [Option.bind_eq_some_iff] at ht
    obtain ⟨bs, hbs, -⟩ := ht
    exact hm hbs
  · split_ifs at ht with hc
    exact List.all_eq_true.1 hc

/-- Removing no-ops keeps the type. -/
theorem typeOf_cancelShape (e : YExpr F) : ∀ τ, typeOf e = some τ → typeOf (cancelShape e) = some τ := by
  induction e using ind with
  | step h ts ih =>
    intro τ ht
    rw [typeOf_node] at ht
    rw [cancelShape_node]
    have ho := typeStep_operands ht
    rcases cancelShapeStep_cases h (ts.map cancelShape) with ⟨hn, r, hr, e⟩ | e <;> rw [e]
    · rcases ts with _ | ⟨t, _ | ⟨t', ts⟩⟩ <;> simp at hr
      rw [← hr]
      exact ih t (by simp) τ (typeStep_noop hn ht)
    · rw [typeOf_node]
      refine typeStep_congr ?_ ho ht
      rw [List.map_map, List.forall₂_map_left_iff, List.forall₂_map_right_iff, List.forall₂_same]
      exact ih

theorem untuple_tuple_type {i k : Nat} {es : List (YExpr F)} {τ : PTy}
    (ht : typeOf (node (.untuple i k) [node .tuple es]) = some τ) :
    ∃ e, es[i]? = some e ∧ typeOf e = some τ := by
  rw [typeOf_node] at ht
  simp only [List.map] at ht
  cases h : typeOf (node .tuple es : YExpr F) with
  | none => rw [h] at ht; simp [typeStep] at ht
  | some σ =>
    rw [h] at ht
    simp only [typeStep] at ht
    split_ifs at ht with hk
    simp only [Option.map_eq_some_iff] at ht
    obtain ⟨a, ha, rfl⟩ := ht
    rw [typeOf_node] at h
    simp only [typeStep, mapOpt_map] at h
    have hg := mapOpt_getElem? h i
    rw [ha] at hg
    cases he : es[i]? with
    | none => simp [he] at hg
    | some e =>
      simp only [he, Option.bind_some] at hg
      obtain ⟨σ', h1, h2⟩ := Option.bind_eq_some_iff.1 hg.symm
      exact ⟨e, rfl, by rw [h1, single_eq h2]⟩

theorem children_typed {h : Head F} {ts : List (YExpr F)} {τ : PTy} (ht : typeOf (node h ts) = some τ) :
    ∀ t ∈ ts, ∃ σ, typeOf t = some σ := by
  intro t hm
  rw [typeOf_node] at ht
  exact Option.isSome_iff_exists.1 (typeStep_operands ht _ (List.mem_map.2 ⟨t, hm, rfl⟩))

/-- Removing projections from tuples succeeds on typed code and keeps the type. -/
theorem cancelTuple_total (e : YExpr F) :
    ∀ τ, typeOf e = some τ → ∃ r, cancelTuple e = some r ∧ typeOf r = some τ := by
  induction e using ind with
  | step h ts ih =>
    intro τ ht
    have hall : ∀ t ∈ ts, ∃ r, cancelTuple t = some r ∧ ∀ σ, typeOf t = some σ → typeOf r = some σ := by
      intro t hm
      obtain ⟨σ, hσ⟩ := children_typed ht t hm
      obtain ⟨r, hr, hrt⟩ := ih t hm σ hσ
      exact ⟨r, hr, fun σ' h => by rw [hσ] at h; cases h; exact hrt⟩
    by_cases hu : ∃ i k es, h = .untuple i k ∧ ts = [node .tuple es]
    · obtain ⟨i, k, es, rfl, rfl⟩ := hu
      obtain ⟨e, he, hte⟩ := untuple_tuple_type ht
      obtain ⟨r, hr, -⟩ := hall _ (List.mem_singleton.2 rfl)
      rw [cancelTuple_tuple] at hr
      obtain ⟨rs, hrs, hr'⟩ := Option.bind_eq_some_iff.1 hr
      rw [cancelTuple_untuple i k es rs hrs, he]
      obtain ⟨σ, hσ⟩ := children_typed ht _ (List.mem_singleton.2 rfl)
      obtain ⟨r1, hr1, hr2⟩ := ih _ (List.mem_singleton.2 rfl) σ hσ
      rw [cancelTuple_tuple, hrs] at hr1
      cases hr1
      have hgi := mapOpt_getElem? hrs i
      rw [he, Option.bind_some] at hgi
      cases hc : cancelTuple e with
      | none =>
        have := mapOpt_isSome (Option.isSome_iff_exists.2 ⟨_, hrs⟩) e (List.mem_of_getElem? he)
        rw [hc] at this; cases this
      | some r2 =>
        refine ⟨r2, by simp [hc], ?_⟩
        rw [typeOf_node] at hσ hr2
        simp only [typeStep, mapOpt_map] at hσ hr2
        have g1 := mapOpt_getElem? hσ i
        have g2 := mapOpt_getElem? hr2 i
        rw [g1, he, hgi, hc, Option.bind_some, Option.bind_some, hte] at g2
        rw [typeOf_node] at ht
        -- the component's type is a single array type
        have hs : ∃ a, single τ = some a := by
          have : ((es[i]?).bind fun e => (typeOf e).bind single).isSome := by
            rw [← g1]
            have hlen := mapOpt_length hσ
            have := (List.getElem?_eq_some_iff.1 he).1
            simp [List.getElem?_eq_getElem (by omega : i < σ.length)]
          rw [he, Option.bind_some, hte] at this
          exact Option.isSome_iff_exists.1 this
        obtain ⟨a, ha⟩ := hs
        rw [Option.bind_some, ha] at g2
        obtain ⟨τ', h1, h2⟩ := Option.bind_eq_some_iff.1 g2.symm
        rw [h1, single_eq h2, single_eq ha]
    · rw [cancelTupleStep_other (fun i k es h1 h2 => hu ⟨i, k, es, h1, h2⟩)]
      have : ∃ rs, mapOpt cancelTuple ts = some rs ∧
          List.Forall₂ (fun t r => ∀ σ, typeOf t = some σ → typeOf r = some σ) ts rs := by
        clear ht ih hu
        induction ts with
        | nil => exact ⟨[], rfl, .nil⟩
        | cons t ts ih =>
          obtain ⟨r, hr, hrt⟩ := hall t List.mem_cons_self
          obtain ⟨rs, hrs, hf⟩ := ih (fun t h => hall t (List.mem_cons_of_mem _ h))
          exact ⟨r :: rs, by simp [mapOpt, hr, hrs], .cons hrt hf⟩
      obtain ⟨rs, hrs, hf⟩ := this
      refine ⟨_, by rw [hrs]; rfl, ?_⟩
      rw [typeOf_node] at ht ⊢
      refine typeStep_congr ?_ (typeStep_operands ht) ht
      rw [List.forall₂_map_left_iff, List.forall₂_map_right_iff]
      exact hf

/-! ### No-ops are gone -/

theorem occurs_node {h : Head F} {ts : List (YExpr F)} {u : YExpr F} :
    Occurs u (node h ts) ↔ u = node h ts ∨ ∃ t ∈ ts, Occurs u t := by
  constructor
  · intro ho
    cases ho with
    | refl => exact .inl rfl
    | child ht ho => exact .inr ⟨_, ht, ho⟩
  · rintro (rfl | ⟨t, ht, ho⟩)
    · exact .refl _
    · exact .child ht ho

theorem noop_free (e : YExpr F) (τ : PTy) (ht : typeOf e = some τ) :
    ∀ u, Occurs u (cancelShape e) → u.head.noop = false := by
  induction e using ind generalizing τ with
  | step h ts ih =>
    have ih' : ∀ t ∈ ts, ∀ u, Occurs u (cancelShape t) → u.head.noop = false := by
      intro t hm
      obtain ⟨σ, hσ⟩ := children_typed ht t hm
      exact ih t hm σ hσ
    rw [cancelShape_node]
    by_cases hn : h.noop = true
    · rcases ts with _ | ⟨t, _ | ⟨t', ts⟩⟩
      · rw [typeOf_node] at ht
        cases h <;> simp [Head.noop] at hn <;> simp [typeStep] at ht
      · have : cancelShapeStep h ([t].map cancelShape) = cancelShape t := by simp [cancelShapeStep, hn]
        rw [this]
        exact ih' t (by simp)
      · rw [typeOf_node] at ht
        cases h <;> simp [Head.noop] at hn <;> simp [typeStep] at ht
    · have : cancelShapeStep h (ts.map cancelShape) = node h (ts.map cancelShape) := by
        simp [cancelShapeStep, hn]
      rw [this]
      intro u hu
      rcases occurs_node.1 hu with rfl | ⟨t, htm, hu⟩
      · simpa [head] using hn
      · obtain ⟨t0, h0, rfl⟩ := List.mem_map.1 htm
        exact ih' t0 h0 u hu

/-- `cancel_tuple_ops` uses only operations of its argument. -/
theorem cancelTuple_heads (e : YExpr F) : ∀ r, cancelTuple e = some r →
    ∀ u, Occurs u r → ∃ w, Occurs w e ∧ w.head = u.head := by
  induction e using ind with
  | step h ts ih =>
    intro r hr u hu
    by_cases hc : ∃ i k es, h = .untuple i k ∧ ts = [node .tuple es]
    · obtain ⟨i, k, es, rfl, rfl⟩ := hc
      rw [cancelTuple_node] at hr
      simp only [List.map, cancelTupleStep, Option.bind_eq_some_iff] at hr
      obtain ⟨r', hr', hr⟩ := hr
      have hw : Occurs u r' := by
        rw [cancelTuple_tuple] at hr'
        obtain ⟨rs, hrs, hr2⟩ := Option.bind_eq_some_iff.1 hr'
        cases hr2
        exact .child (List.mem_of_getElem? hr) hu
      obtain ⟨w, hw1, hw2⟩ := ih _ (List.mem_singleton.2 rfl) r' hr' u hw
      exact ⟨w, .child (List.mem_singleton.2 rfl) hw1, hw2⟩
    · rw [cancelTupleStep_other (fun i k es h1 h2 => hc ⟨i, k, es, h1, h2⟩)] at hr
      obtain ⟨rs, hrs, hr⟩ := Option.bind_eq_some_iff.1 hr
      cases hr
      rcases occurs_node.1 hu with rfl | ⟨t, htm, hu⟩
      · exact ⟨_, .refl _, rfl⟩
      · obtain ⟨k, hk⟩ := List.getElem?_of_mem htm
        rw [mapOpt_getElem? hrs k] at hk
        obtain ⟨t0, h0, h1⟩ := Option.bind_eq_some_iff.1 hk
        obtain ⟨w, hw1, hw2⟩ := ih t0 (List.mem_of_getElem? h0) t h1 u hu
        exact ⟨w, .child (List.mem_of_getElem? h0) hw1, hw2⟩

/-! ### Values -/

namespace NArrAux
open NArr

theorem map_getD_range {s : List Nat} : (List.range s.length).map (fun j => s.getD j 0) = s := by
  apply List.ext_getElem
  · simp
  · intro i h1 h2
    simp only [List.length_map, List.length_range] at h1
    simp [List.getD_eq_getElem?_getD, h2]

theorem idxOf_range {n j : Nat} (h : j < n) : (List.range n).idxOf j = j := by
  have hj : (List.range n)[j]'(by simpa using h) = j := by simp
  have := List.nodup_range (n := n) |>.idxOf_getElem j (by simpa using h)
  rwa [hj] at this

theorem transpose_range {α : Type} {a b : NArr α} {n : Nat}
    (h : NArr.transpose (List.range n) a = some b) : b = a := by
  unfold NArr.transpose at h
  split_ifs at h with hc
  have hn : n = a.shape.length := by simpa [NArr.rank] using hc.1
  subst hn
  obtain ⟨h1, h2⟩ := ofFn?_eq_some.1 h
  refine ext_get? (by rw [h1, map_getD_range]) (fun ix hix => ?_)
  rw [h1, map_getD_range] at hix
  rw [(h2 ix (by rw [map_getD_range]; exact hix)).1]
  congr 1
  have hl : ix.length = a.shape.length := hix.length_eq.symm
  have : (List.range a.rank).map (fun j => ix.getD ((List.range a.shape.length).idxOf j) 0) =
      (List.range ix.length).map (fun j => ix.getD j 0) := by
    rw [hl]
    refine List.map_congr_left (fun j hj => ?_)
    rw [idxOf_range (by simpa [NArr.rank] using hj)]
  exact this.trans map_getD_range

theorem dropAt_nil {β : Type} (k : Nat) (l : List β) : dropAt [] k l = l := by
  induction l generalizing k with
  | nil => rfl
  | cons x l ih => simp [dropAt, ih]

theorem spread_nil {β : Type} (v : β) (k : Nat) (l : List β) : spread [] v k l.length l = l := by
  induction l generalizing k with
  | nil => rfl
  | cons x l ih => simp [spread, ih]

theorem squeeze_nil {α : Type} {a b : NArr α} (h : NArr.squeeze [] a = some b) : b = a := by
  unfold NArr.squeeze at h
  split_ifs at h with hc
  obtain ⟨h1, h2⟩ := ofFn?_eq_some.1 h
  rw [dropAt_nil] at h1 h2
  refine ext_get? h1 (fun ix hix => ?_)
  rw [h1] at hix
  rw [(h2 ix hix).1, NArr.rank, hix.length_eq]
  exact congrArg _ (spread_nil _ _ _)

theorem unsqueeze_nil {α : Type} {a b : NArr α} (h : NArr.unsqueeze [] a = some b) : b = a := by
  unfold NArr.unsqueeze at h
  split_ifs at h with hc
  obtain ⟨h1, h2⟩ := ofFn?_eq_some.1 h
  simp only [List.length_nil, Nat.zero_add, NArr.rank, spread_nil, dropAt_nil] at h1 h2
  refine ext_get? h1 (fun ix hix => ?_)
  rw [h1] at hix
  exact (h2 ix hix).1

end NArrAux

variable [FloatOps F]

theorem arr1_id {f : A F → Option (A F)} (hf : ∀ a b, f a = some b → b = a) {v : Option (YVal F)}
    {x : YVal F} (h : arr1 f v = some x) : v = some x := by
  obtain ⟨a, r, h1, h2, rfl⟩ := arr1_eq h
  rw [h1, hf a r h2]

theorem den_noop (J : YExt F) {h : Head F} (hn : h.noop = true) (f : Env (YVal F) → Option (YVal F))
    (env : Env (YVal F)) : Le (den J h [f] env) (f env) := by
  intro x hx
  cases h <;> simp only [Head.noop, decide_eq_true_eq, Bool.false_eq_true] at hn <;> simp only [den] at hx
  · rw [hn] at hx
    exact arr1_id (fun a b => NArrAux.transpose_range) hx
  · subst hn
    exact arr1_id (fun a b => NArrAux.squeeze_nil) hx
  · subst hn
    exact arr1_id (fun a b => NArrAux.unsqueeze_nil) hx

theorem eval_le_node (J : YExt F) {h : Head F} {ts us : List (YExpr F)}
    (hf : List.Forall₂ (fun t u => ∀ env, Le (eval J t env) (eval J u env)) ts us) (env : Env (YVal F)) :
    Le (eval J (node h ts) env) (eval J (node h us) env) := by
  rw [eval_node, eval_node]
  refine den_mono J h _ _ env env (by simp [hf.length_eq]) (fun _ _ => Le.rfl) ?_
  intro k f g h1 h2
  rw [List.getElem?_map, Option.map_eq_some_iff] at h1 h2
  obtain ⟨t, ht, rfl⟩ := h1
  obtain ⟨u, hu, rfl⟩ := h2
  have := (List.forall₂_iff_get.1 hf).2 k (List.getElem?_eq_some_iff.1 ht).1 (List.getElem?_eq_some_iff.1 hu).1
  have e1 := (List.getElem?_eq_some_iff.1 ht).2
  have e2 := (List.getElem?_eq_some_iff.1 hu).2
  simp only [List.get_eq_getElem, e1, e2] at this
  exact ⟨fun _ => this env, fun _ ext => this _⟩

/-- `cancel_shape_ops` keeps the value. -/
theorem eval_cancelShape (J : YExt F) (e : YExpr F) :
    ∀ env, Le (eval J e env) (eval J (cancelShape e) env) := by
  induction e using ind with
  | step h ts ih =>
    intro env
    rw [cancelShape_node]
    rcases cancelShapeStep_cases h (ts.map cancelShape) with ⟨hn, r, hr, e⟩ | e <;> rw [e]
    · rcases ts with _ | ⟨t, _ | ⟨t', ts⟩⟩ <;> simp at hr
      rw [← hr, eval_node]
      intro x hx
      exact ih t (by simp) env x (den_noop J hn (eval J t) env x hx)
    · refine eval_le_node J ?_ env
      rw [List.forall₂_map_right_iff, List.forall₂_same]
      exact ih

/-- `cancel_tuple_ops` keeps the value. -/
theorem eval_cancelTuple (J : YExt F) (e : YExpr F) : ∀ r, cancelTuple e = some r →
    ∀ env, Le (eval J e env) (eval J r env) := by
  induction e using ind with
  | step h ts ih =>
    intro r hr env
    by_cases hc : ∃ i k es, h = .untuple i k ∧ ts = [node .tuple es]
    · obtain ⟨i, k, es, rfl, rfl⟩ := hc
      rw [cancelTuple_node] at hr
      simp only [List.map, cancelTupleStep, Option.bind_eq_some_iff] at hr
      obtain ⟨r', hr', hr⟩ := hr
      have hle := ih _ (List.mem_singleton.2 rfl) r' hr' env
      intro x hx
      rw [eval_node] at hx
      simp only [List.map, den, Option.bind_eq_some_iff] at hx
      obtain ⟨w, hw, hx⟩ := hx
      have hw' := hle w hw
      rw [cancelTuple_tuple] at hr'
      obtain ⟨rs, hrs, hr2⟩ := Option.bind_eq_some_iff.1 hr'
      cases hr2
      simp only [subs] at hr
      rw [eval_node] at hw'
      simp only [den, Option.bind_eq_some_iff, Option.some.injEq] at hw'
      obtain ⟨as, has, rfl⟩ := hw'
      simp only [Option.map_eq_some_iff] at hx
      obtain ⟨a, ha, rfl⟩ := hx
      have hg := mapOpt_getElem? has i
      simp only [List.getElem?_map, hr, Option.map_some, Option.bind_some, ha] at hg
      obtain ⟨y, hy, hya⟩ := Option.bind_eq_some_iff.1 hg.symm
      cases y with
      | tup _ => cases hya
      | arr _ => cases hya; exact hy
    · rw [cancelTupleStep_other (fun i k es h1 h2 => hc ⟨i, k, es, h1, h2⟩)] at hr
      obtain ⟨rs, hrs, hr'⟩ := Option.bind_eq_some_iff.1 hr
      cases hr'
      refine eval_le_node J ?_ env
      rw [mapOpt_eq_forall₂] at hrs
      clear hc hr
      induction hrs with
      | nil => exact .nil
      | cons h1 _ ih' =>
        exact .cons (ih _ List.mem_cons_self _ h1) (ih' (fun t ht => ih t (List.mem_cons_of_mem _ ht)))

end Verif.Yarr
