import Verif.Codegen.Means
import Verif.Props.C03

/-! Element-wise operations, concatenations and reads compute the pointwise values. -/

set_option linter.unusedSectionVars false

namespace Verif.Codegen
open Verif.Phi Verif.Term Verif.Yarr Verif.Arr
variable {F : Type} [FloatOps F] {J : YExt F} {yenv : Env (YVal F)} {S : Nat → Prop} {σ : Nat → Nat}

/-- A scalar value. -/
theorem Means.scal {x : Axial F} {v : (Nat → Nat) → Option (D F)} (h : Means J yenv S σ x v) (hσ : Positive S σ)
    (hv : ∀ ρ, Valid S σ ρ → ∃ c : Scal F, v ρ = some (.sc c)) :
    ∃ a, One J yenv S σ x v a [] ∧ ∀ ρ, Valid S σ ρ → (v ρ).bind Val.asScal = a.get? (x.axes.map ρ) := by
  obtain ⟨c, hc⟩ := hv _ (valid_zero hσ)
  obtain ⟨a, s, ho⟩ := h.one_of hσ (by rw [hc]; intro a b e; cases e)
  obtain ⟨w, h1, h2⟩ := ho.reps _ (valid_zero hσ)
  rw [hc] at h1; cases h1
  obtain ⟨rfl, -⟩ := Reps.sc h2
  refine ⟨a, ho, fun ρ hρ => ?_⟩
  obtain ⟨w, h1, x, rfl, h3⟩ := ho.reps ρ hρ
  rw [h1]
  simp only [List.append_nil] at h3
  rw [h3]; rfl

theorem opOf_some {o : ScalarOp} {vs : List (Option (D F))} {w : D F} (h : opOf o vs = some w) :
    ∃ ss s, mapOpt (fun v : Option (D F) => v.bind Val.asScal) vs = some ss ∧ applyOp o ss = some s ∧ w = .sc s := by
  simp only [opOf, Option.bind_eq_some_iff, Option.some.injEq] at h
  obtain ⟨ss, h1, s, h2, rfl⟩ := h
  exact ⟨ss, s, h1, h2, rfl⟩

theorem mapOpt_all {α β : Type} {f : α → Option β} {l : List α} {bs : List β} (h : mapOpt f l = some bs) :
    ∀ a ∈ l, ∃ b ∈ bs, f a = some b := by
  induction l generalizing bs with
  | nil => simp
  | cons a l ih =>
    simp only [mapOpt, Option.bind_eq_some_iff, Option.some.injEq] at h
    obtain ⟨b, hb, bs', hbs, rfl⟩ := h
    intro x hx
    rcases List.mem_cons.1 hx with rfl | hx
    · exact ⟨b, by simp, hb⟩
    · obtain ⟨c, h1, h2⟩ := ih hbs x hx
      exact ⟨c, by simp [h1], h2⟩

theorem forall₂_mem_left {α β : Type} {R : α → β → Prop} {l : List α} {m : List β} (h : List.Forall₂ R l m)
    {x : α} (hx : x ∈ l) : ∃ y ∈ m, R x y := by
  induction h with
  | nil => cases hx
  | cons h1 _ ih =>
    rcases List.mem_cons.1 hx with rfl | hx
    · exact ⟨_, by simp, h1⟩
    · obtain ⟨y, h2, h3⟩ := ih hx
      exact ⟨y, by simp [h2], h3⟩

/-- The operands of an element-wise operation. -/
theorem elem_operands (hσ : Positive S σ) {into : List Nat} (hi : into.Nodup) {xs : List (Axial F)}
    {vs : List ((Nat → Nat) → Option (D F))} (h : List.Forall₂ (fun x v => Means J yenv S σ x v) xs vs)
    (hv : ∀ v ∈ vs, ∀ ρ, Valid S σ ρ → ∃ c : Scal F, v ρ = some (.sc c)) :
    ∀ es, mapOpt (fun x : Axial F => x.aligned into false) xs = some es →
    ∃ ops : List (List Nat × A F × A F), ops.map Prod.fst = xs.map Axial.axes ∧
      List.Forall₂ (fun e b => Yarr.eval J e yenv = some (.arr b)) es (ops.map fun o => o.2.2) ∧
      (∀ e ∈ es, RankOk J yenv e) ∧ (∀ o ∈ ops, Spread o.2.1 o.2.2 o.1 into σ) ∧
      ∀ ρ, Valid S σ ρ → mapOpt (fun v : Option (D F) => v.bind Val.asScal) (vs.map (· ρ)) =
        mapOpt (fun o : List Nat × A F × A F => o.2.1.get? (o.1.map ρ)) ops := by
  induction h with
  | nil =>
    intro es hes
    simp [mapOpt] at hes; subst hes
    exact ⟨[], rfl, .nil, by simp, by simp, fun _ _ => rfl⟩
  | @cons x v xs vs hx _ ih =>
    intro es hes
    simp only [mapOpt, Option.bind_eq_some_iff, Option.some.injEq] at hes
    obtain ⟨y, hy, es', hes', rfl⟩ := hes
    obtain ⟨ops, h1, h2, h3, h4, h5⟩ := ih (fun v hv' => hv v (by simp [hv'])) es' hes'
    obtain ⟨a, ho, ha⟩ := hx.scal hσ (hv v (by simp))
    unfold Axial.aligned at hy
    simp only [Option.bind_eq_some_iff] at hy
    obtain ⟨k, hk, hy⟩ := hy
    rw [if_pos (ho.arity hk)] at hy
    have hsub : ∀ i ∈ x.axes, i ∈ into := by
      unfold align at hy
      simp only [Option.bind_eq_some_iff] at hy
      obtain ⟨r, _, hy⟩ := hy
      split at hy
      · rename_i h; exact h.2
      · cases hy
    obtain ⟨b, hb, hbr, hp⟩ := align_eval hy ho.value ho.rank ho.nodup hi ho.shape (by intro x n h; cases h)
    refine ⟨(x.axes, a, b) :: ops, by simp [h1], .cons hb h2, ?_, ?_, fun ρ hρ => ?_⟩
    · intro e he
      rcases List.mem_cons.1 he with rfl | he
      · exact hbr
      · exact h3 e he
    · intro o ho'
      rcases List.mem_cons.1 ho' with rfl | ho'
      · refine Placed.spread (leftpad := false) ?_ hsub
        simpa [noRepeats] using hp
      · exact h4 o ho'
    · simp only [List.map_cons, mapOpt, h5 ρ hρ, ha ρ hρ]

theorem arrsOf_forall₂ {es : List (YExpr F)} {bs : List (A F)}
    (h : List.Forall₂ (fun e b => Yarr.eval J e yenv = some (.arr b)) es bs) :
    arrsOf ((es.map (Yarr.eval J)).map (· yenv)) = some bs := by
  unfold arrsOf
  induction h with
  | nil => rfl
  | cons h1 _ ih => simp only [List.map_cons, mapOpt, h1, Option.bind_some, YVal.asArr, ih]

/-- A scalar operator (`phi_to_yarr.py:266-273`). -/
theorem means_elem {o : ScalarOp} {xs : List (Axial F)} {vs : List ((Nat → Nat) → Option (D F))} {y : Axial F}
    (h : List.Forall₂ (fun x v => Means J yenv S σ x v) xs vs) (hσ : Positive S σ) {es : List (YExpr F)}
    (hes : mapOpt (fun x : Axial F => x.aligned (alignment (xs.map Axial.axes)) false) xs = some es)
    (hy : Axial.mk? (alignment (xs.map Axial.axes)) (node (.elem o none) es) = some y)
    (hdef : ∀ ρ, Valid S σ ρ → ∃ w, opOf o (vs.map (· ρ)) = some w) :
    Means J yenv S σ y fun ρ => opOf o (vs.map (· ρ)) := by
  obtain ⟨rfl, hi, -⟩ := mk?_eq_some hy
  have hv : ∀ v ∈ vs, ∀ ρ, Valid S σ ρ → ∃ c : Scal F, v ρ = some (.sc c) := by
    intro v hv ρ hρ
    obtain ⟨w, hw⟩ := hdef ρ hρ
    obtain ⟨ss, s, h1, _, _⟩ := opOf_some hw
    obtain ⟨c, _, hc⟩ := mapOpt_all h1 (v ρ) (List.mem_map.2 ⟨v, hv, rfl⟩)
    cases hvρ : v ρ with
    | none => rw [hvρ] at hc; cases hc
    | some u =>
      rw [hvρ] at hc
      cases u with
      | sc c' => exact ⟨c', rfl⟩
      | vec _ => cases hc
      | pair _ _ => cases hc
  obtain ⟨ops, h1, h2, h3, h4, h5⟩ := elem_operands hσ hi h hv es hes
  have hsub : ∀ x ∈ xs, ∀ i ∈ x.axes, S i := by
    intro x hx
    obtain ⟨v, _, hm⟩ := forall₂_mem_left h hx
    exact hm.1
  have hS : ∀ i ∈ alignment (xs.map Axial.axes), S i := by
    intro i hi'
    obtain ⟨axes, ha, hia⟩ := mem_alignment.1 hi'
    obtain ⟨x, hx, rfl⟩ := List.mem_map.1 ha
    exact hsub x hx i hia
  have key : ∀ ρ, Valid S σ ρ → ∃ s,
      (mapOpt (fun o : List Nat × A F × A F => o.2.1.get? (o.1.map ρ)) ops).bind (applyOp o) = some s ∧
        opOf o (vs.map (· ρ)) = some (.sc s) := by
    intro ρ hρ
    obtain ⟨w, hw⟩ := hdef ρ hρ
    obtain ⟨ss, s, e1, e2, rfl⟩ := opOf_some hw
    rw [h5 ρ hρ] at e1
    exact ⟨s, by rw [e1]; exact e2, hw⟩
  have hax : ∀ o ∈ ops, ∀ i ∈ o.1, i ∈ alignment (xs.map Axial.axes) := by
    intro o' ho i hi'
    refine mem_alignment.2 ⟨o'.1, ?_, hi'⟩
    rw [← h1]; exact List.mem_map.2 ⟨o', ho, rfl⟩
  obtain ⟨c, hc, hcs, hcg⟩ := zipAll_spread (f := applyOp o) hi (ops := ops) (σ := σ) h4 (by
      intro i hi'
      obtain ⟨axes, ha, hia⟩ := mem_alignment.1 hi'
      rw [← h1] at ha
      obtain ⟨q, hq, rfl⟩ := List.mem_map.1 ha
      exact ⟨q, hq, hia⟩) (by
      intro ρ hρ
      obtain ⟨ρ', e1, e2⟩ := valid_extend hσ hρ
      obtain ⟨s, hs, _⟩ := key ρ' e1
      have : mapOpt (fun o : List Nat × A F × A F => o.2.1.get? (o.1.map ρ')) ops =
          mapOpt (fun o : List Nat × A F × A F => o.2.1.get? (o.1.map ρ)) ops := by
        refine mapOpt_congr fun q hq => ?_
        have e : q.1.map ρ' = q.1.map ρ := by
          refine List.map_congr_left fun i hi' => ?_
          exact List.map_inj_left.1 e2 i (hax q hq i hi')
        rw [e]
      rw [this] at hs
      rw [hs]; rfl)
  refine One.means (a := c) (s := []) ⟨hS, ?_, ?_, hi, by simpa using hcs, fun ρ hρ => ?_⟩
  · rw [Yarr.eval_node]
    simp only [Yarr.den, arrsOf_forall₂ h2, Option.bind_some, hc]
  · exact rankOk_node (by trivial) h3
  · obtain ⟨s, hs1, hs2⟩ := key ρ hρ
    refine ⟨_, hs2, _, rfl, ?_⟩
    simp only [List.append_nil]
    rw [hcg ρ fun i hi' => hρ i (hS i hi'), hs1]

/-- The code for the sizes of indices in scope. -/
structure SizesOk (J : YExt F) (yenv : Env (YVal F)) (S : Nat → Prop) (σ : Nat → Nat)
    (sizes : Nat → Option (YExpr F)) : Prop where
  eval : ∀ i e, sizes i = some e → EvalsInt J yenv e (σ i) ∧ RankOk J yenv e

theorem repeated_some {x : Axial F} {into : List Nat} {sizes : Nat → Option (YExpr F)} {e : YExpr F}
    (h : x.repeated true into sizes = some e) :
    x.aligned into true sizes = some e ∧ ∀ i ∈ into, i ∈ x.axes ∨ (sizes i).isSome := by
  unfold Axial.repeated at h
  split at h
  · cases h
  · rename_i hn
    refine ⟨h, fun i hi => ?_⟩
    by_contra hc
    simp only [not_or, Option.isSome_iff_ne_none, ne_eq, not_not] at hc
    exact hn ⟨rfl, i, hi, hc⟩

/-- Concatenation (`phi_to_yarr.py:236-249`). -/
theorem means_concat {x y z : Axial F} {v w : (Nat → Nat) → Option (D F)} {sizes : Nat → Option (YExpr F)}
    {x' y' : YExpr F} (hx : Means J yenv S σ x v) (hy : Means J yenv S σ y w) (hσ : Positive S σ)
    (hsz : SizesOk J yenv S σ sizes)
    (hx' : x.repeated true (alignment [x.axes, y.axes]) sizes = some x')
    (hy' : y.repeated true (alignment [x.axes, y.axes]) sizes = some y')
    (hz : Axial.mk? (alignment [x.axes, y.axes]) (node (.concat (alignment [x.axes, y.axes]).length) [x', y']) = some z)
    (hdef : ∀ ρ, Valid S σ ρ → ∃ u, concatOf (v ρ) (w ρ) = some u) :
    Means J yenv S σ z fun ρ => concatOf (v ρ) (w ρ) := by
  obtain ⟨rfl, hi, -⟩ := mk?_eq_some hz
  set into := alignment [x.axes, y.axes]
  have hS : ∀ i ∈ into, S i := by
    intro i hi'
    obtain ⟨axes, ha, hia⟩ := mem_alignment.1 hi'
    simp at ha
    rcases ha with rfl | rfl
    · exact hx.1 i hia
    · exact hy.1 i hia
  obtain ⟨hx', hcx⟩ := repeated_some hx'
  obtain ⟨hy', hcy⟩ := repeated_some hy'
  have hxa := (hx.aligned hσ hx' hi hS hsz.eval hcx).2
  have hya := (hy.aligned hσ hy' hi hS hsz.eval hcy).2
  have key : ∀ ρ, Valid S σ ρ → ∃ vs ws, v ρ = some (.vec vs) ∧ w ρ = some (.vec ws) ∧
      Val.uniform (vs ++ ws) = true ∧ concatOf (v ρ) (w ρ) = some (.vec (vs ++ ws)) := by
    intro ρ hρ
    obtain ⟨u, hu⟩ := hdef ρ hρ
    have hu' := hu
    simp only [concatOf, Option.bind_eq_some_iff] at hu
    obtain ⟨vs, ⟨v', h1, h2⟩, ws, ⟨w', h3, h4⟩, h5⟩ := hu
    split at h5
    · rename_i hun
      cases h5
      refine ⟨vs, ws, ?_, ?_, hun, hu'⟩
      · cases v' <;> cases h2; exact h1
      · cases w' <;> cases h4; exact h3
    · cases h5
  obtain ⟨vs0, ws0, hv0, hw0, hun, _⟩ := key _ (valid_zero hσ)
  obtain ⟨a, s, hoa⟩ := hxa.one_of hσ (by rw [hv0]; intro a b e; cases e)
  obtain ⟨b, t, hob⟩ := hya.one_of hσ (by rw [hw0]; intro a b e; cases e)
  obtain ⟨u1, e1, r1⟩ := hoa.reps _ (valid_zero hσ)
  obtain ⟨u2, e2, r2⟩ := hob.reps _ (valid_zero hσ)
  rw [hv0] at e1; rw [hw0] at e2
  cases e1; cases e2
  obtain ⟨s', rfl⟩ := r1.vec
  obtain ⟨t', rfl⟩ := r2.vec
  obtain ⟨hm, _, h3, _, r1⟩ := r1
  obtain ⟨hn, _, h4, _, r2⟩ := r2
  cases h3; cases h4
  have hst : s' = t' := by
    have g1 : vs0[0]? = some vs0[0] := List.getElem?_eq_getElem hm
    have g2 : ws0[0]? = some ws0[0] := List.getElem?_eq_getElem hn
    refine (r1 0 _ g1).shape_eq (r2 0 _ g2) ?_
    exact Val.uniform_iff.1 hun _ (by simp) _ (by simp)
  subst hst
  generalize hml : vs0.length = m at *
  generalize hnl : ws0.length = n at *
  have hsa := hoa.shape
  have hsb := hob.shape
  obtain ⟨c, hc, hcs, hcg⟩ := concat2_spec (p := into.map σ) hsa hsb
  rw [List.length_map] at hc
  refine One.means (a := c) (s := (m + n) :: s') ⟨hS, ?_, ?_, hi, hcs, fun ρ hρ => ?_⟩
  · rw [Yarr.eval_node]
    have : arrsOf (([x', y'].map (Yarr.eval J)).map (· yenv)) = some [a, b] :=
      arrsOf_forall₂ (.cons hoa.value (.cons hob.value .nil))
    simp only [Yarr.den, this, Option.bind_some, hc]
  · refine rankOk_node (by trivial) ?_
    intro t ht
    simp at ht
    rcases ht with rfl | rfl
    · exact hoa.rank
    · exact hob.rank
  · obtain ⟨vs, ws, hv, hw, _, hcv⟩ := key ρ hρ
    obtain ⟨u1, e1, r1⟩ := hoa.reps ρ hρ
    obtain ⟨u2, e2, r2⟩ := hob.reps ρ hρ
    rw [hv] at e1; rw [hw] at e2
    cases e1; cases e2
    obtain ⟨_, _, e3, hl1, r1⟩ := r1
    obtain ⟨_, _, e4, hl2, r2⟩ := r2
    cases e3; cases e4
    refine ⟨_, hcv, by omega, _, rfl, by simp [hl1, hl2], fun k u hk => ?_⟩
    have hklt : k < m + n := by have := (List.getElem?_eq_some_iff.1 hk).1; simp at this; omega
    have hpin : InRange (into.map σ) (into.map ρ) := inRange_map.2 fun i hi' => hρ i (hS i hi')
    by_cases hkm : k < m
    · rw [List.getElem?_append_left (by omega)] at hk
      refine (r1 k u hk).congr fun jx hj => ?_
      exact ((hcg _ k jx hpin hklt hj).trans (if_pos hkm)).symm
    · rw [List.getElem?_append_right (by omega), hl1] at hk
      refine (r2 (k - m) u hk).congr fun jx hj => ?_
      exact ((hcg _ k jx hpin hklt hj).trans (if_neg hkm)).symm

/-- The value of a read, given those of the array and the position. -/
theorem getOf_some {a i : Option (D F)} {w : D F} (h : getOf a i = some w) :
    ∃ vs n, a = some (.vec vs) ∧ i = some (.int n) ∧ Val.get vs n = some w := by
  simp only [getOf, Option.bind_eq_some_iff] at h
  obtain ⟨vs, ⟨v', h1, h2⟩, n, ⟨i', h3, h4⟩, h5⟩ := h
  refine ⟨vs, n, ?_, ?_, h5⟩
  · cases v' <;> cases h2; exact h1
  · rw [h3]
    cases i' with
    | sc c => cases c <;> simp [Val.asInt] at h4; subst h4; rfl
    | vec _ => simp [Val.asInt] at h4
    | pair _ _ => simp [Val.asInt] at h4

/-- The array that is read and the positions, for a read that is defined everywhere. -/
theorem get_operands {x i : Axial F} {v w : (Nat → Nat) → Option (D F)} (hx : Means J yenv S σ x v)
    (hi : Means J yenv S σ i w) (hσ : Positive S σ)
    (hdef : ∀ ρ, Valid S σ ρ → ∃ u, getOf (v ρ) (w ρ) = some u) :
    ∃ a m s b ix, One J yenv S σ x v a (m :: s) ∧ 0 < m ∧ One J yenv S σ i w b [] ∧ asInts b = some ix ∧
      ix.shape = b.shape ∧
      ∀ ρ, Valid S σ ρ → ∃ n : Int, ix.get? (i.axes.map ρ) = some n ∧ ∃ u, getOf (v ρ) (w ρ) = some u ∧
        Reps s (fun jx => a.get? (x.axes.map ρ ++ Val.clip m n :: jx)) u := by
  have key : ∀ ρ, Valid S σ ρ → ∃ vs n, v ρ = some (.vec vs) ∧ w ρ = some (.int n) := by
    intro ρ hρ
    obtain ⟨u, hu⟩ := hdef ρ hρ
    obtain ⟨vs, n, h1, h2, _⟩ := getOf_some hu
    exact ⟨vs, n, h1, h2⟩
  obtain ⟨vs0, n0, hv0, _⟩ := key _ (valid_zero hσ)
  obtain ⟨a, s, hoa⟩ := hx.one_of hσ (by rw [hv0]; intro a b e; cases e)
  obtain ⟨u1, e1, r1⟩ := hoa.reps _ (valid_zero hσ)
  rw [hv0] at e1; cases e1
  obtain ⟨s', rfl⟩ := r1.vec
  have hm := r1.1
  generalize vs0.length = m at *
  obtain ⟨b, hob, hb⟩ := hi.scal hσ (by
    intro ρ hρ
    obtain ⟨_, n, _, h2⟩ := key ρ hρ
    exact ⟨_, h2⟩)
  have hel : ∀ ρ, Valid S σ ρ → ∃ n : Int, w ρ = some (.int n) ∧ b.get? (i.axes.map ρ) = some (.i n) := by
    intro ρ hρ
    obtain ⟨_, n, _, h2⟩ := key ρ hρ
    refine ⟨n, h2, ?_⟩
    rw [← hb ρ hρ, h2]; rfl
  obtain ⟨ix, hx1, hx2, hx3⟩ : ∃ ix, asInts b = some ix ∧ ix.shape = b.shape ∧
      ∀ p, InRange b.shape p → ix.get? p = (b.get? p).bind scalInt := by
    unfold asInts NArr.mapM?
    refine NArr.ofFn?_spec (fun p hp => ?_)
    obtain ⟨ρ, jx, h1, h2, rfl⟩ := valid_position hσ hob.nodup (hob.shape ▸ hp)
    simp at h2; subst h2
    obtain ⟨n, _, h3⟩ := hel ρ h1
    simp [h3, scalInt]
  refine ⟨a, m, s', b, ix, hoa, hm, hob, hx1, hx2, fun ρ hρ => ?_⟩
  obtain ⟨n, h1, h2⟩ := hel ρ hρ
  refine ⟨n, by rw [hx3 _ (NArr.inRange_of_get? h2), h2]; rfl, ?_⟩
  obtain ⟨vs, _, h3, _⟩ := key ρ hρ
  obtain ⟨u, e1, r1⟩ := hoa.reps ρ hρ
  rw [h3] at e1; cases e1
  obtain ⟨_, _, u, h4, h5⟩ := r1.get n
  refine ⟨u, ?_, h5⟩
  rw [h3, h1]
  simpa [getOf, Val.asVec, Val.asInt, Val.int] using h4

/-- `take` (`array_indexing.py:104-108`). -/
theorem means_take {x i y : Axial F} {v w : (Nat → Nat) → Option (D F)} {r p : Nat} (hx : Means J yenv S σ x v)
    (hi : Means J yenv S σ i w) (hσ : Positive S σ) (hr : rankOf x.expr = some r) (hp : x.positional 0 = some p)
    (hy : Axial.mk? (x.axes ++ i.axes) (node (.take (putMask r p)) [x.expr, i.expr]) = some y)
    (hdef : ∀ ρ, Valid S σ ρ → ∃ u, getOf (v ρ) (w ρ) = some u) :
    Means J yenv S σ y fun ρ => getOf (v ρ) (w ρ) := by
  obtain ⟨rfl, hn, -⟩ := mk?_eq_some hy
  obtain ⟨a, m, s, b, ix, hoa, hm, hob, h1, h2, h3⟩ := get_operands hx hi hσ hdef
  have hp' : p = x.axes.length := by
    unfold Axial.positional at hp
    simp only [Option.bind_eq_some_iff] at hp
    obtain ⟨r, _, hp⟩ := hp
    split at hp <;> cases hp; rfl
  subst hp'
  have hbs := hob.shape
  simp only [List.append_nil] at hbs
  rw [hbs] at h2
  obtain ⟨c, hc, hcs, hcg⟩ := take_spec (p := x.axes.map σ) hoa.shape h2 hm
  rw [List.length_map] at hc
  have hrank : a.rank = r := hoa.rank.rankOf hoa.value hr
  have hlt : x.axes.length < r := by
    rw [← hrank, NArr.rank, hoa.shape]; simp
  have hmask : (putMask r x.axes.length).length = a.rank ∧ (putMask r x.axes.length).count true = 1 ∧
      (putMask r x.axes.length).idxOf true = x.axes.length := by
    unfold putMask
    refine ⟨by rw [NArr.length_putAt hlt, hrank], ?_, ?_⟩
    · unfold NArr.putAt
      simp [List.count_replicate]
    · unfold NArr.putAt
      rw [List.idxOf_append_of_notMem (by simp)]
      simp
  refine One.means (a := c) (s := s) ⟨?_, ?_, ?_, hn, by simpa using hcs, fun ρ hρ => ?_⟩
  · intro j hj
    rcases List.mem_append.1 hj with hj | hj
    · exact hoa.sub j hj
    · exact hob.sub j hj
  · rw [Yarr.eval_node]
    have : arrsOf (([i.expr].map (Yarr.eval J)).map (· yenv)) = some [b] :=
      arrsOf_forall₂ (.cons hob.value .nil)
    simp only [List.map_cons, List.map_nil] at this
    simp only [List.map_cons, List.map_nil, Yarr.den, this, Option.bind_some, arr1, hoa.value, YVal.asArr,
      takeOf, hmask, and_self, if_true, h1, hc]
  · refine rankOk_node (by trivial) ?_
    intro t ht
    simp at ht
    rcases ht with rfl | rfl
    · exact hoa.rank
    · exact hob.rank
  · obtain ⟨n, h4, u, h5, h6⟩ := h3 ρ hρ
    refine ⟨u, h5, h6.congr fun jx hj => ?_⟩
    have := hcg (x.axes.map ρ) (i.axes.map ρ) jx (inRange_map.2 fun j hj => hρ j (hoa.sub j hj))
      (inRange_map.2 fun j hj => hρ j (hob.sub j hj)) hj
    rw [h4, Option.bind_some] at this
    simp only [List.map_append, List.append_assoc]
    exact this.symm

/-- `general_get` (`array_indexing.py:158-177`). -/
theorem means_general {x i y : Axial F} {v w : (Nat → Nat) → Option (D F)} (hx : Means J yenv S σ x v)
    (hi : Means J yenv S σ i w) (hσ : Positive S σ) (hy : generalGet x i = some y)
    (hdef : ∀ ρ, Valid S σ ρ → ∃ u, getOf (v ρ) (w ρ) = some u) :
    Means J yenv S σ y fun ρ => getOf (v ρ) (w ρ) := by
  obtain ⟨a, m, s, b, ix, hoa, hm, hob, h1, h2, h3⟩ := get_operands hx hi hσ hdef
  unfold generalGet at hy
  simp only [Option.bind_eq_some_iff] at hy
  obtain ⟨r, hr, t, ht, e, he, hy⟩ := hy
  obtain ⟨rfl, hn, -⟩ := mk?_eq_some hy
  set into := alignment [i.axes, x.axes] with hinto
  have hS : ∀ j ∈ into, S j := by
    intro j hj
    obtain ⟨axes, ha, hia⟩ := mem_alignment.1 hj
    simp at ha
    rcases ha with rfl | rfl
    · exact hob.sub j hia
    · exact hoa.sub j hia
  have hin : ∀ j ∈ into, j ∈ i.axes ∨ j ∈ x.axes := by
    intro j hj
    obtain ⟨axes, ha, hia⟩ := mem_alignment.1 hj
    simp at ha
    rcases ha with rfl | rfl
    · exact Or.inl hia
    · exact Or.inr hia
  have hxin : ∀ j ∈ x.axes, j ∈ into := fun j hj => mem_alignment.2 ⟨x.axes, by simp, hj⟩
  have hiin : ∀ j ∈ i.axes, j ∈ into := fun j hj => mem_alignment.2 ⟨i.axes, by simp, hj⟩
  unfold Axial.aligned at ht he
  simp only [Option.bind_eq_some_iff] at ht he
  obtain ⟨k1, hk1, ht⟩ := ht
  obtain ⟨k2, hk2, he⟩ := he
  rw [if_pos (hoa.arity hk1)] at ht
  rw [if_pos (hob.arity hk2)] at he
  obtain ⟨ta, hta, htr, htp⟩ := align_eval ht hoa.value hoa.rank hoa.nodup hn hoa.shape (by intro x n h; cases h)
  obtain ⟨ia, hia, hir, hip⟩ := align_eval he hob.value hob.rank hob.nodup hn hob.shape (by intro x n h; cases h)
  have e1 : ∀ l, alignedAxes l into true = into := fun _ => rfl
  rw [e1] at htp hip
  set T : Nat → Nat := fun j => if j ∈ x.axes ∨ (noRepeats (F := F) j).isSome then σ j else 1 with hT
  set K : Nat → Nat := fun j => if j ∈ i.axes ∨ (noRepeats (F := F) j).isSome then σ j else 1 with hK
  have hT1 : ∀ j ∈ x.axes, T j = σ j := fun j hj => by simp [hT, hj]
  have hK1 : ∀ j ∈ i.axes, K j = σ j := fun j hj => by simp [hK, hj]
  have hT2 : ∀ j, j ∉ x.axes → T j = 1 := fun j hj => by simp [hT, hj, noRepeats]
  have hK2 : ∀ j, j ∉ i.axes → K j = 1 := fun j hj => by simp [hK, hj, noRepeats]
  have his : ia.shape = into.map K := by rw [hip.shape]; simp
  have hrank : r = x.axes.length + (s.length + 1) := by
    rw [← hoa.rank.rankOf hoa.value hr, NArr.rank, hoa.shape]; simp
  have hrr : r - x.axes.length = s.length + 1 := by omega
  -- the positions as integers with trailing axes of length 1
  obtain ⟨ja, hj1, hj2, hj3⟩ := unsqueeze_end his (s.length + 1)
  rw [List.length_map] at hj1
  have hiel : ∀ ρ, Valid S σ ρ → ∃ n : Int, ia.get? (into.map fun j => if K j = 1 then 0 else ρ j) = some (.i n) ∧
      ix.get? (i.axes.map ρ) = some n := by
    intro ρ hρ
    obtain ⟨n, h4, -⟩ := h3 ρ hρ
    refine ⟨n, ?_, h4⟩
    have g := hip.get (fun j => if K j = 1 then 0 else ρ j) [] (by
      intro j hj
      show (if K j = 1 then 0 else ρ j) < K j
      split
      · rename_i h; rw [h]; omega
      · rename_i h
        have : j ∈ i.axes := by by_contra hc; exact h (hK2 j hc)
        rw [hK1 j this]; exact hρ j (hS j hj)) (by simp)
    simp only [List.append_nil] at g
    rw [g]
    have e2 : i.axes.map (fun j => if K j = 1 then 0 else ρ j) = i.axes.map ρ := by
      refine List.map_congr_left fun j hj => ?_
      split
      · rename_i h
        rw [hK1 j hj] at h
        have := hρ j (hob.sub j hj)
        omega
      · rfl
    rw [e2]
    have hin' : InRange b.shape (i.axes.map ρ) := by
      rw [← h2]; exact NArr.inRange_of_get? h4
    unfold asInts NArr.mapM? at h1
    have h1' := ((NArr.ofFn?_eq_some.1 h1).2 _ hin').1
    rw [h4] at h1'
    cases hb : b.get? (i.axes.map ρ) with
    | none => rw [hb] at h1'; cases h1'
    | some c =>
      rw [hb] at h1'
      cases c with
      | i n' => simp [scalInt] at h1'; rw [h1']
      | b _ => cases h1'
      | f _ => cases h1'
  have hzero : InRange (List.replicate (s.length + 1) 1) (0 :: s.map fun _ => 0) := by
    rw [List.replicate_succ]
    refine inRange_cons.2 ⟨by omega, ?_⟩
    clear * -
    induction s with
    | nil => simp
    | cons n s ih => rw [List.length_cons, List.replicate_succ, List.map_cons]; exact inRange_cons.2 ⟨by omega, ih⟩
  have hones : List.replicate (s.length + 1) 1 = 1 :: s.map fun _ => 1 := by
    rw [List.replicate_succ]; congr 1
    clear * -
    induction s with
    | nil => rfl
    | cons n s ih => rw [List.length_cons, List.replicate_succ, List.map_cons, ih]
  obtain ⟨jx, hjx1, hjx2, hjx3⟩ : ∃ jx, asInts ja = some jx ∧ jx.shape = ja.shape ∧
      ∀ p, InRange ja.shape p → jx.get? p = (ja.get? p).bind scalInt := by
    unfold asInts NArr.mapM?
    refine NArr.ofFn?_spec (fun p hp => ?_)
    rw [hj2] at hp
    obtain ⟨ρ, q, rfl, g1, g2⟩ := inRange_assignment hn hp
    rw [hj3 _ _ (inRange_map.2 g1) g2]
    obtain ⟨ρ', g3, g4⟩ := valid_extend hσ (axes := into.filter fun j => decide (K j ≠ 1)) (ρ := ρ) (by
      intro j hj
      simp at hj
      have : j ∈ i.axes := by by_contra hc; exact hj.2 (hK2 j hc)
      have := g1 j hj.1
      rwa [hK1 j ‹_›] at this)
    obtain ⟨n, g5, _⟩ := hiel ρ' g3
    have g6 : (into.map fun j => if K j = 1 then 0 else ρ' j) = into.map ρ := by
      refine List.map_congr_left fun j hj => ?_
      split
      · rename_i h
        have := g1 j hj
        omega
      · rename_i h
        exact List.map_inj_left.1 g4 j (by simp [hj, h])
    rw [g6] at g5
    simp [g5, scalInt]
  obtain ⟨c, hc, hcs, hcg⟩ := gather_spec (t := ta) (ix := jx) (into := into) (s := s) (T := T) (K := K) (σ := σ)
    (m := m) hn htp.shape (by rw [hjx2, hj2, hones])
    (fun j _ => by by_cases h : j ∈ x.axes; exact Or.inr (hT1 j h); exact Or.inl (hT2 j h))
    (fun j _ => by by_cases h : j ∈ i.axes; exact Or.inr (hK1 j h); exact Or.inl (hK2 j h))
    (fun j hj => by rcases hin j hj with h | h; exact Or.inr (hK1 j h); exact Or.inl (hT1 j h)) hm
  obtain ⟨d, hd1, hd2, hd3⟩ := squeeze_at (p := into.map σ) hcs
  rw [List.length_map] at hd1
  refine One.means (a := d) (s := s) ⟨hS, ?_, ?_, hn, hd2, fun ρ hρ => ?_⟩
  · rw [Yarr.eval_node]
    simp only [List.map_cons, List.map_nil, Yarr.den, Yarr.eval_node, arr1, hta, hia, hrr, hj1, Option.bind_some,
      YVal.asArr, hjx1, hc, hd1]
  · refine rankOk_node (by trivial) fun q hq => ?_
    simp at hq; subst hq
    refine rankOk_node (by trivial) fun q hq => ?_
    simp at hq
    rcases hq with rfl | rfl
    · exact htr
    · exact rankOk_node (by trivial) fun q hq => by simp at hq; subst hq; exact hir
  · obtain ⟨n, h4, u, h5, h6⟩ := h3 ρ hρ
    refine ⟨u, h5, h6.congr fun q hq => ?_⟩
    have hpin : InRange (into.map σ) (into.map ρ) := inRange_map.2 fun j hj => hρ j (hS j hj)
    have g1 := hd3 _ q hpin hq
    rw [hcg ρ q (fun j hj => hρ j (hS j hj)) hq] at g1
    obtain ⟨n', g2, g3⟩ := hiel ρ hρ
    rw [h4] at g3; cases g3
    have hKin : InRange (into.map K) (into.map fun j => if K j = 1 then 0 else ρ j) := by
      rw [inRange_map]
      intro j hj
      split
      · rename_i h; rw [h]; omega
      · rename_i h
        have : j ∈ i.axes := by by_contra hc; exact h (hK2 j hc)
        rw [hK1 j this]; exact hρ j (hS j hj)
    have g4 : jx.get? (into.map (fun j => if K j = 1 then 0 else ρ j) ++ 0 :: s.map fun _ => 0) = some n := by
      rw [hjx3 _ (by rw [hj2]; exact (inRange_append hKin.length).2 ⟨hKin, hzero⟩), hj3 _ _ hKin hzero, g2]; rfl
    rw [g4, Option.bind_some] at g1
    refine Eq.trans ?_ g1.symm
    have g5 := htp.get (fun j => if T j = 1 then 0 else ρ j) (Val.clip m n :: q) (by
      intro j hj
      split
      · rename_i h; rw [h]; omega
      · rename_i h
        have : j ∈ x.axes := by by_contra hc; exact h (hT2 j hc)
        rw [hT1 j this]; exact hρ j (hS j hj)) (inRange_cons.2 ⟨Val.clip_lt hm n, hq⟩)
    rw [g5]
    have e2 : x.axes.map (fun j => if T j = 1 then 0 else ρ j) = x.axes.map ρ := by
      refine List.map_congr_left fun j hj => ?_
      split
      · rename_i h
        rw [hT1 j hj] at h
        have := hρ j (hoa.sub j hj)
        omega
      · rfl
    rw [e2]

end Verif.Codegen
