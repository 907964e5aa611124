import Verif.Codegen.MeansOps

/-! The meaning of constants, variables, lets and tuples in array code with axes. -/

set_option linter.unusedSectionVars false

namespace Verif.Codegen
open Verif.Phi Verif.Term Verif.Yarr Verif.Arr
variable {F : Type} [FloatOps F] {J : YExt F} {yenv : Env (YVal F)} {S : Nat → Prop} {σ : Nat → Nat}

theorem rect_reps {V : Type} {s : List Nat} {v : Val V} {f : List Nat → Option V} (h : rect s v = true)
    (hp : ∀ d ∈ s, 0 < d) (hf : ∀ jx, InRange s jx → f jx = readAt jx v) : Reps s f v := by
  induction s generalizing v f with
  | nil =>
    cases v with
    | sc x => exact ⟨x, rfl, by rw [hf [] (by simp)]; rfl⟩
    | vec _ => simp [rect] at h
    | pair _ _ => simp [rect] at h
  | cons n s ih =>
    cases v with
    | sc _ => simp [rect] at h
    | pair _ _ => simp [rect] at h
    | vec vs =>
      simp only [rect, Bool.and_eq_true, decide_eq_true_eq, List.all_eq_true] at h
      refine ⟨hp n (by simp), vs, rfl, h.1, fun i w hw => ih (h.2 _ (List.mem_of_getElem? hw))
        (fun d hd => hp d (by simp [hd])) fun jx hj => ?_⟩
      have hi : i < vs.length := (List.getElem?_eq_some_iff.1 hw).1
      rw [hf _ (inRange_cons.2 ⟨by omega, hj⟩), readAt, hw]; rfl

/-- A constant (`phi_to_yarr.py:47-48`). -/
theorem means_const {v : D F} {τ : Ty} {a : A F} {p : List Phi.Arr} {y : Axial F} (ha : constArr τ v = some a)
    (hpos : ∀ d ∈ a.shape, 0 < d) (ht : HasType v τ) (hp : prim τ = some p)
    (hy : Axial.mk? [] (node (.const (.arr a) p) []) = some y) : Means J yenv S σ y fun _ => some v := by
  obtain ⟨rfl, hn, -⟩ := mk?_eq_some hy
  unfold constArr at ha
  dsimp only at ha
  split at ha
  · rename_i hr
    obtain ⟨hs, hg⟩ := NArr.ofFn?_eq_some.1 ha
    rw [← hs] at hr hg
    have hrep : Reps a.shape a.get? v := rect_reps hr hpos fun jx hj => (hg jx hj).1
    refine One.means (a := a) (s := a.shape) ⟨by simp, ?_, ?_, hn, by simp, fun ρ _ => ⟨v, rfl, by simpa using hrep⟩⟩
    · rw [Yarr.eval_node]; rfl
    · intro τ' x h1 h2
      rw [Yarr.typeOf_node] at h1
      rw [Yarr.eval_node] at h2
      cases h1; cases h2
      obtain ⟨k, hk⟩ := hrep.prim ht
      rw [hk] at hp; cases hp
      exact valRank_arr.2 rfl
  · cases ha

/-- A variable (`phi_to_yarr.py:54-61`). -/
theorem means_var {u : Nat} {axes : List Nat} {as : List (A F)} {ss : List (List Nat)} {τ : Ty}
    {p p' : List Phi.Arr} {y : Axial F} {v : (Nat → Nat) → Option (D F)} (hS : ∀ i ∈ axes, S i)
    (hσ : Positive S σ) (hu : yenv (.var u) = some (pack as))
    (hs : List.Forall₂ (fun (a : A F) s => a.shape = axes.map σ ++ s) as ss)
    (hv : ∀ ρ, Valid S σ ρ → ∃ w, v ρ = some w ∧ HasType w τ ∧ RepsAll w (views axes ρ as ss))
    (hp : prim τ = some p) (hp' : deltaTy axes.length p = some p')
    (hy : Axial.mk? axes (node (.var u p') []) = some y) : Means J yenv S σ y v := by
  obtain ⟨rfl, hn, -⟩ := mk?_eq_some hy
  have he : Yarr.eval J (node (.var u p') []) yenv = some (pack as) := by
    rw [Yarr.eval_node]; exact hu
  refine ⟨hS, as, ss, ⟨he, ?_, hn, hs⟩, fun ρ hρ => ?_⟩
  · intro τ' x h1 h2
    rw [Yarr.typeOf_node] at h1
    rw [he] at h2
    cases h1; cases h2
    obtain ⟨w, _, ht, hr⟩ := hv _ (valid_zero hσ)
    obtain ⟨q, hq, eq⟩ := hr.prim ht
    rw [hp] at hq; cases hq
    unfold ValRank
    rw [pack_arrs]
    have e1 : p'.map Phi.Arr.rank = p.map fun a => a.rank + axes.length := by
      unfold deltaTy at hp'
      have := mapOpt_eq_forall₂.1 hp'
      clear hp' hp eq he hy
      induction this with
      | nil => rfl
      | cons h1 _ ih =>
        unfold deltaArr at h1
        split_ifs at h1
        cases h1
        simp only [List.map_cons, ih, List.cons.injEq, and_true]
        omega
    have e2 : as.map NArr.rank = ss.map fun s => axes.length + s.length := by
      clear he hu hv hr eq
      induction hs with
      | nil => rfl
      | cons h1 _ ih => simp [ih, NArr.rank, h1]
    have e3 : (views axes (fun _ => 0) as ss).map (fun q => q.1.length) = ss.map List.length := by
      have hl := hs.length_eq
      unfold views
      rw [List.map_zipWith]
      clear he hu hv hr e2 hs eq
      induction as generalizing ss with
      | nil => cases ss <;> simp_all
      | cons a as ih =>
        cases ss with
        | nil => simp at hl
        | cons s ss => simp; exact ih (by simpa using hl)
    rw [e1, e2]
    rw [e3] at eq
    have : (p.map Phi.Arr.rank).map (· + axes.length) = (ss.map List.length).map (· + axes.length) := by rw [eq]
    simp only [List.map_map, Function.comp_def] at this
    rw [this]
    exact List.map_congr_left fun s _ => by omega
  · obtain ⟨w, h1, _, h2⟩ := hv ρ hρ
    exact ⟨w, h1, h2⟩

/-- `Let` (`phi_to_yarr.py:64-70`). -/
theorem means_let {x y z : Axial F} {u : Nat} {as : List (A F)} {w : (Nat → Nat) → Option (D F)}
    (hx : Yarr.eval J x.expr yenv = some (pack as))
    (hy : Means J (yenv.set (.var u) (some (pack as))) S σ y w) (hz : y.within u x.expr = some z) :
    Means J yenv S σ z w := by
  obtain ⟨rfl, hn, -⟩ := mk?_eq_some hz
  obtain ⟨h0, bs, ss, hc, hv⟩ := hy
  have he : ∀ r, Yarr.eval J (node (.letv u) [x.expr, y.expr]) yenv = r ↔
      Yarr.eval J y.expr (yenv.set (.var u) (some (pack as))) = r := by
    intro r
    rw [Yarr.eval_node]
    simp only [List.map_cons, List.map_nil, Yarr.den, hx, Option.bind_some]
  refine ⟨h0, bs, ss, ⟨(he _).2 hc.value, ?_, hn, hc.shape⟩, hv⟩
  intro τ' x' h1 h2
  rw [he] at h2
  refine hc.rank τ' x' ?_ h2
  rw [Yarr.typeOf_node] at h1
  simp only [List.map_cons, List.map_nil] at h1
  cases hb : Yarr.typeOf x.expr with
  | none => rw [hb] at h1; simp [Yarr.typeStep] at h1
  | some τ => rw [hb] at h1; simpa [Yarr.typeStep] using h1

/-- Some parts of a tuple. -/
theorem untupleMaybe_at {e : YExpr F} {as bs : List (A F)} {ps : List Nat} {k : Nat}
    (hk : arityOf e = some k) (he : Yarr.eval J e yenv = some (pack as)) (hr : RankOk J yenv e)
    (hb : List.Forall₂ (fun i a => as[i]? = some a) ps bs) {es : List (YExpr F)}
    (hes : mapOpt (untupleMaybe e) ps = some es) :
    List.Forall₂ (fun e a => Yarr.eval J e yenv = some (.arr a)) es bs ∧ ∀ e ∈ es, RankOk J yenv e := by
  unfold arityOf at hk
  simp only [Option.map_eq_some_iff] at hk
  obtain ⟨τ, hτ, rfl⟩ := hk
  have hl : τ.length = as.length := by
    have := congrArg List.length (hr _ _ hτ he)
    rw [pack_arrs] at this
    simpa using this.symm
  induction hb generalizing es with
  | nil => cases hes; exact ⟨.nil, by simp⟩
  | @cons i a _ _ h1 _ ih =>
    simp only [mapOpt, Option.bind_eq_some_iff, Option.some.injEq] at hes
    obtain ⟨y, hy, es', hes', rfl⟩ := hes
    obtain ⟨h2, h3⟩ := ih hes'
    have key : Yarr.eval J y yenv = some (.arr a) ∧ RankOk J yenv y := by
      unfold untupleMaybe arityOf at hy
      rw [hτ] at hy
      simp only [Option.map_some, Option.some.injEq] at hy
      have hi : i < as.length := (List.getElem?_eq_some_iff.1 h1).1
      split at hy
      · rename_i hk
        subst hy
        refine ⟨?_, hr⟩
        rw [hl] at hk
        obtain ⟨a', rfl⟩ := List.length_eq_one_iff.1 hk
        have hi0 : i = 0 := by simpa using hi
        subst hi0
        cases h1
        exact he
      · rename_i hk
        subst hy
        refine ⟨?_, rankOk_node (by trivial) (by intro t ht; simp at ht; subst ht; exact hr)⟩
        rw [Yarr.eval_node]
        simp only [List.map_cons, List.map_nil, Yarr.den, he, Option.bind_some]
        have : pack as = .tup as := by
          unfold pack
          split
          · simp at hl; omega
          · rfl
        rw [this]
        simp [h1]
    exact ⟨.cons key.1 h2, by
      intro t ht
      rcases List.mem_cons.1 ht with rfl | ht
      · exact key.2
      · exact h3 t ht⟩

theorem forall₂_range {α : Type} (as : List α) :
    List.Forall₂ (fun i a => as[i]? = some a) (List.range as.length) as := by
  rw [List.forall₂_iff_get]
  refine ⟨by simp, fun i h1 h2 => ?_⟩
  simp at h1
  simp [h1]

theorem forall₂_range_drop {α : Type} (as : List α) {n m : Nat} (h : n ≤ m) (hm : m ≤ as.length) :
    List.Forall₂ (fun i a => as[i]? = some a) ((List.range (m - n)).map (n + ·)) ((as.drop n).take (m - n)) := by
  rw [List.forall₂_iff_get]
  refine ⟨by simp; omega, fun i h1 h2 => ?_⟩
  simp at h1
  have : n + i < as.length := by omega
  simp [this]

theorem code_arity {x : Axial F} {as : List (A F)} {ss : List (List Nat)} (h : Code J yenv σ x as ss) {k : Nat}
    (hk : arityOf x.expr = some k) : k = as.length := by
  unfold arityOf at hk
  simp only [Option.map_eq_some_iff] at hk
  obtain ⟨τ, hτ, rfl⟩ := hk
  have := congrArg List.length (h.rank _ _ hτ h.value)
  rw [pack_arrs] at this
  simpa using this.symm

/-- `Cons` (`phi_to_yarr.py:274-277`) of code with the same axes. -/
theorem means_cons {x y z : Axial F} {v w : (Nat → Nat) → Option (D F)} (hx : Means J yenv S σ x v)
    (hy : Means J yenv S σ y w) (hσ : Positive S σ) (hax : ∀ i, i ∈ x.axes ↔ i ∈ y.axes) (hz : x.cons y = some z) :
    Means J yenv S σ z fun ρ => consOf (v ρ) (w ρ) := by
  unfold Axial.cons at hz
  simp only [Option.bind_eq_some_iff] at hz
  obtain ⟨n, hn, m, hm, ex, hex, ey, hey, es, hes, es', hes', hz⟩ := hz
  obtain ⟨rfl, hi, -⟩ := mk?_eq_some hz
  set into := alignment [x.axes, y.axes]
  have hin : ∀ i ∈ into, i ∈ x.axes ∧ i ∈ y.axes := by
    intro j hj
    obtain ⟨axes, ha, hia⟩ := mem_alignment.1 hj
    simp at ha
    rcases ha with rfl | rfl
    · exact ⟨hia, (hax j).1 hia⟩
    · exact ⟨(hax j).2 hia, hia⟩
  obtain ⟨h0, as, ss, hc, hv⟩ := hx
  obtain ⟨h0', as', ss', hc', hv'⟩ := hy
  have hne : as ≠ [] := by
    obtain ⟨w, _, h2⟩ := hv _ (valid_zero hσ)
    rintro rfl
    exact h2.ne_nil rfl
  have hne' : as' ≠ [] := by
    obtain ⟨w, _, h2⟩ := hv' _ (valid_zero hσ)
    rintro rfl
    exact h2.ne_nil rfl
  have hS : ∀ i ∈ into, S i := fun i hi => h0 i (hin i hi).1
  obtain ⟨_, bs, hb, hbv⟩ := aligned_code hc hne hex hi (by intro i e h; cases h) fun i hi => Or.inl (hin i hi).1
  obtain ⟨_, bs', hb', hbv'⟩ := aligned_code hc' hne' hey hi (by intro i e h; cases h) fun i hi => Or.inl (hin i hi).2
  have l1 : bs.length = as.length := by rw [hb.shape.length_eq, hc.shape.length_eq]
  have l2 : bs'.length = as'.length := by rw [hb'.shape.length_eq, hc'.shape.length_eq]
  rw [code_arity hc hn, ← l1] at hes
  rw [code_arity hc' hm, ← l2] at hes'
  have par : ∀ (e : YExpr F) (n : Nat) (es : List (YExpr F)), 0 < n →
      mapOpt (untupleMaybe e) (List.range n) = some es → ∃ k, arityOf e = some k := by
    intro e n es hn h
    obtain ⟨n, rfl⟩ : ∃ n', n = n' + 1 := ⟨n - 1, by omega⟩
    rw [List.range_succ_eq_map] at h
    simp only [mapOpt, Option.bind_eq_some_iff] at h
    obtain ⟨y, hy, _⟩ := h
    unfold untupleMaybe at hy
    simp only [Option.map_eq_some_iff] at hy
    obtain ⟨k, hk, _⟩ := hy
    exact ⟨k, hk⟩
  obtain ⟨k1, hk1⟩ := par _ _ _ (by rw [l1]; exact List.length_pos_iff.2 hne) hes
  obtain ⟨k2, hk2⟩ := par _ _ _ (by rw [l2]; exact List.length_pos_iff.2 hne') hes'
  obtain ⟨e1, r1⟩ := untupleMaybe_at hk1 hb.value hb.rank (forall₂_range bs) hes
  obtain ⟨e2, r2⟩ := untupleMaybe_at hk2 hb'.value hb'.rank (forall₂_range bs') hes'
  refine ⟨hS, bs ++ bs', ss ++ ss', ⟨eval_tupleMaybe (List.rel_append e1 e2), rankOk_tupleMaybe ?_, hi,
    List.rel_append hb.shape hb'.shape⟩, fun ρ hρ => ?_⟩
  · intro e he
    rcases List.mem_append.1 he with he | he
    · exact r1 e he
    · exact r2 e he
  · obtain ⟨u, h1, h2⟩ := hv ρ hρ
    obtain ⟨u', h1', h2'⟩ := hv' ρ hρ
    refine ⟨.pair u u', by simp only [h1, h1']; rfl, views into ρ bs ss, views into ρ bs' ss', ?_,
      h2.congr (hbv ρ fun i hi => hρ i (hS i hi)), h2'.congr (hbv' ρ fun i hi => hρ i (hS i hi))⟩
    unfold views
    exact List.zipWith_append hb.shape.length_eq

/-- `First` and `Second` (`phi_to_yarr.py:278-286`), for a part of the arrays that represents the value. -/
theorem means_slice {x z : Axial F} {v w : (Nat → Nat) → Option (D F)} {n m : Nat} (hx : Means J yenv S σ x v)
    (hz : x.sliceTuple n m = some z)
    (hw : ∀ ρ u l, Valid S σ ρ → v ρ = some u → RepsAll u l →
      ∃ u', w ρ = some u' ∧ RepsAll u' ((l.drop n).take (m - n))) :
    Means J yenv S σ z w := by
  obtain ⟨h0, as, ss, hc, hv⟩ := hx
  unfold Axial.sliceTuple at hz
  simp only [Option.bind_eq_some_iff] at hz
  obtain ⟨k, hk, hz⟩ := hz
  split at hz
  · rename_i hle
    simp only [Option.bind_eq_some_iff] at hz
    obtain ⟨es, hes, hz⟩ := hz
    obtain ⟨rfl, hi, -⟩ := mk?_eq_some hz
    have hk' := code_arity hc hk
    subst hk'
    obtain ⟨e1, r1⟩ := untupleMaybe_at hk hc.value hc.rank (forall₂_range_drop as hle.1 hle.2) hes
    refine ⟨h0, _, (ss.drop n).take (m - n), ⟨eval_tupleMaybe e1, rankOk_tupleMaybe r1, hi,
      List.forall₂_take _ (List.forall₂_drop _ hc.shape)⟩, fun ρ hρ => ?_⟩
    obtain ⟨u, h1, h2⟩ := hv ρ hρ
    obtain ⟨u', h3, h4⟩ := hw ρ u _ hρ h1 h2
    refine ⟨u', h3, ?_⟩
    unfold views at h4 ⊢
    rwa [List.drop_zipWith, List.take_zipWith] at h4
  · cases hz

theorem repsAll_fst {a b : D F} {τ τ' : Ty} {p : List Phi.Arr} {l : List (List Nat × (List Nat → Option (Scal F)))}
    (h : RepsAll (.pair a b) l) (ht : HasType (.pair a b) (.pair τ τ')) (hp : prim τ = some p) :
    RepsAll a (l.take p.length) := by
  obtain ⟨l₁, l₂, rfl, h1, h2⟩ := h
  cases ht with
  | pair ha hb =>
    obtain ⟨p', hp', e⟩ := h1.prim ha
    rw [hp] at hp'; cases hp'
    have : p.length = l₁.length := by simpa using congrArg List.length e
    rw [this, List.take_left]; exact h1

theorem repsAll_snd {a b : D F} {τ τ' : Ty} {p q : List Phi.Arr}
    {l : List (List Nat × (List Nat → Option (Scal F)))}
    (h : RepsAll (.pair a b) l) (ht : HasType (.pair a b) (.pair τ τ')) (hp : prim τ = some p)
    (hq : prim τ' = some q) : RepsAll b ((l.drop p.length).take ((p ++ q).length - p.length)) := by
  obtain ⟨l₁, l₂, rfl, h1, h2⟩ := h
  cases ht with
  | pair ha hb =>
    obtain ⟨p', hp', e⟩ := h1.prim ha
    obtain ⟨q', hq', e'⟩ := h2.prim hb
    rw [hp] at hp'; cases hp'
    rw [hq] at hq'; cases hq'
    have e1 : p.length = l₁.length := by simpa using congrArg List.length e
    have e2 : q.length = l₂.length := by simpa using congrArg List.length e'
    rw [e1, List.drop_left, List.take_of_length_le (by simp; omega)]
    exact h2

end Verif.Codegen
