import Verif.Codegen.MeansTup

/-! The meaning of reads compiled to a slice and a pad, or to nothing. -/

set_option linter.unusedSectionVars false

namespace Verif.Codegen
open Verif.Phi Verif.Term Verif.Yarr Verif.Arr
variable {F : Type} [FloatOps F] {J : YExt F} {yenv : Env (YVal F)} {S : Nat → Prop} {σ : Nat → Nat}

/-- Code of which all values are vectors is one array with a length. -/
theorem Means.vec {x : Axial F} {v : (Nat → Nat) → Option (D F)} (hx : Means J yenv S σ x v) (hσ : Positive S σ)
    (hv : ∀ ρ, Valid S σ ρ → ∃ vs, v ρ = some (.vec vs)) :
    ∃ a m s, One J yenv S σ x v a (m :: s) ∧ 0 < m ∧ ∀ ρ, Valid S σ ρ → ∃ vs, v ρ = some (.vec vs) ∧
      vs.length = m := by
  obtain ⟨vs0, hv0⟩ := hv _ (valid_zero hσ)
  obtain ⟨a, s, hoa⟩ := hx.one_of hσ (by rw [hv0]; intro a b e; cases e)
  obtain ⟨u1, e1, r1⟩ := hoa.reps _ (valid_zero hσ)
  rw [hv0] at e1; cases e1
  obtain ⟨s', rfl⟩ := r1.vec
  refine ⟨a, vs0.length, s', hoa, r1.1, fun ρ hρ => ?_⟩
  obtain ⟨vs, h1⟩ := hv ρ hρ
  obtain ⟨u1, e1, r1⟩ := hoa.reps ρ hρ
  rw [h1] at e1; cases e1
  exact ⟨vs, h1, (r1.get 0).1⟩

/-- A read at an index whose range is the array (`array_indexing.py:84-87`). -/
theorem means_elided {x y : Axial F} {v : (Nat → Nat) → Option (D F)} {i : Nat} (hx : Means J yenv S σ x v)
    (hσ : Positive S σ) (hi : S i) (hy : Axial.mk? (x.axes ++ [i]) x.expr = some y)
    (hlen : ∀ ρ, Valid S σ ρ → ∃ vs, v ρ = some (.vec vs) ∧ vs.length = σ i) :
    Means J yenv S σ y fun ρ => getOf (v ρ) (some (.int (ρ i))) := by
  obtain ⟨rfl, hn, -⟩ := mk?_eq_some hy
  obtain ⟨a, m, s, ho, hm, hvs⟩ := hx.vec hσ fun ρ hρ => by
    obtain ⟨vs, h, _⟩ := hlen ρ hρ
    exact ⟨vs, h⟩
  have hmσ : m = σ i := by
    obtain ⟨vs, h1, h2⟩ := hlen _ (valid_zero hσ)
    obtain ⟨vs', h3, h4⟩ := hvs _ (valid_zero hσ)
    rw [h1] at h3; cases h3
    omega
  subst hmσ
  refine One.means (a := a) (s := s) ⟨?_, ho.value, ho.rank, hn, by rw [ho.shape]; simp, fun ρ hρ => ?_⟩
  · intro j hj
    rcases List.mem_append.1 hj with hj | hj
    · exact ho.sub j hj
    · simp at hj; subst hj; exact hi
  · obtain ⟨vs, h1, h2⟩ := hvs ρ hρ
    obtain ⟨u, e1, r1⟩ := ho.reps ρ hρ
    rw [h1] at e1; cases e1
    obtain ⟨_, _, w, h3, h4⟩ := r1.get (ρ i)
    refine ⟨w, by simpa only [h1, getOf, Option.bind_some, Val.asVec, Val.asInt, Val.int] using h3, ?_⟩
    have hc : Val.clip (σ i) (ρ i) = ρ i := by have := hρ i hi; unfold Val.clip; omega
    rw [hc] at h4
    simpa using h4

theorem rankOk_yint (n : Int) : RankOk J yenv (yint n : YExpr F) := by
  intro τ x h1 h2
  rw [yint, Yarr.typeOf_node] at h1
  rw [yint, Yarr.eval_node] at h2
  cases h1; cases h2
  exact valRank_arr.2 rfl

theorem rankOk_yop {o : ScalarOp} {a b : YExpr F} (ha : RankOk J yenv a) (hb : RankOk J yenv b) :
    RankOk J yenv (yop o a b) :=
  rankOk_node (by trivial) (by
    intro t ht; simp at ht
    rcases ht with rfl | rfl
    · exact ha
    · exact hb)

/-- A read at a clipped shift (`array_indexing.py:88-102`). -/
theorem means_window {x y : Axial F} {v : (Nat → Nat) → Option (D F)} {i p : Nat}
    {shift low high size e : YExpr F} {s lo hi : Int} (hx : Means J yenv S σ x v)
    (hσ : Positive S σ) (hSi : S i) (hp : x.positional 0 = some p)
    (he : padSliceGet x.expr p shift low high size = some e) (hy : Axial.mk? (x.axes ++ [i]) e = some y)
    (h1 : EvalsInt J yenv shift s) (h2 : EvalsInt J yenv low lo) (h3 : EvalsInt J yenv high hi)
    (h4 : EvalsInt J yenv size (σ i)) (r1 : RankOk J yenv shift) (r2 : RankOk J yenv low)
    (r3 : RankOk J yenv high) (r4 : RankOk J yenv size) (hlo : 0 ≤ lo) (hhi : 0 ≤ hi)
    (hlen : ∀ ρ, Valid S σ ρ → ∃ vs, v ρ = some (.vec vs) ∧ hi < vs.length) :
    Means J yenv S σ y fun ρ => getOf (v ρ) (some (.int (min (max (ρ i + s) lo) hi))) := by
  obtain ⟨rfl, hn, -⟩ := mk?_eq_some hy
  obtain ⟨a, m, sh, ho, hm, hvs⟩ := hx.vec hσ fun ρ hρ => by
    obtain ⟨vs, h, _⟩ := hlen ρ hρ
    exact ⟨vs, h⟩
  have him : hi < m := by
    obtain ⟨vs, h1, h2⟩ := hlen _ (valid_zero hσ)
    obtain ⟨vs', h3, h4⟩ := hvs _ (valid_zero hσ)
    rw [h1] at h3; cases h3
    omega
  have hp' : p = x.axes.length := by
    unfold Axial.positional at hp
    simp only [Option.bind_eq_some_iff] at hp
    obtain ⟨r, _, hp⟩ := hp
    split at hp <;> cases hp; rfl
  subst hp'
  obtain ⟨r, k, hτ, hr⟩ : ∃ r k, Yarr.typeOf x.expr = some [⟨r, k⟩] ∧ r = a.rank := by
    unfold padSliceGet at he
    split at he
    · rename_i r k hτ
      exact ⟨r, k, hτ, (valRank_arr.1 (ho.rank _ _ hτ ho.value)).symm⟩
    · cases he
  subst hr
  have hpos : 0 < σ i := hσ i hSi
  obtain ⟨b, hb, hbs, hbg⟩ := Props.C03_slice_and_pad J yenv he hτ ho.value h1 h2 h3 h4
    (m := m) (by rw [ho.shape, List.getElem?_append_right (by simp)]; simp) (by omega) hlo hhi him
  have hset : ∀ (l : List Nat) (c d : Nat) (t : List Nat), l.length = x.axes.length →
      (l ++ c :: t).set x.axes.length d = l ++ d :: t := by
    intro l c d t hl
    rw [List.set_append_right _ _ (by omega), hl]; simp
  have hbs' : b.shape = x.axes.map σ ++ σ i :: sh := by
    rw [hbs, ho.shape, hset _ _ _ _ (by simp)]; simp
  refine One.means (a := b) (s := sh) ⟨?_, hb, ?_, hn, by rw [hbs']; simp, fun ρ hρ => ?_⟩
  · intro j hj
    rcases List.mem_append.1 hj with hj | hj
    · exact ho.sub j hj
    · simp at hj; subst hj; exact hSi
  · unfold padSliceGet at he
    rw [hτ] at he
    simp only at he
    split at he
    · cases he
      have q1 : RankOk J yenv (psStart shift low high) := rankOk_yop (rankOk_yop r1 r2) r3
      have q2 : RankOk J yenv (psStop shift low high size) :=
        rankOk_yop (rankOk_yop (rankOk_yop (rankOk_yop (rankOk_yop r1 r4) (rankOk_yint 1)) r2) r3) (rankOk_yint 1)
      have q3 : RankOk J yenv (psLeft shift low size) :=
        rankOk_yop (rankOk_yop (rankOk_yop r2 r1) (rankOk_yint 0)) (rankOk_yop r4 (rankOk_yint 1))
      have q4 : RankOk J yenv (psRight shift low high size) :=
        rankOk_yop (rankOk_yop r4 (rankOk_yop q2 q1)) q3
      refine rankOk_node (by trivial) fun t ht => ?_
      simp at ht
      rcases ht with rfl | rfl | rfl
      · refine rankOk_node (by trivial) fun t ht => ?_
        simp at ht
        rcases ht with rfl | rfl | rfl
        · exact ho.rank
        · exact q1
        · exact q2
      · exact q3
      · exact q4
    · cases he
  · obtain ⟨vs, e0, e1⟩ := hvs ρ hρ
    obtain ⟨u, e2, r5⟩ := ho.reps ρ hρ
    rw [e0] at e2; cases e2
    obtain ⟨_, _, w, e3, e4⟩ := r5.get (min (max (ρ i + s) lo) hi)
    refine ⟨w, by simpa only [e0, getOf, Option.bind_some, Val.asVec, Val.asInt, Val.int] using e3,
      e4.congr fun jx hj => ?_⟩
    have hc : Val.clip m (min (max (ρ i + s) lo) hi) = (min (max (ρ i + s) lo) hi).toNat := by
      unfold Val.clip; omega
    have hin : InRange b.shape (x.axes.map ρ ++ ρ i :: jx) := by
      rw [hbs']
      refine (inRange_append (by simp)).2 ⟨inRange_map.2 fun j hj => hρ j (ho.sub j hj), ?_⟩
      exact inRange_cons.2 ⟨hρ i hSi, hj⟩
    have hget := hbg _ hin
    have e5 : (x.axes.map ρ ++ ρ i :: jx).getD x.axes.length 0 = ρ i := by
      rw [List.getD_eq_getElem?_getD, List.getElem?_append_right (by simp)]; simp
    rw [e5, hset _ _ _ _ (by simp), ← hc] at hget
    simp only [List.map_append, List.map_cons, List.map_nil, List.append_assoc, List.cons_append, List.nil_append]
    exact hget.symm

end Verif.Codegen
