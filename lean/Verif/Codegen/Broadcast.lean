import Verif.Codegen.AlignEval

/-! Broadcasting of aligned arrays. -/

set_option linter.unusedSectionVars false

namespace Verif.Codegen
open Verif.Phi Verif.Term Verif.Yarr Verif.Arr
variable {α β : Type}

/-! ### Shapes -/

/-- Each length is 1 or the given one. -/
def Fits (u S : List Nat) : Prop := List.Forall₂ (fun d n => d = 1 ∨ d = n) u S

/-- The length that is not 1. -/
def bd (d e : Nat) : Nat := if d = 1 then e else d

theorem bcastDim_bd {d e n : Nat} (hd : d = 1 ∨ d = n) (he : e = 1 ∨ e = n) :
    NArr.bcastDim d e = some (bd d e) := by
  unfold NArr.bcastDim bd
  rcases hd with rfl | rfl <;> rcases he with rfl | rfl <;> simp
  split_ifs <;> simp_all

theorem bd_fits {d e n : Nat} (hd : d = 1 ∨ d = n) (he : e = 1 ∨ e = n) : bd d e = 1 ∨ bd d e = n := by
  unfold bd; split_ifs <;> assumption

theorem mapOpt_bcastDim {u v S : List Nat} (hu : Fits u S) (hv : Fits v S) :
    mapOpt (fun p : Nat × Nat => NArr.bcastDim p.1 p.2) (u.zip v) = some (List.zipWith bd u v) := by
  induction hu generalizing v with
  | nil => cases hv; rfl
  | cons hd hu ih =>
    cases hv with
    | cons he hv => simp [mapOpt, bcastDim_bd hd he, ih hv]

theorem zipWith_bd_fits {u v S : List Nat} (hu : Fits u S) (hv : Fits v S) : Fits (List.zipWith bd u v) S := by
  induction hu generalizing v with
  | nil => cases hv; exact .nil
  | cons hd hu ih =>
    cases hv with
    | cons he hv => exact .cons (bd_fits hd he) (ih hv)

theorem length_padLeft' {r : Nat} {s : List Nat} (h : s.length ≤ r) : (NArr.padLeft r s).length = r :=
  NArr.length_padLeft h

theorem padLeft_self (s : List Nat) : NArr.padLeft s.length s = s := by simp [NArr.padLeft]

theorem padLeft_padLeft {r m : Nat} {s : List Nat} (h1 : s.length ≤ m) (h2 : m ≤ r) :
    NArr.padLeft r (NArr.padLeft m s) = NArr.padLeft r s := by
  unfold NArr.padLeft
  rw [← List.append_assoc, List.replicate_append_replicate]
  congr 2
  simp
  omega

/-- Shapes that agree with `S` where they are longer than 1 can be broadcast. -/
theorem bcast_fits {s t S : List Nat} (hs : s.length ≤ S.length) (ht : t.length ≤ S.length)
    (fs : Fits (NArr.padLeft S.length s) S) (ft : Fits (NArr.padLeft S.length t) S) :
    ∃ u, NArr.bcast s t = some u ∧ u.length = max s.length t.length ∧
      NArr.padLeft S.length u = List.zipWith bd (NArr.padLeft S.length s) (NArr.padLeft S.length t) := by
  set m := max s.length t.length with hm
  have hmS : m ≤ S.length := by omega
  have hs' := length_padLeft' (r := m) (s := s) (by omega)
  have ht' := length_padLeft' (r := m) (s := t) (by omega)
  have split : ∀ x : List Nat, x.length ≤ m → NArr.padLeft S.length x =
      List.replicate (S.length - m) 1 ++ NArr.padLeft m x := by
    intro x hx
    rw [← padLeft_padLeft hx hmS]
    conv_lhs => rw [NArr.padLeft]
    rw [length_padLeft' hx]
  have drop : ∀ x : List Nat, x.length ≤ m → Fits (NArr.padLeft S.length x) S →
      Fits (NArr.padLeft m x) (S.drop (S.length - m)) := by
    intro x hx hf
    have := List.forall₂_drop (S.length - m) hf
    rw [split x hx, List.drop_left' (by simp)] at this
    exact this
  have fs' := drop s (by omega) fs
  have ft' := drop t (by omega) ft
  have hu := mapOpt_bcastDim fs' ft'
  refine ⟨_, hu, by simp [hs', ht'], ?_⟩
  rw [split s (by omega), split t (by omega), List.zipWith_append (by simp)]
  unfold NArr.padLeft
  congr 1
  · rw [List.zipWith_replicate]
    have : (List.zipWith bd (List.replicate (m - s.length) 1 ++ s) (List.replicate (m - t.length) 1 ++ t)).length = m := by
      unfold NArr.padLeft at hs' ht'
      rw [List.length_zipWith, hs', ht', Nat.min_self]
    rw [this]
    simp [bd]

theorem loop_bcast_fits {S : List Nat} (us : List (List Nat)) :
    ∀ acc : List Nat, acc.length ≤ S.length → Fits (NArr.padLeft S.length acc) S →
      (∀ u ∈ us, u.length ≤ S.length ∧ Fits (NArr.padLeft S.length u) S) →
      ∃ v, loopOpt NArr.bcast acc us = some v ∧ v.length ≤ S.length ∧ Fits (NArr.padLeft S.length v) S ∧
        acc.length ≤ v.length ∧ (∀ u ∈ us, u.length ≤ v.length) ∧
        ∀ (k n : Nat), S[k]? = some n → ((NArr.padLeft S.length acc)[k]? = some n ∨
          ∃ u ∈ us, (NArr.padLeft S.length u)[k]? = some n) → (NArr.padLeft S.length v)[k]? = some n := by
  induction us with
  | nil =>
    intro acc h1 h2 _
    exact ⟨acc, rfl, h1, h2, le_refl _, by simp, fun k n _ h => by simpa using h⟩
  | cons u us ih =>
    intro acc h1 h2 h3
    obtain ⟨hu1, hu2⟩ := h3 u (by simp)
    obtain ⟨w, hw, hwl, hwp⟩ := bcast_fits h1 hu1 h2 hu2
    have hwf : Fits (NArr.padLeft S.length w) S := by rw [hwp]; exact zipWith_bd_fits h2 hu2
    obtain ⟨v, hv, hvl, hvf, hvw, hvu, hvc⟩ := ih w (by omega) hwf (fun x hx => h3 x (by simp [hx]))
    refine ⟨v, by rw [loopOpt, hw]; exact hv, hvl, hvf, by omega, ?_, ?_⟩
    · intro x hx
      rcases List.mem_cons.1 hx with rfl | hx
      · omega
      · exact hvu x hx
    · intro k n hk hc
      apply hvc k n hk
      -- the place is covered by the accumulator or the first operand
      have hbd : ∀ {d e : Nat}, (NArr.padLeft S.length acc)[k]? = some d →
          (NArr.padLeft S.length u)[k]? = some e → (NArr.padLeft S.length w)[k]? = some (bd d e) := by
        intro d e hd he
        rw [hwp, List.getElem?_zipWith, hd, he]
      have hkS : k < S.length := (List.getElem?_eq_some_iff.1 hk).1
      have ha : k < (NArr.padLeft S.length acc).length := by rw [length_padLeft' h1]; exact hkS
      have hb : k < (NArr.padLeft S.length u).length := by rw [length_padLeft' hu1]; exact hkS
      have hda : (NArr.padLeft S.length acc)[k]? = some (NArr.padLeft S.length acc)[k] := List.getElem?_eq_getElem ha
      have hdu : (NArr.padLeft S.length u)[k]? = some (NArr.padLeft S.length u)[k] := List.getElem?_eq_getElem hb
      have hSk := (List.getElem?_eq_some_iff.1 hk).2
      have fa := List.Forall₂.get h2 ha hkS
      have fu := List.Forall₂.get hu2 hb hkS
      simp only [List.get_eq_getElem] at fa fu
      rw [hSk] at fa fu
      rcases hc with hc | ⟨x, hx, hc⟩
      · left
        rw [hbd hda hdu]
        rw [hda] at hc
        have hc' := Option.some.inj hc
        rw [hc']
        unfold bd
        split <;> first | rfl | (congr 1; omega)
      · rcases List.mem_cons.1 hx with rfl | hx
        · left
          rw [hbd hda hdu]
          rw [hdu] at hc
          have hc' := Option.some.inj hc
          rw [hc']
          unfold bd
          split <;> first | rfl | (congr 1; omega)
        · exact Or.inr ⟨x, hx, hc⟩

/-- Broadcasting several shapes. -/
theorem bcastAll_eq {S : List Nat} {us : List (List Nat)}
    (h1 : ∀ u ∈ us, u.length ≤ S.length ∧ Fits (NArr.padLeft S.length u) S)
    (h2 : S ≠ [] → ∃ u ∈ us, u.length = S.length)
    (h3 : ∀ (k n : Nat), S[k]? = some n → ∃ u ∈ us, (NArr.padLeft S.length u)[k]? = some n) :
    NArr.bcastAll us = some S := by
  have f0 : Fits (NArr.padLeft S.length []) S := by
    unfold NArr.padLeft Fits
    simp only [List.length_nil, Nat.sub_zero, List.append_nil]
    rw [List.forall₂_iff_get]
    refine ⟨by simp, fun k hk _ => ?_⟩
    simp
  obtain ⟨v, hv, hvl, hvf, _, hvu, hvc⟩ := loop_bcast_fits us [] (by simp) f0 h1
  unfold NArr.bcastAll
  rw [hv]
  have hl : v.length = S.length := by
    by_cases hS : S = []
    · subst hS; simp at hvl; simp [hvl]
    · obtain ⟨u, hu, e⟩ := h2 hS
      have := hvu u hu
      omega
  have hvp : NArr.padLeft S.length v = v := by rw [← hl]; exact padLeft_self v
  congr 1
  refine List.ext_getElem? fun k => ?_
  by_cases hk : k < S.length
  · have := hvc k S[k] (List.getElem?_eq_getElem hk) (Or.inr (h3 k _ (List.getElem?_eq_getElem hk)))
    rw [hvp] at this
    rw [this, List.getElem?_eq_getElem hk]
  · rw [List.getElem?_eq_none (by omega), List.getElem?_eq_none (by omega)]

/-! ### Operands -/

/-- `b` holds `a` with leading axes among the last ones of `into`, each as long as the index or of
length 1, the latter only for indices that `a` does not depend on. -/
structure Spread (a b : NArr α) (axes into : List Nat) (σ : Nat → Nat) : Prop where
  ex : ∃ (t : List Nat) (D : Nat → Nat), t <:+ into ∧ Placed a b axes t D [] ∧
    (∀ x ∈ t, D x = 1 ∨ D x = σ x) ∧ (∀ x ∈ axes, x ∈ t ∧ D x = σ x)

theorem padLeft_suffix {t into : List Nat} (h : t <:+ into) (D : Nat → Nat) :
    ∃ p, into = p ++ t ∧ NArr.padLeft into.length (t.map D) = p.map (fun _ => 1) ++ t.map D := by
  obtain ⟨p, rfl⟩ := h
  refine ⟨p, rfl, ?_⟩
  unfold NArr.padLeft
  congr 1
  rw [List.map_const']
  congr 1
  simp

theorem Spread.fits {a b : NArr α} {axes into : List Nat} {σ : Nat → Nat} (h : Spread a b axes into σ) :
    b.shape.length ≤ into.length ∧ Fits (NArr.padLeft into.length b.shape) (into.map σ) := by
  obtain ⟨t, D, ht, hp, hD, _⟩ := h.ex
  obtain ⟨p, hpt, e⟩ := padLeft_suffix ht D
  rw [hp.shape, List.append_nil]
  refine ⟨by simpa using ht.length_le, ?_⟩
  rw [e, hpt, List.map_append]
  refine List.rel_append (R := fun d n : Nat => d = 1 ∨ d = n) ?_ ?_
  · rw [List.forall₂_map_left_iff, List.forall₂_map_right_iff, List.forall₂_same]
    exact fun _ _ => Or.inl rfl
  · rw [List.forall₂_map_left_iff, List.forall₂_map_right_iff, List.forall₂_same]
    exact hD

theorem Spread.covers {a b : NArr α} {axes into : List Nat} {σ : Nat → Nat} (h : Spread a b axes into σ)
    (hi : into.Nodup) {k x : Nat} (hk : into[k]? = some x) (hx : x ∈ axes) :
    (NArr.padLeft into.length b.shape)[k]? = some (σ x) := by
  obtain ⟨t, D, ht, hp, hD, hax⟩ := h.ex
  obtain ⟨p, hpt, e⟩ := padLeft_suffix ht D
  rw [hp.shape, List.append_nil, e]
  have hpx : p.length ≤ k := by
    by_contra hlt
    have : into[k]? = p[k]? := by rw [hpt, List.getElem?_append_left (by omega)]
    rw [this] at hk
    have h1 := List.mem_of_getElem? hk
    rw [hpt] at hi
    exact (List.nodup_append.1 hi).2.2 x h1 x (hax x hx).1 rfl
  rw [List.getElem?_append_right (by simpa using hpx), List.length_map, List.getElem?_map]
  have : into[k]? = t[k - p.length]? := by rw [hpt, List.getElem?_append_right hpx]
  rw [← this, hk, Option.map_some, (hax x hx).2]

theorem Spread.full {a b : NArr α} {axes into : List Nat} {σ : Nat → Nat} (h : Spread a b axes into σ)
    (hi : into.Nodup) {x : Nat} (h0 : into[0]? = some x) (hx : x ∈ axes) : b.shape.length = into.length := by
  obtain ⟨t, D, ht, hp, hD, hax⟩ := h.ex
  rw [hp.shape, List.append_nil, List.length_map]
  obtain ⟨p, rfl⟩ := ht
  cases p with
  | nil => rfl
  | cons y p =>
    simp at h0
    subst h0
    simp at hi
    exact absurd (hax y hx).1 hi.1.2

theorem zipWith_map_same {γ : Type} (f : Nat → Nat → γ) (D ρ : Nat → Nat) (t : List Nat) :
    List.zipWith f (t.map D) (t.map ρ) = t.map fun x => f (D x) (ρ x) := by
  induction t with
  | nil => rfl
  | cons x t ih => simp [ih]

theorem Spread.read {a b : NArr α} {axes into : List Nat} {σ : Nat → Nat} (h : Spread a b axes into σ)
    {ρ : Nat → Nat} (hρ : ∀ x ∈ into, ρ x < σ x) :
    b.get? (NArr.bcastIx b.shape (into.map ρ)) = a.get? (axes.map ρ) := by
  obtain ⟨t, D, ht, hp, hD, hax⟩ := h.ex
  have e : NArr.bcastIx b.shape (into.map ρ) = t.map fun x => if D x = 1 then 0 else ρ x := by
    unfold NArr.bcastIx
    rw [hp.shape, List.append_nil]
    obtain ⟨p, rfl⟩ := ht
    have : (((p ++ t).map ρ).drop (((p ++ t).map ρ).length - (t.map D).length)) = t.map ρ := by
      rw [List.map_append, List.drop_left' (by simp)]
    rw [this, zipWith_map_same]
  have g := hp.get (fun x => if D x = 1 then 0 else ρ x) [] (by
    intro x hx
    have h1 := hρ x (ht.subset hx)
    rcases hD x hx with h | h
    · rw [if_pos h, h]; exact Nat.one_pos
    · split
      · rename_i h'; rw [h']; exact Nat.one_pos
      · rw [h]; exact h1) (by simp)
  rw [e]
  rw [List.append_nil, List.append_nil] at g
  rw [g]
  congr 1
  refine List.map_congr_left fun x hx => ?_
  obtain ⟨h1, h2⟩ := hax x hx
  have := hρ x (ht.subset h1)
  rw [← h2] at this
  split <;> omega

/-- An elementwise operation on operands laid out along subsets of the same axes. -/
theorem zipAll_spread {f : List α → Option β} {into : List Nat} {σ : Nat → Nat} (hi : into.Nodup)
    {ops : List (List Nat × NArr α × NArr α)} (hops : ∀ o ∈ ops, Spread o.2.1 o.2.2 o.1 into σ)
    (hcov : ∀ x ∈ into, ∃ o ∈ ops, x ∈ o.1)
    (hf : ∀ ρ : Nat → Nat, (∀ x ∈ into, ρ x < σ x) →
      ((mapOpt (fun o : List Nat × NArr α × NArr α => o.2.1.get? (o.1.map ρ)) ops).bind f).isSome) :
    ∃ c, NArr.zipAll f (ops.map fun o => o.2.2) = some c ∧ c.shape = into.map σ ∧
      ∀ ρ : Nat → Nat, (∀ x ∈ into, ρ x < σ x) → c.get? (into.map ρ) =
        (mapOpt (fun o : List Nat × NArr α × NArr α => o.2.1.get? (o.1.map ρ)) ops).bind f := by
  have hl : into.length = (into.map σ).length := by simp
  have hb : NArr.bcastAll ((ops.map fun o => o.2.2).map NArr.shape) = some (into.map σ) := by
    refine bcastAll_eq ?_ ?_ ?_
    · intro u hu
      rw [List.map_map, List.mem_map] at hu
      obtain ⟨o, ho, rfl⟩ := hu
      rw [← hl]
      exact (hops o ho).fits
    · intro hS
      cases into with
      | nil => simp at hS
      | cons x into =>
        obtain ⟨o, ho, hx⟩ := hcov x (by simp)
        refine ⟨o.2.2.shape, ?_, ?_⟩
        · rw [List.map_map]; exact List.mem_map.2 ⟨o, ho, rfl⟩
        · rw [← hl]; exact (hops o ho).full hi rfl hx
    · intro k n hk
      rw [List.getElem?_map, Option.map_eq_some_iff] at hk
      obtain ⟨x, hk, rfl⟩ := hk
      obtain ⟨o, ho, hx⟩ := hcov x (List.mem_of_getElem? hk)
      refine ⟨o.2.2.shape, ?_, ?_⟩
      · rw [List.map_map]; exact List.mem_map.2 ⟨o, ho, rfl⟩
      · rw [← hl]; exact (hops o ho).covers hi hk hx
  have hread : ∀ ρ : Nat → Nat, (∀ x ∈ into, ρ x < σ x) →
      mapOpt (fun b : NArr α => b.get? (NArr.bcastIx b.shape (into.map ρ))) (ops.map fun o => o.2.2) =
        mapOpt (fun o : List Nat × NArr α × NArr α => o.2.1.get? (o.1.map ρ)) ops := by
    intro ρ hρ
    rw [mapOpt_map]
    exact mapOpt_congr fun o ho => (hops o ho).read hρ
  unfold NArr.zipAll
  rw [hb]
  simp only [Option.bind_some]
  obtain ⟨c, hc, hcs, hcg⟩ := NArr.ofFn?_spec (s := into.map σ) (f := fun ix =>
      (mapOpt (fun a : NArr α => a.get? (NArr.bcastIx a.shape ix)) (ops.map fun o => o.2.2)).bind f) (by
    intro ix hix
    obtain ⟨ρ, jx, rfl, hρ, hj⟩ := inRange_assignment hi (s := []) (by simpa using hix)
    rw [inRange_nil] at hj
    subst hj
    rw [List.append_nil, hread ρ hρ]
    exact hf ρ hρ)
  refine ⟨c, hc, hcs, fun ρ hρ => ?_⟩
  rw [hcg _ (inRange_map.2 hρ), hread ρ hρ]

/-- Aligned operands are spread along the axes. -/
theorem Placed.spread {a b : NArr α} {axes into : List Nat} {leftpad : Bool} {σ : Nat → Nat}
    (h : Placed a b axes (alignedAxes axes into leftpad) (fun x => if x ∈ axes then σ x else 1) [])
    (hsub : ∀ x ∈ axes, x ∈ into) : Spread a b axes into σ := by
  refine ⟨_, _, ?_, h, ?_, ?_⟩
  · unfold alignedAxes
    split
    · exact List.suffix_refl _
    · exact trimmed_suffix axes into
  · intro x _
    split
    · exact Or.inr rfl
    · exact Or.inl rfl
  · intro x hx
    refine ⟨?_, if_pos hx⟩
    unfold alignedAxes
    split
    · exact hsub x hx
    · have : x ∈ (trimmed axes into).filter fun x => decide (x ∈ axes) := by
        rw [filter_trimmed, List.mem_filter]
        exact ⟨hsub x hx, by simpa using hx⟩
      exact (List.mem_filter.1 this).1

end Verif.Codegen
