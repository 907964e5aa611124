import Verif.Codegen.MeansOps

/-! Element-wise operations, one after another, on operands that are aligned with the same axes. -/

namespace Verif.Codegen
open Verif.Arr Verif.Phi Verif.Term Verif.Yarr
variable {α β : Type}

/-- `b` has axes among the last ones of `into`, each as long as the index or of length 1; those of `axes` have
their full length. For every assignment of the indices in `into` it holds the value `v`. -/
structure Reads (b : NArr α) (axes into : List Nat) (σ : Nat → Nat) (v : (Nat → Nat) → Option α) : Prop where
  ex : ∃ (t : List Nat) (D : Nat → Nat), t <:+ into ∧ b.shape = t.map D ∧ (∀ x ∈ into, D x = 1 ∨ D x = σ x) ∧
    (∀ x ∈ into, x ∉ t → D x = 1) ∧ (∀ x ∈ axes, x ∈ t ∧ D x = σ x)
  read : ∀ ρ : Nat → Nat, (∀ x ∈ into, ρ x < σ x) → b.get? (NArr.bcastIx b.shape (into.map ρ)) = v ρ

theorem Spread.reads {a b : NArr α} {axes into : List Nat} {σ : Nat → Nat} (h : Spread a b axes into σ) :
    Reads b axes into σ fun ρ => a.get? (axes.map ρ) := by
  refine ⟨?_, fun ρ hρ => h.read hρ⟩
  obtain ⟨t, D, ht, hp, hD, hax⟩ := h.ex
  refine ⟨t, fun x => if x ∈ t then D x else 1, ht, ?_, ?_, ?_, ?_⟩
  · rw [hp.shape, List.append_nil]
    exact List.map_congr_left fun x hx => (if_pos hx).symm
  · intro x _
    dsimp only
    split
    · exact hD x (by assumption)
    · exact Or.inl rfl
  · intro x _ hx
    exact if_neg hx
  · intro x hx
    exact ⟨(hax x hx).1, (if_pos (hax x hx).1).trans (hax x hx).2⟩

theorem padLeft_total {t into : List Nat} (h : t <:+ into) (hn : into.Nodup) {D : Nat → Nat}
    (hD : ∀ x ∈ into, x ∉ t → D x = 1) : NArr.padLeft into.length (t.map D) = into.map D := by
  obtain ⟨p, rfl, e⟩ := padLeft_suffix h D
  rw [e, List.map_append]
  congr 1
  refine List.map_congr_left fun x hx => ?_
  exact (hD x (by simp [hx]) fun hx' => (List.nodup_append.1 hn).2.2 x hx x hx' rfl).symm

theorem bcastIx_suffix {t into : List Nat} (h : t <:+ into) (D ρ : Nat → Nat) :
    NArr.bcastIx (t.map D) (into.map ρ) = t.map fun x => if D x = 1 then 0 else ρ x := by
  unfold NArr.bcastIx
  obtain ⟨p, rfl⟩ := h
  have : (((p ++ t).map ρ).drop (((p ++ t).map ρ).length - (t.map D).length)) = t.map ρ := by
    rw [List.map_append, List.drop_left' (by simp)]
  rw [this, zipWith_map_same]

/-- An operation on two of them. -/
theorem zip2_reads {f : List α → Option β} {into : List Nat} {σ : Nat → Nat} (hi : into.Nodup)
    {a b : NArr α} {xs ys : List Nat} {v w : (Nat → Nat) → Option α} (ha : Reads a xs into σ v)
    (hb : Reads b ys into σ w) (hσ : ∀ x ∈ into, 0 < σ x)
    (hf : ∀ ρ : Nat → Nat, (∀ x ∈ into, ρ x < σ x) →
      ∃ s t r, v ρ = some s ∧ w ρ = some t ∧ f [s, t] = some r) :
    ∃ c, NArr.zipAll f [a, b] = some c ∧ Reads c (xs ++ ys) into σ fun ρ =>
      (v ρ).bind fun s => (w ρ).bind fun t => f [s, t] := by
  obtain ⟨t₁, D₁, ht₁, hs₁, hD₁, hn₁, hx₁⟩ := ha.ex
  obtain ⟨t₂, D₂, ht₂, hs₂, hD₂, hn₂, hx₂⟩ := hb.ex
  have hS : into.length = (into.map σ).length := by simp
  have p₁ := padLeft_total ht₁ hi hn₁
  have p₂ := padLeft_total ht₂ hi hn₂
  have f₁ : Fits (NArr.padLeft (into.map σ).length a.shape) (into.map σ) := by
    rw [hs₁, ← hS, p₁]
    unfold Fits
    rw [List.forall₂_map_left_iff, List.forall₂_map_right_iff, List.forall₂_same]
    exact hD₁
  have f₂ : Fits (NArr.padLeft (into.map σ).length b.shape) (into.map σ) := by
    rw [hs₂, ← hS, p₂]
    unfold Fits
    rw [List.forall₂_map_left_iff, List.forall₂_map_right_iff, List.forall₂_same]
    exact hD₂
  obtain ⟨u, hu, hul, hup⟩ := bcast_fits (S := into.map σ) (by rw [hs₁]; simpa using ht₁.length_le)
    (by rw [hs₂]; simpa using ht₂.length_le) f₁ f₂
  have hnil : NArr.bcast [] a.shape = some a.shape := by
    have := bcast_fits (S := into.map σ) (s := []) (t := a.shape) (by simp) (by rw [hs₁]; simpa using ht₁.length_le)
      (by
        simp only [NArr.padLeft, List.length_nil, Nat.sub_zero, List.append_nil, List.length_map]
        unfold Fits
        rw [List.forall₂_iff_get]
        exact ⟨by simp, fun i _ _ => Or.inl (by simp)⟩) f₁
    obtain ⟨u', h1, h2, h3⟩ := this
    rw [h1]
    congr 1
    simp only [List.length_nil, Nat.zero_le, sup_of_le_right] at h2
    have h4 : NArr.padLeft (into.map σ).length u' = NArr.padLeft (into.map σ).length a.shape := by
      rw [h3]
      have hl : (NArr.padLeft (into.map σ).length a.shape).length = (into.map σ).length :=
        length_padLeft' (by rw [hs₁]; simpa using ht₁.length_le)
      refine List.ext_getElem ?_ fun k h5 h6 => ?_
      · rw [List.length_zipWith, hl, length_padLeft' (by simp), Nat.min_self]
      · rw [List.getElem_zipWith]
        simp [NArr.padLeft, bd]
    unfold NArr.padLeft at h4
    exact (List.append_inj' h4 h2).2
  let D : Nat → Nat := fun x => bd (D₁ x) (D₂ x)
  let t := if t₁.length ≤ t₂.length then t₂ else t₁
  have ht : t <:+ into := by dsimp only [t]; split <;> assumption
  have htl : t.length = max t₁.length t₂.length := by dsimp only [t]; split <;> omega
  have hsub₁ : t₁ <:+ t := List.suffix_of_suffix_length_le ht₁ ht (by omega)
  have hsub₂ : t₂ <:+ t := List.suffix_of_suffix_length_le ht₂ ht (by omega)
  have hus : u = t.map D := by
    rw [hs₁, hs₂, ← hS, p₁, p₂, zipWith_map_same] at hup
    have e : NArr.padLeft into.length (t.map D) = into.map D := padLeft_total ht hi (by
      intro x hx hxt
      dsimp only [D]
      rw [hn₁ x hx fun h => hxt (hsub₁.subset h), hn₂ x hx fun h => hxt (hsub₂.subset h)]
      rfl)
    have e2 : NArr.padLeft into.length u = NArr.padLeft into.length (t.map D) := hup.trans e.symm
    unfold NArr.padLeft at e2
    refine (List.append_inj' e2 ?_).2
    rw [hul, hs₁, hs₂]
    simpa using htl.symm
  have hD : ∀ x ∈ into, D x = 1 ∨ D x = σ x := fun x hx => bd_fits (hD₁ x hx) (hD₂ x hx)
  have hread : ∀ ρ : Nat → Nat, (∀ x ∈ into, ρ x < σ x) → ∀ {e : NArr α} {t' : List Nat} {D' : Nat → Nat},
      t' <:+ t → t' <:+ into → e.shape = t'.map D' → (∀ x ∈ t', D' x ≠ 1 → D x ≠ 1) →
      NArr.bcastIx e.shape (t.map fun x => if D x = 1 then 0 else ρ x) = NArr.bcastIx e.shape (into.map ρ) := by
    intro ρ _ e t' D' h1 h2 h3 h4
    rw [h3, bcastIx_suffix h1, bcastIx_suffix h2]
    refine List.map_congr_left fun x hx => ?_
    by_cases hd : D' x = 1
    · simp [hd]
    · simp [hd, h4 x hx hd]
  have hne₁ : ∀ x ∈ t₁, D₁ x ≠ 1 → D x ≠ 1 := by
    intro x _ h
    dsimp only [D, bd]
    rw [if_neg h]; exact h
  have hne₂ : ∀ x ∈ t₂, D₂ x ≠ 1 → D x ≠ 1 := by
    intro x _ h
    dsimp only [D, bd]
    split
    · exact h
    · assumption
  have hval : ∀ ρ : Nat → Nat, (∀ x ∈ into, ρ x < σ x) →
      (mapOpt (fun e : NArr α => e.get? (NArr.bcastIx e.shape (t.map fun x => if D x = 1 then 0 else ρ x))) [a, b]).bind f =
        (v ρ).bind fun s => (w ρ).bind fun t => f [s, t] := by
    intro ρ hρ
    simp only [mapOpt]
    rw [hread ρ hρ hsub₁ ht₁ hs₁ hne₁, hread ρ hρ hsub₂ ht₂ hs₂ hne₂, ha.read ρ hρ, hb.read ρ hρ]
    cases v ρ <;> cases w ρ <;> rfl
  obtain ⟨c, hc, hcs, hcg⟩ := NArr.ofFn?_spec (s := u) (f := fun ix =>
      (mapOpt (fun a : NArr α => a.get? (NArr.bcastIx a.shape ix)) [a, b]).bind f) (by
    intro ix hix
    rw [hus] at hix
    obtain ⟨ρ, jx, rfl, hρ, hj⟩ := inRange_assignment (hi.sublist ht.sublist) (s := []) (by simpa using hix)
    rw [inRange_nil] at hj
    subst hj
    let ρ' : Nat → Nat := fun x => if x ∈ t then ρ x else 0
    have hρ' : ∀ x ∈ into, ρ' x < σ x := by
      intro x hx
      dsimp only [ρ']
      split
      · have h1 := hρ x (by assumption)
        rcases hD x hx with h | h
        · rw [h] at h1
          have := hσ x hx
          omega
        · rw [← h]; exact h1
      · exact hσ x hx
    have e : t.map ρ = t.map fun x => if D x = 1 then 0 else ρ' x := by
      refine List.map_congr_left fun x hx => ?_
      have h1 := hρ x hx
      dsimp only [ρ']
      rw [if_pos hx]
      split
      · rename_i h; rw [h] at h1; omega
      · rfl
    rw [List.append_nil, e, hval ρ' hρ']
    obtain ⟨s, r, q, h1, h2, h3⟩ := hf ρ' hρ'
    rw [h1, h2]
    simp [h3])
  refine ⟨c, ?_, ⟨t, D, ht, by rw [hcs, hus], hD, ?_, ?_⟩, ?_⟩
  · unfold NArr.zipAll NArr.bcastAll
    simp only [List.map_cons, List.map_nil, loopOpt, hnil, Option.bind_some, hu]
    exact hc
  · intro x hx hxt
    dsimp only [D]
    rw [hn₁ x hx fun h => hxt (hsub₁.subset h), hn₂ x hx fun h => hxt (hsub₂.subset h)]
    rfl
  · intro x hx
    rcases List.mem_append.1 hx with hx | hx
    · obtain ⟨h1, h2⟩ := hx₁ x hx
      refine ⟨hsub₁.subset h1, ?_⟩
      have hx' := ht₁.subset h1
      dsimp only [D, bd]
      split
      · rcases hD₂ x hx' with h | h
        · rw [← h2]; omega
        · exact h
      · exact h2
    · obtain ⟨h1, h2⟩ := hx₂ x hx
      refine ⟨hsub₂.subset h1, ?_⟩
      have hx' := ht₂.subset h1
      dsimp only [D, bd]
      split
      · exact h2
      · rcases hD₁ x hx' with h | h
        · exact absurd h (by assumption)
        · exact h
  · intro ρ hρ
    rw [hcs, hus, bcastIx_suffix ht, hcg _ (by
      rw [hus, inRange_map]
      intro x hx
      have h1 := hρ x (ht.subset hx)
      rcases hD x (ht.subset hx) with h | h
      · rw [if_pos h, h]; exact Nat.one_pos
      · split
        · rename_i h'; rw [h']; exact Nat.one_pos
        · rw [h]; exact h1)]
    exact hval ρ hρ

/-- When every axis has its full length, the value is at the position given by the assignment. -/
theorem Reads.full {b : NArr α} {axes into : List Nat} {σ : Nat → Nat} {v : (Nat → Nat) → Option α}
    (h : Reads b axes into σ v) (hi : into.Nodup) (hc : ∀ x ∈ into, x ∈ axes) :
    b.shape = into.map σ ∧ ∀ ρ : Nat → Nat, (∀ x ∈ into, ρ x < σ x) → b.get? (into.map ρ) = v ρ := by
  obtain ⟨t, D, ht, hs, hD, hn, hx⟩ := h.ex
  have e : t = into := by
    obtain ⟨p, rfl⟩ := ht
    cases p with
    | nil => rfl
    | cons x p =>
      have h1 := (hx x (hc x (by simp))).1
      simp only [List.cons_append, List.nodup_cons, List.mem_append, not_or] at hi
      exact absurd h1 hi.1.2
  subst e
  have hs' : b.shape = t.map σ := by
    rw [hs]
    exact List.map_congr_left fun x hx' => (hx x (hc x hx')).2
  refine ⟨hs', fun ρ hρ => ?_⟩
  rw [← h.read ρ hρ, hs', bcastIx_suffix ht]
  congr 1
  refine List.map_congr_left fun x hx' => ?_
  have := hρ x hx'
  split <;> omega

end Verif.Codegen
