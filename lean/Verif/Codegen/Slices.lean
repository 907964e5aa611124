import Verif.Codegen.Env
import Verif.Backend.Reduce

/-! The array operations of the reduction loop (`array_backend.py:104-155`) on arrays that hold the values of an
expression, and the slices that the loop combines. -/

set_option linter.unusedSectionVars false

namespace Verif.Codegen
open Verif.Phi Verif.Term Verif.Yarr Verif.Arr
open Verif.Backend (treeReduce treeLoop accStep batch everyOther)

section arrays
variable {α : Type}

/-- Adding an axis of length 1 after the first `p.length`. -/
theorem unsqueeze_at {a : NArr α} {p s : List Nat} (ha : a.shape = p ++ s) :
    ∃ c, a.unsqueeze [p.length] = some c ∧ c.shape = p ++ 1 :: s ∧
      ∀ ix jx, InRange p ix → InRange s jx → c.get? (ix ++ 0 :: jx) = a.get? (ix ++ jx) := by
  have hs : NArr.spread [p.length] 1 0 ([p.length].length + a.rank) a.shape = p ++ 1 :: s := by
    rw [show [p.length].length + a.rank = p.length + (s.length + 1) by unfold NArr.rank; rw [ha]; simp; omega, ha]
    rw [spread_append (by simp), Nat.zero_add, spread_pos (by simp), spread_self (by simp)]
  have hd : ∀ ix jx (k : Nat), InRange p ix → InRange s jx → NArr.dropAt [p.length] 0 (ix ++ k :: jx) = ix ++ jx := by
    intro ix jx k hi hj
    rw [dropAt_append (by simp [hi.length]), Nat.zero_add, NArr.dropAt, if_pos (by simp [hi.length]),
      dropAt_none (by simp [hi.length])]
  unfold NArr.unsqueeze
  rw [if_pos ⟨by simp, by simp [NArr.rank, ha]; omega⟩, hs]
  obtain ⟨c, hc, hcs, hcg⟩ := NArr.reindex_spec (a := a) (s := p ++ 1 :: s)
    (g := fun ix => NArr.dropAt [p.length] 0 ix) (by
    intro ix hix
    obtain ⟨i₁, i₂, rfl, h1, h2⟩ := inRange_append_left.1 hix
    rcases i₂ with _ | ⟨k, i₂⟩
    · simp at h2
    · rw [inRange_cons] at h2
      rw [hd i₁ i₂ k h1 h2.2, ha, inRange_append h1.length]
      exact ⟨h1, h2.2⟩)
  refine ⟨c, hc, hcs, fun ix jx hi hj => ?_⟩
  rw [hcg _ ((inRange_append hi.length).2 ⟨hi, by rw [inRange_cons]; exact ⟨Nat.one_pos, hj⟩⟩)]
  exact congrArg _ (hd ix jx 0 hi hj)

/-- Choosing slices along one axis. -/
theorem reindex_at {a : NArr α} {p s : List Nat} {m c : Nat} (ha : a.shape = p ++ m :: s) (g : Nat → Nat)
    (hg : ∀ j < c, g j < m) :
    ∃ b, a.reindex (a.shape.set p.length c) (fun ix => ix.set p.length (g (ix.getD p.length 0))) = some b ∧
      b.shape = p ++ c :: s ∧
      ∀ ix j jx, InRange p ix → j < c → InRange s jx → b.get? (ix ++ j :: jx) = a.get? (ix ++ g j :: jx) := by
  have hs : a.shape.set p.length c = p ++ c :: s := by rw [ha]; simp
  have hi' : ∀ ix (j : Nat) jx, InRange p ix → (ix ++ j :: jx).set p.length (g ((ix ++ j :: jx).getD p.length 0)) =
      ix ++ g j :: jx := by
    intro ix j jx hi
    rw [hi.length]; simp
  rw [hs]
  obtain ⟨b, hb, hbs, hbg⟩ := NArr.reindex_spec (a := a) (s := p ++ c :: s)
    (g := fun ix => ix.set p.length (g (ix.getD p.length 0))) (by
    intro ix hix
    obtain ⟨i₁, i₂, rfl, h1, h2⟩ := inRange_append_left.1 hix
    rcases i₂ with _ | ⟨k, i₂⟩
    · simp at h2
    · rw [inRange_cons] at h2
      rw [hi' i₁ k i₂ h1, ha, inRange_append h1.length, inRange_cons]
      exact ⟨h1, hg k h2.1, h2.2⟩)
  refine ⟨b, hb, hbs, fun ix j jx hi hj hjx => ?_⟩
  rw [hbg _ ((inRange_append hi.length).2 ⟨hi, by rw [inRange_cons]; exact ⟨hj, hjx⟩⟩)]
  exact congrArg _ (hi' ix j jx hi)

end arrays

/-! ### Arrays that hold values -/

variable {F : Type} [FloatOps F]

/-- An operation on each array. -/
theorem Holds.mapOpt {S S' : Finset Sym} {σ σ' : Nat → Nat} {axes axes' : List Nat} {as : List (A F)}
    {ss : List (List Nat)} {v : (Nat → Nat) → Option (D F)} {f : A F → Option (A F)} {g : (Nat → Nat) → Nat → Nat}
    (h : Holds S σ axes as ss v)
    (hf : ∀ (a : A F) s, a.shape = axes.map σ ++ s → ∃ b, f a = some b ∧ b.shape = axes'.map σ' ++ s ∧
      ∀ ρ jx, Valid (inScope S') σ' ρ → InRange s jx → b.get? (axes'.map ρ ++ jx) = a.get? (axes.map (g ρ) ++ jx))
    (hg : ∀ ρ, Valid (inScope S') σ' ρ → Valid (inScope S) σ (g ρ)) :
    ∃ bs, Phi.mapOpt f as = some bs ∧ bs.length = as.length ∧ Holds S' σ' axes' bs ss fun ρ => v (g ρ) := by
  have key : ∃ bs, Phi.mapOpt f as = some bs ∧ bs.length = as.length ∧
      List.Forall₂ (fun (b : A F) s => b.shape = axes'.map σ' ++ s) bs ss ∧
      ∀ ρ, Valid (inScope S') σ' ρ → SameViews (views axes (g ρ) as ss) (views axes' ρ bs ss) := by
    obtain ⟨h, -⟩ := h
    induction h with
    | nil => exact ⟨[], rfl, rfl, .nil, fun ρ _ => .nil⟩
    | @cons a s as ss h1 _ ih =>
      obtain ⟨bs, h2, h2', h3, h4⟩ := ih
      obtain ⟨b, h5, h6, h7⟩ := hf a s h1
      exact ⟨b :: bs, by simp [Phi.mapOpt, h5, h2], by simp [h2'], .cons h6 h3, fun ρ hρ =>
        .cons ⟨rfl, fun jx hj => (h7 ρ jx hρ hj).symm⟩ (h4 ρ hρ)⟩
  obtain ⟨bs, h1, h1', h2, h3⟩ := key
  refine ⟨bs, h1, h1', h2, fun ρ hρ => ?_⟩
  obtain ⟨w, h4, h5⟩ := h.2 _ (hg ρ hρ)
  exact ⟨w, h4, h5.congr (h3 ρ hρ)⟩

theorem Holds.congr {S : Finset Sym} {σ : Nat → Nat} {axes : List Nat} {as : List (A F)}
    {ss : List (List Nat)} {v v' : (Nat → Nat) → Option (D F)} (h : Holds S σ axes as ss v)
    (e : ∀ ρ, Valid (inScope S) σ ρ → v ρ = v' ρ) : Holds S σ axes as ss v' :=
  ⟨h.1, fun ρ hρ => by rw [← e ρ hρ]; exact h.2 ρ hρ⟩

variable {S : Finset Sym} {σ : Nat → Nat} {axes : List Nat} {as : List (A F)}
    {ss : List (List Nat)} {v : (Nat → Nat) → Option (D F)} {B : Nat}

theorem map_upd {axes : List Nat} {B : Nat} (hB : B ∉ axes) {β : Type} (σ : Nat → β) (m : β) :
    (axes ++ [B]).map (upd σ B m) = axes.map σ ++ [m] := by
  rw [List.map_append]
  congr 1
  · refine List.map_congr_left fun j hj => ?_
    have : j ≠ B := fun e => hB (e ▸ hj)
    simp [upd, this]
  · simp [upd]

theorem map_last {axes : List Nat} {B : Nat} {β : Type} (ρ : Nat → β) :
    (axes ++ [B]).map ρ = axes.map ρ ++ [ρ B] := by simp

/-- The new index is within its range, the others within theirs. -/
theorem valid_batch (hB : Sym.idx B ∉ S) {m : Nat} {ρ : Nat → Nat} :
    Valid (inScope (insert (.idx B) S)) (upd σ B m) ρ ↔ Valid (inScope S) σ ρ ∧ ρ B < m := by
  constructor
  · intro hρ
    refine ⟨fun j hj => ?_, ?_⟩
    · have := hρ j (Finset.mem_insert_of_mem hj)
      have hne : j ≠ B := fun e => hB (e ▸ hj)
      simpa [upd, hne] using this
    · simpa [upd] using hρ B (Finset.mem_insert_self _ _)
  · rintro ⟨h1, h2⟩ j hj
    unfold upd
    split
    · rename_i e; rw [e]; exact h2
    · rename_i hne
      rcases Finset.mem_insert.1 hj with e | e
      · cases e; exact absurd rfl hne
      · exact h1 j e

theorem valid_upd (hB : Sym.idx B ∉ S) {k : Nat} {ρ : Nat → Nat} :
    Valid (inScope S) σ (upd ρ B k) ↔ Valid (inScope S) σ ρ := by
  have : ∀ j, inScope S j → upd ρ B k j = ρ j := fun j hj => by
    have hne : j ≠ B := fun e => hB (e ▸ hj)
    simp [upd, hne]
  constructor
  · intro h j hj; rw [← this j hj]; exact h j hj
  · intro h j hj; rw [this j hj]; exact h j hj

/-- Slices chosen along the batch. -/
theorem Holds.slices (hB : Sym.idx B ∉ S) (hax : ∀ i ∈ axes, Sym.idx i ∈ S) {m c : Nat} (g : Nat → Nat)
    (hg : ∀ j < c, g j < m) {f : A F → Option (A F)}
    (hf : ∀ a : A F, axes.length < a.rank →
      f a = a.reindex (a.shape.set axes.length c) (fun ix => ix.set axes.length (g (ix.getD axes.length 0))))
    (h : Holds (insert (.idx B) S) (upd σ B m) (axes ++ [B]) as ss v) :
    ∃ bs, Phi.mapOpt f as = some bs ∧ bs.length = as.length ∧
      Holds (insert (.idx B) S) (upd σ B c) (axes ++ [B]) bs ss fun ρ => v (upd ρ B (g (ρ B))) := by
  have hBa : B ∉ axes := fun e => hB (hax B e)
  refine h.mapOpt (g := fun ρ => upd ρ B (g (ρ B))) (fun a s ha => ?_) fun ρ hρ => ?_
  · rw [map_upd hBa, List.append_assoc, List.singleton_append] at ha
    obtain ⟨b, h1, h2, h3⟩ := reindex_at (p := axes.map σ) ha g hg
    rw [List.length_map] at h1
    refine ⟨b, ?_, ?_, fun ρ jx hρ hj => ?_⟩
    · rw [hf a (by simp [NArr.rank, ha])]; exact h1
    · rw [map_upd hBa, h2]; simp
    · obtain ⟨h4, h5⟩ := (valid_batch hB).1 hρ
      rw [map_upd hBa, map_last, List.append_assoc, List.append_assoc]
      exact h3 _ _ _ (inRange_map.2 fun i hi => h4 i (hax i hi)) h5 hj
  · obtain ⟨h4, h5⟩ := (valid_batch hB).1 hρ
    refine (valid_batch hB).2 ⟨(valid_upd hB).2 h4, ?_⟩
    simpa [upd] using hg _ h5

/-- One slice. -/
theorem Holds.oneSlice (hB : Sym.idx B ∉ S) (hax : ∀ i ∈ axes, Sym.idx i ∈ S) {m k : Nat} (hk : k < m)
    (h : Holds (insert (.idx B) S) (upd σ B m) (axes ++ [B]) as ss v) :
    ∃ bs, Phi.mapOpt (Yarr.oneSlice axes.length k) as = some bs ∧ bs.length = as.length ∧
      Holds (insert (.idx B) S) (upd σ B 1) (axes ++ [B]) bs ss fun ρ => v (upd ρ B k) :=
  h.slices hB hax (fun _ => k) (fun _ _ => hk) fun a ha => by unfold Yarr.oneSlice; rw [if_pos ha]

/-- Every second slice. -/
theorem Holds.stride (hB : Sym.idx B ∉ S) (hax : ∀ i ∈ axes, Sym.idx i ∈ S) {m st c : Nat}
    (hk : ∀ j < c, st + 2 * j < m) (h : Holds (insert (.idx B) S) (upd σ B m) (axes ++ [B]) as ss v) :
    ∃ bs, Phi.mapOpt (Yarr.stride axes.length st c) as = some bs ∧ bs.length = as.length ∧
      Holds (insert (.idx B) S) (upd σ B c) (axes ++ [B]) bs ss fun ρ => v (upd ρ B (st + 2 * ρ B)) :=
  h.slices hB hax (fun j => st + 2 * j) hk fun a ha => by unfold Yarr.stride; rw [if_pos ha]

/-- The accumulator as a batch of one (`array_backend.py:133`). -/
theorem Holds.unsqueeze (hB : Sym.idx B ∉ S) (hax : ∀ i ∈ axes, Sym.idx i ∈ S) (h : Holds S σ axes as ss v) :
    ∃ bs, Phi.mapOpt (NArr.unsqueeze [axes.length]) as = some bs ∧ bs.length = as.length ∧
      Holds (insert (.idx B) S) (upd σ B 1) (axes ++ [B]) bs ss v := by
  have hBa : B ∉ axes := fun e => hB (hax B e)
  refine h.mapOpt (g := fun ρ => ρ) (fun a s ha => ?_) fun ρ hρ => ((valid_batch hB).1 hρ).1
  obtain ⟨b, h1, h2, h3⟩ := unsqueeze_at (p := axes.map σ) ha
  rw [List.length_map] at h1
  refine ⟨b, h1, ?_, fun ρ jx hρ hj => ?_⟩
  · rw [map_upd hBa, h2]; simp
  · obtain ⟨h4, h5⟩ := (valid_batch hB).1 hρ
    have h0 : ρ B = 0 := by omega
    rw [map_last, h0, List.append_assoc]
    exact h3 _ _ (inRange_map.2 fun i hi => h4 i (hax i hi)) hj

/-- The batch of one as the result (`array_backend.py:153`). -/
theorem Holds.squeeze (hB : Sym.idx B ∉ S) (hax : ∀ i ∈ axes, Sym.idx i ∈ S)
    (h : Holds (insert (.idx B) S) (upd σ B 1) (axes ++ [B]) as ss v) :
    ∃ bs, Phi.mapOpt (NArr.squeeze [axes.length]) as = some bs ∧ bs.length = as.length ∧
      Holds S σ axes bs ss fun ρ => v (upd ρ B 0) := by
  have hBa : B ∉ axes := fun e => hB (hax B e)
  refine h.mapOpt (g := fun ρ => upd ρ B 0) (fun a s ha => ?_) fun ρ hρ =>
    (valid_batch hB).2 ⟨(valid_upd hB).2 hρ, by simp [upd]⟩
  rw [map_upd hBa, List.append_assoc, List.singleton_append] at ha
  obtain ⟨b, h1, h2, h3⟩ := squeeze_at (p := axes.map σ) ha
  rw [List.length_map] at h1
  refine ⟨b, h1, h2, fun ρ jx hρ hj => ?_⟩
  rw [map_upd hBa, List.append_assoc]
  exact h3 _ _ (inRange_map.2 fun i hi => hρ i (hax i hi)) hj

/-! ### Slices in the order of the loop -/

section rows
variable {α : Type}

/-- The pairs of slices that are combined in one iteration. -/
def slicePairs : List α → List (α × α)
  | a :: b :: l => (a, b) :: slicePairs l
  | _ => []

theorem slicePairs_eq : ∀ l : List α, (everyOther l.dropLast).zip (everyOther l.tail) = slicePairs l
  | [] => rfl
  | [a] => rfl
  | [a, b] => rfl
  | a :: b :: c :: l => by
    have ih := slicePairs_eq (c :: l)
    cases l with
    | nil => rfl
    | cons d l =>
      simp only [List.dropLast, List.tail, everyOther, List.zip_cons_cons, slicePairs] at ih ⊢
      simpa [everyOther] using ih

theorem slicePairs_length : ∀ l : List α, (slicePairs l).length = l.length / 2
  | [] => by simp [slicePairs]
  | [a] => by simp [slicePairs]
  | a :: b :: l => by
    have := slicePairs_length l
    simp only [slicePairs, List.length_cons, this]
    omega

theorem slicePairs_get : ∀ (l : List α) (j : Nat) (p : α × α), (slicePairs l)[j]? = some p →
    l[2 * j]? = some p.1 ∧ l[1 + 2 * j]? = some p.2
  | [], j, p, h => by simp [slicePairs] at h
  | [a], j, p, h => by simp [slicePairs] at h
  | a :: b :: l, 0, p, h => by simp [slicePairs] at h; subst h; simp
  | a :: b :: l, j + 1, p, h => by
    rw [slicePairs, List.getElem?_cons_succ] at h
    have := slicePairs_get l j p h
    rw [show 2 * (j + 1) = 2 * j + 1 + 1 by omega, show 1 + (2 * j + 1 + 1) = 1 + 2 * j + 1 + 1 by omega]
    exact this

/-- One iteration combines the slices `2 j` and `2 j + 1`. -/
theorem batch_get {op : α → α → Option α} {l l' : List α}
    (h : batch op (everyOther l.dropLast) (everyOther l.tail) = some l') :
    l'.length = l.length / 2 ∧ ∀ j < l.length / 2, ∃ a b c, l[2 * j]? = some a ∧ l[1 + 2 * j]? = some b ∧
      l'[j]? = some c ∧ op a b = some c := by
  unfold batch at h
  rw [slicePairs_eq] at h
  have hl := mapOpt_length h
  rw [slicePairs_length] at hl
  refine ⟨hl, fun j hj => ?_⟩
  have hg := mapOpt_getElem? h j
  have hj' : j < (slicePairs l).length := by rw [slicePairs_length]; exact hj
  obtain ⟨h1, h2⟩ := slicePairs_get l j _ (List.getElem?_eq_getElem hj')
  have hjl : j < l'.length := by omega
  rw [List.getElem?_eq_getElem hj', List.getElem?_eq_getElem hjl, Option.bind_some] at hg
  exact ⟨_, _, _, h1, h2, List.getElem?_eq_getElem hjl, hg.symm⟩

end rows

end Verif.Codegen
