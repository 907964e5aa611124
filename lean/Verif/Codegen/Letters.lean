import Mathlib.Data.Finset.Card
import Verif.Array.Ops
import Mathlib.Data.List.Dedup

/-!
The letters in the subscripts of `einsum` (`to_einsum_subs`, `ein/codegen/phi_to_yarr.py:509-520`).
-/

namespace Verif.Codegen
open Verif.Arr Verif.Phi

/-- `alphabet` (`phi_to_yarr.py:512-515`): a letter (its position in the alphabet) for each index, in the order of
the first occurrence. -/
def alphabet (operands : List (List Nat)) (result : List Nat) : List Nat :=
  (operands.flatten ++ result).foldl (fun l i => if i ∈ l then l else l ++ [i]) []

/-- The letter of an index. -/
def letter (l : List Nat) (i : Nat) : Nat := l.idxOf i

/-- `to_einsum_subs` (`phi_to_yarr.py:509-520`): the letters of the operands and of the result. There are 26
letters. -/
def toEinsumSubs (operands : List (List Nat)) (result : List Nat) : Option (List (List Nat) × List Nat) :=
  let l := alphabet operands result
  if l.length ≤ 26 then some (operands.map (List.map (letter l)), result.map (letter l)) else none

theorem mem_alphabet {operands : List (List Nat)} {result : List Nat} {i : Nat} :
    i ∈ alphabet operands result ↔ (∃ l ∈ operands, i ∈ l) ∨ i ∈ result := by
  have key : ∀ (m acc : List Nat), i ∈ m.foldl (fun l i => if i ∈ l then l else l ++ [i]) acc ↔ i ∈ acc ∨ i ∈ m := by
    intro m
    induction m with
    | nil => simp
    | cons j m ih =>
      intro acc
      rw [List.foldl_cons, ih]
      split
      · rename_i h
        constructor
        · rintro (h | h)
          · exact .inl h
          · exact .inr (by simp [h])
        · rintro (h' | h')
          · exact .inl h'
          · rcases List.mem_cons.1 h' with rfl | h'
            · exact .inl h
            · exact .inr h'
      · simp [or_assoc]
  unfold alphabet
  rw [key]
  simp

theorem letter_inj {l : List Nat} {i j : Nat} (hi : i ∈ l) (h : letter l i = letter l j) : i = j :=
  (List.idxOf_inj hi).1 h

section
variable {α : Type} {g : Nat → Nat} {U : List Nat} (hg : ∀ x ∈ U, ∀ y ∈ U, g x = g y → x = y)
include hg

theorem labelled_relabel (l : List (Nat × Nat)) (hl : ∀ p ∈ l, p.1 ∈ U) {x : Nat} (hx : x ∈ U) :
    NArr.labelled (l.map fun p => (g p.1, p.2)) (g x) = NArr.labelled l x := by
  unfold NArr.labelled
  have : (l.map fun p => (g p.1, p.2)).find? (fun p => decide (p.1 = g x)) =
      (l.find? fun p => decide (p.1 = x)).map fun p => (g p.1, p.2) := by
    induction l with
    | nil => rfl
    | cons p l ih =>
      simp only [List.map_cons, List.find?_cons]
      by_cases h : p.1 = x
      · simp [h]
      · have : g p.1 ≠ g x := fun e => h (hg _ (hl p (by simp)) _ hx e)
        simp only [h, this, decide_false]
        exact ih fun q hq => hl q (by simp [hq])
  rw [this]
  cases l.find? fun p => decide (p.1 = x) <;> rfl

theorem mem_map_inj {l : List Nat} (hl : ∀ x ∈ l, x ∈ U) {x : Nat} (hx : x ∈ U) : g x ∈ l.map g ↔ x ∈ l := by
  constructor
  · intro h
    obtain ⟨y, hy, e⟩ := List.mem_map.1 h
    exact hg y (hl y hy) x hx e ▸ hy
  · exact fun h => List.mem_map.2 ⟨x, h, rfl⟩

theorem dedup_map_inj {l : List Nat} (hl : ∀ x ∈ l, x ∈ U) : (l.map g).dedup = l.dedup.map g := by
  induction l with
  | nil => rfl
  | cons x l ih =>
    have hl' : ∀ x ∈ l, x ∈ U := fun y hy => hl y (by simp [hy])
    have hm := mem_map_inj hg hl' (hl x (by simp))
    rw [List.map_cons]
    by_cases h : x ∈ l
    · rw [List.dedup_cons_of_mem (hm.2 h), List.dedup_cons_of_mem h, ih hl']
    · rw [List.dedup_cons_of_notMem fun e => h (hm.1 e), List.dedup_cons_of_notMem h, ih hl', List.map_cons]

/-- Other labels do not change the result. -/
theorem einsum_relabel (mul add : List α → Option α) (subs : List (List Nat)) (res : List Nat) (ops : List (NArr α))
    (hs : ∀ s ∈ subs, ∀ x ∈ s, x ∈ U) (hr : ∀ x ∈ res, x ∈ U) :
    NArr.einsum mul add (subs.map (List.map g)) (res.map g) ops = NArr.einsum mul add subs res ops := by
  unfold NArr.einsum
  dsimp only
  set dims := ((subs.zip (ops.map NArr.shape)).map fun p => p.1.zip p.2).flatten with hdims
  have hU : ∀ p ∈ dims, p.1 ∈ U := by
    intro p hp
    obtain ⟨l, hl, hp⟩ := List.mem_flatten.1 hp
    obtain ⟨q, hq, rfl⟩ := List.mem_map.1 hl
    exact hs q.1 (List.of_mem_zip hq).1 p.1 (List.of_mem_zip hp).1
  have h1 : (((subs.map (List.map g)).zip (ops.map NArr.shape)).map fun p => p.1.zip p.2).flatten =
      dims.map fun p => (g p.1, p.2) := by
    rw [hdims, List.map_flatten, List.zip_map_left, List.map_map, List.map_map]
    congr 1
    refine List.map_congr_left fun p _ => ?_
    show (p.1.map g).zip p.2 = (p.1.zip p.2).map fun p => (g p.1, p.2)
    rw [List.zip_map_left]
    rfl
  have h2 : (∀ p ∈ (subs.map (List.map g)).zip (ops.map NArr.shape), p.1.length = p.2.length) ↔
      ∀ p ∈ subs.zip (ops.map NArr.shape), p.1.length = p.2.length := by
    rw [List.zip_map_left]
    simp only [List.mem_map]
    constructor
    · intro h p hp
      simpa using h _ ⟨p, hp, rfl⟩
    · rintro h p ⟨q, hq, rfl⟩
      simpa using h q hq
  have hf : (dims.map fun p => (g p.1, p.2)).map Prod.fst = (dims.map Prod.fst).map g := by
    simp [List.map_map, Function.comp_def]
  have hfU : ∀ x ∈ dims.map Prod.fst, x ∈ U := by
    intro x hx
    obtain ⟨p, hp, rfl⟩ := List.mem_map.1 hx
    exact hU p hp
  have h3 : (∀ p ∈ dims.map fun p => (g p.1, p.2), p.2 = NArr.labelled (dims.map fun p => (g p.1, p.2)) p.1) ↔
      ∀ p ∈ dims, p.2 = NArr.labelled dims p.1 := by
    constructor
    · intro h p hp
      rw [← labelled_relabel hg dims hU (hU p hp)]
      exact h _ (List.mem_map.2 ⟨p, hp, rfl⟩)
    · intro h p hp
      obtain ⟨q, hq, rfl⟩ := List.mem_map.1 hp
      rw [labelled_relabel hg dims hU (hU q hq)]
      exact h q hq
  have h4 : (res.map g).Nodup ↔ res.Nodup := by
    refine ⟨fun h => List.Nodup.of_map g h, fun h => ?_⟩
    exact h.map_on fun x hx y hy e => hg x (hr x hx) y (hr y hy) e
  have h5 : (∀ x ∈ res.map g, x ∈ (dims.map Prod.fst).map g) ↔ ∀ x ∈ res, x ∈ dims.map Prod.fst := by
    constructor
    · intro h x hx
      exact (mem_map_inj hg hfU (hr x hx)).1 (h _ (List.mem_map.2 ⟨x, hx, rfl⟩))
    · intro h x hx
      obtain ⟨y, hy, rfl⟩ := List.mem_map.1 hx
      exact List.mem_map.2 ⟨y, h y hy, rfl⟩
  rw [h1, hf]
  refine if_congr ?_ ?_ rfl
  · rw [h2, h3, h4, h5, List.length_map]
  · have hc : ((dims.map Prod.fst).map g).dedup.filter (fun x => decide (x ∉ res.map g)) =
        ((dims.map Prod.fst).dedup.filter fun x => decide (x ∉ res)).map g := by
      rw [dedup_map_inj hg hfU, List.filter_map]
      congr 1
      refine List.filter_congr fun x hx => ?_
      have := mem_map_inj hg hr (hfU x (List.mem_dedup.1 hx))
      simp only [Function.comp, decide_not, this]
    rw [hc]
    set con := (dims.map Prod.fst).dedup.filter fun x => decide (x ∉ res) with hcon
    have hconU : ∀ x ∈ con, x ∈ U := fun x hx => hfU x (List.mem_dedup.1 (List.mem_filter.1 hx).1)
    have e1 : ∀ l : List Nat, (∀ x ∈ l, x ∈ U) →
        (l.map g).map (NArr.labelled (dims.map fun p => (g p.1, p.2))) = l.map (NArr.labelled dims) := by
      intro l hl
      rw [List.map_map]
      exact List.map_congr_left fun x hx => labelled_relabel hg dims hU (hl x hx)
    rw [e1 res hr, e1 con hconU]
    congr 1
    funext ix
    congr 2
    funext kx
    congr 1
    have e2 : (res.map g).zip ix ++ (con.map g).zip kx = (res.zip ix ++ con.zip kx).map fun p => (g p.1, p.2) := by
      rw [List.map_append, List.zip_map_left, List.zip_map_left]
      rfl
    rw [e2, List.zip_map_left]
    have hEU : ∀ p ∈ res.zip ix ++ con.zip kx, p.1 ∈ U := by
      intro p hp
      rcases List.mem_append.1 hp with hp | hp
      · exact hr _ (List.of_mem_zip hp).1
      · exact hconU _ (List.of_mem_zip hp).1
    generalize res.zip ix ++ con.zip kx = env at hEU
    have e3 : ∀ l : List (List Nat × NArr α), (∀ p ∈ l, ∀ x ∈ p.1, x ∈ U) →
        mapOpt (fun p : List Nat × NArr α => p.2.get? (p.1.map (NArr.labelled (env.map fun p => (g p.1, p.2)))))
          (l.map (Prod.map (List.map g) id)) = mapOpt (fun p => p.2.get? (p.1.map (NArr.labelled env))) l := by
      intro l
      induction l with
      | nil => intro _; rfl
      | cons p l ih =>
        intro hl
        simp only [List.map_cons, mapOpt]
        rw [ih fun q hq => hl q (by simp [hq])]
        congr 1
        simp only [Prod.map, id]
        rw [List.map_map]
        congr 1
        exact List.map_congr_left fun x hx => labelled_relabel hg env hEU (hl p (by simp) x hx)
    exact e3 _ fun p hp => hs _ (List.of_mem_zip hp).1
end

/-- The subscripts with letters mean the same as those with indices. -/
theorem einsum_letters {α : Type} (mul add : List α → Option α) (operands : List (List Nat)) (result : List Nat)
    (ops : List (NArr α)) {subs : List (List Nat)} {res : List Nat}
    (h : toEinsumSubs operands result = some (subs, res)) :
    NArr.einsum mul add subs res ops = NArr.einsum mul add operands result ops := by
  unfold toEinsumSubs at h
  dsimp only at h
  split at h
  · cases h
    exact einsum_relabel (U := alphabet operands result) (fun x hx y _ e => letter_inj hx e) mul add operands result ops
      (fun s hs x hx => mem_alphabet.2 (.inl ⟨s, hs, hx⟩)) fun x hx => mem_alphabet.2 (.inr hx)
  · cases h

theorem alphabet_nodup (operands : List (List Nat)) (result : List Nat) : (alphabet operands result).Nodup := by
  have key : ∀ (m acc : List Nat), acc.Nodup → (m.foldl (fun l i => if i ∈ l then l else l ++ [i]) acc).Nodup := by
    intro m
    induction m with
    | nil => exact fun _ h => h
    | cons j m ih =>
      intro acc h
      rw [List.foldl_cons]
      refine ih _ ?_
      split
      · exact h
      · rename_i hj
        exact List.nodup_append.2 ⟨h, by simp, by rintro a ha b hb rfl; exact hj (by simpa using List.mem_singleton.1 hb ▸ ha)⟩
  exact key _ _ List.nodup_nil

/-- There is one letter for every index. -/
theorem alphabet_length (operands : List (List Nat)) (result : List Nat) :
    (alphabet operands result).length = (operands.flatten ++ result).toFinset.card := by
  rw [← List.toFinset_card_of_nodup (alphabet_nodup operands result)]
  congr 1
  ext i
  simp [mem_alphabet]

/-- There are letters if and only if there are at most 26 indices. -/
theorem letters_iff (operands : List (List Nat)) (result : List Nat) :
    (toEinsumSubs operands result).isSome = true ↔ (operands.flatten ++ result).toFinset.card ≤ 26 := by
  rw [← alphabet_length]
  unfold toEinsumSubs
  dsimp only
  split <;> simp_all

/-- The letters are letters of the alphabet. -/
theorem letters_lt {operands : List (List Nat)} {result : List Nat} {subs : List (List Nat)} {res : List Nat}
    (h : toEinsumSubs operands result = some (subs, res)) : ∀ x ∈ subs.flatten ++ res, x < 26 := by
  unfold toEinsumSubs at h
  dsimp only at h
  split at h
  · cases h
    intro x hx
    have : ∃ i ∈ alphabet operands result, letter (alphabet operands result) i = x := by
      simp only [List.mem_append, List.mem_flatten, List.mem_map] at hx
      rcases hx with ⟨_, ⟨l, hl, rfl⟩, hx⟩ | ⟨i, hi, rfl⟩
      · obtain ⟨i, hi, rfl⟩ := List.mem_map.1 hx
        exact ⟨i, mem_alphabet.2 (.inl ⟨l, hl, hi⟩), rfl⟩
      · exact ⟨i, mem_alphabet.2 (.inr hi), rfl⟩
    obtain ⟨i, hi, rfl⟩ := this
    have := List.idxOf_lt_length_of_mem hi
    unfold letter
    omega
  · cases h

end Verif.Codegen
