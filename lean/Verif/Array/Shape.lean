import Verif.Array.Ops
import Mathlib.Data.List.Perm.Basic
import Mathlib.Data.List.Nodup
import Mathlib.Data.List.Range

/-! The shapes computed by the primitives. -/

namespace Verif.Arr
open Verif.Phi
namespace NArr
variable {α β : Type}

/-- How many of the places `k, …, k + n - 1` are listed. -/
def cnt (axes : List Nat) (k n : Nat) : Nat := ((List.range' k n).filter (· ∈ axes)).length

theorem cnt_succ (axes : List Nat) (k n : Nat) :
    cnt axes k (n + 1) = (if k ∈ axes then 1 else 0) + cnt axes (k + 1) n := by
  unfold cnt
  rw [List.range'_succ, List.filter_cons]
  by_cases h : k ∈ axes <;> simp [h] <;> omega

theorem cnt_eq_length {axes : List Nat} (hn : axes.Nodup) {n : Nat} (h : ∀ k ∈ axes, k < n) :
    cnt axes 0 n = axes.length := by
  unfold cnt
  refine List.Perm.length_eq ?_
  rw [List.perm_ext_iff_of_nodup (List.Nodup.filter _ List.nodup_range') hn]
  intro a
  simp only [List.mem_filter, List.mem_range'_1, decide_eq_true_eq]
  constructor
  · exact fun h => h.2
  · exact fun ha => ⟨⟨Nat.zero_le _, by have := h a ha; omega⟩, ha⟩

theorem length_spread (axes : List Nat) (v : β) (k n : Nat) (l : List β)
    (h : l.length + cnt axes k n = n) : (spread axes v k n l).length = n := by
  induction n generalizing k l with
  | zero => simp [spread]
  | succ n ih =>
    rw [cnt_succ] at h
    unfold spread
    by_cases hk : k ∈ axes
    · simp only [hk, if_true] at h ⊢
      simp [ih (k + 1) l (by omega)]
    · simp only [hk, if_false] at h ⊢
      cases l with
      | nil =>
        simp at h
        have : cnt axes (k + 1) n ≤ n := by
          unfold cnt
          exact (List.length_filter_le _ _).trans (by simp)
        omega
      | cons x l => simp at h; simp [ih (k + 1) l (by omega)]

theorem length_dropAt (axes : List Nat) (k : Nat) (l : List β) :
    (dropAt axes k l).length + cnt axes k l.length = l.length := by
  induction l generalizing k with
  | nil => simp [dropAt, cnt]
  | cons x l ih =>
    have := ih (k + 1)
    rw [List.length_cons, cnt_succ]
    unfold dropAt
    by_cases hk : k ∈ axes <;> simp [hk] <;> omega

/-- Inserting and then removing. -/
theorem dropAt_spread (axes : List Nat) (v : β) (k n : Nat) (l : List β)
    (h : l.length + cnt axes k n = n) : dropAt axes k (spread axes v k n l) = l := by
  induction n generalizing k l with
  | zero =>
    have : l = [] := List.length_eq_zero_iff.1 (by omega)
    subst this; rfl
  | succ n ih =>
    rw [cnt_succ] at h
    unfold spread
    by_cases hk : k ∈ axes
    · simp only [hk, if_true] at h ⊢
      rw [dropAt, if_pos hk]
      exact ih (k + 1) l (by omega)
    · simp only [hk, if_false] at h ⊢
      cases l with
      | nil =>
        simp at h
        have : cnt axes (k + 1) n ≤ n := by
          unfold cnt
          exact (List.length_filter_le _ _).trans (by simp)
        omega
      | cons x l =>
        simp only [List.length_cons] at h
        simp only
        rw [dropAt, if_neg hk, ih (k + 1) l (by omega)]

/-- Removing positions keeps them in range. -/
theorem inRange_dropAt (axes : List Nat) (k : Nat) {s ix : List Nat} (h : InRange s ix) :
    InRange (dropAt axes k s) (dropAt axes k ix) := by
  induction h generalizing k with
  | nil => simp [dropAt]
  | cons h1 h2 ih =>
    unfold dropAt
    by_cases hk : k ∈ axes
    · simp only [hk, if_true]; exact ih (k + 1)
    · simp only [hk, if_false]; exact inRange_cons.2 ⟨h1, ih (k + 1)⟩

/-- Inserting positions 0 in dimensions of length 1. -/
theorem inRange_spread (axes : List Nat) (k : Nat) {s : List Nat} {ix : List Nat}
    (h1 : ∀ j, j < s.length → k + j ∈ axes → s[j]? = some 1)
    (h : InRange (dropAt axes k s) ix) : InRange s (spread axes 0 k s.length ix) := by
  induction s generalizing k ix with
  | nil => simp [spread]
  | cons n s ih =>
    have h1' : ∀ j, j < s.length → k + 1 + j ∈ axes → s[j]? = some 1 := fun j hj hm => by
      have := h1 (j + 1) (by simpa using hj) (by rwa [show k + (j + 1) = k + 1 + j by omega])
      simpa using this
    rw [List.length_cons]
    unfold dropAt at h
    unfold spread
    by_cases hk : k ∈ axes
    · simp only [hk, if_true] at h ⊢
      have := h1 0 (by simp) (by simpa using hk)
      simp at this
      exact inRange_cons.2 ⟨by omega, ih (k + 1) h1' h⟩
    · simp only [hk, if_false] at h ⊢
      cases ix with
      | nil => simp at h
      | cons i ix =>
        rw [inRange_cons] at h
        exact inRange_cons.2 ⟨h.1, ih (k + 1) h1' h.2⟩

theorem rank_transpose {perm : List Nat} {a b : NArr α} (h : a.transpose perm = some b) :
    b.rank = a.rank := by
  unfold transpose at h
  split_ifs at h with hc
  rw [rank, shape_of_reindex h, List.length_map, hc.1]

theorem rank_squeeze {axes : List Nat} {a b : NArr α} (h : a.squeeze axes = some b) :
    b.rank + axes.length = a.rank := by
  unfold squeeze at h
  split_ifs at h with hc
  have hl := length_dropAt axes 0 a.shape
  rw [cnt_eq_length hc.1 (fun k hk => by
    have := hc.2 k hk
    exact (List.getElem?_eq_some_iff.1 this).1)] at hl
  rw [rank, shape_of_reindex h, hl, rank]

theorem rank_unsqueeze {axes : List Nat} {a b : NArr α} (h : a.unsqueeze axes = some b) :
    b.rank = a.rank + axes.length := by
  unfold unsqueeze at h
  split_ifs at h with hc
  rw [rank, shape_of_reindex h, length_spread _ _ _ _ _ (by
    rw [cnt_eq_length hc.1 hc.2, rank]; omega), Nat.add_comm]

theorem mapOpt_bcastDim_length {l : List (Nat × Nat)} {s : List Nat}
    (h : mapOpt (fun p : Nat × Nat => bcastDim p.1 p.2) l = some s) : s.length = l.length := mapOpt_length h

theorem length_padLeft {r : Nat} {s : List Nat} (h : s.length ≤ r) : (padLeft r s).length = r := by
  simp [padLeft]; omega

theorem length_bcast {s t u : List Nat} (h : bcast s t = some u) : u.length = max s.length t.length := by
  unfold bcast at h
  rw [mapOpt_length h, List.length_zip, length_padLeft (by omega), length_padLeft (by omega)]
  simp

theorem length_bcastAll_from {ss : List (List Nat)} {s u : List Nat} (h : loopOpt bcast s ss = some u) :
    u.length = (ss.map List.length).foldl max s.length := by
  induction ss generalizing s with
  | nil => cases h; rfl
  | cons t ss ih =>
    simp only [loopOpt, Option.bind_eq_some_iff] at h
    obtain ⟨s', h1, h2⟩ := h
    rw [ih h2, length_bcast h1]; rfl

theorem length_bcastAll {ss : List (List Nat)} {u : List Nat} (h : bcastAll ss = some u) :
    u.length = (ss.map List.length).foldl max 0 := length_bcastAll_from h

theorem shape_ofFn? {s : List Nat} {f : List Nat → Option α} {a : NArr α} (h : ofFn? s f = some a) :
    a.shape = s := (ofFn?_eq_some.1 h).1

theorem rank_zipAll {f : List α → Option β} {as : List (NArr α)} {b : NArr β} (h : zipAll f as = some b) :
    b.rank = (as.map rank).foldl max 0 := by
  simp only [zipAll, Option.bind_eq_some_iff] at h
  obtain ⟨s, h1, h2⟩ := h
  rw [rank, shape_ofFn? h2, length_bcastAll h1, List.map_map]
  rfl

theorem rank_mapM? {f : α → Option β} {a : NArr α} {b : NArr β} (h : a.mapM? f = some b) :
    b.rank = a.rank := by rw [rank, shape_ofFn? h, rank]

theorem rank_gather {axis : Nat} {a b : NArr α} {ix : NArr Int} (h : a.gather axis ix = some b) :
    b.rank = a.rank := by
  unfold gather at h
  split_ifs at h with hc
  simp only [Option.bind_eq_some_iff] at h
  obtain ⟨s, h1, h2⟩ := h
  rw [rank, shape_ofFn? h2, length_bcast h1, List.length_set]
  have := hc.1
  simp only [rank] at this ⊢
  omega

theorem rank_take {axis : Nat} {a b : NArr α} {ix : NArr Int} (h : a.take axis ix = some b) :
    b.rank + 1 = a.rank + ix.rank := by
  unfold take at h
  split_ifs at h with hc
  simp only [rank] at hc ⊢
  rw [shape_ofFn? h]
  simp
  omega

theorem rank_slice {ss es : List (Option Int)} {a b : NArr α} (h : a.slice ss es = some b) :
    b.rank = a.rank := by
  unfold slice at h
  split_ifs at h with hc
  rw [rank, shape_of_reindex h]
  simp [hc.1, hc.2, rank]

theorem rank_pad {ps : List (Int × Int)} {a b : NArr α} (h : a.pad ps = some b) : b.rank = a.rank := by
  unfold pad at h
  split_ifs at h with hc
  rw [rank, shape_of_reindex h]
  simp [hc.1, rank]

theorem rank_repeat {axis : Nat} {n : Int} {a b : NArr α} (h : a.repeat_ axis n = some b) :
    b.rank = a.rank := by
  unfold repeat_ at h
  split_ifs at h with hc
  rw [rank, shape_of_reindex h]
  simp [rank]

theorem rank_concat2 {axis : Nat} {a b c : NArr α} (h : concat2 axis a b = some c) :
    c.rank = a.rank := by
  unfold concat2 at h
  split_ifs at h with hc
  rw [rank, shape_ofFn? h]
  simp [rank]

theorem rank_concat {axis : Nat} {a c : NArr α} {as : List (NArr α)}
    (h : concat axis (a :: as) = some c) : c.rank = a.rank := by
  simp only [concat] at h
  induction as generalizing a with
  | nil => cases h; rfl
  | cons b as ih =>
    simp only [loopOpt, Option.bind_eq_some_iff] at h
    obtain ⟨d, h1, h2⟩ := h
    rw [ih h2, rank_concat2 h1]

theorem rank_reduceAxis {f : List α → Option β} {axis : Nat} {a : NArr α} {b : NArr β}
    (h : a.reduceAxis f axis = some b) : b.rank + 1 = a.rank := by
  unfold reduceAxis at h
  split_ifs at h with hc
  have hc' : axis < a.shape.length := hc
  rw [rank, shape_ofFn? h, List.length_eraseIdx, if_pos hc', rank]
  omega

theorem rank_einsum {mul add : List α → Option α} {subs : List (List Nat)} {res : List Nat}
    {ops : List (NArr α)} {b : NArr α} (h : einsum mul add subs res ops = some b) :
    b.rank = res.length := by
  unfold einsum at h
  dsimp only at h
  split_ifs at h with hc
  rw [rank, shape_ofFn? h, List.length_map]

end NArr
end Verif.Arr
