import Verif.Codegen.Axial
import Verif.Array.Window
import Mathlib.Data.Finset.Card

/-! What aligning does to arrays, in terms of assignments of indices. -/

namespace Verif.Codegen
open Verif.Phi Verif.Arr
variable {α β : Type}

/-- `b` is `a`, whose leading axes belong to the indices `axes`, laid out with leading axes `into` of
lengths `D`; the remaining axes have lengths `s`. -/
structure Placed (a b : NArr α) (axes into : List Nat) (D : Nat → Nat) (s : List Nat) : Prop where
  shape : b.shape = into.map D ++ s
  get : ∀ (ρ : Nat → Nat) (jx : List Nat), (∀ x ∈ into, ρ x < D x) → InRange s jx →
    b.get? (into.map ρ ++ jx) = a.get? (axes.map ρ ++ jx)

/-! ### Positions and assignments -/

theorem inRange_map {l : List Nat} {D ρ : Nat → Nat} :
    InRange (l.map D) (l.map ρ) ↔ ∀ x ∈ l, ρ x < D x := by
  induction l with
  | nil => simp
  | cons x l ih => simp [ih]

theorem inRange_map_append {l : List Nat} {D ρ : Nat → Nat} {s jx : List Nat} :
    InRange (l.map D ++ s) (l.map ρ ++ jx) ↔ (∀ x ∈ l, ρ x < D x) ∧ InRange s jx := by
  rw [inRange_append (by simp), inRange_map]

/-- Every list of positions along distinct axes is an assignment. -/
theorem exists_assignment {l : List Nat} (hl : l.Nodup) {p : List Nat} (h : l.length = p.length) :
    ∃ ρ : Nat → Nat, p = l.map ρ := by
  induction l generalizing p with
  | nil => exact ⟨fun _ => 0, by cases p <;> simp_all⟩
  | cons x l ih =>
    cases p with
    | nil => simp at h
    | cons i p =>
      obtain ⟨ρ, rfl⟩ := ih (List.nodup_cons.1 hl).2 (p := p) (by simpa using h)
      refine ⟨fun y => if y = x then i else ρ y, ?_⟩
      simp only [List.map_cons, if_true, List.cons.injEq, true_and]
      refine List.map_congr_left fun y hy => ?_
      have : y ≠ x := fun e => (List.nodup_cons.1 hl).1 (e ▸ hy)
      simp [this]

/-- A position of an array with leading axes `l` is an assignment and a position in the rest. -/
theorem inRange_assignment {l : List Nat} (hl : l.Nodup) {D : Nat → Nat} {s ix : List Nat}
    (h : InRange (l.map D ++ s) ix) :
    ∃ (ρ : Nat → Nat) (jx : List Nat), ix = l.map ρ ++ jx ∧ (∀ x ∈ l, ρ x < D x) ∧ InRange s jx := by
  obtain ⟨p, q, rfl, h1, h2⟩ := inRange_append_left.1 h
  obtain ⟨ρ, rfl⟩ := exists_assignment hl (p := p) (by simpa using h1.length)
  exact ⟨ρ, q, rfl, inRange_map.1 h1, h2⟩

theorem getD_idxOf [DecidableEq β] {l : List β} {x : β} (hx : x ∈ l) (f : β → Nat) (s : List Nat) :
    (l.map f ++ s).getD (l.idxOf x) 0 = f x := by
  have h := List.idxOf_lt_length_of_mem hx
  rw [List.getD_eq_getElem?_getD, List.getElem?_append_left (by simpa using h), List.getElem?_map,
    List.getElem?_eq_getElem h]
  simp

theorem map_range_getD_append (l s : List Nat) :
    (List.range s.length).map (fun j => (l ++ s).getD (l.length + j) 0) = s := by
  refine List.ext_getElem? fun k => ?_
  rw [List.getElem?_map]
  by_cases hk : k < s.length
  · rw [List.getElem?_range hk]
    simp [List.getD_eq_getElem?_getD, List.getElem?_append_right, List.getElem?_eq_getElem hk]
  · rw [List.getElem?_eq_none (by simpa using hk), List.getElem?_eq_none (by simpa using hk)]
    rfl

/-! ### Transposition -/

/-- The position read by a transposition is the one whose permutation is the given position. -/
theorem transpose_position {pi L : List Nat} (hc : ∀ j < L.length, j ∈ pi) :
    (List.range L.length).map (fun j => (pi.map fun j => L.getD j 0).getD (pi.idxOf j) 0) = L := by
  refine List.ext_getElem? fun k => ?_
  rw [List.getElem?_map]
  by_cases hk : k < L.length
  · rw [List.getElem?_range hk]
    have := getD_idxOf (hc k hk) (fun j => L.getD j 0) []
    rw [List.append_nil] at this
    simp only [Option.map_some]
    rw [this, List.getD_eq_getElem?_getD, List.getElem?_eq_getElem hk]
    rfl
  · rw [List.getElem?_eq_none (by simpa using hk), List.getElem?_eq_none (by simpa using hk)]
    rfl

/-- Transposition with a permutation, element by element. -/
theorem transpose_spec {a : NArr α} {pi : List Nat} (hl : pi.length = a.rank)
    (hc : ∀ j < a.rank, j ∈ pi) :
    ∃ b, a.transpose pi = some b ∧ b.shape = pi.map (fun j => a.shape.getD j 0) ∧
      ∀ L, InRange a.shape L → b.get? (pi.map fun j => L.getD j 0) = a.get? L := by
  have hp : ∀ j ∈ pi, j < a.rank := by
    -- as many places as entries
    have hnd : pi.Nodup := by
      by_contra hnd
      have h1 : (List.range a.rank).toFinset ⊆ pi.toFinset := by
        intro j hj; simp at hj ⊢; exact hc j hj
      have h2 := Finset.card_le_card h1
      rw [List.toFinset_card_of_nodup List.nodup_range, List.length_range] at h2
      have h3 : pi.toFinset.card < pi.length :=
        lt_of_le_of_ne (List.toFinset_card_le pi)
          (fun h => hnd (Multiset.coe_nodup.1 (Multiset.toFinset_card_eq_card_iff_nodup.1 (by simpa using h))))
      omega
    intro j hj
    by_contra hge
    have h1 : insert j (List.range a.rank).toFinset ⊆ pi.toFinset := by
      intro k hk
      rw [Finset.mem_insert] at hk
      rcases hk with rfl | hk
      · simpa using hj
      · simp at hk ⊢; exact hc k hk
    have h2 := Finset.card_le_card h1
    rw [Finset.card_insert_of_notMem (by simpa using hge), List.toFinset_card_of_nodup List.nodup_range,
      List.length_range] at h2
    have := List.toFinset_card_le pi
    omega
  unfold NArr.transpose
  rw [if_pos ⟨hl, fun j hj => hc j (by simpa using hj)⟩]
  have key : ∀ L, L.length = a.rank →
      (List.range a.rank).map (fun j => (pi.map fun j => L.getD j 0).getD (pi.idxOf j) 0) = L := by
    intro L hL
    have := transpose_position (pi := pi) (L := L) (by rw [hL]; exact hc)
    rwa [hL] at this
  -- every position of the result is the permutation of a position
  have pos : ∀ ix, InRange (pi.map fun j => a.shape.getD j 0) ix → ∃ L, InRange a.shape L ∧
      ix = pi.map fun j => L.getD j 0 := by
    intro ix hix
    refine ⟨(List.range a.rank).map (fun j => ix.getD (pi.idxOf j) 0), ?_, ?_⟩
    · rw [inRange_iff]
      refine ⟨by simp [NArr.rank], fun k n i hk hi => ?_⟩
      have hkr : k < a.rank := (List.getElem?_eq_some_iff.1 hk).1
      rw [List.getElem?_map, List.getElem?_range hkr] at hi
      simp only [Option.map_some, Option.some.injEq] at hi
      subst hi
      have hkp := List.idxOf_lt_length_of_mem (hc k hkr)
      have hlen := hix.length
      rw [List.length_map] at hlen
      have := (inRange_iff.1 hix).2 (pi.idxOf k) n (ix.getD (pi.idxOf k) 0) (by
        rw [List.getElem?_map, List.getElem?_eq_getElem hkp]
        simp [List.getD_eq_getElem?_getD, hk]) (by
        rw [List.getElem?_eq_getElem (by omega), List.getD_eq_getElem?_getD,
          List.getElem?_eq_getElem (by omega)]; rfl)
      exact this
    · have hnd : pi.Nodup := by
        have h1 : (List.range a.rank).toFinset ⊆ pi.toFinset := by
          intro j hj; simp at hj ⊢; exact hc j hj
        have h2 := Finset.card_le_card h1
        rw [List.toFinset_card_of_nodup List.nodup_range, List.length_range] at h2
        have h3 := List.toFinset_card_le pi
        exact Multiset.coe_nodup.1 (Multiset.toFinset_card_eq_card_iff_nodup.1
          (by simpa using (show pi.toFinset.card = pi.length by omega)))
      have hlen := hix.length
      rw [List.length_map] at hlen
      refine List.ext_getElem? fun k => ?_
      rw [List.getElem?_map]
      by_cases hk : k < pi.length
      · rw [List.getElem?_eq_getElem hk]
        have hj := hp _ (List.getElem_mem hk)
        have hx : pi.idxOf pi[k] = k := hnd.idxOf_getElem k hk
        simp only [Option.map_some]
        rw [List.getD_eq_getElem?_getD, List.getElem?_map, List.getElem?_range hj]
        simp only [Option.map_some, Option.getD_some, hx]
        rw [List.getD_eq_getElem?_getD, List.getElem?_eq_getElem (by omega)]; rfl
      · rw [List.getElem?_eq_none (by omega), List.getElem?_eq_none (by omega)]; rfl
  obtain ⟨b, hb, hbs, hbg⟩ := NArr.reindex_spec (a := a) (s := pi.map fun j => a.shape.getD j 0)
    (g := fun ix => (List.range a.rank).map fun j => ix.getD (pi.idxOf j) 0) (by
      intro ix hix
      obtain ⟨L, hL, rfl⟩ := pos ix hix
      rw [key L hL.length.symm]
      exact hL)
  refine ⟨b, hb, hbs, fun L hL => ?_⟩
  have hin : InRange (pi.map fun j => a.shape.getD j 0) (pi.map fun j => L.getD j 0) := by
    rw [inRange_map]
    intro j hj
    have hjr := hp j hj
    have hLl := hL.length
    rw [List.getD_eq_getElem?_getD, List.getD_eq_getElem?_getD, List.getElem?_eq_getElem (by rw [← hLl]; exact hjr),
      List.getElem?_eq_getElem (by exact hjr)]
    exact (inRange_iff.1 hL).2 j _ _ (List.getElem?_eq_getElem (by exact hjr)) (List.getElem?_eq_getElem (by rw [← hLl]; exact hjr))
  rw [hbg _ hin, key L hL.length.symm]

/-- The permutation that brings leading axes into another order. -/
def axisPerm (axes axes' : List Nat) (k : Nat) : List Nat :=
  axes'.map (axes.idxOf ·) ++ (List.range k).map (axes.length + ·)

theorem axisPerm_map {axes axes' : List Nat} (hp : axes'.Perm axes) (f : Nat → Nat) (s : List Nat) :
    (axisPerm axes axes' s.length).map (fun j => (axes.map f ++ s).getD j 0) = axes'.map f ++ s := by
  unfold axisPerm
  rw [List.map_append, List.map_map, List.map_map]
  congr 1
  · refine List.map_congr_left fun x hx => ?_
    exact getD_idxOf (hp.mem_iff.1 hx) f s
  · have := map_range_getD_append (axes.map f) s
    rw [List.length_map] at this
    exact this

theorem transpose_placed {a : NArr α} {axes axes' : List Nat} {D : Nat → Nat} {s : List Nat}
    (hn : axes.Nodup) (hp : axes'.Perm axes) (ha : a.shape = axes.map D ++ s) :
    ∃ b, a.transpose (axisPerm axes axes' s.length) = some b ∧ Placed a b axes axes' D s := by
  have hr : a.rank = axes.length + s.length := by unfold NArr.rank; rw [ha]; simp
  obtain ⟨b, hb, hbs, hbg⟩ := transpose_spec (a := a) (pi := axisPerm axes axes' s.length)
    (by rw [hr]; unfold axisPerm; simp [hp.length_eq]) (by
      intro j hj
      rw [hr] at hj
      unfold axisPerm
      rw [List.mem_append]
      by_cases h : j < axes.length
      · refine Or.inl (List.mem_map.2 ⟨axes[j], hp.mem_iff.2 (List.getElem_mem h), ?_⟩)
        exact hn.idxOf_getElem j h
      · refine Or.inr (List.mem_map.2 ⟨j - axes.length, List.mem_range.2 (by omega), by omega⟩))
  refine ⟨b, hb, ⟨?_, fun ρ jx hρ hj => ?_⟩⟩
  · rw [hbs, ha]; exact axisPerm_map hp D s
  · have := hbg (axes.map ρ ++ jx) (by
      rw [ha, inRange_map_append]
      exact ⟨fun x hx => hρ x (hp.mem_iff.2 hx), hj⟩)
    rw [← this]
    have h2 := axisPerm_map hp ρ jx
    rw [← hj.length] at h2
    rw [h2]

/-! ### New axes -/

theorem spread_expand {v : β} {q : Nat → Bool} {P : List Nat} {k : Nat} {into : List Nat} {f : Nat → β} {s : List β}
    (h1 : ∀ (i x : Nat), into[i]? = some x → (k + i ∈ P ↔ q x = false))
    (h2 : ∀ j ∈ P, j < k + into.length) :
    NArr.spread P v k (into.length + s.length) ((into.filter q).map f ++ s) =
      into.map (fun x => if q x then f x else v) ++ s := by
  induction into generalizing k with
  | nil =>
    clear h1
    simp only [List.length_nil, Nat.zero_add, List.filter_nil, List.map_nil, List.nil_append, Nat.add_zero] at *
    induction s generalizing k with
    | nil => rfl
    | cons x s ih =>
      have : k ∉ P := fun h => by have := h2 k h; omega
      simp only [List.length_cons, NArr.spread, if_neg this]
      rw [ih]
      intro j hj
      have := h2 j hj
      omega
  | cons x into ih =>
    have hk := h1 0 x rfl
    rw [Nat.add_zero] at hk
    have e : (x :: into).length + s.length = (into.length + s.length) + 1 := by simp; omega
    rw [e]
    have ih' := ih (k := k + 1) (fun i y hy => by
      have := h1 (i + 1) y (by simpa using hy)
      rw [← this]; congr! 1; omega) (fun j hj => by have := h2 j hj; simp at this; omega)
    cases hq : q x with
    | false =>
      rw [List.filter_cons_of_neg (by simp [hq])]
      simp only [NArr.spread, if_pos (hk.2 hq), ih']
      simp [hq]
    | true =>
      have hk' : k ∉ P := fun h => by have := hk.1 h; simp [hq] at this
      rw [List.filter_cons_of_pos (by simp [hq])]
      simp only [List.map_cons, List.cons_append, NArr.spread, if_neg hk', ih', hq, if_true]

theorem dropAt_expand {q : Nat → Bool} {P : List Nat} {k : Nat} {into : List Nat} {f : Nat → β} {s : List β}
    (h1 : ∀ (i x : Nat), into[i]? = some x → (k + i ∈ P ↔ q x = false))
    (h2 : ∀ j ∈ P, j < k + into.length) :
    NArr.dropAt P k (into.map f ++ s) = (into.filter q).map f ++ s := by
  induction into generalizing k with
  | nil =>
    clear h1
    simp only [List.length_nil, List.filter_nil, List.map_nil, List.nil_append, Nat.add_zero] at *
    induction s generalizing k with
    | nil => rfl
    | cons x s ih =>
      have : k ∉ P := fun h => by have := h2 k h; omega
      simp only [NArr.dropAt, if_neg this]
      rw [ih]
      intro j hj
      have := h2 j hj
      omega
  | cons x into ih =>
    have hk := h1 0 x rfl
    rw [Nat.add_zero] at hk
    have ih' := ih (k := k + 1) (fun i y hy => by
      have := h1 (i + 1) y (by simpa using hy)
      rw [← this]; congr! 1; omega) (fun j hj => by have := h2 j hj; simp at this; omega)
    simp only [List.map_cons, List.cons_append]
    cases hq : q x with
    | false =>
      rw [NArr.dropAt, if_pos (hk.2 hq), List.filter_cons_of_neg (by simp [hq]), ih']
    | true =>
      rw [NArr.dropAt, if_neg (fun h => by have := hk.1 h; simp [hq] at this),
        List.filter_cons_of_pos (by simp [hq]), ih']
      rfl

theorem unsqueeze_placed {a t : NArr α} {axes into P : List Nat} {q : Nat → Bool} {D : Nat → Nat} {s : List Nat}
    (ht : Placed a t axes (into.filter q) D s) (hP : P.Nodup)
    (hlen : P.length + (into.filter q).length = into.length)
    (h1 : ∀ (i x : Nat), into[i]? = some x → (i ∈ P ↔ q x = false))
    (h2 : ∀ j ∈ P, j < into.length) :
    ∃ b, t.unsqueeze P = some b ∧ Placed a b axes into (fun x => if q x then D x else 1) s := by
  have hr : P.length + t.rank = into.length + s.length := by
    unfold NArr.rank; rw [ht.shape]; simp; omega
  have g1 : ∀ (i x : Nat), into[i]? = some x → (0 + i ∈ P ↔ q x = false) := by simpa using h1
  have g2 : ∀ j ∈ P, j < 0 + into.length := by simpa using h2
  unfold NArr.unsqueeze
  rw [if_pos ⟨hP, fun j hj => by have := h2 j hj; omega⟩, hr, ht.shape]
  rw [spread_expand g1 g2]
  have key : ∀ (ρ : Nat → Nat) (jx : List Nat), InRange s jx →
      (∀ x ∈ into, ρ x < if q x then D x else 1) → InRange t.shape ((into.filter q).map ρ ++ jx) := by
    intro ρ jx hj hρ
    rw [ht.shape, inRange_map_append]
    refine ⟨fun x hx => ?_, hj⟩
    rw [List.mem_filter] at hx
    have := hρ x hx.1
    rwa [if_pos hx.2] at this
  obtain ⟨b, hb, hbs, hbg⟩ := NArr.reindex_spec (a := t)
    (s := into.map (fun x => if q x then D x else 1) ++ s) (g := fun ix => NArr.dropAt P 0 ix) (by
      intro ix hix
      have := NArr.inRange_dropAt P 0 hix
      have e : NArr.dropAt P 0 (into.map (fun x => if q x = true then D x else 1) ++ s) = t.shape := by
        rw [dropAt_expand g1 g2, ht.shape]
        congr 1
        refine List.map_congr_left fun x hx => ?_
        rw [List.mem_filter] at hx
        rw [if_pos hx.2]
      rwa [e] at this)
  refine ⟨b, hb, ⟨hbs, fun ρ jx hρ hj => ?_⟩⟩
  rw [hbg _ (inRange_map_append.2 ⟨hρ, hj⟩), dropAt_expand g1 g2]
  refine ht.get ρ jx (fun x hx => ?_) hj
  rw [List.mem_filter] at hx
  have := hρ x hx.1
  rwa [if_pos hx.2] at this

/-! ### Repeats -/

theorem repeat_placed {a t : NArr α} {axes into : List Nat} {D : Nat → Nat} {s : List Nat} {i x : Nat} {n : Int}
    (ht : Placed a t axes into D s) (hn : into.Nodup) (hi : into[i]? = some x) (hx : x ∉ axes) (hD : D x = 1)
    (h0 : 0 ≤ n) :
    ∃ b, t.repeat_ i n = some b ∧
      Placed a b axes into (fun y => if y = x then n.toNat else D y) s := by
  obtain ⟨l₁, l₂, hsplit, hl⟩ := NArr.split_at hi
  have hnx : x ∉ l₁ ∧ x ∉ l₂ := by
    rw [hsplit] at hn
    have h := List.nodup_append.1 hn
    exact ⟨fun h1 => h.2.2 x h1 x (by simp) rfl, (List.nodup_cons.1 h.2.1).1⟩
  have hmap : ∀ (f g : Nat → Nat), (∀ y, y ≠ x → f y = g y) →
      into.map f = l₁.map g ++ f x :: l₂.map g := by
    intro f g h
    rw [hsplit, List.map_append, List.map_cons]
    congr 1
    · exact List.map_congr_left fun y hy => h y (fun e => hnx.1 (e ▸ hy))
    · congr 1
      exact List.map_congr_left fun y hy => h y (fun e => hnx.2 (e ▸ hy))
  have hsh : t.shape = (l₁.map D) ++ 1 :: (l₂.map D ++ s) := by
    rw [ht.shape, hmap D D (fun _ _ => rfl), hD]; simp
  have hl' : (l₁.map D).length = i := by simpa using hl
  have hi' : i < t.rank := by unfold NArr.rank; rw [hsh]; simp; omega
  unfold NArr.repeat_
  rw [if_pos ⟨hi', h0⟩]
  have hs' : t.shape.set i (t.shape.getD i 0 * n.toNat) =
      into.map (fun y => if y = x then n.toNat else D y) ++ s := by
    rw [hmap (fun y => if y = x then n.toNat else D y) D (fun y hy => if_neg hy), hsh,
      NArr.getD_mid hl', NArr.set_mid hl']
    simp
  rw [hs']
  -- the position read is the one at 0
  have hset : ∀ (ρ : Nat → Nat) (jx : List Nat), (∀ y ∈ into, ρ y < if y = x then n.toNat else D y) →
      (into.map ρ ++ jx).set i ((into.map ρ ++ jx).getD i 0 / n.toNat) =
        into.map (fun y => if y = x then 0 else ρ y) ++ jx := by
    intro ρ jx hρ
    have hb := hρ x (by rw [hsplit]; simp)
    rw [if_pos rfl] at hb
    rw [hmap ρ ρ (fun _ _ => rfl), hmap (fun y => if y = x then 0 else ρ y) ρ (fun y hy => if_neg hy)]
    rw [List.append_assoc, List.cons_append, NArr.getD_mid (by simpa using hl), NArr.set_mid (by simpa using hl),
      Nat.div_eq_of_lt hb]
    simp
  have hval : ∀ (ρ : Nat → Nat), (∀ y ∈ into, ρ y < if y = x then n.toNat else D y) →
      ∀ y ∈ into, (if y = x then 0 else ρ y) < D y := by
    intro ρ hρ y hy
    have := hρ y hy
    by_cases h : y = x
    · subst h; rw [if_pos rfl, hD]; exact Nat.one_pos
    · rw [if_neg h] at this ⊢; exact this
  obtain ⟨b, hb, hbs, hbg⟩ := NArr.reindex_spec (a := t)
    (s := into.map (fun y => if y = x then n.toNat else D y) ++ s)
    (g := fun ix => ix.set i (ix.getD i 0 / n.toNat)) (by
      intro ix hix
      obtain ⟨ρ, jx, rfl, hρ, hj⟩ := inRange_assignment hn hix
      rw [hset ρ jx hρ, ht.shape, inRange_map_append]
      exact ⟨hval ρ hρ, hj⟩)
  refine ⟨b, hb, ⟨hbs, fun ρ jx hρ hj => ?_⟩⟩
  rw [hbg _ (inRange_map_append.2 ⟨hρ, hj⟩), hset ρ jx hρ, ht.get _ jx (hval ρ hρ) hj]
  congr 2
  exact List.map_congr_left fun y hy => if_neg (fun e : y = x => hx (e ▸ hy))

/-! ### The code of `_align` -/

theorem sortAxes_eq {axes into : List Nat} (hn : axes.Nodup) (hi : into.Nodup) (hsub : ∀ x ∈ axes, x ∈ into) :
    sortAxes axes into = into.filter (fun x => decide (x ∈ axes)) := by
  have hp : (sortAxes axes into).Perm (into.filter fun x => decide (x ∈ axes)) := by
    refine (List.perm_insertionSort _ _).trans ?_
    refine (List.perm_ext_iff_of_nodup hn (hi.filter _)).2 fun x => ?_
    simp only [List.mem_filter, decide_eq_true_eq]
    exact ⟨fun h => ⟨hsub x h, h⟩, fun h => h.2⟩
  have : Std.Total fun a b : Nat => into.idxOf a ≤ into.idxOf b := ⟨fun a b => Nat.le_total _ _⟩
  have : IsTrans Nat fun a b : Nat => into.idxOf a ≤ into.idxOf b := ⟨fun a b c => Nat.le_trans⟩
  have hs := List.pairwise_insertionSort (fun a b : Nat => into.idxOf a ≤ into.idxOf b) axes
  have hs' : (into.filter fun x => decide (x ∈ axes)).Pairwise
      (fun a b : Nat => into.idxOf a ≤ into.idxOf b) := by
    refine List.Pairwise.filter _ ?_
    rw [List.pairwise_iff_getElem]
    intro i j hi' hj' hij
    rw [hi.idxOf_getElem, hi.idxOf_getElem]
    omega
  refine hp.eq_of_pairwise (le := fun a b : Nat => into.idxOf a ≤ into.idxOf b) ?_ hs hs'
  intro a b ha hb h1 h2
  have hb' := (List.mem_filter.1 hb).1
  exact (List.idxOf_inj (hsub a ((List.mem_insertionSort _).1 ha))).1 (Nat.le_antisymm h1 h2)

theorem mem_expands {axes : List Nat} {k : Nat} {into : List Nat} {p : Nat × Nat} :
    p ∈ expands axes k into ↔ ∃ i, into[i]? = some p.2 ∧ p.1 = k + i ∧ p.2 ∉ axes := by
  induction into generalizing k with
  | nil => simp [expands]
  | cons x into ih =>
    unfold expands
    have e : (∃ i, (x :: into)[i]? = some p.2 ∧ p.1 = k + i ∧ p.2 ∉ axes) ↔
        (x = p.2 ∧ p.1 = k ∧ p.2 ∉ axes) ∨ ∃ i, into[i]? = some p.2 ∧ p.1 = k + 1 + i ∧ p.2 ∉ axes := by
      constructor
      · rintro ⟨i, h1, h2, h3⟩
        cases i with
        | zero => simp at h1; exact Or.inl ⟨h1, by omega, h3⟩
        | succ i => exact Or.inr ⟨i, by simpa using h1, by omega, h3⟩
      · rintro (⟨h1, h2, h3⟩ | ⟨i, h1, h2, h3⟩)
        · exact ⟨0, by simp [h1], by omega, h3⟩
        · exact ⟨i + 1, by simpa using h1, by omega, h3⟩
    rw [e]
    split
    · rename_i h
      rw [ih]
      constructor
      · exact fun h => Or.inr h
      · rintro (⟨rfl, _, h3⟩ | h')
        · exact absurd h h3
        · exact h'
    · rename_i h
      rw [List.mem_cons, ih]
      constructor
      · rintro (rfl | h')
        · exact Or.inl ⟨rfl, rfl, h⟩
        · exact Or.inr h'
      · rintro (⟨h1, h2, h3⟩ | h')
        · exact Or.inl (Prod.ext h2 h1.symm)
        · exact Or.inr h'

theorem expands_fst_lt {axes : List Nat} {k : Nat} {into : List Nat} {j : Nat}
    (h : j ∈ (expands axes k into).map Prod.fst) : k ≤ j := by
  obtain ⟨p, hp, rfl⟩ := List.mem_map.1 h
  obtain ⟨i, _, h2, _⟩ := mem_expands.1 hp
  omega

theorem expands_nodup {axes : List Nat} {k : Nat} {into : List Nat} :
    ((expands axes k into).map Prod.fst).Nodup := by
  induction into generalizing k with
  | nil => simp [expands]
  | cons x into ih =>
    unfold expands
    split
    · exact ih
    · rw [List.map_cons, List.nodup_cons]
      exact ⟨fun h => by have := expands_fst_lt h; omega, ih⟩

theorem expands_length (axes : List Nat) (k : Nat) (into : List Nat) :
    (expands axes k into).length + (into.filter fun x => decide (x ∈ axes)).length = into.length := by
  induction into generalizing k with
  | nil => rfl
  | cons x into ih =>
    have := ih (k + 1)
    unfold expands
    by_cases h : x ∈ axes
    · rw [if_pos h, List.filter_cons_of_pos (by simpa using h)]; simp; omega
    · rw [if_neg h, List.filter_cons_of_neg (by simpa using h)]; simp; omega

/-- The axes that remain when leading new axes are left out. -/
def trimmed (axes into : List Nat) : List Nat := into.dropWhile fun x => decide (x ∉ axes)

theorem expands_shift (axes : List Nat) (k m : Nat) (into : List Nat) :
    (expands axes (k + m) into).map (fun p => (p.1 - k, p.2)) = expands axes m into := by
  induction into generalizing m with
  | nil => rfl
  | cons x into ih =>
    unfold expands
    have e : k + m + 1 = k + (m + 1) := by omega
    split
    · rw [e]; exact ih (m + 1)
    · rw [List.map_cons, e, ih (m + 1)]; simp

theorem dropLeading_expands (axes : List Nat) (k : Nat) (into : List Nat) :
    dropLeading k (expands axes k into) = expands axes 0 (trimmed axes into) := by
  induction into generalizing k with
  | nil => rfl
  | cons x into ih =>
    by_cases h : x ∈ axes
    · have e : expands axes k (x :: into) = expands axes (k + 1) into := by rw [expands, if_pos h]
      have t : trimmed axes (x :: into) = x :: into := by unfold trimmed; simp [h]
      rw [t]
      cases hx : expands axes k (x :: into) with
      | nil =>
        have := expands_shift axes k 0 (x :: into)
        rw [Nat.add_zero, hx] at this
        rw [← this]; rfl
      | cons p l =>
        have hk : p.1 ≠ k := by
          have : p.1 ∈ (expands axes (k + 1) into).map Prod.fst := by rw [← e, hx]; simp
          have := expands_fst_lt this
          omega
        obtain ⟨i, y⟩ := p
        rw [dropLeading, if_neg hk, ← hx]
        exact expands_shift axes k 0 (x :: into)
    · have e : expands axes k (x :: into) = (k, x) :: expands axes (k + 1) into := by rw [expands, if_neg h]
      have t : trimmed axes (x :: into) = trimmed axes into := by unfold trimmed; simp [h]
      rw [e, dropLeading, if_pos rfl, t]
      exact ih (k + 1)

theorem filter_trimmed (axes into : List Nat) :
    (trimmed axes into).filter (fun x => decide (x ∈ axes)) = into.filter fun x => decide (x ∈ axes) := by
  induction into with
  | nil => rfl
  | cons x into ih =>
    by_cases h : x ∈ axes
    · have t : trimmed axes (x :: into) = x :: into := by unfold trimmed; simp [h]
      rw [t]
    · have t : trimmed axes (x :: into) = trimmed axes into := by unfold trimmed; simp [h]
      rw [t, ih, List.filter_cons_of_neg (by simpa using h)]

theorem trimmed_suffix (axes into : List Nat) : trimmed axes into <:+ into := List.dropWhile_suffix _

/-- Aligning without repeats, on arrays. -/
theorem expand_placed {a : NArr α} {axes into : List Nat} {D : Nat → Nat} {s : List Nat}
    (hn : axes.Nodup) (hi : into.Nodup) (hsub : ∀ x ∈ axes, x ∈ into) (ha : a.shape = axes.map D ++ s) :
    ∃ t b, a.transpose (axisPerm axes (into.filter fun x => decide (x ∈ axes)) s.length) = some t ∧
      t.unsqueeze ((expands axes 0 into).map Prod.fst) = some b ∧
      Placed a b axes into (fun x => if x ∈ axes then D x else 1) s := by
  have hp : (into.filter fun x => decide (x ∈ axes)).Perm axes :=
    (List.perm_ext_iff_of_nodup (hi.filter _) hn).2 fun x => by
      simp only [List.mem_filter, decide_eq_true_eq]
      exact ⟨fun h => h.2, fun h => ⟨hsub x h, h⟩⟩
  obtain ⟨t, ht, htp⟩ := transpose_placed hn hp ha
  obtain ⟨b, hb, hbp⟩ := unsqueeze_placed (P := (expands axes 0 into).map Prod.fst) htp expands_nodup
    (by rw [List.length_map]; exact expands_length axes 0 into) (by
      intro i x hx
      rw [List.mem_map]
      constructor
      · rintro ⟨p, hp, rfl⟩
        obtain ⟨j, h1, h2, h3⟩ := mem_expands.1 hp
        have : j = p.1 := by omega
        subst this
        rw [hx] at h1
        cases h1
        simpa using h3
      · intro h
        exact ⟨(i, x), mem_expands.2 ⟨i, hx, by omega, by simpa using h⟩, rfl⟩) (by
      intro j hj
      obtain ⟨p, hp, rfl⟩ := List.mem_map.1 hj
      obtain ⟨i, h1, h2, h3⟩ := mem_expands.1 hp
      have := (List.getElem?_eq_some_iff.1 h1).1
      omega)
  refine ⟨t, b, ht, hb, ?_⟩
  simpa using hbp

end Verif.Codegen
