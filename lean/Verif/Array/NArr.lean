import Verif.Phi.Sem
import Mathlib.Algebra.BigOperators.Group.List.Basic

/-!
Rectangular arrays with a shape and row-major data, as provided by NumPy, and what is needed to reason
about them by index. The element type of an empty array (its dtype) is not represented.
-/

namespace Verif.Arr
open Verif.Phi

/-- All positions of an array of the given shape, in row-major order. -/
def indices : List Nat → List (List Nat)
  | [] => [[]]
  | n :: s => (List.range n).flatMap fun i => (indices s).map (i :: ·)

/-- The place of a position in the row-major data. -/
def ravel : List Nat → List Nat → Nat
  | _ :: s, i :: ix => i * s.prod + ravel s ix
  | _, _ => 0

/-- `ix` is a position in an array of shape `s`. -/
def InRange (s ix : List Nat) : Prop := List.Forall₂ (fun n i => i < n) s ix

instance (s ix : List Nat) : Decidable (InRange s ix) :=
  decidable_of_iff (s.length = ix.length ∧ ∀ p ∈ s.zip ix, p.2 < p.1) (by
    unfold InRange
    rw [List.forall₂_iff_zip]
    simp)

@[simp] theorem inRange_nil {ix : List Nat} : InRange [] ix ↔ ix = [] := by
  unfold InRange; exact List.forall₂_nil_left_iff

@[simp] theorem inRange_nil_right {s : List Nat} : InRange s [] ↔ s = [] := by
  unfold InRange; exact List.forall₂_nil_right_iff

@[simp] theorem inRange_cons {n : Nat} {s : List Nat} {i : Nat} {ix : List Nat} :
    InRange (n :: s) (i :: ix) ↔ i < n ∧ InRange s ix := by
  unfold InRange; exact List.forall₂_cons

theorem InRange.length {s ix : List Nat} (h : InRange s ix) : s.length = ix.length :=
  List.Forall₂.length_eq h

theorem inRange_iff {s ix : List Nat} :
    InRange s ix ↔ s.length = ix.length ∧ ∀ (k n i : Nat), s[k]? = some n → ix[k]? = some i → i < n := by
  induction s generalizing ix with
  | nil => cases ix <;> simp
  | cons n s ih =>
    cases ix with
    | nil => simp
    | cons i ix =>
      rw [inRange_cons, ih]
      constructor
      · rintro ⟨h1, h2, h3⟩
        refine ⟨by simp [h2], fun k a b ha hb => ?_⟩
        cases k with
        | zero => simp at ha hb; omega
        | succ k => simp at ha hb; exact h3 k a b ha hb
      · rintro ⟨h1, h2⟩
        exact ⟨h2 0 n i rfl rfl, by simpa using h1, fun k a b ha hb => h2 (k + 1) a b (by simpa) (by simpa)⟩

theorem inRange_append {s t ix : List Nat} {jx : List Nat} (h : s.length = ix.length) :
    InRange (s ++ t) (ix ++ jx) ↔ InRange s ix ∧ InRange t jx := by
  induction s generalizing ix with
  | nil => cases ix <;> simp_all
  | cons n s ih =>
    cases ix with
    | nil => simp at h
    | cons i ix => simp [ih (by simpa using h), and_assoc]

/-- A position of an array whose shape has two parts. -/
theorem inRange_append_left {s t ix : List Nat} :
    InRange (s ++ t) ix ↔ ∃ p q, ix = p ++ q ∧ InRange s p ∧ InRange t q := by
  constructor
  · intro h
    have hl := h.length
    refine ⟨ix.take s.length, ix.drop s.length, (List.take_append_drop _ _).symm, ?_⟩
    rw [← inRange_append (by simp at hl ⊢; omega), List.take_append_drop]
    exact h
  · rintro ⟨p, q, rfl, h1, h2⟩
    rw [inRange_append h1.length]
    exact ⟨h1, h2⟩

theorem mem_indices {s ix : List Nat} : ix ∈ indices s ↔ InRange s ix := by
  induction s generalizing ix with
  | nil => simp [indices]
  | cons n s ih =>
    simp only [indices, List.mem_flatMap, List.mem_range, List.mem_map]
    constructor
    · rintro ⟨i, hi, jx, hj, rfl⟩
      exact inRange_cons.2 ⟨hi, ih.1 hj⟩
    · intro h
      cases ix with
      | nil => simp at h
      | cons i ix =>
        rw [inRange_cons] at h
        exact ⟨i, h.1, ix, ih.2 h.2, rfl⟩

theorem length_flatMap_const {α : Type} {f : Nat → List α} {c : Nat} (hf : ∀ i, (f i).length = c)
    (n : Nat) : ((List.range n).flatMap f).length = n * c := by
  induction n with
  | zero => simp
  | succ n ih => rw [List.range_succ, List.flatMap_append, List.length_append, ih]; simp [hf, Nat.succ_mul]

theorem getElem?_flatMap_const {α : Type} {f : Nat → List α} {c : Nat} (hf : ∀ i, (f i).length = c)
    (n i k : Nat) (hi : i < n) (hk : k < c) :
    ((List.range n).flatMap f)[i * c + k]? = (f i)[k]? := by
  induction n with
  | zero => omega
  | succ n ih =>
    rw [List.range_succ, List.flatMap_append]
    have hl := length_flatMap_const hf n
    by_cases h : i < n
    · rw [List.getElem?_append_left, ih h]
      rw [hl]
      calc i * c + k < i * c + c := by omega
        _ = (i + 1) * c := (Nat.succ_mul _ _).symm
        _ ≤ n * c := Nat.mul_le_mul_right _ h
    · have : i = n := by omega
      subst this
      rw [List.getElem?_append_right (by rw [hl]; omega), hl]
      simp

theorem indices_length (s : List Nat) : (indices s).length = s.prod := by
  induction s with
  | nil => rfl
  | cons n s ih =>
    rw [indices, length_flatMap_const (c := s.prod) (fun i => by rw [List.length_map, ih])]
    simp

theorem ravel_lt {s ix : List Nat} (h : InRange s ix) : ravel s ix < s.prod := by
  induction s generalizing ix with
  | nil => simp [ravel]
  | cons n s ih =>
    cases ix with
    | nil => simp at h
    | cons i ix =>
      rw [inRange_cons] at h
      have := ih h.2
      simp only [ravel, List.prod_cons]
      calc i * s.prod + ravel s ix < i * s.prod + s.prod := by omega
        _ = (i + 1) * s.prod := (Nat.succ_mul _ _).symm
        _ ≤ n * s.prod := Nat.mul_le_mul_right _ h.1

theorem indices_ravel {s ix : List Nat} (h : InRange s ix) : (indices s)[ravel s ix]? = some ix := by
  induction s generalizing ix with
  | nil => simp at h; subst h; rfl
  | cons n s ih =>
    cases ix with
    | nil => simp at h
    | cons i ix =>
      rw [inRange_cons] at h
      rw [indices, ravel, getElem?_flatMap_const
        (fun i => by rw [List.length_map, indices_length]) n i _ h.1 (ravel_lt h.2), List.getElem?_map,
        ih h.2]
      rfl

/-- An array: `numpy.ndarray`. -/
structure NArr (α : Type) where
  shape : List Nat
  data : List α
  wf : data.length = shape.prod
deriving DecidableEq

namespace NArr
variable {α β : Type}

/-- `ndim` -/
def rank (a : NArr α) : Nat := a.shape.length

/-- The element at a position; `none` outside. -/
def get? (a : NArr α) (ix : List Nat) : Option α :=
  if InRange a.shape ix then a.data[ravel a.shape ix]? else none

/-- The array of the given shape with the given elements. -/
def ofFn (s : List Nat) (f : List Nat → α) : NArr α :=
  ⟨s, (indices s).map f, by rw [List.length_map, indices_length]⟩

/-- The array of the given shape with the given elements, if all are defined. -/
def ofFn? (s : List Nat) (f : List Nat → Option α) : Option (NArr α) :=
  match h : mapOpt f (indices s) with
  | some l => some ⟨s, l, by rw [mapOpt_length h, indices_length]⟩
  | none => none

theorem get?_eq_none {a : NArr α} {ix : List Nat} (h : ¬ InRange a.shape ix) : a.get? ix = none := by
  rw [get?, if_neg h]

theorem get?_isSome {a : NArr α} {ix : List Nat} : (a.get? ix).isSome ↔ InRange a.shape ix := by
  unfold get?
  split
  · rename_i h
    have := ravel_lt h
    rw [← a.wf] at this
    simp [List.getElem?_eq_getElem this, h]
  · rename_i h; simp [h]

theorem get?_exists {a : NArr α} {ix : List Nat} (h : InRange a.shape ix) : ∃ x, a.get? ix = some x :=
  Option.isSome_iff_exists.1 (get?_isSome.2 h)

theorem inRange_of_get? {a : NArr α} {ix : List Nat} {x : α} (h : a.get? ix = some x) :
    InRange a.shape ix := get?_isSome.1 (by rw [h]; rfl)

theorem data_eq (a : NArr α) : a.data.map some = (indices a.shape).map a.get? := by
  refine List.ext_getElem? (fun k => ?_)
  simp only [List.getElem?_map]
  by_cases hk : k < a.shape.prod
  · have h1 : k < (indices a.shape).length := by rw [indices_length]; exact hk
    have h2 : k < a.data.length := by rw [a.wf]; exact hk
    rw [List.getElem?_eq_getElem h1, List.getElem?_eq_getElem h2]
    simp only [Option.map_some]
    congr 1
    have hm : (indices a.shape)[k] ∈ indices a.shape := List.getElem_mem h1
    have hr := mem_indices.1 hm
    rw [get?, if_pos hr]
    -- positions are listed once
    have key : ravel a.shape (indices a.shape)[k] = k := by
      clear hm hr h2
      generalize a.shape = s at *
      induction s generalizing k with
      | nil => simp at hk; subst hk; rfl
      | cons n s ih =>
        simp only [List.prod_cons] at hk
        have hp : 0 < s.prod := by
          rcases Nat.eq_zero_or_pos s.prod with h | h
          · rw [h] at hk; simp at hk
          · exact h
        have hq : k / s.prod < n := Nat.div_lt_of_lt_mul (by rwa [Nat.mul_comm] at hk)
        have hm : k % s.prod < s.prod := Nat.mod_lt _ hp
        have hk' : k / s.prod * s.prod + k % s.prod = k := Nat.div_add_mod' k s.prod
        have e := getElem?_flatMap_const (f := fun i => (indices s).map (i :: ·)) (c := s.prod)
          (fun i => by rw [List.length_map, indices_length]) n (k / s.prod) (k % s.prod) hq hm
        have hi : k % s.prod < (indices s).length := by rw [indices_length]; exact hm
        rw [List.getElem?_map, List.getElem?_eq_getElem hi, hk'] at e
        have e' : (indices (n :: s))[k]? = some (k / s.prod :: (indices s)[k % s.prod]) := e
        rw [List.getElem?_eq_getElem h1] at e'
        rw [Option.some.inj e', ravel, ih _ hm hi, hk']
    rw [key, List.getElem?_eq_getElem h2]
  · rw [List.getElem?_eq_none (by rw [a.wf]; omega), List.getElem?_eq_none (by rw [indices_length]; omega)]
    rfl

/-- Arrays are equal when they have the same shape and the same elements. -/
theorem ext_get? {a b : NArr α} (hs : a.shape = b.shape)
    (h : ∀ ix, InRange a.shape ix → a.get? ix = b.get? ix) : a = b := by
  have hd : a.data.map some = b.data.map some := by
    rw [data_eq, data_eq, ← hs]
    exact List.map_congr_left (fun ix hix => h ix (mem_indices.1 hix))
  have hd' : a.data = b.data := List.map_injective_iff.2 (Option.some_injective _) hd
  cases a; cases b; simp_all

theorem shape_ofFn (s : List Nat) (f : List Nat → α) : (ofFn s f).shape = s := rfl

theorem get?_ofFn {s ix : List Nat} (f : List Nat → α) (h : InRange s ix) :
    (ofFn s f).get? ix = some (f ix) := by
  rw [get?, if_pos (by exact h)]
  simp only [ofFn, List.getElem?_map, indices_ravel h, Option.map_some]

theorem ofFn?_eq_some {s : List Nat} {f : List Nat → Option α} {a : NArr α} :
    ofFn? s f = some a ↔ a.shape = s ∧ ∀ ix, InRange s ix → a.get? ix = f ix ∧ (f ix).isSome := by
  unfold ofFn?
  constructor
  · intro h
    split at h
    · rename_i l hl
      cases h
      refine ⟨rfl, fun ix hix => ?_⟩
      have e : (NArr.mk s l (by rw [mapOpt_length hl, indices_length])).get? ix = f ix := by
        rw [get?, if_pos (by exact hix)]
        simp only [mapOpt_getElem? hl, indices_ravel hix, Option.bind_some]
      exact ⟨e, by rw [← e]; exact get?_isSome.2 hix⟩
    · exact absurd h (by simp)
  · rintro ⟨hs, h⟩
    have hl : mapOpt f (indices s) = some a.data := by
      have hd := data_eq a
      rw [hs] at hd
      have : ∀ (l : List (List Nat)) (d : List α), (∀ ix ∈ l, InRange s ix) →
          d.map some = l.map a.get? → mapOpt f l = some d := by
        intro l
        induction l with
        | nil => intro d _ hd; cases d <;> simp_all [mapOpt]
        | cons ix l ih =>
          intro d hm hd
          cases d with
          | nil => simp at hd
          | cons x d =>
            simp only [List.map_cons, List.cons.injEq] at hd
            rw [mapOpt, ← (h ix (hm ix (by simp))).1, ← hd.1,
              ih d (fun jx hj => hm jx (by simp [hj])) hd.2]
            rfl
      exact this _ _ (fun ix hix => mem_indices.1 hix) hd
    split
    · rename_i l hl'
      rw [hl] at hl'
      cases hl'
      cases a; simp_all
    · rename_i hl'
      rw [hl] at hl'
      cases hl'

theorem ofFn?_isSome {s : List Nat} {f : List Nat → Option α}
    (h : ∀ ix, InRange s ix → (f ix).isSome) : ∃ a, ofFn? s f = some a := by
  have : ∀ l : List (List Nat), (∀ ix ∈ l, InRange s ix) → ∃ d, mapOpt f l = some d := by
    intro l
    induction l with
    | nil => intro _; exact ⟨[], rfl⟩
    | cons ix l ih =>
      intro hm
      obtain ⟨x, hx⟩ := Option.isSome_iff_exists.1 (h ix (hm ix (by simp)))
      obtain ⟨d, hd⟩ := ih (fun jx hj => hm jx (by simp [hj]))
      exact ⟨x :: d, by simp [mapOpt, hx, hd]⟩
  obtain ⟨d, hd⟩ := this _ (fun ix hix => mem_indices.1 hix)
  unfold ofFn?
  split
  · exact ⟨_, rfl⟩
  · rename_i h'; rw [hd] at h'; cases h'

/-- The array with the given elements exists and has them. -/
theorem ofFn?_spec {s : List Nat} {f : List Nat → Option α}
    (h : ∀ ix, InRange s ix → (f ix).isSome) :
    ∃ a, ofFn? s f = some a ∧ a.shape = s ∧ ∀ ix, InRange s ix → a.get? ix = f ix := by
  obtain ⟨a, ha⟩ := ofFn?_isSome h
  have := ofFn?_eq_some.1 ha
  exact ⟨a, ha, this.1, fun ix hix => (this.2 ix hix).1⟩

/-- An array without dimensions. -/
def scalar (x : α) : NArr α := ⟨[], [x], rfl⟩

@[simp] theorem get?_scalar (x : α) : (scalar x).get? [] = some x := rfl

@[simp] theorem shape_scalar (x : α) : (scalar x).shape = [] := rfl

/-- The only element of an array without dimensions. -/
def item (a : NArr α) : Option α := a.get? []

theorem eq_scalar_of_shape {a : NArr α} (h : a.shape = []) : ∃ x, a = scalar x ∧ a.get? [] = some x := by
  obtain ⟨x, hx⟩ := get?_exists (a := a) (ix := []) (by rw [h]; simp)
  refine ⟨x, ext_get? (by rw [h]; rfl) (fun ix hix => ?_), hx⟩
  rw [h, inRange_nil] at hix
  subst hix
  rw [hx]; rfl

theorem item_eq_some {a : NArr α} {x : α} : a.item = some x ↔ a = scalar x := by
  constructor
  · intro h
    have hs : a.shape = [] := by simpa using inRange_of_get? h
    obtain ⟨y, hy, hy'⟩ := eq_scalar_of_shape hs
    rw [hy]
    unfold item at h
    rw [h] at hy'
    cases hy'; rfl
  · rintro rfl; rfl

end NArr
end Verif.Arr
