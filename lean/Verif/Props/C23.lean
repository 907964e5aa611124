import Verif.Value
import Mathlib.Logic.Equiv.List

/-! C23: equality and hashing of values and expressions. -/

namespace Verif.Props
open Verif.Py

/-! ### Specification -/

/-- What a value is, without object identities: the element type, shape and bit patterns of arrays. -/
inductive Content where
  | arr (dtype : Dtype) (shape : List Nat) (data : List Nat)
  | foreign (oid : Nat)
  | pair (x y : Content)
deriving DecidableEq, Repr

def content : Value → Content
  | .arr _ a => .arr a.dtype a.shape a.data
  | .foreign _ o => .foreign o
  | .pair _ _ x y => .pair (content x) (content y)

/-- The expression without object identities. -/
inductive Tree where
  | node (tag : Nat) (vals : List Content) (subs : List Tree)

def tree : TermObj → Tree
  | .node _ tag vals subs => .node tag (vals.map content) (subs.map tree)

/-- Two values hold the same object. -/
def SameInner : Value → Value → Prop
  | .arr _ a, .arr _ b => a = b
  | .foreign _ o, .foreign _ o' => o = o'
  | .pair _ o x y, .pair _ o' x' y' => o = o' ∧ x = x' ∧ y = y'
  | _, _ => False

/-- The `Value`s alive at one time: identities of objects determine the objects. -/
structure Alive (P : Value → Prop) : Prop where
  id_inj : ∀ a b, P a → P b → a.id = b.id → a = b
  oid_inj : ∀ a b, P a → P b → a.oid = b.oid → SameInner a b

/-- The terms alive at one time: identities determine the terms, and all values in them are alive. -/
structure AliveTerms (P : Value → Prop) (T : TermObj → Prop) : Prop where
  values : Alive P
  id_inj : ∀ i t v s t' v' s', T (.node i t v s) → T (.node i t' v' s') → t = t' ∧ v = v' ∧ s = s'
  vals : ∀ i t v s, T (.node i t v s) → ∀ x ∈ v, P x
  subs : ∀ i t v s, T (.node i t v s) → ∀ x ∈ s, T x

/-- No two different keys collide in the hashes of array contents, pairs and terms. -/
structure CollisionFree (H : Hash) : Prop where
  bytes : ∀ d l d' l', H.bytes d l = H.bytes d' l' → d = d' ∧ l = l'
  term : ∀ t v s t' v' s', H.term t v s = H.term t' v' s' → t = t' ∧ v = v' ∧ s = s'

/-- The same contents up to the sign of zeros and the payload of NaNs in floating point arrays. -/
inductive Like : Content → Content → Prop
  | arr {d : Dtype} {s : List Nat} {x y : List Nat}
      (h : List.Forall₂ (fun a b => elemEq d a b = true) x y) : Like (.arr d s x) (.arr d s y)
  | refl (c : Content) : Like c c

/-- The same expression up to the sign of zeros and the payload of NaNs in constants. -/
inductive TreeLike : Tree → Tree → Prop
  | node {t : Nat} {v v' : List Content} {s s' : List Tree} (hv : List.Forall₂ Like v v')
      (hs : List.Forall₂ TreeLike s s') : TreeLike (.node t v s) (.node t v' s')

/-! ### Proof -/

theorem elemEq_refl (d : Dtype) (x : Nat) : elemEq d x x = true := by
  cases d <;> simp [elemEq]

theorem elemEq_symm {d : Dtype} {x y : Nat} (h : elemEq d x y = true) : elemEq d y x = true := by
  cases d <;> simp only [elemEq, beq_iff_eq, Bool.or_eq_true, Bool.and_eq_true] at h ⊢
  · exact h.symm
  · exact h.symm
  · rcases h with ⟨a, b⟩ | ⟨⟨a, b⟩, c | ⟨c, d⟩⟩
    · exact .inl ⟨b, a⟩
    · exact .inr ⟨⟨b, a⟩, .inl c.symm⟩
    · exact .inr ⟨⟨b, a⟩, .inr ⟨d, c⟩⟩

theorem elemEq_trans {d : Dtype} {x y z : Nat} (h : elemEq d x y = true) (g : elemEq d y z = true) :
    elemEq d x z = true := by
  cases d with
  | bool | int64 => simp only [elemEq, beq_iff_eq] at h g ⊢; exact h.trans g
  | float64 =>
    simp only [elemEq, beq_iff_eq, Bool.or_eq_true, Bool.and_eq_true, Bool.not_eq_true'] at h g ⊢
    rcases h with ⟨a, b⟩ | ⟨⟨a, b⟩, c | ⟨c, d⟩⟩ <;> rcases g with ⟨a', b'⟩ | ⟨⟨a', b'⟩, c' | ⟨c', d'⟩⟩ <;>
      subst_vars <;> simp_all

theorem all_zip_refl {r : Nat → Nat → Bool} (h : ∀ x, r x x = true) (l : List Nat) :
    (l.zip l).all (fun p => r p.1 p.2) = true := by
  induction l with
  | nil => rfl
  | cons x l ih => simp only [List.zip_cons_cons, List.all_cons, h, ih, Bool.and_self]

theorem all_zip_symm {r : Nat → Nat → Bool} (h : ∀ x y, r x y = true → r y x = true) :
    ∀ (l m : List Nat), (l.zip m).all (fun p => r p.1 p.2) = true →
      (m.zip l).all (fun p => r p.1 p.2) = true
  | [], m => by simp
  | _ :: _, [] => by simp
  | x :: l, y :: m => by
    simp only [List.zip_cons_cons, List.all_cons, Bool.and_eq_true]
    exact fun ⟨a, b⟩ => ⟨h _ _ a, all_zip_symm h l m b⟩

theorem all_zip_trans {r : Nat → Nat → Bool} (h : ∀ x y z, r x y = true → r y z = true → r x z = true) :
    ∀ (l m n : List Nat), l.length = m.length → (l.zip m).all (fun p => r p.1 p.2) = true →
      (m.zip n).all (fun p => r p.1 p.2) = true → (l.zip n).all (fun p => r p.1 p.2) = true
  | [], m, n, _ => by simp
  | x :: l, y :: m, [], _ => by simp
  | x :: l, y :: m, z :: n, hl => by
    simp only [List.zip_cons_cons, List.all_cons, Bool.and_eq_true]
    simp only [List.length_cons, Nat.add_right_cancel_iff] at hl
    exact fun ⟨a, b⟩ ⟨c, d⟩ => ⟨h _ _ _ a c, all_zip_trans h l m n hl b d⟩

/-- What equality of two NumPy values means. -/
theorem eq_arr {i j : Nat} {a b : NdArray} : (Value.arr i a).eq (.arr j b) = true ↔
    a.data.length = b.data.length ∧ a.dtype = b.dtype ∧
      ((a.small = true ∧ a.shape = b.shape ∧
        (a.data.zip b.data).all (fun p => elemEq a.dtype p.1 p.2) = true) ∨
       (a.small = false ∧ i = j)) := by
  unfold Value.eq
  by_cases h : a.data.length ≠ b.data.length ∨ a.dtype ≠ b.dtype
  · simp only [h, if_true]
    constructor
    · intro h; cases h
    · rintro ⟨h1, h2, -⟩; exact absurd h (by simp [h1, h2])
  · simp only [h, if_false]
    simp only [not_or, not_not] at h
    cases hs : a.small
    · simp [h, Value.id]; exact decide_eq_true_iff
    · simp [h, arrayEqual]

theorem small_congr {a b : NdArray} (h : a.shape = b.shape) : a.small = b.small := by
  simp [NdArray.small, h]

theorem value_refl (a : Value) : a.eq a = true := by
  cases a with
  | arr i a =>
    rw [eq_arr]
    refine ⟨rfl, rfl, ?_⟩
    cases hs : a.small
    · exact .inr ⟨rfl, rfl⟩
    · exact .inl ⟨rfl, rfl, all_zip_refl (elemEq_refl _) _⟩
  | foreign | pair => simp [Value.eq]

variable {P : Value → Prop} {T : TermObj → Prop}

theorem value_symm (hP : Alive P) {a b : Value} (ha : P a) (hb : P b) (h : a.eq b = true) :
    b.eq a = true := by
  cases a with
  | arr i a =>
    cases b with
    | arr j b =>
      rw [eq_arr] at h ⊢
      obtain ⟨h1, h2, ⟨h3, h4, h5⟩ | ⟨h3, h4⟩⟩ := h
      · refine ⟨h1.symm, h2.symm, .inl ⟨by rw [← small_congr h4, h3], h4.symm, ?_⟩⟩
        rw [← h2]
        exact all_zip_symm (r := elemEq a.dtype) (fun _ _ => elemEq_symm) _ _ h5
      · have := hP.id_inj _ _ ha hb h4
        simp only [Value.arr.injEq] at this
        obtain ⟨rfl, rfl⟩ := this
        exact ⟨rfl, rfl, .inr ⟨h3, rfl⟩⟩
    | foreign | pair => simp [Value.eq] at h
  | foreign i o =>
    have h' : (Value.foreign i o).oid = b.oid := by simpa [Value.eq] using h
    have := hP.oid_inj _ _ ha hb h'
    cases b with
    | arr | pair => simp [SameInner] at this
    | foreign j o' => simp only [Value.eq, decide_eq_true_eq]; exact h'.symm
  | pair i o x y =>
    have h' : (Value.pair i o x y).oid = b.oid := by simpa [Value.eq] using h
    have := hP.oid_inj _ _ ha hb h'
    cases b with
    | arr | foreign => simp [SameInner] at this
    | pair j o' => simp only [Value.eq, decide_eq_true_eq]; exact h'.symm

theorem value_trans (hP : Alive P) {a b c : Value} (ha : P a) (hb : P b) (hc : P c)
    (h : a.eq b = true) (g : b.eq c = true) : a.eq c = true := by
  cases a with
  | arr i a =>
    cases b with
    | arr j b =>
      cases c with
      | arr k c =>
        rw [eq_arr] at h g ⊢
        obtain ⟨h1, h2, h3⟩ := h
        obtain ⟨g1, g2, g3⟩ := g
        refine ⟨h1.trans g1, h2.trans g2, ?_⟩
        rcases h3 with ⟨h3, h4, h5⟩ | ⟨h3, h4⟩
        · rcases g3 with ⟨g3, g4, g5⟩ | ⟨g3, g4⟩
          · refine .inl ⟨h3, h4.trans g4, ?_⟩
            rw [← h2] at g5
            exact all_zip_trans (r := elemEq a.dtype) (fun _ _ _ => elemEq_trans) _ _ _ h1 h5 g5
          · rw [← small_congr h4, h3] at g3; cases g3
        · have := hP.id_inj _ _ ha hb h4
          simp only [Value.arr.injEq] at this
          obtain ⟨rfl, rfl⟩ := this
          exact g3
      | foreign | pair => simp [Value.eq] at g
    | foreign | pair => simp [Value.eq] at h
  | foreign i o =>
    have h' : (Value.foreign i o).oid = b.oid := by simpa [Value.eq] using h
    have := hP.oid_inj _ _ ha hb h'
    cases b with
    | arr | pair => simp [SameInner] at this
    | foreign j o' =>
      have g' : (Value.foreign j o').oid = c.oid := by simpa [Value.eq] using g
      simp only [Value.eq, decide_eq_true_eq]; exact h'.trans g'
  | pair i o x y =>
    have h' : (Value.pair i o x y).oid = b.oid := by simpa [Value.eq] using h
    have := hP.oid_inj _ _ ha hb h'
    cases b with
    | arr | foreign => simp [SameInner] at this
    | pair j o' x' y' =>
      have g' : (Value.pair j o' x' y').oid = c.oid := by simpa [Value.eq] using g
      simp only [Value.eq, decide_eq_true_eq]; exact h'.trans g'

theorem valsEq_refl (v : List Value) : valsEq v v = true := by
  induction v with
  | nil => rfl
  | cons a v ih => simp [valsEq, value_refl, ih]

theorem valsEq_symm (hP : Alive P) : ∀ v w : List Value, (∀ x ∈ v, P x) → (∀ x ∈ w, P x) →
    valsEq v w = true → valsEq w v = true
  | [], [], _, _ => id
  | [], _ :: _, _, _ | _ :: _, [], _, _ => by simp [valsEq]
  | a :: v, b :: w, hv, hw => by
    simp only [valsEq, Bool.and_eq_true]
    exact fun ⟨h, g⟩ => ⟨value_symm hP (hv _ (by simp)) (hw _ (by simp)) h,
      valsEq_symm hP v w (fun x hx => hv x (by simp [hx])) (fun x hx => hw x (by simp [hx])) g⟩

theorem valsEq_trans (hP : Alive P) : ∀ u v w : List Value, (∀ x ∈ u, P x) → (∀ x ∈ v, P x) →
    (∀ x ∈ w, P x) → valsEq u v = true → valsEq v w = true → valsEq u w = true
  | [], [], [], _, _, _ => fun _ => id
  | [], _ :: _, _, _, _, _ | _ :: _, [], _, _, _, _ => by simp [valsEq]
  | [], [], _ :: _, _, _, _ | _ :: _, _ :: _, [], _, _, _ => by simp [valsEq]
  | a :: u, b :: v, c :: w, hu, hv, hw => by
    simp only [valsEq, Bool.and_eq_true]
    exact fun ⟨h, g⟩ ⟨h', g'⟩ =>
      ⟨value_trans hP (hu _ (by simp)) (hv _ (by simp)) (hw _ (by simp)) h h',
        valsEq_trans hP u v w (fun x hx => hu x (by simp [hx])) (fun x hx => hv x (by simp [hx]))
          (fun x hx => hw x (by simp [hx])) g g'⟩

theorem term_refl (H : Hash) (t : TermObj) : t.eq H t = true := by
  cases t; simp [TermObj.eq]

variable {H : Hash}

theorem eq_node {i i' t t' : Nat} {v v' : List Value} {s s' : List TermObj} :
    (TermObj.node i t v s).eq H (.node i' t' v' s') = true ↔
      t = t' ∧ (TermObj.node i t v s).hash H = (TermObj.node i' t' v' s').hash H ∧
        (i = i' ∨ (valsEq v v' = true ∧ TermObj.eqs H s s' = true)) := by
  rw [TermObj.eq, TermObj.hash, TermObj.hash]
  split
  · rename_i h; exact ⟨fun h0 => (nomatch h0), fun h' => absurd h'.1 h⟩
  · rename_i h
    split
    · rename_i h2; exact ⟨fun h0 => (nomatch h0), fun h' => absurd h'.2.1 h2⟩
    · rename_i h2
      simp only [ne_eq, not_not] at h h2
      split
      · rename_i h3; exact ⟨fun _ => ⟨h, h2, .inl h3⟩, fun _ => rfl⟩
      · rename_i h3; simp only [h, h3, Bool.and_eq_true, true_and, false_or]
        rw [h] at h2
        exact ⟨fun g => ⟨h2, g⟩, fun g => g.2⟩

mutual
theorem term_symm (hT : AliveTerms P T) : ∀ a b : TermObj, T a → T b → a.eq H b = true → b.eq H a = true
  | .node i t v s, .node i' t' v' s', ha, hb => by
    rw [eq_node, eq_node]
    rintro ⟨h1, h2, h3⟩
    refine ⟨h1.symm, h2.symm, h3.imp Eq.symm fun ⟨hv, hs⟩ => ?_⟩
    exact ⟨valsEq_symm hT.values _ _ (hT.vals _ _ _ _ ha) (hT.vals _ _ _ _ hb) hv,
      terms_symm hT s s' (hT.subs _ _ _ _ ha) (hT.subs _ _ _ _ hb) hs⟩
theorem terms_symm (hT : AliveTerms P T) : ∀ s s' : List TermObj, (∀ x ∈ s, T x) → (∀ x ∈ s', T x) →
    TermObj.eqs H s s' = true → TermObj.eqs H s' s = true
  | [], [], _, _ => by simp [TermObj.eqs]
  | [], _ :: _, _, _ | _ :: _, [], _, _ => by simp [TermObj.eqs]
  | a :: s, b :: s', hs, hs' => by
    simp only [TermObj.eqs, Bool.and_eq_true]
    exact fun ⟨h, g⟩ => ⟨term_symm hT a b (hs _ (by simp)) (hs' _ (by simp)) h,
      terms_symm hT s s' (fun x hx => hs x (by simp [hx])) (fun x hx => hs' x (by simp [hx])) g⟩
end

theorem terms_refl (H : Hash) (s : List TermObj) : TermObj.eqs H s s = true := by
  induction s with
  | nil => simp [TermObj.eqs]
  | cons a s ih => simp [TermObj.eqs, term_refl, ih]

/-- Equality of alive terms in terms of their fields. -/
theorem eq_fields (hT : AliveTerms P T) {i i' t t' : Nat} {v v' : List Value} {s s' : List TermObj}
    (ha : T (.node i t v s)) (hb : T (.node i' t' v' s')) :
    (TermObj.node i t v s).eq H (.node i' t' v' s') = true ↔
      t = t' ∧ (TermObj.node i t v s).hash H = (TermObj.node i' t' v' s').hash H ∧
        valsEq v v' = true ∧ TermObj.eqs H s s' = true := by
  rw [eq_node]
  refine and_congr_right fun _ => and_congr_right fun _ => ⟨?_, .inr⟩
  rintro (rfl | h)
  · obtain ⟨rfl, rfl, rfl⟩ := hT.id_inj _ _ _ _ _ _ _ ha hb
    exact ⟨valsEq_refl _, terms_refl _ _⟩
  · exact h

mutual
theorem term_trans (hT : AliveTerms P T) : ∀ a b c : TermObj, T a → T b → T c → a.eq H b = true →
    b.eq H c = true → a.eq H c = true
  | .node i t v s, .node i' t' v' s', .node i'' t'' v'' s'', ha, hb, hc => by
    rw [eq_fields hT ha hb, eq_fields hT hb hc, eq_fields hT ha hc]
    rintro ⟨h1, h2, h3, h4⟩ ⟨g1, g2, g3, g4⟩
    exact ⟨h1.trans g1, h2.trans g2,
      valsEq_trans hT.values _ _ _ (hT.vals _ _ _ _ ha) (hT.vals _ _ _ _ hb) (hT.vals _ _ _ _ hc) h3 g3,
      terms_trans hT s s' s'' (hT.subs _ _ _ _ ha) (hT.subs _ _ _ _ hb) (hT.subs _ _ _ _ hc) h4 g4⟩
theorem terms_trans (hT : AliveTerms P T) : ∀ s s' s'' : List TermObj, (∀ x ∈ s, T x) →
    (∀ x ∈ s', T x) → (∀ x ∈ s'', T x) → TermObj.eqs H s s' = true → TermObj.eqs H s' s'' = true →
    TermObj.eqs H s s'' = true
  | [], [], [], _, _, _ => fun _ => id
  | [], _ :: _, _, _, _, _ | _ :: _, [], _, _, _, _ => by simp [TermObj.eqs]
  | [], [], _ :: _, _, _, _ | _ :: _, _ :: _, [], _, _, _ => by simp [TermObj.eqs]
  | a :: s, b :: s', c :: s'', h1, h2, h3 => by
    simp only [TermObj.eqs, Bool.and_eq_true]
    exact fun ⟨h, g⟩ ⟨h', g'⟩ =>
      ⟨term_trans hT a b c (h1 _ (by simp)) (h2 _ (by simp)) (h3 _ (by simp)) h h',
        terms_trans hT s s' s'' (fun x hx => h1 x (by simp [hx])) (fun x hx => h2 x (by simp [hx]))
          (fun x hx => h3 x (by simp [hx])) g g'⟩
end

theorem content_eq (hP : Alive P) (hH : CollisionFree H) {a b : Value} (ha : P a) (hb : P b)
    (h : a.eq b = true) (hh : a.hash H = b.hash H) : content a = content b := by
  cases a with
  | arr i a =>
    cases b with
    | arr j b =>
      rw [eq_arr] at h
      obtain ⟨h1, h2, ⟨h3, h4, h5⟩ | ⟨h3, h4⟩⟩ := h
      · simp only [Value.hash, ← small_congr h4, h3, if_true] at hh
        simp only [content, h4, (hH.bytes _ _ _ _ hh).1, (hH.bytes _ _ _ _ hh).2]
      · rw [hP.id_inj _ _ ha hb h4]
    | foreign | pair => simp [Value.eq] at h
  | foreign i o =>
    have h' : (Value.foreign i o).oid = b.oid := by simpa [Value.eq] using h
    have := hP.oid_inj _ _ ha hb h'
    cases b with
    | arr | pair => simp [SameInner] at this
    | foreign j o' => simp only [SameInner] at this; simp only [content, this]
  | pair i o x y =>
    have h' : (Value.pair i o x y).oid = b.oid := by simpa [Value.eq] using h
    have := hP.oid_inj _ _ ha hb h'
    cases b with
    | arr | foreign => simp [SameInner] at this
    | pair j o' => simp only [SameInner] at this; simp only [content, this]

theorem contents_eq (hP : Alive P) (hH : CollisionFree H) : ∀ v w : List Value, (∀ x ∈ v, P x) →
    (∀ x ∈ w, P x) → valsEq v w = true → v.map (Value.hash H) = w.map (Value.hash H) →
    v.map content = w.map content
  | [], [], _, _ => by simp
  | [], _ :: _, _, _ | _ :: _, [], _, _ => by simp [valsEq]
  | a :: v, b :: w, hv, hw => by
    simp only [valsEq, Bool.and_eq_true, List.map_cons, List.cons.injEq]
    exact fun ⟨h, g⟩ ⟨h', g'⟩ => ⟨content_eq hP hH (hv _ (by simp)) (hw _ (by simp)) h h',
      contents_eq hP hH v w (fun x hx => hv x (by simp [hx])) (fun x hx => hw x (by simp [hx])) g g'⟩

mutual
theorem tree_eq (hT : AliveTerms P T) (hH : CollisionFree H) : ∀ a b : TermObj, T a → T b →
    a.eq H b = true → tree a = tree b
  | .node i t v s, .node i' t' v' s', ha, hb => by
    rw [eq_fields hT ha hb]
    rintro ⟨h1, h2, h3, h4⟩
    simp only [TermObj.hash] at h2
    obtain ⟨-, hv, -⟩ := hH.term _ _ _ _ _ _ h2
    rw [tree, tree, h1, contents_eq hT.values hH v v' (hT.vals _ _ _ _ ha) (hT.vals _ _ _ _ hb) h3 hv,
      trees_eq hT hH s s' (hT.subs _ _ _ _ ha) (hT.subs _ _ _ _ hb) h4]
theorem trees_eq (hT : AliveTerms P T) (hH : CollisionFree H) : ∀ s s' : List TermObj, (∀ x ∈ s, T x) →
    (∀ x ∈ s', T x) → TermObj.eqs H s s' = true → s.map tree = s'.map tree
  | [], [], _, _ => by simp
  | [], _ :: _, _, _ | _ :: _, [], _, _ => by simp [TermObj.eqs]
  | a :: s, b :: s', h1, h2 => by
    simp only [TermObj.eqs, Bool.and_eq_true, List.map_cons, List.cons.injEq]
    exact fun ⟨h, g⟩ => ⟨tree_eq hT hH a b (h1 _ (by simp)) (h2 _ (by simp)) h,
      trees_eq hT hH s s' (fun x hx => h1 x (by simp [hx])) (fun x hx => h2 x (by simp [hx])) g⟩
end

theorem forall₂_of_zip {r : Nat → Nat → Bool} : ∀ l m : List Nat, l.length = m.length →
    (l.zip m).all (fun p => r p.1 p.2) = true → List.Forall₂ (fun a b => r a b = true) l m
  | [], [], _, _ => .nil
  | x :: l, y :: m, h, g => by
    rw [List.zip_cons_cons, List.all_cons, Bool.and_eq_true] at g
    exact .cons g.1 (forall₂_of_zip l m (by simpa using h) g.2)

theorem content_like (hP : Alive P) {a b : Value} (ha : P a) (hb : P b) (h : a.eq b = true) :
    Like (content a) (content b) := by
  cases a with
  | arr i a =>
    cases b with
    | arr j b =>
      rw [eq_arr] at h
      obtain ⟨h1, h2, ⟨h3, h4, h5⟩ | ⟨h3, h4⟩⟩ := h
      · simp only [content, ← h4, ← h2]
        exact .arr (forall₂_of_zip (r := elemEq a.dtype) _ _ h1 h5)
      · rw [hP.id_inj _ _ ha hb h4]; exact .refl _
    | foreign | pair => simp [Value.eq] at h
  | foreign i o =>
    have h' : (Value.foreign i o).oid = b.oid := by simpa [Value.eq] using h
    have := hP.oid_inj _ _ ha hb h'
    cases b with
    | arr | pair => simp [SameInner] at this
    | foreign j o' => simp only [SameInner] at this; simp only [content, this]; exact .refl _
  | pair i o x y =>
    have h' : (Value.pair i o x y).oid = b.oid := by simpa [Value.eq] using h
    have := hP.oid_inj _ _ ha hb h'
    cases b with
    | arr | foreign => simp [SameInner] at this
    | pair j o' => simp only [SameInner] at this; simp only [content, this]; exact .refl _

theorem contents_like (hP : Alive P) : ∀ v w : List Value, (∀ x ∈ v, P x) →
    (∀ x ∈ w, P x) → valsEq v w = true → List.Forall₂ Like (v.map content) (w.map content)
  | [], [], _, _ => by simp
  | [], _ :: _, _, _ | _ :: _, [], _, _ => by simp [valsEq]
  | a :: v, b :: w, hv, hw => by
    simp only [valsEq, Bool.and_eq_true, List.map_cons]
    exact fun ⟨h, g⟩ => .cons (content_like hP (hv _ (by simp)) (hw _ (by simp)) h)
      (contents_like hP v w (fun x hx => hv x (by simp [hx])) (fun x hx => hw x (by simp [hx])) g)

mutual
theorem tree_like (hT : AliveTerms P T) : ∀ a b : TermObj, T a → T b →
    a.eq H b = true → TreeLike (tree a) (tree b)
  | .node i t v s, .node i' t' v' s', ha, hb => by
    rw [eq_fields hT ha hb]
    rintro ⟨h1, h2, h3, h4⟩
    rw [tree, tree, h1]
    exact .node (contents_like hT.values v v' (hT.vals _ _ _ _ ha) (hT.vals _ _ _ _ hb) h3)
      (trees_like hT s s' (hT.subs _ _ _ _ ha) (hT.subs _ _ _ _ hb) h4)
theorem trees_like (hT : AliveTerms P T) : ∀ s s' : List TermObj, (∀ x ∈ s, T x) →
    (∀ x ∈ s', T x) → TermObj.eqs H s s' = true → List.Forall₂ TreeLike (s.map tree) (s'.map tree)
  | [], [], _, _ => by simp
  | [], _ :: _, _, _ | _ :: _, [], _, _ => by simp [TermObj.eqs]
  | a :: s, b :: s', h1, h2 => by
    simp only [TermObj.eqs, Bool.and_eq_true, List.map_cons]
    exact fun ⟨h, g⟩ => .cons (tree_like hT a b (h1 _ (by simp)) (h2 _ (by simp)) h)
      (trees_like hT s s' (fun x hx => h1 x (by simp [hx])) (fun x hx => h2 x (by simp [hx])) g)
end

/-! ### Properties -/

/-- C23: equality of values is an equivalence relation. -/
theorem C23_value_equivalence (hP : Alive P) :
    Equivalence fun a b : {v // P v} => a.1.eq b.1 = true :=
  ⟨fun a => value_refl a.1, fun {a b} h => value_symm hP a.2 b.2 h,
    fun {a b c} h g => value_trans hP a.2 b.2 c.2 h g⟩

/-- C23: equality of expressions is an equivalence relation. -/
theorem C23_term_equivalence (hT : AliveTerms P T) (H : Hash) :
    Equivalence fun a b : {t // T t} => a.1.eq H b.1 = true :=
  ⟨fun a => term_refl H a.1, fun {a b} h => term_symm hT a.1 b.1 a.2 b.2 h,
    fun {a b c} h g => term_trans hT a.1 b.1 c.1 a.2 b.2 c.2 h g⟩

/-- C23: equal expressions have equal hashes, whatever the hash function. -/
theorem C23_term_hash (H : Hash) (a b : TermObj) (h : a.eq H b = true) : a.hash H = b.hash H := by
  cases a; cases b; rw [eq_node] at h; exact h.2.1

/-- C23: expressions that compare equal are the same expression, with bit by bit the same constants,
if the hash function has no collisions. -/
theorem C23_term_same (hT : AliveTerms P T) (hH : CollisionFree H) {a b : TermObj} (ha : T a) (hb : T b)
    (h : a.eq H b = true) : tree a = tree b := tree_eq hT hH a b ha hb h

/-- C23, with no assumption on the hash function: expressions that compare equal are the same expression up
to the sign of zeros and the payload of NaNs in constants. -/
theorem C23_term_like (hT : AliveTerms P T) {a b : TermObj} (ha : T a) (hb : T b)
    (h : a.eq H b = true) : TreeLike (tree a) (tree b) := tree_like hT a b ha hb h

/-- An element pattern that is the only one of its `==` class: not `-0.0`, and the quiet NaN if NaN. -/
def Canonical (w : Nat) : Prop := (isZero w = true → w = 0) ∧ (isNaN w = true → w = 0x7FF8000000000000)

/-- C23, hashes of values: equal arrays have equal hashes if they contain no floating point `-0.0` and no
unusual NaN. What is missing: see `C23_value_hash_counterexample`. -/
theorem C23_value_hash_partial (hP : Alive P) (H : Hash) {a b : Value} (ha : P a) (hb : P b)
    (hc : ∀ i x, a = .arr i x ∨ b = .arr i x → x.dtype = .float64 → ∀ w ∈ x.data, Canonical w)
    (h : a.eq b = true) : a.hash H = b.hash H := by
  cases a with
  | arr i a =>
    cases b with
    | arr j b =>
      rw [eq_arr] at h
      obtain ⟨h1, h2, ⟨h3, h4, h5⟩ | ⟨h3, h4⟩⟩ := h
      · simp only [Value.hash, ← small_congr h4, h3, if_true, ← h2]
        congr 1
        have hca := hc i a (.inl rfl)
        have hcb := hc j b (.inr rfl)
        rw [← h2] at hcb
        revert h5 h1 hca hcb
        generalize a.data = l
        generalize b.data = m
        generalize a.dtype = d
        intro hl h5 hca hcb
        induction l generalizing m with
        | nil => cases m <;> simp_all
        | cons x l ih =>
          cases m with
          | nil => simp at hl
          | cons y m =>
            rw [List.zip_cons_cons, List.all_cons, Bool.and_eq_true] at h5
            obtain ⟨hxy, hr⟩ := h5
            rw [ih m (by simpa using hl) hr (fun hd w hw => hca hd w (by simp [hw]))
              (fun hd w hw => hcb hd w (by simp [hw]))]
            congr 1
            cases d with
            | bool | int64 => simpa [elemEq] using hxy
            | float64 =>
              have hx := hca rfl x (by simp)
              have hy := hcb rfl y (by simp)
              simp only [elemEq, beq_iff_eq, Bool.or_eq_true, Bool.and_eq_true] at hxy
              rcases hxy with ⟨a, b⟩ | ⟨-, c | ⟨c, d⟩⟩
              · rw [hx.2 a, hy.2 b]
              · exact c
              · rw [hx.1 c, hy.1 d]
      · rw [hP.id_inj _ _ ha hb h4]
    | foreign | pair => simp [Value.eq] at h
  | foreign i o =>
    have h' : (Value.foreign i o).oid = b.oid := by simpa [Value.eq] using h
    have := hP.oid_inj _ _ ha hb h'
    cases b with
    | arr | pair => simp [SameInner] at this
    | foreign j o' => simp only [SameInner] at this; simp only [Value.hash, this]
  | pair i o x y =>
    have h' : (Value.pair i o x y).oid = b.oid := by simpa [Value.eq] using h
    have := hP.oid_inj _ _ ha hb h'
    cases b with
    | arr | foreign => simp [SameInner] at this
    | pair j o' => simp only [SameInner] at this; simp only [Value.hash, this]

/-- `Value(0.0)` and `Value(-0.0)` are equal, but their hashes are those of different bytes. -/
theorem C23_value_hash_counterexample (H : Hash) (hH : CollisionFree H) :
    ∃ a b : Value, a.eq b = true ∧ a.hash H ≠ b.hash H := by
  refine ⟨.arr 0 ⟨1, .float64, [], [0]⟩, .arr 2 ⟨3, .float64, [], [2 ^ 63]⟩, by decide +kernel, ?_⟩
  simp only [Value.hash, NdArray.small, if_true]
  intro h
  have := (hH.bytes _ _ _ _ h).2
  simp at this

/-- Two equal pairs of numbers held by different tuples are different values, so they are never shared:
equality is finer than equality of contents. -/
theorem C23_pair_identity_counterexample :
    ∃ a b : Value, content a = content b ∧ a.eq b = false :=
  ⟨.pair 0 1 (.arr 2 ⟨3, .int64, [], [5]⟩) (.arr 4 ⟨5, .int64, [], [6]⟩),
   .pair 6 7 (.arr 2 ⟨3, .int64, [], [5]⟩) (.arr 4 ⟨5, .int64, [], [6]⟩), by decide +kernel,
   by decide +kernel⟩

/-! ### Non-vacuity: two different constant objects with the same contents, and two sums using them. -/

def C23_v1 : Value := .arr 0 ⟨1, .float64, [2], [0x3FF0000000000000, 0x7FF8000000000000]⟩
def C23_v2 : Value := .arr 2 ⟨3, .float64, [2], [0x3FF0000000000000, 0x7FF8000000000000]⟩
def C23_c1 : TermObj := .node 0 7 [C23_v1] []
def C23_c2 : TermObj := .node 1 7 [C23_v2] []
def C23_t1 : TermObj := .node 2 8 [] [C23_c1, C23_c2]
def C23_t2 : TermObj := .node 3 8 [] [C23_c2, C23_c1]

theorem C23_example_alive : AliveTerms (fun v => v ∈ [C23_v1, C23_v2])
    (fun t => t ∈ [C23_c1, C23_c2, C23_t1, C23_t2]) := by
  refine ⟨⟨?_, ?_⟩, ?_, ?_, ?_⟩
  · intro a b ha hb
    simp only [List.mem_cons, List.not_mem_nil, or_false] at ha hb
    rcases ha with rfl | rfl <;> rcases hb with rfl | rfl <;> simp [C23_v1, C23_v2, Value.id]
  · intro a b ha hb
    simp only [List.mem_cons, List.not_mem_nil, or_false] at ha hb
    rcases ha with rfl | rfl <;> rcases hb with rfl | rfl <;> simp [C23_v1, C23_v2, Value.oid, SameInner]
  · intro i t v s t' v' s' h h'
    simp only [List.mem_cons, List.not_mem_nil, or_false, C23_c1, C23_c2, C23_t1, C23_t2,
      TermObj.node.injEq] at h h'
    rcases h with ⟨rfl, rfl, rfl, rfl⟩ | ⟨rfl, rfl, rfl, rfl⟩ | ⟨rfl, rfl, rfl, rfl⟩ | ⟨rfl, rfl, rfl, rfl⟩ <;>
      simpa [eq_comm] using h'
  · intro i t v s h x hx
    simp only [List.mem_cons, List.not_mem_nil, or_false, C23_c1, C23_c2, C23_t1, C23_t2,
      TermObj.node.injEq] at h
    rcases h with ⟨rfl, rfl, rfl, rfl⟩ | ⟨rfl, rfl, rfl, rfl⟩ | ⟨rfl, rfl, rfl, rfl⟩ | ⟨rfl, rfl, rfl, rfl⟩ <;>
      simp_all
  · intro i t v s h x hx
    simp only [List.mem_cons, List.not_mem_nil, or_false, C23_c1, C23_c2, C23_t1, C23_t2,
      TermObj.node.injEq] at h
    rcases h with ⟨rfl, rfl, rfl, rfl⟩ | ⟨rfl, rfl, rfl, rfl⟩ | ⟨rfl, rfl, rfl, rfl⟩ | ⟨rfl, rfl, rfl, rfl⟩ <;>
      simp at hx
    · rcases hx with rfl | rfl <;> simp [C23_c1, C23_c2]
    · rcases hx with rfl | rfl <;> simp [C23_c1, C23_c2]

/-- There are hash functions without collisions. -/
example : ∃ H, CollisionFree H := by
  let code : Dtype → Nat := fun d => match d with | .bool => 0 | .int64 => 1 | .float64 => 2
  refine ⟨⟨fun d l => (Encodable.encode (code d, l) : Nat), fun i => i, fun x _ => x,
    fun t v s => (Encodable.encode (t, v, s) : Nat)⟩, ?_, ?_⟩
  · intro d l d' l' h
    have := Encodable.encode_injective (Int.ofNat_inj.1 h)
    simp only [Prod.mk.injEq] at this
    refine ⟨?_, this.2⟩
    cases d <;> cases d' <;> simp_all [code]
  · intro t v s t' v' s' h
    have := Encodable.encode_injective (Int.ofNat_inj.1 h)
    simpa only [Prod.mk.injEq] using this

/-- The two sums are different objects that compare equal. -/
example (H : Hash) : C23_t1.eq H C23_t2 = true := by
  have h12 : C23_v1.eq C23_v2 = true := by decide +kernel
  have h21 : C23_v2.eq C23_v1 = true := by decide +kernel
  have hs : C23_v1.hash H = C23_v2.hash H := by simp [Value.hash, C23_v1, C23_v2, NdArray.small]
  simp [C23_t1, C23_t2, C23_c1, C23_c2, TermObj.eq, TermObj.eqs, TermObj.hash, valsEq, h12, h21, hs]

end Verif.Props
