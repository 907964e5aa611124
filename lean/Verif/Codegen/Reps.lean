import Verif.Codegen.GetEval
import Verif.Phi.Sound

/-!
When array elements represent a nested value: a small specification used to state what compiled code
computes, and its basic properties.
-/

set_option linter.unusedSectionVars false

namespace Verif.Codegen
open Verif.Phi Verif.Term Verif.Yarr Verif.Arr

section reps
variable {S : Type}

/-- The elements `f`, at the positions of an array of shape `s`, are those of the nested value: a vector of
`n > 0` values has `n` blocks along the first axis. -/
def Reps : List Nat → (List Nat → Option S) → Val S → Prop
  | [], f, v => ∃ x, v = .sc x ∧ f [] = some x
  | n :: s, f, v => 0 < n ∧ ∃ vs, v = .vec vs ∧ vs.length = n ∧
      ∀ (i : Nat) (w : Val S), vs[i]? = some w → Reps s (fun jx => f (i :: jx)) w

/-- A list of arrays represents a value with pairs: the arrays of the first component, then those of the
second. -/
def RepsAll : Val S → List (List Nat × (List Nat → Option S)) → Prop
  | .pair a b, l => ∃ l₁ l₂, l = l₁ ++ l₂ ∧ RepsAll a l₁ ∧ RepsAll b l₂
  | .sc x, l => ∃ s f, l = [(s, f)] ∧ Reps s f (.sc x)
  | .vec vs, l => ∃ s f, l = [(s, f)] ∧ Reps s f (.vec vs)

theorem Reps.congr {s : List Nat} {f g : List Nat → Option S} {v : Val S}
    (h : ∀ jx, InRange s jx → f jx = g jx) (hv : Reps s f v) : Reps s g v := by
  induction s generalizing f g v with
  | nil =>
    obtain ⟨x, h1, h2⟩ := hv
    exact ⟨x, h1, by rw [← h [] (by simp)]; exact h2⟩
  | cons n s ih =>
    obtain ⟨h0, vs, h1, h2, h3⟩ := hv
    refine ⟨h0, vs, h1, h2, fun i w hw => ih (fun jx hj => ?_) (h3 i w hw)⟩
    have : i < vs.length := (List.getElem?_eq_some_iff.1 hw).1
    exact h _ (inRange_cons.2 ⟨by omega, hj⟩)

theorem Reps.pos {s : List Nat} {f : List Nat → Option S} {v : Val S} (h : Reps s f v) : ∀ d ∈ s, 0 < d := by
  induction s generalizing f v with
  | nil => simp
  | cons n s ih =>
    obtain ⟨h0, vs, h1, h2, h3⟩ := h
    have hw : vs[0]? = some vs[0] := List.getElem?_eq_getElem (by omega)
    intro d hd
    rcases List.mem_cons.1 hd with rfl | hd
    · exact h0
    · exact ih (h3 0 _ hw) d hd

theorem Reps.dim {s : List Nat} {f : List Nat → Option S} {v : Val S} (h : Reps s f v) (k : Nat) :
    Val.dim k v = s[k]? := by
  induction k generalizing s f v with
  | zero =>
    cases s with
    | nil => obtain ⟨x, rfl, _⟩ := h; rfl
    | cons n s => obtain ⟨_, vs, rfl, h2, _⟩ := h; simp [Val.dim, h2]
  | succ k ih =>
    cases s with
    | nil => obtain ⟨x, rfl, _⟩ := h; rfl
    | cons n s =>
      obtain ⟨h0, vs, rfl, h2, h3⟩ := h
      cases vs with
      | nil => simp at h2; omega
      | cons w vs => rw [Val.dim, ih (h3 0 w rfl)]; simp

theorem Reps.not_pair {s : List Nat} {f : List Nat → Option S} {a b : Val S} : ¬Reps s f (.pair a b) := by
  cases s with
  | nil => rintro ⟨x, h, _⟩; cases h
  | cons n s => rintro ⟨_, vs, h, _⟩; cases h

/-- The shape is determined by the value. -/
theorem Reps.shape_eq {s t : List Nat} {f g : List Nat → Option S} {v w : Val S} (h : Reps s f v) (h' : Reps t g w)
    (e : Val.shape v = Val.shape w) : s = t := by
  induction s generalizing t f g v w with
  | nil =>
    obtain ⟨x, rfl, _⟩ := h
    cases t with
    | nil => rfl
    | cons n t => obtain ⟨_, vs, rfl, _⟩ := h'; simp [Val.shape, Val.map] at e
  | cons n s ih =>
    obtain ⟨h0, vs, rfl, h2, h3⟩ := h
    cases t with
    | nil => obtain ⟨x, rfl, _⟩ := h'; simp [Val.shape, Val.map] at e
    | cons m t =>
      obtain ⟨h0', ws, rfl, h2', h3'⟩ := h'
      rw [Val.shape, Val.shape, Val.map_vec, Val.map_vec, Val.vec.injEq] at e
      have el : n = m := by
        have := congrArg List.length e
        simp at this; omega
      have hv : vs[0]? = some vs[0] := List.getElem?_eq_getElem (by omega)
      have hw : ws[0]? = some ws[0] := List.getElem?_eq_getElem (by omega)
      have e0 := congrArg (·[0]?) e
      simp only [List.getElem?_map, hv, hw, Option.map_some, Option.some.injEq] at e0
      rw [el, ih (h3 0 _ hv) (h3' 0 _ hw) e0]

/-- The value is determined by the elements. -/
theorem Reps.unique {s : List Nat} {f : List Nat → Option S} {v w : Val S} (h : Reps s f v) (h' : Reps s f w) :
    v = w := by
  induction s generalizing f v w with
  | nil =>
    obtain ⟨x, rfl, h1⟩ := h
    obtain ⟨y, rfl, h2⟩ := h'
    rw [h1] at h2; cases h2; rfl
  | cons n s ih =>
    obtain ⟨h0, vs, rfl, h2, h3⟩ := h
    obtain ⟨_, ws, rfl, h2', h3'⟩ := h'
    congr 1
    refine List.ext_getElem (by omega) fun i hi hi' => ?_
    exact ih (h3 i _ (List.getElem?_eq_getElem hi)) (h3' i _ (List.getElem?_eq_getElem hi'))

/-- A clamped read. -/
theorem Reps.get {n : Nat} {s : List Nat} {f : List Nat → Option S} {vs : List (Val S)} (h : Reps (n :: s) f (.vec vs))
    (i : Int) : vs.length = n ∧ 0 < n ∧
      ∃ w, Val.get vs i = some w ∧ Reps s (fun jx => f (Val.clip n i :: jx)) w := by
  obtain ⟨h0, ws, h1, h2, h3⟩ := h
  cases h1
  subst h2
  have hlt := Val.clip_lt h0 i
  refine ⟨rfl, h0, vs[Val.clip vs.length i]'hlt, ?_, h3 _ _ (List.getElem?_eq_getElem _)⟩
  unfold Val.get
  exact List.getElem?_eq_getElem _

theorem Reps.sc {f : List Nat → Option S} {s : List Nat} {x : S} (h : Reps s f (.sc x)) : s = [] ∧ f [] = some x := by
  cases s with
  | nil => obtain ⟨y, h1, h2⟩ := h; cases h1; exact ⟨rfl, h2⟩
  | cons n s => obtain ⟨_, vs, h1, _⟩ := h; cases h1

theorem Reps.vec {f : List Nat → Option S} {s : List Nat} {vs : List (Val S)} (h : Reps s f (.vec vs)) :
    ∃ s', s = vs.length :: s' := by
  cases s with
  | nil => obtain ⟨y, h1, h2⟩ := h; cases h1
  | cons n s => obtain ⟨_, ws, h1, h2, _⟩ := h; cases h1; exact ⟨s, by rw [h2]⟩

theorem RepsAll.ne_nil {v : Val S} {l : List (List Nat × (List Nat → Option S))} (h : RepsAll v l) : l ≠ [] := by
  cases v with
  | sc x => obtain ⟨s, f, rfl, _⟩ := h; simp
  | vec vs => obtain ⟨s, f, rfl, _⟩ := h; simp
  | pair a b =>
    obtain ⟨l₁, l₂, rfl, h1, h2⟩ := h
    have := RepsAll.ne_nil h1
    simp [this]

theorem RepsAll.single {v : Val S} {s : List Nat} {f : List Nat → Option S} : RepsAll v [(s, f)] ↔ Reps s f v := by
  cases v with
  | sc x =>
    constructor
    · rintro ⟨s', f', h, h'⟩; cases h; exact h'
    · exact fun h => ⟨s, f, rfl, h⟩
  | vec vs =>
    constructor
    · rintro ⟨s', f', h, h'⟩; cases h; exact h'
    · exact fun h => ⟨s, f, rfl, h⟩
  | pair a b =>
    constructor
    · rintro ⟨l₁, l₂, h, h1, h2⟩
      have n1 := List.length_pos_iff.2 (RepsAll.ne_nil h1)
      have n2 := List.length_pos_iff.2 (RepsAll.ne_nil h2)
      have := congrArg List.length h
      simp at this; omega
    · exact fun h => absurd h Reps.not_pair

/-- A value without pairs on the outside is represented by one array. -/
theorem RepsAll.one {v : Val S} {l : List (List Nat × (List Nat → Option S))} (h : RepsAll v l)
    (hv : ∀ a b, v ≠ .pair a b) : ∃ s f, l = [(s, f)] ∧ Reps s f v := by
  cases v with
  | sc x => exact h
  | vec vs => exact h
  | pair a b => exact absurd rfl (hv a b)

theorem RepsAll.congr {v : Val S} {l m : List (List Nat × (List Nat → Option S))}
    (h : List.Forall₂ (fun p q => p.1 = q.1 ∧ ∀ jx, InRange p.1 jx → p.2 jx = q.2 jx) l m) (hv : RepsAll v l) :
    RepsAll v m := by
  induction v using Val.ind generalizing l m with
  | sc x =>
    obtain ⟨s, f, rfl, h'⟩ := hv
    cases h with
    | cons h1 h2 =>
      cases h2
      rename_i q
      obtain ⟨s', g⟩ := q
      obtain ⟨rfl, h1⟩ := h1
      exact ⟨_, _, rfl, h'.congr h1⟩
  | vec vs _ =>
    obtain ⟨s, f, rfl, h'⟩ := hv
    cases h with
    | cons h1 h2 =>
      cases h2
      rename_i q
      obtain ⟨s', g⟩ := q
      obtain ⟨rfl, h1⟩ := h1
      exact ⟨_, _, rfl, h'.congr h1⟩
  | pair a b iha ihb =>
    obtain ⟨l₁, l₂, rfl, h1, h2⟩ := hv
    have e1 := List.forall₂_take l₁.length h
    have e2 := List.forall₂_drop l₁.length h
    rw [List.take_left] at e1
    rw [List.drop_left] at e2
    exact ⟨_, _, (List.take_append_drop l₁.length m).symm, iha e1 h1, ihb e2 h2⟩

theorem RepsAll.unique {v w : Val S} {l : List (List Nat × (List Nat → Option S))} (h : RepsAll v l)
    (h' : RepsAll w l) (hs : Val.shape v = Val.shape w) : v = w := by
  induction v using Val.ind generalizing w l with
  | sc x =>
    obtain ⟨s, f, rfl, h1⟩ := h
    exact h1.unique (RepsAll.single.1 h')
  | vec vs _ =>
    obtain ⟨s, f, rfl, h1⟩ := h
    exact h1.unique (RepsAll.single.1 h')
  | pair a b iha ihb =>
    obtain ⟨l₁, l₂, rfl, h1, h2⟩ := h
    cases w with
    | sc x => simp [Val.shape, Val.map] at hs
    | vec vs => simp [Val.shape, Val.map] at hs
    | pair c d =>
      rw [Val.shape, Val.shape, Val.map, Val.map, Val.pair.injEq] at hs
      obtain ⟨m₁, m₂, e, g1, g2⟩ := h'
      have key : ∀ (x y : Val S) (p q : List (List Nat × (List Nat → Option S))),
          Val.shape x = Val.shape y → RepsAll x p → RepsAll y q → p.length = q.length := by
        intro x
        induction x using Val.ind with
        | sc x =>
          intro y p q e hp hq
          obtain ⟨_, _, rfl, _⟩ := hp
          cases y with
          | sc y => obtain ⟨_, _, rfl, _⟩ := hq; rfl
          | vec vs => simp [Val.shape, Val.map] at e
          | pair a b => simp [Val.shape, Val.map] at e
        | vec vs _ =>
          intro y p q e hp hq
          obtain ⟨_, _, rfl, _⟩ := hp
          cases y with
          | sc y => simp [Val.shape, Val.map] at e
          | vec vs => obtain ⟨_, _, rfl, _⟩ := hq; rfl
          | pair a b => simp [Val.shape, Val.map] at e
        | pair a b iha ihb =>
          intro y p q e hp hq
          cases y with
          | sc y => simp [Val.shape, Val.map] at e
          | vec vs => simp [Val.shape, Val.map] at e
          | pair c d =>
            rw [Val.shape, Val.shape, Val.map, Val.map, Val.pair.injEq] at e
            obtain ⟨_, _, rfl, p1, p2⟩ := hp
            obtain ⟨_, _, rfl, q1, q2⟩ := hq
            simp [iha c _ _ e.1 p1 q1, ihb d _ _ e.2 p2 q2]
      have hl := key a c _ _ hs.1 h1 g1
      obtain ⟨rfl, rfl⟩ := List.append_inj e hl
      rw [iha h1 g1 hs.1, ihb h2 g2 hs.2]

end reps

section types
variable {F : Type}

/-- The array types of a value's type have the ranks of the arrays that represent it. -/
theorem Reps.prim {s : List Nat} {f : List Nat → Option (Scal F)} {v : D F} {τ : Ty} (h : Reps s f v)
    (ht : HasType v τ) : ∃ k, Phi.prim τ = some [⟨s.length, k⟩] := by
  induction s generalizing f v τ with
  | nil =>
    obtain ⟨x, rfl, _⟩ := h
    cases ht
    exact ⟨_, rfl⟩
  | cons n s ih =>
    obtain ⟨h0, vs, rfl, h2, h3⟩ := h
    cases ht with
    | vec ht =>
      have hv : vs[0]? = some vs[0] := List.getElem?_eq_getElem (by omega)
      obtain ⟨k, hk⟩ := ih (h3 0 _ hv) (ht _ (List.mem_of_getElem? hv))
      exact ⟨k, by simp [Phi.prim, hk, Phi.single, Phi.Arr.lift]⟩

theorem RepsAll.prim {v : D F} {l : List (List Nat × (List Nat → Option (Scal F)))} {τ : Ty} (h : RepsAll v l)
    (ht : HasType v τ) : ∃ p, Phi.prim τ = some p ∧ p.map Phi.Arr.rank = l.map fun q => q.1.length := by
  induction v using Val.ind generalizing l τ with
  | sc x =>
    obtain ⟨s, f, rfl, h1⟩ := h
    obtain ⟨k, hk⟩ := h1.prim ht
    exact ⟨_, hk, rfl⟩
  | vec vs _ =>
    obtain ⟨s, f, rfl, h1⟩ := h
    obtain ⟨k, hk⟩ := h1.prim ht
    exact ⟨_, hk, rfl⟩
  | pair a b iha ihb =>
    obtain ⟨l₁, l₂, rfl, h1, h2⟩ := h
    cases ht with
    | pair ha hb =>
      obtain ⟨p, hp, ep⟩ := iha h1 ha
      obtain ⟨q, hq, eq⟩ := ihb h2 hb
      exact ⟨p ++ q, by simp [Phi.prim, hp, hq], by simp [ep, eq]⟩

end types
end Verif.Codegen
