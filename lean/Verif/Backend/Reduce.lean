import Verif.Phi.Sem

/-!
The logarithmic reduction of the array backends (`ArrayBackend.reduce`,
`ein/backend/array_backend.py:104-155`).

An array (or tuple of arrays) is seen as the list of its slices along the reduced axis. The body is
compiled to vectorised code; applying it to two batches of slices is modelled as applying it to
corresponding slices (that vectorised code works slice-wise is the subject of C01).
-/

namespace Verif.Backend
open Verif.Phi
variable {α : Type}

/-- Elements `0, 2, 4, …` of a list. -/
def everyOther : List α → List α
  | [] => []
  | [a] => [a]
  | a :: _ :: l => a :: everyOther l

/-- `get` on two batches (`array_backend.py:139-142`). -/
def batch (op : α → α → Option α) (xs ys : List α) : Option (List α) :=
  mapOpt (fun p : α × α => op p.1 p.2) (xs.zip ys)

/-- The accumulator after the first half of an iteration (`array_backend.py:145-146`): an odd last slice
is combined with it. -/
def accStep (op : α → α → Option α) (acc : α) (vals : List α) : Option α :=
  if vals.length % 2 = 1 then (vals.getLast?).bind (fun x => op x acc) else some acc

/-- The loop (`array_backend.py:144-150`). `fuel` bounds the number of iterations. In the code `n` is a
separate counter, halved in each iteration; here it is the number of slices. -/
def treeLoop (op : α → α → Option α) : Nat → α → List α → Option α
  | 0, _, _ => none
  | fuel + 1, acc, vals =>
    if 1 < vals.length then
      (accStep op acc vals).bind fun acc' =>
        -- `vals[:-1:2]` and `vals[1::2]` (`array_backend.py:147`)
        (batch op (everyOther vals.dropLast) (everyOther vals.tail)).bind fun vals' =>
          treeLoop op fuel acc' vals'
    else match vals with
      | [] => some acc
      | x :: _ => op x acc

/-- `reduce_impl` (`array_backend.py:113-153`) -/
def treeReduce (op : α → α → Option α) (init : α) (vals : List α) : Option α :=
  treeLoop op (vals.length + 1) init vals

/-- The pairs combined in one iteration. -/
def pairUp (m : α → α → α) : List α → List α
  | a :: b :: l => m a b :: pairUp m l
  | _ => []

theorem everyOther_zip (m : α → α → α) : ∀ l : List α,
    ((everyOther l.dropLast).zip (everyOther l.tail)).map (fun p => m p.1 p.2) = pairUp m l
  | [] => rfl
  | [a] => rfl
  | [a, b] => rfl
  | a :: b :: c :: l => by
    have ih := everyOther_zip m (c :: l)
    cases l with
    | nil => rfl
    | cons d l =>
      simp only [List.dropLast, List.tail, everyOther, List.zip_cons_cons, List.map_cons, pairUp] at ih ⊢
      simpa [everyOther] using ih

theorem everyOther_subset : ∀ l : List α, ∀ x ∈ everyOther l, x ∈ l
  | [], x, h => by cases h
  | [a], x, h => h
  | a :: b :: l, x, h => by
    rcases List.mem_cons.1 h with rfl | h
    · simp
    · simp [everyOther_subset l x h]

theorem pairUp_length (m : α → α → α) : ∀ l : List α, (pairUp m l).length = l.length / 2
  | [] => by simp [pairUp]
  | [a] => by simp [pairUp]
  | a :: b :: l => by
    have := pairUp_length m l
    simp only [pairUp, List.length_cons, this]
    omega

theorem mapOpt_some {β : Type} {f : α → Option β} {g : α → β} {l : List α}
    (h : ∀ a ∈ l, f a = some (g a)) : mapOpt f l = some (l.map g) := by
  induction l with
  | nil => rfl
  | cons a l ih =>
    rw [mapOpt, h a (by simp), ih (fun x hx => h x (by simp [hx]))]
    rfl

section
variable {P : α → Prop} {op : α → α → Option α} {m : α → α → α}

theorem pairUp_mem (hc : ∀ x y, P x → P y → P (m x y)) : ∀ l : List α, (∀ x ∈ l, P x) →
    ∀ x ∈ pairUp m l, P x
  | [], _, x, h => by cases h
  | [a], _, x, h => by cases h
  | a :: b :: l, hl, x, h => by
    rcases List.mem_cons.1 h with rfl | h
    · exact hc _ _ (hl a (by simp)) (hl b (by simp))
    · exact pairUp_mem hc l (fun y hy => hl y (by simp [hy])) x h

/-- One iteration keeps `x₀ · (x₁ · (… · acc))`, for an even number of slices. -/
theorem foldr_pairUp (hc : ∀ x y, P x → P y → P (m x y))
    (ha : ∀ x y z, P x → P y → P z → m (m x y) z = m x (m y z)) : ∀ (l : List α) (acc : α),
    (∀ x ∈ l, P x) → P acc → l.length % 2 = 0 →
      (pairUp m l).foldr m acc = l.foldr m acc ∧ P (l.foldr m acc)
  | [], acc, _, hp, _ => ⟨rfl, hp⟩
  | [a], _, _, _, h => by simp at h
  | a :: b :: l, acc, hl, hp, h => by
    have hl' : ∀ x ∈ l, P x := fun x hx => hl x (by simp [hx])
    obtain ⟨h1, h2⟩ := foldr_pairUp hc ha l acc hl' hp (by simp only [List.length_cons] at h; omega)
    have pa := hl a (by simp)
    have pb := hl b (by simp)
    refine ⟨?_, hc _ _ pa (hc _ _ pb h2)⟩
    simp only [pairUp, List.foldr_cons, h1]
    exact ha _ _ _ pa pb h2

theorem pairUp_dropLast : ∀ l : List α, l.length % 2 = 1 → pairUp m l = pairUp m l.dropLast
  | [], h => by simp at h
  | [a], _ => rfl
  | [a, b], h => by simp at h
  | a :: b :: c :: l, h => by
    have := pairUp_dropLast (c :: l) (by simp only [List.length_cons] at h ⊢; omega)
    simp only [pairUp, List.dropLast] at this ⊢
    rw [this]

theorem treeLoop_eq (hop : ∀ x y, P x → P y → op x y = some (m x y))
    (hc : ∀ x y, P x → P y → P (m x y))
    (ha : ∀ x y z, P x → P y → P z → m (m x y) z = m x (m y z)) (fuel : Nat) (acc : α)
    (vals : List α) (hf : vals.length < fuel) (hv : ∀ x ∈ vals, P x) (hp : P acc) :
    treeLoop op fuel acc vals = some (vals.foldr m acc) := by
  induction fuel generalizing acc vals with
  | zero => omega
  | succ fuel ih =>
    unfold treeLoop
    by_cases hn : 1 < vals.length
    · rw [if_pos hn]
      have hb : batch op (everyOther vals.dropLast) (everyOther vals.tail) = some (pairUp m vals) := by
        rw [← everyOther_zip]
        refine mapOpt_some (fun p hp => ?_)
        obtain ⟨h1, h2⟩ := List.of_mem_zip hp
        exact hop _ _ (hv _ ((List.dropLast_sublist _).subset (everyOther_subset _ _ h1)))
          (hv _ ((List.tail_sublist _).subset (everyOther_subset _ _ h2)))
      have hlen := pairUp_length m vals
      have hpv := pairUp_mem hc vals hv
      by_cases hodd : vals.length % 2 = 1
      · have hne : vals ≠ [] := by intro h; simp [h] at hn
        have hlast : P (vals.getLast hne) := hv _ (List.getLast_mem hne)
        have hacc : accStep op acc vals = some (m (vals.getLast hne) acc) := by
          rw [accStep, if_pos hodd, List.getLast?_eq_some_getLast hne, Option.bind_some, hop _ _ hlast hp]
        rw [hacc, Option.bind_some, hb, Option.bind_some, ih _ _ (by omega) hpv (hc _ _ hlast hp)]
        rw [pairUp_dropLast vals hodd]
        rw [(foldr_pairUp hc ha vals.dropLast _
          (fun x hx => hv x ((List.dropLast_sublist _).subset hx)) (hc _ _ hlast hp)
          (by rw [List.length_dropLast]; omega)).1]
        conv_rhs => rw [← List.dropLast_append_getLast hne]
        rw [List.foldr_append]
        rfl
      · have hacc : accStep op acc vals = some acc := by rw [accStep, if_neg hodd]
        rw [hacc, Option.bind_some, hb, Option.bind_some, ih _ _ (by omega) hpv hp]
        rw [(foldr_pairUp hc ha vals acc hv hp (by omega)).1]
    · rw [if_neg hn]
      rcases vals with _ | ⟨x, _ | ⟨y, l⟩⟩
      · rfl
      · simp only [List.foldr_cons, List.foldr_nil]
        exact hop _ _ (hv x (by simp)) hp
      · simp at hn

end
end Verif.Backend
