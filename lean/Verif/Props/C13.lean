import Verif.Midend.Equiv

/-!
C13 — equivalence classes are exactly the generated equivalence.

Specification used in the statements: `Relation.EqvGen R` (Mathlib), the least equivalence relation
containing `R`; `R` relates the two arguments of every `unite` call of the history.
-/

namespace Verif.Props
open Verif.Midend

variable {T : Type} [DecidableEq T]

/-- "`x` and `y` were passed together to some `unite` call". -/
def UnitedPair (history : List (T × T)) (x y : T) : Prop := (x, y) ∈ history

omit [DecidableEq T] in
theorem united_id (history : List (T × T)) :
    Equivalence.United id history = UnitedPair history := by
  funext x y
  simp only [Equivalence.United, UnitedPair, id, eq_iff_iff]
  constructor
  · rintro ⟨⟨a, b⟩, hp, rfl, rfl⟩; exact hp
  · intro h; exact ⟨_, h, rfl, rfl⟩

/-- C13: after any history of `unite` calls, a variadic equivalence query succeeds iff all
arguments are connected to the first by chains of united pairs. -/
theorem C13_equiv_iff_connected (history : List (T × T)) (a : T) (rest : List T) :
    (Equivalence.run id history).equiv id (a :: rest) = true ↔
      ∀ v ∈ rest, Relation.EqvGen (UnitedPair history) a v := by
  simp only [Equivalence.equiv, List.all_eq_true, decide_eq_true_eq]
  constructor
  · intro h v hv
    have := (Equivalence.getParent_eq_iff (norm := id) (fun _ => rfl) history a v).1 (h v hv)
    rwa [united_id] at this
  · intro h v hv
    refine (Equivalence.getParent_eq_iff (norm := id) (fun _ => rfl) history a v).2 ?_
    rw [united_id]
    exact h v hv

/-- C13: `unite` reports a change iff the two items were not yet connected. -/
theorem C13_unite_reports_change (history : List (T × T)) (a b : T) :
    ((Equivalence.run id history).unite id a b).2 = true ↔
      ¬ Relation.EqvGen (UnitedPair history) a b := by
  have h := Equivalence.getParent_eq_iff (T := T) (norm := id) (fun _ => rfl) history a b
  rw [united_id] at h
  simp only [id] at h
  rw [← h]
  unfold Equivalence.unite
  simp only
  split_ifs with h1 h2 <;> simp [h1]

/-- C13: the class reported for an item is exactly the set of items connected to it. -/
theorem C13_find_is_class (history : List (T × T)) (u w : T) :
    w ∈ (Equivalence.run id history).find id u ↔
      Relation.EqvGen (UnitedPair history) u w := by
  have hinv := Equivalence.Inv.run (T := T) (norm := id) (fun _ => rfl) history
  have h := Equivalence.getParent_eq_iff (T := T) (norm := id) (fun _ => rfl) history w u
  rw [united_id] at h
  unfold Equivalence.find
  rw [hinv.mem_cls (r := (Equivalence.run id history).getParent id u) rfl
    (hinv.getParent_idem (norm := id) (fun _ => rfl) u)]
  constructor
  · rintro ⟨_, hw⟩; exact (h.1 hw).symm
  · intro hc; exact ⟨rfl, h.2 hc.symm⟩

/-- C13 for the subclass used for sizes: items are first replaced by a representative (`norm`), and
equivalence is the one generated on representatives. -/
theorem C13_equiv_iff_connected_normalised (norm : T → T) (hn : ∀ x, norm (norm x) = norm x)
    (history : List (T × T)) (u v : T) :
    (Equivalence.run norm history).equiv norm [u, v] = true ↔
      Relation.EqvGen (fun x y => ∃ p ∈ history, norm p.1 = x ∧ norm p.2 = y)
        (norm u) (norm v) := by
  have := Equivalence.getParent_eq_iff hn history u v
  simp only [Equivalence.equiv, List.all_cons, List.all_nil, Bool.and_true, decide_eq_true_eq]
  exact this

/-- Non-vacuity: a history in which a larger class is merged twice, and a query that is true only by
transitivity. -/
example : (Equivalence.run id [(1, 2), (3, 4), (2, 4), (5, 6)]).equiv id [1, 3, 4] = true ∧
    (Equivalence.run id [(1, 2), (3, 4), (2, 4), (5, 6)]).equiv id [1, 5] = false ∧
    ((Equivalence.run id [(1, 2), (3, 4), (2, 4)]).unite id 1 3).2 = false ∧
    (Equivalence.run id [(1, 2), (3, 4), (2, 4)]).find id 3 = {1, 2, 3, 4} := by decide

end Verif.Props
