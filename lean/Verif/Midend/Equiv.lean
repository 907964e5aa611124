import Mathlib.Data.Finset.Basic
import Mathlib.Data.Finset.Card
import Mathlib.Logic.Relation
import Mathlib.Tactic.SplitIfs

/-!
Model of `ein/midend/equiv.py` (class `Equivalence`) and of the `_get_parent` override in
`ein/midend/size_classes.py` (class `SizeEquivalence`).

Python dictionaries are functions into `Option`; Python sets are `Finset`s.
-/

namespace Verif.Midend

/-- `ein/midend/equiv.py:7-13`: the two dictionaries `_parent` and `_classes`. -/
structure Equivalence (T : Type) where
  parent : T → Option T
  classes : T → Option (Finset T)

namespace Equivalence
variable {T : Type} [DecidableEq T]

/-- `ein/midend/equiv.py:11-13` `__init__`: both dictionaries are empty. -/
def empty : Equivalence T := ⟨fun _ => none, fun _ => none⟩

/-- `ein/midend/equiv.py:15-16` `_get_parent`, with the normalisation step that
`ein/midend/size_classes.py:47-52` adds in the subclass (`norm = id` is the base class). -/
def getParent (norm : T → T) (s : Equivalence T) (u : T) : T :=
  (s.parent (norm u)).getD (norm u)

/-- `ein/midend/equiv.py:18-20` `find`: the reported class of `u`. -/
def find (norm : T → T) (s : Equivalence T) (u : T) : Finset T :=
  (s.classes (s.getParent norm u)).getD {s.getParent norm u}

/-- `ein/midend/equiv.py:22-29` `equiv(*args)`. -/
def equiv (norm : T → T) (s : Equivalence T) : List T → Bool
  | [] => true
  | a :: rest => rest.all fun v => decide (s.getParent norm a = s.getParent norm v)

/-- `ein/midend/equiv.py:36-41`: the part of `unite` after the size comparison; the class of root
`u` is merged into that of root `v`.  The loop over the popped set is modelled as one
simultaneous update (the set's iteration order is irrelevant: the loop writes distinct keys). -/
def link (s : Equivalence T) (u v : T) : Equivalence T :=
  let clsU := (s.classes u).getD {u}
  let clsV := (s.classes v).getD {v}
  { parent := fun w => if w ∈ clsU then some v else s.parent w
    classes := fun w =>
      if w = v then some (clsV ∪ clsU) else if w = u then none else s.classes w }

/-- `ein/midend/equiv.py:31-41` `unite`; returns the new state and the reported change flag. -/
def unite (norm : T → T) (s : Equivalence T) (a b : T) : Equivalence T × Bool :=
  let u := s.getParent norm a
  let v := s.getParent norm b
  if u = v then (s, false)
  else if (s.find norm u).card > (s.find norm v).card then (s.link v u, true)
  else (s.link u v, true)

/-- A history of `unite` calls, applied in order to a fresh object. -/
def run (norm : T → T) (history : List (T × T)) : Equivalence T :=
  history.foldl (fun s p => (s.unite norm p.1 p.2).1) empty

/-- The representation invariant: parents are roots, and each stored class is exactly the set of
items with that root. -/
structure Inv (norm : T → T) (s : Equivalence T) : Prop where
  norm_parent : ∀ u v, s.parent u = some v → norm v = v ∧ norm u = u
  root_root : ∀ u v, s.parent u = some v → (s.parent v).getD v = v
  cls_some : ∀ r S, s.classes r = some S → norm r = r ∧ (s.parent r).getD r = r ∧
    ∀ w, w ∈ S ↔ (norm w = w ∧ (s.parent w).getD w = r)
  cls_none : ∀ r, s.classes r = none → ∀ w, (s.parent w).getD w = r → w = r

omit [DecidableEq T] in
theorem inv_empty (norm : T → T) : (empty : Equivalence T).Inv norm := by
  constructor <;> simp [empty]

omit [DecidableEq T] in
theorem Inv.getParent_norm {norm : T → T} (hn : ∀ x, norm (norm x) = norm x) {s : Equivalence T}
    (h : s.Inv norm) (u : T) : norm (s.getParent norm u) = s.getParent norm u := by
  unfold getParent
  cases hp : s.parent (norm u) with
  | none => simp [hn]
  | some v => simpa using (h.norm_parent _ _ hp).1

omit [DecidableEq T] in
theorem Inv.getParent_idem {norm : T → T} (hn : ∀ x, norm (norm x) = norm x) {s : Equivalence T}
    (h : s.Inv norm) (u : T) :
    s.getParent norm (s.getParent norm u) = s.getParent norm u := by
  have h1 := h.getParent_norm hn u
  have h2 : s.getParent norm (s.getParent norm u) =
      (s.parent (s.getParent norm u)).getD (s.getParent norm u) := by
    conv_lhs => rw [getParent, h1]
  rw [h2]
  unfold getParent
  cases hp : s.parent (norm u) with
  | none => simp [hp]
  | some v => simpa using h.root_root _ _ hp

omit [DecidableEq T] in
/-- For a root `r`, the class `classes.get(r, {r})` is the set of normal items with root `r`. -/
theorem Inv.mem_cls {norm : T → T} {s : Equivalence T} (h : s.Inv norm) {r : T}
    (hr : norm r = r) (hrr : (s.parent r).getD r = r) (w : T) :
    w ∈ (s.classes r).getD {r} ↔ (norm w = w ∧ (s.parent w).getD w = r) := by
  cases hc : s.classes r with
  | none =>
    simp only [Option.getD_none, Finset.mem_singleton]
    constructor
    · rintro rfl; exact ⟨hr, hrr⟩
    · rintro ⟨_, hw⟩; exact h.cls_none r hc w hw
  | some S => simpa using (h.cls_some r S hc).2.2 w

theorem Inv.link {norm : T → T} {s : Equivalence T} (h : s.Inv norm) {u v : T} (huv : u ≠ v)
    (hu : norm u = u) (hv : norm v = v) (hru : (s.parent u).getD u = u)
    (hrv : (s.parent v).getD v = v) : (s.link u v).Inv norm := by
  have mu := h.mem_cls hu hru
  have mv := h.mem_cls hv hrv
  have vnot : v ∉ (s.classes u).getD {u} := by
    rw [mu]; rintro ⟨_, h2⟩; exact huv (h2.symm.trans hrv)
  have key : ∀ w, norm w = w → ((s.link u v).parent w).getD w =
      if (s.parent w).getD w = u then v else (s.parent w).getD w := by
    intro w hw
    simp only [Equivalence.link]
    by_cases hm : w ∈ (s.classes u).getD {u}
    · simp [hm, ((mu w).1 hm).2]
    · have : (s.parent w).getD w ≠ u := fun hh => hm ((mu w).2 ⟨hw, hh⟩)
      simp [hm, this]
  refine ⟨?_, ?_, ?_, ?_⟩
  · intro a b hab
    simp only [Equivalence.link] at hab
    split_ifs at hab with hm
    · cases hab; exact ⟨hv, ((mu a).1 hm).1⟩
    · exact h.norm_parent a b hab
  · intro a b hab
    simp only [Equivalence.link] at hab
    split_ifs at hab with hm
    · cases hab; rw [key _ hv, hrv]; simp
    · have hb := h.root_root a b hab
      have nb := (h.norm_parent a b hab)
      rw [key _ nb.1, hb]
      split_ifs with hbu
      · subst hbu
        exact absurd ((mu a).2 ⟨nb.2, by simp [hab]⟩) hm
      · rfl
  · intro r S hr
    simp only [Equivalence.link] at hr
    split_ifs at hr with h1 h2
    · subst h1
      cases hr
      refine ⟨hv, by rw [key _ hv, hrv]; simp, ?_⟩
      intro w
      rw [Finset.mem_union, mu, mv]
      constructor
      · rintro (⟨a, b⟩ | ⟨a, b⟩)
        · refine ⟨a, ?_⟩; rw [key _ a, b, if_neg (Ne.symm huv)]
        · refine ⟨a, ?_⟩; rw [key _ a, b]; simp
      · rintro ⟨a, b⟩
        rw [key _ a] at b
        split_ifs at b with hb
        · exact Or.inr ⟨a, hb⟩
        · exact Or.inl ⟨a, b⟩
    · obtain ⟨a, b, c⟩ := h.cls_some r S hr
      refine ⟨a, ?_, ?_⟩
      · rw [key _ a, b, if_neg h2]
      · intro w
        rw [c]
        constructor
        · rintro ⟨p, q⟩; refine ⟨p, ?_⟩; rw [key _ p, q, if_neg h2]
        · rintro ⟨p, q⟩
          rw [key _ p] at q
          split_ifs at q with hq
          · exact absurd q.symm h1
          · exact ⟨p, q⟩
  · intro r hr w hw
    simp only [Equivalence.link] at hr
    split_ifs at hr with h1 h2
    · subst h2
      exfalso
      simp only [Equivalence.link] at hw
      by_cases hm : w ∈ (s.classes r).getD {r}
      · simp [hm] at hw; exact h1 hw.symm
      · simp only [hm, if_false] at hw
        cases hp : s.parent w with
        | none =>
          rw [hp] at hw
          simp only [Option.getD_none] at hw
          subst hw
          exact hm ((mu w).2 ⟨hu, hru⟩)
        | some x =>
          exact hm ((mu w).2 ⟨(h.norm_parent _ _ hp).2, hw⟩)
    · simp only [Equivalence.link] at hw
      by_cases hm : w ∈ (s.classes u).getD {u}
      · simp [hm] at hw; exact absurd hw.symm h1
      · simp only [hm, if_false] at hw
        exact h.cls_none r hr w hw

theorem Inv.unite {norm : T → T} (hn : ∀ x, norm (norm x) = norm x) {s : Equivalence T}
    (h : s.Inv norm) (a b : T) : ((s.unite norm a b).1).Inv norm := by
  have na := h.getParent_norm hn a
  have nb := h.getParent_norm hn b
  have ra := h.getParent_idem hn a
  have rb := h.getParent_idem hn b
  have ra' : (s.parent (s.getParent norm a)).getD (s.getParent norm a) = s.getParent norm a := by
    conv_lhs => rw [← na]
    exact ra
  have rb' : (s.parent (s.getParent norm b)).getD (s.getParent norm b) = s.getParent norm b := by
    conv_lhs => rw [← nb]
    exact rb
  unfold Equivalence.unite
  simp only
  split_ifs with h1 h2
  · exact h
  · exact h.link (Ne.symm h1) nb na rb' ra'
  · exact h.link h1 na nb ra' rb'

theorem Inv.run {norm : T → T} (hn : ∀ x, norm (norm x) = norm x) (history : List (T × T)) :
    (run norm history).Inv norm := by
  unfold Equivalence.run
  suffices ∀ s : Equivalence T, s.Inv norm →
      (history.foldl (fun s p => (s.unite norm p.1 p.2).1) s).Inv norm from
    this _ (inv_empty norm)
  induction history with
  | nil => intro s h; exact h
  | cons p rest ih => intro s h; exact ih _ (h.unite hn p.1 p.2)

/-- How one `unite` changes the root of every item. -/
theorem getParent_unite {norm : T → T} (hn : ∀ x, norm (norm x) = norm x) {s : Equivalence T}
    (h : s.Inv norm) (a b : T) : ∃ keep drop : T,
    ((keep = s.getParent norm a ∧ drop = s.getParent norm b) ∨
      (keep = s.getParent norm b ∧ drop = s.getParent norm a)) ∧
    ∀ w, (s.unite norm a b).1.getParent norm w =
      if s.getParent norm w = drop then keep else s.getParent norm w := by
  have na := h.getParent_norm hn a
  have nb := h.getParent_norm hn b
  have ra : (s.parent (s.getParent norm a)).getD (s.getParent norm a) = s.getParent norm a := by
    conv_lhs => rw [← na]
    exact h.getParent_idem hn a
  have rb : (s.parent (s.getParent norm b)).getD (s.getParent norm b) = s.getParent norm b := by
    conv_lhs => rw [← nb]
    exact h.getParent_idem hn b
  have key : ∀ u v : T, norm u = u → (s.parent u).getD u = u → ∀ w,
      (s.link u v).getParent norm w =
        if s.getParent norm w = u then v else s.getParent norm w := by
    intro u v hu hru w
    have mu := h.mem_cls hu hru (norm w)
    unfold getParent Equivalence.link
    simp only
    by_cases hm : norm w ∈ (s.classes u).getD {u}
    · simp [hm, (mu.1 hm).2]
    · have : (s.parent (norm w)).getD (norm w) ≠ u := fun hh => hm (mu.2 ⟨hn w, hh⟩)
      simp [hm, this]
  unfold Equivalence.unite
  simp only
  split_ifs with h1 h2
  · refine ⟨_, _, Or.inl ⟨rfl, rfl⟩, ?_⟩
    intro w
    split_ifs with hw
    · rw [hw, h1]
    · rfl
  · exact ⟨_, _, Or.inl ⟨rfl, rfl⟩, key _ _ nb rb⟩
  · exact ⟨_, _, Or.inr ⟨rfl, rfl⟩, key _ _ na ra⟩

/-- The pairs united so far, seen through normalisation. -/
def United (norm : T → T) (history : List (T × T)) (x y : T) : Prop :=
  ∃ p ∈ history, norm p.1 = x ∧ norm p.2 = y

theorem getParent_eq_iff {norm : T → T} (hn : ∀ x, norm (norm x) = norm x)
    (history : List (T × T)) (u v : T) :
    (run norm history).getParent norm u = (run norm history).getParent norm v ↔
      Relation.EqvGen (United norm history) (norm u) (norm v) := by
  induction history using List.reverseRecOn generalizing u v with
  | nil =>
    simp only [run, List.foldl_nil, getParent, empty, Option.getD_none]
    constructor
    · intro h; rw [h]; exact Relation.EqvGen.refl _
    · intro h
      have : ∀ x y, Relation.EqvGen (United norm []) x y → x = y := by
        intro x y hxy
        induction hxy with
        | rel _ _ h => obtain ⟨p, hp, _⟩ := h; cases hp
        | refl => rfl
        | symm _ _ _ ih => exact ih.symm
        | trans _ _ _ _ _ i j => exact i.trans j
      exact this _ _ h
  | append_singleton rest p ih =>
    obtain ⟨a, b⟩ := p
    have hinv := Inv.run hn rest
    have hrun : run norm (rest ++ [(a, b)]) = ((run norm rest).unite norm a b).1 := by
      simp [run, List.foldl_append]
    rw [hrun]
    obtain ⟨keep, drop, hkd, hw⟩ := getParent_unite hn hinv a b
    have mono : ∀ x y, Relation.EqvGen (United norm rest) x y →
        Relation.EqvGen (United norm (rest ++ [(a, b)])) x y := by
      intro x y hxy
      refine Relation.EqvGen.mono (r := United norm rest) ?_ x y hxy
      rintro x y ⟨p, hp, h⟩
      exact ⟨p, List.mem_append_left _ hp, h⟩
    have hab : Relation.EqvGen (United norm (rest ++ [(a, b)])) (norm a) (norm b) :=
      Relation.EqvGen.rel _ _ ⟨(a, b), by simp, rfl, rfl⟩
    rw [hw u, hw v]
    constructor
    · intro h
      -- every item is connected to its old root's representative
      have eab : ∀ x, (run norm rest).getParent norm x = drop →
          ∀ y, (run norm rest).getParent norm y = keep →
          Relation.EqvGen (United norm (rest ++ [(a, b)])) (norm x) (norm y) := by
        intro x hx y hy
        rcases hkd with ⟨hk, hd⟩ | ⟨hk, hd⟩
        · have h1 := mono _ _ ((ih x b).1 (hx.trans hd))
          have h2 := mono _ _ ((ih y a).1 (hy.trans hk))
          exact (h1.trans _ _ _ (hab.symm)).trans _ _ _ h2.symm
        · have h1 := mono _ _ ((ih x a).1 (hx.trans hd))
          have h2 := mono _ _ ((ih y b).1 (hy.trans hk))
          exact (h1.trans _ _ _ hab).trans _ _ _ h2.symm
      split_ifs at h with h1 h2 h2
      · exact mono _ _ ((ih u v).1 (h1.trans h2.symm))
      · exact eab u h1 v h.symm
      · exact (eab v h2 u h).symm
      · exact mono _ _ ((ih u v).1 h)
    · intro h
      have gen : ∀ x y, Relation.EqvGen (United norm (rest ++ [(a, b)])) x y →
          (if (run norm rest).getParent norm x = drop then keep
            else (run norm rest).getParent norm x) =
          (if (run norm rest).getParent norm y = drop then keep
            else (run norm rest).getParent norm y) := by
        intro x y hxy
        induction hxy with
        | rel x y h =>
          obtain ⟨p, hp, hx, hy⟩ := h
          rcases List.mem_append.1 hp with hp | hp
          · have : (run norm rest).getParent norm x = (run norm rest).getParent norm y := by
              rw [ih]
              rw [← hx, ← hy, hn, hn]
              exact Relation.EqvGen.rel _ _ ⟨p, hp, rfl, rfl⟩
            rw [this]
          · simp only [List.mem_singleton] at hp
            subst hp
            have e1 : (run norm rest).getParent norm x = (run norm rest).getParent norm a := by
              rw [← hx]; unfold getParent; simp only; rw [hn]
            have e2 : (run norm rest).getParent norm y = (run norm rest).getParent norm b := by
              rw [← hy]; unfold getParent; simp only; rw [hn]
            rw [e1, e2]
            rcases hkd with ⟨hk, hd⟩ | ⟨hk, hd⟩
            · subst hk hd; simp
            · subst hk hd; simp
        | refl => rfl
        | symm _ _ _ ih => exact ih.symm
        | trans _ _ _ _ _ i j => exact i.trans j
      have e := gen _ _ h
      have eu : (run norm rest).getParent norm (norm u) = (run norm rest).getParent norm u := by
        unfold getParent; rw [hn]
      have ev : (run norm rest).getParent norm (norm v) = (run norm rest).getParent norm v := by
        unfold getParent; rw [hn]
      rwa [eu, ev] at e

end Equivalence
end Verif.Midend
