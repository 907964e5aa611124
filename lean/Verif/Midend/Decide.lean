import Verif.Midend.OutlineOk

/-! Decision procedures for the conditions on programs, used by the concrete examples. -/

set_option linter.unusedSectionVars false

namespace Verif.Midend
open Term
variable {H : Type} [Lang H] [DecidableEq H]

theorem mem_occurrences {u t : Term H} : u ∈ occurrences t ↔ Occurs u t := by
  induction t using ind with
  | step h ts ih =>
    unfold occurrences
    rw [para_node]
    simp only [List.map_map, List.mem_cons, List.mem_flatten, List.mem_map]
    have e : ts.map (Prod.fst ∘ fun t => (t, para (fun (h : H) fs =>
        node h (fs.map Prod.fst) :: (fs.map Prod.snd).flatten) t)) = ts := by
      simp [Function.comp_def]
    rw [e]
    constructor
    · rintro (rfl | ⟨l, ⟨t, ht, rfl⟩, hu⟩)
      · exact .refl _
      · exact .child ht ((ih t ht).1 hu)
    · intro ho
      cases ho with
      | refl => exact Or.inl rfl
      | child ht ho => exact Or.inr ⟨_, ⟨_, ht, rfl⟩, (ih _ ht).2 ho⟩

instance (p : Term H) : Decidable (UniqueBinders p) :=
  decidable_of_iff
    ((∀ a ∈ occurrences p, ∀ b ∈ occurrences p,
        Disjoint (Lang.captured a.head) (Lang.captured b.head) ∨ a = b) ∧
      Disjoint (binders p) (fv p) ∧
      ∀ a ∈ occurrences p, ∀ s ∈ Lang.captured a.head, ∀ i < a.subs.length, ∀ j < a.subs.length,
        s ∈ ((a.subs[i]?.map fv).getD ∅) → s ∈ ((a.subs[j]?.map fv).getD ∅) → i = j) (by
    constructor
    · rintro ⟨h1, h2, h3⟩
      refine ⟨?_, h2, ?_⟩
      · intro h ts k us s ho ho' hc hc'
        rcases h1 _ (mem_occurrences.2 ho) _ (mem_occurrences.2 ho') with hd | he
        · exact absurd hc' (Finset.disjoint_left.1 hd hc)
        · exact he
      · intro h ts s ho hc i j a b hi hj hsa hsb
        have li := (List.getElem?_eq_some_iff.1 hi).1
        have lj := (List.getElem?_eq_some_iff.1 hj).1
        exact h3 _ (mem_occurrences.2 ho) s hc i li j lj (by simpa [subs, hi] using hsa)
          (by simpa [subs, hj] using hsb)
    · rintro ⟨h1, h2, h3⟩
      refine ⟨?_, h2, ?_⟩
      · rintro ⟨h, ts⟩ ha ⟨k, us⟩ hb
        by_cases hd : Disjoint (Lang.captured h) (Lang.captured k)
        · exact Or.inl hd
        · rw [Finset.not_disjoint_iff] at hd
          obtain ⟨s, hs, hs'⟩ := hd
          exact Or.inr (h1 h ts k us s (mem_occurrences.1 ha) (mem_occurrences.1 hb) hs hs')
      · rintro ⟨h, ts⟩ ha s hs i hi j hj hsi hsj
        simp only [subs] at hi hj hsi hsj
        rw [List.getElem?_eq_getElem hi] at hsi
        rw [List.getElem?_eq_getElem hj] at hsj
        exact h3 h ts s (mem_occurrences.1 ha) hs i j _ _ (List.getElem?_eq_getElem hi)
          (List.getElem?_eq_getElem hj) hsi hsj)

instance (p : Term H) : Decidable (LetFree p) :=
  decidable_of_iff (∀ a ∈ occurrences p, Lang.letVar a.head = none) (by
    constructor
    · intro h k us ho; exact h _ (mem_occurrences.2 ho)
    · rintro h ⟨k, us⟩ ha; exact h k us (mem_occurrences.1 ha))

theorem scoped_iff {p : Term H} : Scoped p ↔ ∀ a ∈ occurrences p, ∀ k < a.subs.length,
    Lang.outside a.head k = true → Disjoint (Lang.captured a.head) ((a.subs[k]?.map fv).getD ∅) := by
  constructor
  · rintro hs ⟨h, ts⟩ ha k hk ho
    simp only [subs] at hk ⊢
    rw [List.getElem?_eq_getElem hk]
    exact (hs.occurs (mem_occurrences.1 ha)).out k _ (List.getElem?_eq_getElem hk) ho
  · intro hall
    have : ∀ t, Occurs t p → Scoped t := by
      intro t
      induction t using ind with
      | step h ts ih =>
        intro ho
        refine .node ?_ (fun t ht => ih t ht ((Occurs.child ht (.refl _)).trans ho))
        intro k t hk hout
        have := hall _ (mem_occurrences.2 ho) k (List.getElem?_eq_some_iff.1 hk).1 hout
        simpa [subs, hk, head] using this
    exact this p (.refl _)

instance (p : Term H) : Decidable (Scoped p) := decidable_of_iff _ scoped_iff.symm

theorem noShadow_iff {p : Term H} : NoShadow p ↔ ∀ a ∈ occurrences p,
    (∀ t ∈ a.subs, Disjoint (Lang.captured a.head) (binders t)) ∧
    (match a.subs with
      | [bind, _] => ∀ v ∈ Lang.letVar a.head, Sym.var v ∉ fv bind
      | _ => True) := by
  constructor
  · rintro hs ⟨h, ts⟩ ha
    have hn := hs.occurs (mem_occurrences.1 ha)
    refine ⟨hn.disjoint, ?_⟩
    cases hn with
    | node h1 h2 h3 =>
      rcases ts with _ | ⟨a, _ | ⟨b, _ | ⟨_, _⟩⟩⟩ <;> (simp only [subs, head]; try trivial)
      intro v hv
      exact h2 v a b hv rfl
  · intro hall
    have : ∀ t, Occurs t p → NoShadow t := by
      intro t
      induction t using ind with
      | step h ts ih =>
        intro ho
        obtain ⟨h1, h2⟩ := hall _ (mem_occurrences.2 ho)
        refine .node h1 ?_ (fun t ht => ih t ht ((Occurs.child ht (.refl _)).trans ho))
        rintro v bind body hv rfl
        exact h2 v hv
    exact this p (.refl _)

instance decNoShadow (p : Term H) : Decidable (NoShadow p) :=
  have : ∀ a : Term H, Decidable (match a.subs with
      | [bind, _] => ∀ v ∈ Lang.letVar a.head, Sym.var v ∉ fv bind
      | _ => True) := fun a => by split <;> infer_instance
  decidable_of_iff _ noShadow_iff.symm

instance (p : Term H) : Decidable (LetArity p) :=
  decidable_of_iff (∀ a ∈ occurrences p, (Lang.letVar a.head).isSome → a.subs.length = 2) (by
    constructor
    · intro h k us ho hs
      exact h _ (mem_occurrences.2 ho) hs
    · rintro h ⟨k, us⟩ ha hs
      exact h k us (mem_occurrences.1 ha) hs)

end Verif.Midend
