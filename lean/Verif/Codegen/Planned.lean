import Verif.Codegen.Contract
import Verif.Midend.StructsSubst

/-!
Which folds are compiled to `einsum` or to one reduction of an array (`ein/codegen/phi_to_yarr.py:80-160`), and that
their code computes the value of the fold.
-/

set_option linter.unusedSectionVars false

namespace Verif.Codegen
open Verif.Phi Verif.Term Verif.Yarr Verif.Arr Verif.Midend
variable {F : Type}

/-! ### Plans -/

/-- Has the node the right number of operands? -/
def shapeOk : Phi.Head F → Nat → Bool
  | .letv _, n => decide (n = 2)
  | .vec _, n => decide (n = 2)
  | .fold _ _, n => decide (n = 3)
  | .reduce _ _, n => decide (2 ≤ n)
  | _, _ => true

/-- Have all binders the right number of operands? -/
def shaped (e : Expr F) : Bool := cata (fun h bs => shapeOk h bs.length && bs.all id) e

/-- Is the expression well-formed, with its free symbols in scope? -/
def wellBound (e : Expr F) : Bool := shaped e && lexical e (fv e)

section
variable [DecidableEq F]

/-- What the proofs ask of a fold that is compiled to `einsum`: names are bound once, no element mentions an
accumulator, the new indices differ, and the sizes do not mention the counters. -/
def dotSafe (new : Nat → Nat) (e : Expr F) (d : Dot F) : Bool :=
  decide (Scoped e) && ((occurrences e).all accFreeAt) &&
  decide (∀ q ∈ d.contract, (∀ r ∈ d.contract, (new q.1 = new r.1 → q.1 = r.1) ∧ Sym.var r.1 ∉ fv q.2) ∧
    wellBound q.2 = true) &&
  decide (∀ s ∈ d.summands, ∀ f ∈ s.2, wellBound (withIndices new d f) = true ∧
    ∀ q ∈ d.contract, Sym.var q.1 ∉ binders f ∧ Sym.idx (new q.1) ∉ binders f)

/-- The plan of a sum of products. -/
def dotOf (new : Nat → Nat) (e : Expr F) (d : Dot F) : Plan F :=
  .dot (dotSafe new e d) (d.contract.map fun q => (new q.1, q.2))
    (d.summands.map fun s => (s.1.map fun q => new q.1, s.2.map (withIndices new d)))

/-- The einsum branch of a fold `e` (`phi_to_yarr.py:80-133`). `new` gives the new index of a counter. In the
program the sizes are compiled before the products are refused. -/
def dotPlan [FloatOps F] (equiv : Expr F → Expr F → Bool) (new : Nat → Nat) (e : Expr F) : Option (Plan F) :=
  match lift (size e) e with
  | none => some .fail
  | some d =>
    if d.contract ≠ [] ∧ (∃ p ∈ d.products, 1 < p.length) ∧
      (∀ p ∈ d.products, ∀ q ∈ d.contract, ∀ f ∈ p, considerate equiv q.1 q.2 f = true) then some (dotOf new e d)
    else none

/-- What the proofs ask of a fold that is compiled to one reduction: names are bound once, and the element does not
mention the accumulator. -/
def bulkSafe (i c a : Nat) (n elem : Expr F) : Bool :=
  decide (Scoped elem) && decide (Sym.var a ∉ fv elem) && decide (Sym.var c ∉ binders elem) &&
  decide (Sym.idx i ∉ binders elem) && wellBound (elemsOf c n elem i)

/-- `match_reduction` (`phi_to_yarr.py:399-428`); `i` is the new index. -/
def bulkPlan (equiv : Expr F → Expr F → Bool) (i c a : Nat) (n z b : Expr F) : Option (Plan F) :=
  if Phi.typeOf z = some (.scalar .float) ∧ freeIndices z = ∅ then
    match matchReductionByBody b a with
    | some (elem, k) =>
      if considerate equiv c n elem then some (.bulk (bulkSafe i c a n elem) k i (elemsOf c n elem i) z) else none
    | none => none
  else none

/-- How a fold is compiled (`phi_to_yarr.py:79-160`), if not to a loop. `ein` and `red` are the options
`use_einsum` and `use_reductions`, `equiv` is `size_class.equiv`. -/
def standardPlan [FloatOps F] (red ein : Bool) (equiv : Expr F → Expr F → Bool) (new : Nat → Nat) (c a : Nat)
    (n z b : Expr F) : Option (Plan F) :=
  match (if ein then dotPlan equiv new (fold c a n z b) else none) with
  | some p => some p
  | none => if red then bulkPlan equiv (new c) c a n z b else none

end

/-! ### The expressions in a plan are small -/

section
variable [DecidableEq F]

theorem size_at (i : Nat) : size (at_ i : Expr F) = 1 := by unfold at_; rw [size_node]; rfl

/-- A substitution of symbols by indices. -/
def ToIndices (σ : List (Sym × Expr F)) : Prop := ∀ p ∈ σ, ∃ i, p.2 = at_ i

theorem lookup_at {σ : List (Sym × Expr F)} (h : ToIndices σ) {s : Sym} {u : Expr F} (hu : lookup s σ = some u) :
    ∃ p ∈ σ, u = p.2 := by
  induction σ with
  | nil => cases hu
  | cons p σ ih =>
    obtain ⟨k, w⟩ := p
    simp only [lookup] at hu
    split at hu
    · cases hu; exact ⟨_, List.mem_cons_self, rfl⟩
    · obtain ⟨q, hq, e⟩ := ih (fun p hp => h p (by simp [hp])) hu
      exact ⟨q, by simp [hq], e⟩

theorem size_substitute {σ : List (Sym × Expr F)} (h : ToIndices σ) (t : Expr F) : size (substitute σ t) ≤ size t := by
  induction t using ind with
  | step hd ts ih =>
    rw [substitute_node]
    split
    · exact le_rfl
    · split
      · rename_i u hu
        unfold substAt at hu
        obtain ⟨s, _, hu⟩ := Option.bind_eq_some_iff.1 hu
        obtain ⟨p, hp, rfl⟩ := lookup_at h hu
        obtain ⟨i, hi⟩ := h p hp
        rw [hi, size_at]
        exact size_pos _
      · rw [size_node, size_node, List.map_map]
        have : ∀ l : List (Expr F), (∀ t ∈ l, size (substitute σ t) ≤ size t) →
            (l.map (size ∘ substitute σ)).sum ≤ (l.map size).sum := by
          intro l hl
          induction l with
          | nil => exact le_rfl
          | cons t l ihl =>
            have h1 := hl t (by simp)
            have h2 := ihl fun t ht => hl t (by simp [ht])
            simp only [List.map_cons, List.sum_cons, Function.comp] at h2 ⊢
            omega
        have := this ts ih
        omega

theorem idx_substitute {σ : List (Sym × Expr F)} (h : ToIndices σ) {t : Expr F} {i : Nat}
    (hi : Sym.idx i ∈ fv (substitute σ t)) : Sym.idx i ∈ fv t ∨ ∃ p ∈ σ, p.2 = at_ i := by
  rcases Finset.mem_union.1 (fv_substitute σ t hi) with hi | hi
  · exact .inl (Finset.mem_sdiff.1 hi).1
  · obtain ⟨p, hp, hi⟩ := mem_rangeFv.1 hi
    obtain ⟨j, hj⟩ := h p hp
    rw [hj] at hi
    cases mem_fv_at hi
    exact .inr ⟨p, hp, hj⟩

/-- A smaller expression with no other free indices. -/
structure Part (e t : Expr F) : Prop where
  small : size t ≤ size e
  free : ∀ i, Sym.idx i ∈ fv t → Sym.idx i ∈ fv e

theorem Part.trans {e t u : Expr F} (h : Part e t) (h' : Part t u) : Part e u :=
  ⟨h'.small.trans h.small, fun i hi => h.free i (h'.free i hi)⟩

/-- The parts of a child that is not below a comprehension. -/
theorem part_child {h : Phi.Head F} {ts : List (Expr F)} {t : Expr F} (ht : t ∈ ts) (hc : ∀ i, h ≠ .vec i) :
    size t < size (node h ts) ∧ Part (node h ts) t := by
  refine ⟨size_lt_of_mem ht, (size_lt_of_mem ht).le, fun i hi => mem_fv.2 ⟨.inr ⟨t, ht, hi⟩, ?_⟩⟩
  show Sym.idx i ∉ Phi.Head.captured h
  cases h <;> simp [Phi.Head.captured] at hc ⊢

/-- What is known about the size of a normal form. -/
structure Parts (e : Expr F) (d : Dot F) : Prop where
  factors : ∀ s ∈ d.summands, ∀ f ∈ s.2, Part e f
  sizes : ∀ q ∈ d.contract, Part e q.2 ∧ size q.2 < size e

theorem Parts.up {e x : Expr F} {d : Dot F} (h : Parts x d) (hx : Part e x) : Parts e d :=
  ⟨fun s hs f hf => hx.trans (h.factors s hs f hf), fun q hq => ⟨hx.trans (h.sizes q hq).1,
    lt_of_lt_of_le (h.sizes q hq).2 hx.small⟩⟩

theorem dotParts_pure (e : Expr F) : Parts e (.pure e) :=
  ⟨by simp only [Dot.pure, List.mem_singleton]; rintro _ rfl _ hf; simp at hf; subst hf; exact ⟨le_rfl, fun _ h => h⟩,
    by simp [Dot.pure]⟩

theorem dotParts_neg {e x : Expr F} {d : Dot F} (h : Parts x d) (hx : Part e x) (hl : size x < size e) : Parts e d.neg := by
  refine ⟨fun s hs f hf => ?_, (h.up hx).sizes⟩
  obtain ⟨s', hs', rfl⟩ := List.mem_map.1 hs
  rcases mem_negHead hf with hf | ⟨g, hg, rfl⟩
  · exact (h.up hx).factors s' hs' f hf
  · have hg' := h.factors s' hs' g hg
    refine ⟨?_, fun i hi => ?_⟩
    · have := hg'.small
      rw [size_node]
      simp only [List.map_cons, List.map_nil, List.sum_cons, List.sum_nil]
      omega
    · obtain ⟨t, ht, hi'⟩ := fv_op.1 hi
      simp only [List.mem_singleton] at ht
      subst ht
      exact hx.free i (hg'.free i hi')

theorem dotParts_add {e : Expr F} {d d' r : Dot F} (h : Parts e d) (h' : Parts e d') (hr : d.add d' = some r) : Parts e r := by
  unfold Dot.add at hr
  split at hr
  · cases hr
    refine ⟨fun s hs f hf => ?_, fun q hq => ?_⟩
    · rcases List.mem_append.1 hs with hs | hs
      · exact h.factors s hs f hf
      · exact h'.factors s hs f hf
    · rcases mem_union hq with hq | hq
      · exact h.sizes q hq
      · exact h'.sizes q hq
  · cases hr

theorem dotParts_mul {e : Expr F} {d d' : Dot F} (h : Parts e d) (h' : Parts e d') : Parts e (d.mul d') := by
  refine ⟨fun s hs f hf => ?_, fun q hq => ?_⟩
  · obtain ⟨p, hp, hs⟩ := List.mem_flatMap.1 hs
    obtain ⟨q, hq, rfl⟩ := List.mem_map.1 hs
    rcases List.mem_append.1 hf with hf | hf
    · exact h.factors p hp f hf
    · exact h'.factors q hq f hf
  · rcases mem_union hq with hq | hq
    · exact h.sizes q hq
    · exact h'.sizes q hq

theorem dotParts_sum {e n : Expr F} {d r : Dot F} {c : Nat} (h : Parts e d) (hn : Part e n) (hl : size n < size e)
    (hr : d.sum c n = some r) : Parts e r := by
  unfold Dot.sum at hr
  split at hr
  · cases hr
  · cases hr
    refine ⟨fun s hs f hf => ?_, fun q hq => ?_⟩
    · obtain ⟨s', hs', rfl⟩ := List.mem_map.1 hs
      exact h.factors s' hs' f hf
    · rcases List.mem_append.1 hq with hq | hq
      · exact h.sizes q hq
      · simp only [List.mem_singleton] at hq
        subst hq
        exact ⟨hn, hl⟩

variable [FloatOps F]

theorem lift_parts : ∀ (k : Nat) (e : Expr F) (d : Dot F), lift k e = some d → Parts e d := by
  intro k
  induction k with
  | zero => intro e d h; simp [lift] at h
  | succ k ih =>
    rintro ⟨hd, ts⟩ d h
    have op : ∀ {f : ScalarOp} {ts : List (Expr F)} {t : Expr F}, t ∈ ts →
        size t < size (node (.op f) ts) ∧ Part (node (.op f) ts) t := fun ht => part_child ht (by simp)
    simp only [lift] at h
    split at h
    · rename_i c a n z b
      split at h
      · rename_i elem hm
        obtain ⟨d', h1, h2⟩ := Option.bind_eq_some_iff.1 h
        obtain ⟨hb, -⟩ := matchSummation_some hm
        obtain ⟨f, ts, rfl, ht⟩ := body_child hb
        have hp : ∀ t ∈ [n, z, node (.op f) ts], size t < size (node (.fold c a) [n, z, node (.op f) ts]) ∧
            Part (node (.fold c a) [n, z, node (.op f) ts]) t := fun t ht => part_child (h := (.fold c a : Phi.Head F)) (t := t) ht (by simp)
        exact dotParts_sum ((ih elem d' h1).up ((hp (node (.op f) ts) (by simp)).2.trans (op ht).2)) (hp n (by simp)).2 (hp n (by simp)).1 h2
      · cases h; exact dotParts_pure _
    · rename_i x y
      obtain ⟨d1, h1, h⟩ := Option.bind_eq_some_iff.1 h
      obtain ⟨d2, h2, h⟩ := Option.bind_eq_some_iff.1 h
      exact dotParts_add ((ih x d1 h1).up (op (by simp)).2) ((ih y d2 h2).up (op (by simp)).2) h
    · rename_i x
      obtain ⟨d1, h1, rfl⟩ := Option.map_eq_some_iff.1 h
      exact dotParts_neg (ih x d1 h1) (op (by simp)).2 (op (by simp)).1
    · rename_i x y
      obtain ⟨d1, h1, h⟩ := Option.bind_eq_some_iff.1 h
      obtain ⟨d2, h2, h⟩ := Option.bind_eq_some_iff.1 h
      exact dotParts_add ((ih x d1 h1).up (op (by simp)).2) (dotParts_neg (ih y d2 h2) (op (by simp)).2 (op (by simp)).1) h
    · rename_i x y
      obtain ⟨d1, h1, h⟩ := Option.bind_eq_some_iff.1 h
      obtain ⟨d2, h2, h⟩ := Option.bind_eq_some_iff.1 h
      split at h
      · cases h
        exact dotParts_mul ((ih x d1 h1).up (op (by simp)).2) ((ih y d2 h2).up (op (by simp)).2)
      · cases h; exact dotParts_pure _
    · cases h; exact dotParts_pure _

/-- The factors of a fold that is a sum come from its element. -/
theorem lift_fold {k c a : Nat} {n z b : Expr F} {d : Dot F} (h : lift k (fold c a n z b) = some d)
    (hd : d.contract ≠ []) : ∀ s ∈ d.summands, ∀ f ∈ s.2, size f < size (fold c a n z b) ∧ Part (fold c a n z b) f := by
  cases k with
  | zero => simp [lift] at h
  | succ k =>
    simp only [lift, fold] at h
    split at h
    · rename_i elem hm
      obtain ⟨d', h1, h2⟩ := Option.bind_eq_some_iff.1 h
      obtain ⟨hb, -⟩ := matchSummation_some hm
      obtain ⟨f, ts, rfl, ht⟩ := body_child hb
      have hp := lift_parts _ _ _ h1
      unfold Dot.sum at h2
      split at h2
      · cases h2
      · cases h2
        intro s hs f' hf
        obtain ⟨s', hs', rfl⟩ := List.mem_map.1 hs
        have h3 := hp.factors s' hs' f' hf
        have h4 := part_child (h := (.op f : Phi.Head F)) ht (by simp)
        have h5 := part_child (h := (.fold c a : Phi.Head F)) (ts := [n, z, node (.op f) ts]) (t := node (.op f) ts)
          (by simp) (by simp)
        exact ⟨lt_of_le_of_lt (h4.2.trans h3).small h5.1, h5.2.trans (h4.2.trans h3)⟩
    · cases h
      exact absurd rfl hd

theorem toIndices_contract (new : Nat → Nat) (d : Dot F) :
    ToIndices (d.contract.map fun q => (Sym.var q.1, (at_ (new q.1) : Expr F))) := by
  intro p hp
  obtain ⟨q, _, rfl⟩ := List.mem_map.1 hp
  exact ⟨_, rfl⟩

theorem at_inj {i j : Nat} (h : (at_ i : Expr F) = at_ j) : i = j := by
  unfold at_ at h
  simp at h
  exact h

/-- The expressions in a plan are smaller than the fold, and mention no other indices than the fold and the new
ones. -/
theorem standardPlan_small (red ein : Bool) (equiv : Expr F → Expr F → Bool) (new : Nat → Nat) (c a : Nat)
    (n z b : Expr F) (p : Plan F) (hp : standardPlan red ein equiv new c a n z b = some p) : ∀ t ∈ p.exprs,
      size t < size (fold c a n z b) ∧
        ∀ i, Sym.idx i ∈ fv t → Sym.idx i ∈ fv (fold c a n z b) ∨ i ∈ p.new := by
  unfold standardPlan at hp
  split at hp
  · rename_i q hq
    cases hp
    split at hq
    · unfold dotPlan at hq
      split at hq
      · cases hq; simp [Plan.exprs]
      · rename_i d hd
        split at hq
        · rename_i hc
          cases hq
          intro t ht
          simp only [dotOf, Plan.exprs, List.mem_append, List.map_map, List.mem_map, Function.comp, List.mem_flatMap] at ht
          rcases ht with ⟨q, hq, rfl⟩ | ⟨_, ⟨s, hs, rfl⟩, ht⟩
          · have := (lift_parts _ _ _ hd).sizes q hq
            exact ⟨this.2, fun i hi => .inl (this.1.free i hi)⟩
          · obtain ⟨f, hf, rfl⟩ := List.mem_map.1 ht
            have := lift_fold hd hc.1 s hs f hf
            refine ⟨lt_of_le_of_lt (size_substitute (toIndices_contract new d) f) this.1, fun i hi => ?_⟩
            rcases idx_substitute (toIndices_contract new d) hi with hi | ⟨p, hp, e⟩
            · exact .inl (this.2.free i hi)
            · obtain ⟨q, hq, rfl⟩ := List.mem_map.1 hp
              refine .inr ?_
              simp only [dotOf, Plan.new, List.map_map, List.mem_map, Function.comp]
              exact ⟨q, hq, at_inj e⟩
        · cases hq
    · cases hq
  · split at hp
    · unfold bulkPlan at hp
      split at hp
      · split at hp
        · rename_i elem k hb
          split at hp
          · cases hp
            obtain ⟨f, ts, rfl, ht⟩ := body_child hb
            have hpc : ∀ t ∈ [n, z, node (.op f) ts], size t < size (fold c a n z (node (.op f) ts)) ∧
                Part (fold c a n z (node (.op f) ts)) t := fun t ht =>
              part_child (h := (.fold c a : Phi.Head F)) (t := t) ht (by simp)
            have he := part_child (h := (.op f : Phi.Head F)) ht (by simp)
            have hto : ToIndices [(Sym.var c, (at_ (new c) : Expr F))] := by
              intro p hp; simp only [List.mem_singleton] at hp; subst hp; exact ⟨_, rfl⟩
            intro t ht'
            simp only [Plan.exprs, List.mem_cons, List.not_mem_nil, or_false] at ht'
            rcases ht' with rfl | rfl
            · refine ⟨?_, fun i hi => .inl ?_⟩
              · have h1 := size_substitute hto elem
                have h2 := he.1
                have h3 := size_pos z
                unfold elemsOf vec fold
                rw [size_node, size_node]
                simp only [List.map_cons, List.map_nil, List.sum_cons, List.sum_nil]
                omega
              · unfold elemsOf vec at hi
                obtain ⟨h1, h2⟩ := mem_fv.1 hi
                change Sym.idx i ∉ Phi.Head.captured _ at h2
                simp only [Phi.Head.captured, Finset.mem_singleton, Sym.idx.injEq] at h2
                rcases h1 with h1 | ⟨t, ht, h1⟩
                · cases h1
                · simp only [List.mem_cons, List.not_mem_nil, or_false] at ht
                  rcases ht with rfl | rfl
                  · exact (hpc t (by simp)).2.free i h1
                  · rcases idx_substitute hto h1 with h1 | ⟨p, hp, e⟩
                    · exact (hpc _ (by simp)).2.free i (he.2.free i h1)
                    · simp only [List.mem_singleton] at hp
                      subst hp
                      exact absurd (at_inj e).symm h2
            · exact ⟨(hpc t (by simp)).1, fun i hi => .inl ((hpc t (by simp)).2.free i hi)⟩
          · cases hp
        · cases hp
      · cases hp
    · cases hp

end

/-! ### Scope -/

section
variable [FloatOps F] [DecidableEq F]

/-- A term that is well-formed in one scope is so in another one in which its binders are not bound, either. -/
theorem lexical_scope (e : Expr F) : ∀ S T : Finset Sym, shaped e = true → lexical e T = true → fv e ⊆ S →
    (∀ s ∈ binders e, s ∈ S → s ∈ T) → lexical e S = true := by
  induction e using ind with
  | step h ts ih =>
    intro S T hw hT hS hb
    unfold shaped at hw
    rw [cata_node] at hw
    simp only [List.length_map, Bool.and_eq_true] at hw
    obtain ⟨hn, hw⟩ := hw
    have hw : ∀ t ∈ ts, shaped t = true := fun t ht => List.all_eq_true.1 hw _ (List.mem_map.2 ⟨t, ht, rfl⟩)
    rw [lexical_node] at hT ⊢
    have hfree : ∀ t ∈ ts, ∀ s ∈ fv t, s ∉ Phi.Head.captured h → s ∈ S := fun t ht s hs hc =>
      hS (mem_fv.2 ⟨.inr ⟨t, ht, hs⟩, hc⟩)
    have hbind : ∀ t ∈ ts, ∀ s ∈ binders t, s ∈ S → s ∈ T := fun t ht s hs => hb s (mem_binders.2 (.inr ⟨t, ht, hs⟩))
    have hcap : ∀ s ∈ Phi.Head.captured h, s ∉ T → s ∉ S := fun s hs h1 h2 => h1 (hb s (mem_binders.2 (.inl hs)) h2)
    have one : ∀ t ∈ ts, lexical t T = true → (∀ s ∈ Phi.Head.captured h, s ∉ T) → lexical t S = true :=
      fun t ht hl hc => ih t ht S T (hw t ht) hl
        (fun s hs => hfree t ht s hs fun hm => hc s hm (lexical_fv _ _ hl hs)) (hbind t ht)
    have plain : Phi.Head.captured h = ∅ → (ts.map lexical).all (· T) = true →
        (ts.map lexical).all (· S) = true := by
      intro hc hl
      rw [List.all_eq_true] at hl ⊢
      intro f hf
      obtain ⟨t, ht, rfl⟩ := List.mem_map.1 hf
      exact one t ht (hl _ (List.mem_map.2 ⟨t, ht, rfl⟩)) fun s hs => by rw [hc] at hs; simp at hs
    have under1 : ∀ t ∈ ts, ∀ x, Phi.Head.captured h = {x} → lexical t (insert x T) = true →
        lexical t (insert x S) = true := by
      intro t ht x hx hl
      refine ih t ht _ _ (hw t ht) hl (fun s hs => ?_) fun s hs hm => ?_
      · by_cases e : s = x
        · exact e ▸ Finset.mem_insert_self _ _
        · exact Finset.mem_insert_of_mem (hfree t ht s hs (by rw [hx]; simpa using e))
      · rcases Finset.mem_insert.1 hm with e | hm
        · exact e ▸ Finset.mem_insert_self _ _
        · exact Finset.mem_insert_of_mem (hbind t ht s hs hm)
    have under2 : ∀ t ∈ ts, ∀ x y, Phi.Head.captured h = {x, y} → lexical t (insert x (insert y T)) = true →
        lexical t (insert x (insert y S)) = true := by
      intro t ht x y hx hl
      refine ih t ht _ _ (hw t ht) hl (fun s hs => ?_) fun s hs hm => ?_
      · simp only [Finset.mem_insert]
        by_cases e : s = x
        · exact .inl e
        · by_cases e' : s = y
          · exact .inr (.inl e')
          · exact .inr (.inr (hfree t ht s hs (by rw [hx]; simp [e, e'])))
      · simp only [Finset.mem_insert] at hm ⊢
        exact hm.imp_right (Or.imp_right fun h => hbind t ht s hs h)
    cases h with
    | store s τ =>
      simp only [lexStep, Bool.and_eq_true, decide_eq_true_eq] at hT ⊢
      exact ⟨hS (mem_fv.2 ⟨.inl rfl, by simp [Lang.captured, Phi.Head.captured]⟩), plain rfl hT.2⟩
    | letv v =>
      rcases ts with _ | ⟨b, _ | ⟨e, _ | ⟨_, _⟩⟩⟩ <;> try (simp [shapeOk] at hn)
      simp only [List.map, lexStep, Bool.and_eq_true, decide_eq_true_eq] at hT ⊢
      have h0 : ∀ s ∈ Phi.Head.captured (.letv v : Phi.Head F), s ∉ T := by simpa [Phi.Head.captured] using hT.1.2
      exact ⟨⟨one b (by simp) hT.1.1 h0, hcap _ (by simp [Phi.Head.captured]) hT.1.2⟩, under1 e (by simp) _ rfl hT.2⟩
    | vec i =>
      rcases ts with _ | ⟨b, _ | ⟨e, _ | ⟨_, _⟩⟩⟩ <;> try (simp [shapeOk] at hn)
      simp only [List.map, lexStep, Bool.and_eq_true, decide_eq_true_eq] at hT ⊢
      have h0 : ∀ s ∈ Phi.Head.captured (.vec i : Phi.Head F), s ∉ T := by simpa [Phi.Head.captured] using hT.1.2
      exact ⟨⟨one b (by simp) hT.1.1 h0, hcap _ (by simp [Phi.Head.captured]) hT.1.2⟩, under1 e (by simp) _ rfl hT.2⟩
    | fold c a =>
      rcases ts with _ | ⟨n, _ | ⟨z, _ | ⟨b, _ | ⟨_, _⟩⟩⟩⟩ <;> try (simp [shapeOk] at hn)
      simp only [List.map, lexStep, Bool.and_eq_true, decide_eq_true_eq] at hT ⊢
      obtain ⟨⟨⟨⟨⟨h1, h2⟩, h3⟩, h4⟩, h5⟩, h6⟩ := hT
      have h0 : ∀ s ∈ Phi.Head.captured (.fold c a : Phi.Head F), s ∉ T := by
        simp only [Phi.Head.captured, Finset.mem_insert, Finset.mem_singleton]
        rintro s (rfl | rfl)
        · exact h3
        · exact h4
      exact ⟨⟨⟨⟨⟨one n (by simp) h1 h0, one z (by simp) h2 h0⟩, hcap _ (by simp [Phi.Head.captured]) h3⟩,
        hcap _ (by simp [Phi.Head.captured]) h4⟩, h5⟩, under2 b (by simp) _ _ rfl h6⟩
    | reduce x y =>
      rcases ts with _ | ⟨z, _ | ⟨b, vs⟩⟩ <;> try (simp [shapeOk] at hn)
      simp only [List.map_cons, lexStep, Bool.and_eq_true, decide_eq_true_eq] at hT ⊢
      obtain ⟨⟨⟨⟨⟨h1, h2⟩, h3⟩, h4⟩, h5⟩, h6⟩ := hT
      have h0 : ∀ s ∈ Phi.Head.captured (.reduce x y : Phi.Head F), s ∉ T := by
        simp only [Phi.Head.captured, Finset.mem_insert, Finset.mem_singleton]
        rintro s (rfl | rfl)
        · exact h3
        · exact h4
      refine ⟨⟨⟨⟨⟨one z (by simp) h1 h0, ?_⟩, hcap _ (by simp [Phi.Head.captured]) h3⟩,
        hcap _ (by simp [Phi.Head.captured]) h4⟩, h5⟩, under2 b (by simp) _ _ rfl h6⟩
      rw [List.all_eq_true] at h2 ⊢
      intro f hf
      obtain ⟨t, ht, rfl⟩ := List.mem_map.1 hf
      exact one t (by simp [ht]) (h2 _ (List.mem_map.2 ⟨t, ht, rfl⟩)) h0
    | const v τ => exact plain rfl hT
    | assertEq => exact plain rfl hT
    | dim k => exact plain rfl hT
    | get => exact plain rfl hT
    | concat => exact plain rfl hT
    | cons => exact plain rfl hT
    | fst => exact plain rfl hT
    | snd => exact plain rfl hT
    | op f => exact plain rfl hT
    | ext fn τ => exact plain rfl hT

/-- A part of a plan is well-formed where no symbol that it binds is in scope. -/
theorem wellBound_lexical {t : Expr F} {S : Finset Sym} (h : wellBound t = true) (hf : fv t ⊆ S)
    (hb : ∀ s ∈ binders t, s ∉ S) : lexical t S = true := by
  unfold wellBound at h
  rw [Bool.and_eq_true] at h
  exact lexical_scope t S _ h.1 h.2 hf fun s hs hm => absurd hm (hb s hs)

variable {J : YExt F} {S : Finset Sym} {σ : Nat → Nat} {sizes : Nat → Option (YExpr F)} {vaxes : Nat → List Nat}
  {E : (Nat → Nat) → Env (D F)} {yenv : Env (YVal F)}

/-- The symbols in scope have values. -/
theorem EnvRel.isSome (h : EnvRel J S σ sizes vaxes E yenv) {ρ : Nat → Nat} (hρ : Valid (inScope S) σ ρ) {s : Sym}
    (hs : s ∈ S) : (E ρ s).isNone = false := by
  cases s with
  | idx i => rw [h.idx ρ i hs]; rfl
  | var v =>
    obtain ⟨as, ss, _, _, h3⟩ := h.var v hs
    obtain ⟨w, hw, _⟩ := h3 ρ hρ
    dsimp only at hw
    rw [hw]; rfl

theorem unused_out (h : EnvRel J S σ sizes vaxes E yenv) {ρ : Nat → Nat} (hρ : Valid (inScope S) σ ρ) {t : Expr F}
    (hu : unused (E ρ) t = true) : ∀ s ∈ binders t, s ∉ S := by
  intro s hs hm
  have h1 := of_decide_eq_true hu s hs
  rw [h.isSome hρ hm] at h1
  cases h1

/-! ### Sizes and assignments -/

theorem sumSizes_some {val : Expr F → Option (D F)} (l : List (Nat × Expr F)) : ∀ {sz sz' : Nat → Nat},
    (l.map Prod.fst).Nodup → sumSizes val l sz = some sz' →
    (∀ q ∈ l, ∃ m : Int, 0 < m ∧ val q.2 = some (.int m) ∧ sz' q.1 = m.toNat) ∧
      ∀ i, i ∉ l.map Prod.fst → sz' i = sz i := by
  induction l with
  | nil => intro sz sz' _ h; cases h; exact ⟨by simp, fun _ _ => rfl⟩
  | cons q l ih =>
    obtain ⟨i, n⟩ := q
    intro sz sz' hn h
    rw [List.map_cons, List.nodup_cons] at hn
    simp only [sumSizes] at h
    obtain ⟨m, h1, h⟩ := Option.bind_eq_some_iff.1 h
    obtain ⟨v, h2, h1⟩ := Option.bind_eq_some_iff.1 h1
    have hv : v = .int m := by
      cases v with
      | sc c => cases c <;> simp [Val.asInt] at h1; subst h1; rfl
      | vec _ => simp [Val.asInt] at h1
      | pair _ _ => simp [Val.asInt] at h1
    split at h
    · rename_i hm
      obtain ⟨h3, h4⟩ := ih hn.2 h
      refine ⟨fun q hq => ?_, fun j hj => ?_⟩
      · rcases List.mem_cons.1 hq with rfl | hq
        · refine ⟨m, hm, by rw [h2, hv], ?_⟩
          rw [h4 i hn.1]
          simp [upd]
        · exact h3 q hq
      · simp only [List.map_cons, List.mem_cons, not_or] at hj
        rw [h4 j hj.2]
        simp [upd, hj.1]
    · cases h

theorem allAssigned_spec {sz : Nat → Nat} {ρ : Nat → Nat} {p : Env (D F) → Bool} (l : List Nat) : ∀ {env : Env (D F)},
    allAssigned sz l env p = true → (∀ i ∈ l, ρ i < sz i) → p (setIdx ρ l env) = true := by
  induction l with
  | nil => intro env h _; exact h
  | cons i l ih =>
    intro env h hρ
    exact ih (List.all_eq_true.1 h (ρ i) (List.mem_range.2 (hρ i (by simp)))) fun j hj => hρ j (by simp [hj])

end

/-! ### Folds with a plan are compiled correctly -/

section
variable [CommRing F] [FloatOps F] [RingFloat F] [AssocFloat F] [DecidableEq F]
variable {J : YExt F} {S : Finset Sym} {σ : Nat → Nat} {sizes : Nat → Option (YExpr F)} {vaxes : Nat → List Nat}
  {E : (Nat → Nat) → Env (D F)} {yenv : Env (YVal F)} {o : Opts F} {I : Ext F}

/-- The value of a fold with a plan is that of the reference interpreter, and the conditions on the plan hold. -/
theorem planned_value {c a : Nat} {m z b : Expr F} {p : Plan F} (hp : o.plan c a m z b = some p) {env : Env (D F)}
    {v : D F} (hv : check o I true (fold c a m z b) σ env = some v) :
    checkPlan o (check o I true) σ env (run I (fold c a m z b) env) p = true ∧ run I (fold c a m z b) env = some v ∧
      check o I true (fold c a m z b) σ env = run I (fold c a m z b) env := by
  have hp' : planned o (.fold c a) [m, z, b] = some p := hp
  unfold fold at hv ⊢
  rw [check_plan hp'] at hv ⊢
  split at hv
  · rename_i h
    exact ⟨h, hv, if_pos h⟩
  · cases hv

theorem planned_at {c a : Nat} {m z b : Expr F} {p : Plan F} (hp : o.plan c a m z b = some p) {env : Env (D F)}
    (hv : ∃ v, check o I true (fold c a m z b) σ env = some v) :
    checkPlan o (check o I true) σ env (run I (fold c a m z b) env) p = true ∧
      check o I true (fold c a m z b) σ env = run I (fold c a m z b) env := by
  obtain ⟨v, hv⟩ := hv
  obtain ⟨h1, _, h2⟩ := planned_value hp hv
  exact ⟨h1, h2⟩

theorem means_bulk {n c a i : Nat} {m z b elem : Expr F} {k : RedKind} {x : Axial F} (hcor : Correct o I J n)
    (hE : EnvRel J S σ sizes vaxes E yenv) (hl : lexical (fold c a m z b) S = true)
    (hb : matchReductionByBody b a = some (elem, k))
    (hp : o.plan c a m z b = some (.bulk (bulkSafe i c a m elem) k i (elemsOf c m elem i) z))
    (hdef : ∀ ρ, Valid (inScope S) σ ρ → ∃ v, check o I true (fold c a m z b) σ (E ρ) = some v)
    (hx : planCode (fun sizes => compile o n sizes vaxes) sizes
      (.bulk (bulkSafe i c a m elem) k i (elemsOf c m elem i) z) = some x) :
    Means J yenv (inScope S) σ x fun ρ => check o I true (fold c a m z b) σ (E ρ) := by
  have hc := fun ρ hρ => planned_at hp (hdef ρ hρ)
  simp only [checkPlan, Bool.and_eq_true] at hc
  obtain ⟨⟨⟨⟨⟨⟨hs, hi⟩, hu⟩, -⟩, -⟩, -⟩, -⟩ := hc _ (valid_zero hE.pos)
  unfold bulkSafe at hs
  simp only [Bool.and_eq_true, decide_eq_true_eq] at hs
  obtain ⟨⟨⟨⟨h1, h2⟩, h3⟩, h4⟩, h5⟩ := hs
  obtain ⟨l1, l2, l3, l4, l5, l6⟩ := lexical_fold hl
  obtain ⟨f, ts, rfl, ht⟩ := body_child hb
  have hiS : Sym.idx i ∉ S := by
    intro hm
    rw [hE.isSome (valid_zero hE.pos) hm] at hi
    cases hi
  have helem : ∀ s ∈ fv elem, s = .var c ∨ s ∈ S := by
    intro s hs
    have := lexical_fv _ _ (lexical_operand l6 _ ht) hs
    simp only [Finset.mem_insert] at this
    rcases this with h | h | h
    · exact .inl h
    · exact absurd (h ▸ hs) h2
    · exact .inr h
  have hie : Sym.idx i ∉ fv elem := fun hm => by
    rcases helem _ hm with h | h
    · cases h
    · exact hiS h
  have hle : lexical (elemsOf c m elem i) S = true := by
    refine wellBound_lexical h5 (fun s hs => ?_) (unused_out hE (valid_zero hE.pos) hu)
    unfold elemsOf vec at hs
    obtain ⟨h6, h7⟩ := mem_fv.1 hs
    change s ∉ Phi.Head.captured _ at h7
    simp only [Phi.Head.captured, Finset.mem_singleton] at h7
    rcases h6 with h6 | ⟨t, ht', h6⟩
    · cases h6
    · simp only [List.mem_cons, List.not_mem_nil, or_false] at ht'
      rcases ht' with rfl | rfl
      · exact lexical_fv _ _ l1 h6
      · rcases Finset.mem_union.1 (fv_substitute _ _ h6) with h6 | h6
        · rw [Finset.mem_sdiff] at h6
          rcases helem s h6.1 with h | h
          · exact absurd (by simp [keys, h]) h6.2
          · exact h
        · obtain ⟨p, hp, h6⟩ := mem_rangeFv.1 h6
          simp only [List.mem_singleton] at hp
          subst hp
          exact absurd (mem_fv_at h6) h7
  simp only [planCode] at hx
  obtain ⟨xe, hxe, hx⟩ := Option.bind_eq_some_iff.1 hx
  obtain ⟨xz, hxz, hx⟩ := Option.bind_eq_some_iff.1 hx
  have me : Means J yenv (inScope S) σ xe fun ρ => run I (elemsOf c m elem i) (E ρ) :=
    (hcor hE hle (fun ρ hρ => Option.isSome_iff_exists.1 (hc ρ hρ).1.1.2) hxe).congr fun ρ hρ => by
      obtain ⟨v, hv⟩ := Option.isSome_iff_exists.1 (hc ρ hρ).1.1.2
      rw [hv, check_run _ _ _ _ hv]
  have mz : Means J yenv (inScope S) σ xz fun ρ => run I z (E ρ) :=
    (hcor hE l2 (fun ρ hρ => Option.isSome_iff_exists.1 (hc ρ hρ).1.2) hxz).congr fun ρ hρ => by
      obtain ⟨v, hv⟩ := Option.isSome_iff_exists.1 (hc ρ hρ).1.2
      rw [hv, check_run _ _ _ _ hv]
  have key : ∀ ρ, Valid (inScope S) σ ρ → run I (fold c a m z (node (.op f) ts)) (E ρ) =
      bulkOf k (run I z (E ρ)) (run I (elemsOf c m elem i) (E ρ)) := fun ρ hρ =>
    run_reduction I hb h1 h2 (Ne.symm l5) hie h3 h4 (E ρ) fun w hw => by
      obtain ⟨v, h6⟩ := Option.isSome_iff_exists.1 (hc ρ hρ).1.1.2
      unfold elemsOf vec at h6
      rw [check_node _ _ _ _ _ rfl] at h6
      simp only [List.map, checkDen] at h6
      obtain ⟨m', h7, h6⟩ := Option.bind_eq_some_iff.1 h6
      obtain ⟨u, h8, h7⟩ := Option.bind_eq_some_iff.1 h7
      cases (check_run _ _ _ _ h8).symm.trans hw
      cases h7
      refine .inl ?_
      by_contra h0
      rw [if_neg h0] at h6
      cases h6
  refine (means_reduction me mz hE.pos hx fun ρ hρ => ?_).congr fun ρ hρ => ?_
  · rw [← key ρ hρ]
    obtain ⟨v, hv⟩ := hdef ρ hρ
    exact ⟨v, (planned_value hp hv).2.1⟩
  · rw [← key ρ hρ]
    exact (hc ρ hρ).2.symm

theorem means_dotPlan {n c a k : Nat} {m z b : Expr F} {d : Dot F} {new : Nat → Nat} {x : Axial F}
    (hcor : Correct o I J n) (hE : EnvRel J S σ sizes vaxes E yenv) (hl : lexical (fold c a m z b) S = true)
    (hd : lift k (fold c a m z b) = some d) (hp : o.plan c a m z b = some (dotOf new (fold c a m z b) d))
    (hdef : ∀ ρ, Valid (inScope S) σ ρ → ∃ v, check o I true (fold c a m z b) σ (E ρ) = some v)
    (hx : planCode (fun sizes => compile o n sizes vaxes) sizes (dotOf new (fold c a m z b) d) = some x) :
    Means J yenv (inScope S) σ x fun ρ => check o I true (fold c a m z b) σ (E ρ) := by
  have hc := fun ρ hρ => planned_at hp (hdef ρ hρ)
  simp only [dotOf, checkPlan, Bool.and_eq_true] at hc
  have hv0 := valid_zero hE.pos
  obtain ⟨⟨⟨⟨⟨hs, hi⟩, hu⟩, -⟩, hsz⟩, -⟩ := hc _ hv0
  unfold dotSafe at hs
  simp only [Bool.and_eq_true, decide_eq_true_eq] at hs
  obtain ⟨⟨⟨s1, s2⟩, s3⟩, s4⟩ := hs
  rw [List.all_eq_true] at s2
  have hacc := accFree_of s2
  have inv := lift_inv k _ S d hd s1 hl hacc
  have hfvS := lexical_fv _ _ hl
  rw [List.all_eq_true] at hi hu
  have hiq : ∀ q ∈ d.contract, Sym.idx (new q.1) ∉ S ∧ ∀ s ∈ binders q.2, s ∉ S := by
    intro q hq
    have := hi _ (List.mem_map.2 ⟨q, hq, rfl⟩)
    simp only [Bool.and_eq_true] at this
    refine ⟨fun hm => ?_, unused_out hE hv0 this.2⟩
    have h1 := this.1
    rw [hE.isSome hv0 hm] at h1
    cases h1
  have huf : ∀ s ∈ d.summands, ∀ f ∈ s.2, ∀ t ∈ binders (withIndices new d f), t ∉ S := by
    intro s hs f hf
    have := hu _ (List.mem_map.2 ⟨s, hs, rfl⟩)
    rw [List.all_eq_true] at this
    exact unused_out hE hv0 (this _ (List.mem_map.2 ⟨f, hf, rfl⟩))
  have hkeys : ((d.contract.map fun q => (new q.1, q.2)).map Prod.fst).Nodup := by
    rw [List.map_map]
    have h1 := inv.keys
    unfold Dot.counters at h1
    have h2 : ∀ q ∈ d.contract, ∀ r ∈ d.contract, new q.1 = new r.1 → q.1 = r.1 := fun q hq r hr =>
      ((s3 q hq).1 r hr).1
    clear * - h1 h2
    generalize d.contract = l at h1 h2
    induction l with
    | nil => simp
    | cons q l ih =>
      rw [List.map_cons, List.nodup_cons] at h1 ⊢
      refine ⟨fun hm => h1.1 ?_, ih h1.2 fun r hr r' hr' => h2 r (by simp [hr]) r' (by simp [hr'])⟩
      obtain ⟨r, hr, e⟩ := List.mem_map.1 hm
      exact List.mem_map.2 ⟨r, hr, h2 r (by simp [hr]) q (by simp) e⟩
  have hscope : ∀ q ∈ d.contract, lexical q.2 S = true := by
    intro q hq
    refine wellBound_lexical (s3 q hq).2 (fun s hs => ?_) (hiq q hq).2
    obtain ⟨sm, hsm, hq'⟩ := inv.cover q hq
    rcases (inv.sizes sm hsm q hq').2 s hs with h | ⟨r, hr, rfl⟩
    · exact hfvS h
    · exact absurd hs ((s3 q hq).1 r (inv.sub sm hsm r hr)).2
  -- the code
  simp only [dotOf, planCode, mapOpt_map] at hx
  obtain ⟨ns, hns, hx⟩ := Option.bind_eq_some_iff.1 hx
  obtain ⟨xs, hxs, hx⟩ := Option.bind_eq_some_iff.1 hx
  have hxs' : mapOpt (fun p : List (Expr F) =>
      mapOpt (fun f => compile o n (withSums sizes ns) vaxes (withIndices new d f)) p) d.products = some xs := by
    unfold Dot.products
    rw [mapOpt_map]
    exact hxs
  have hcs : (d.contract.map fun q => (new q.1, q.2)).map Prod.fst = d.counters.map new := by
    unfold Dot.counters
    rw [List.map_map, List.map_map]
    rfl
  rw [hcs] at hx
  -- the sizes are the same everywhere
  obtain ⟨sz, hsz0, -⟩ := (Option.any_eq_true _ _).1 hsz
  have hval : ∀ ρ, Valid (inScope S) σ ρ → ∃ sz', sumSizes (fun n => check o I true n σ (E ρ))
      (d.contract.map fun q => (new q.1, q.2)) σ = some sz' := by
    intro ρ hρ
    obtain ⟨sz', h, -⟩ := (Option.any_eq_true _ _).1 (hc ρ hρ).1.2
    exact ⟨sz', h⟩
  have hint : ∀ q ∈ d.contract, ∀ ρ, Valid (inScope S) σ ρ → ∃ w : Int, check o I true q.2 σ (E ρ) = some (.int w) := by
    intro q hq ρ hρ
    obtain ⟨sz', h⟩ := hval ρ hρ
    obtain ⟨w, _, h1, _⟩ := (sumSizes_some _ hkeys h).1 _ (List.mem_map.2 ⟨q, hq, rfl⟩)
    exact ⟨w, h1⟩
  have hconst : ∀ q ∈ d.contract, ∀ ρ, Valid (inScope S) σ ρ →
      check o I true q.2 σ (E ρ) = check o I true q.2 σ (E fun _ => 0) := by
    intro q hq ρ hρ
    obtain ⟨p, _, h⟩ := forall₂_mem_left (mapOpt_forall₂ hns) hq
    obtain ⟨y, hy, -⟩ := Option.map_eq_some_iff.1 h
    obtain ⟨w, hw, hy⟩ := Option.bind_eq_some_iff.1 hy
    obtain ⟨K, _, _, h3⟩ := (hcor hE (hscope q hq) (fun ρ hρ => by
      obtain ⟨w, hw⟩ := hint q hq ρ hρ; exact ⟨_, hw⟩) hw).int hE.pos hy (hint q hq)
    rw [h3 ρ hρ, h3 _ hv0]
  have hsame : ∀ ρ, Valid (inScope S) σ ρ → sumSizes (fun n => check o I true n σ (E ρ))
      (d.contract.map fun q => (new q.1, q.2)) σ = some sz := by
    intro ρ hρ
    rw [← hsz0]
    refine sumSizes_congr _ (fun q hq => ?_) σ
    obtain ⟨q', hq', rfl⟩ := List.mem_map.1 hq
    exact hconst q' hq' ρ hρ
  have hover : over sz (d.counters.map new) σ = sz := by
    funext i
    by_cases hi : i ∈ d.counters.map new
    · exact over_in σ (.inl hi)
    · rw [over_out hi, (sumSizes_some _ hkeys hsz0).2 i (by rw [hcs]; exact hi)]
  have hprod : ∀ ρ, Valid (inScope S) σ ρ → ∀ s ∈ d.summands,
      allAssigned sz (s.1.map fun q => new q.1) (E ρ) (fun env' => (s.2.map (withIndices new d)).all fun f =>
        (check o I true f sz env').isSome) = true ∧
      ∀ q ∈ s.1, ∃ f ∈ s.2, new q.1 ∈ axesOf o (withIndices new d f) fun _ => ∅ := by
    intro ρ hρ s hs
    obtain ⟨sz', h, h2⟩ := (Option.any_eq_true _ _).1 (hc ρ hρ).1.2
    cases (hsame ρ hρ).symm.trans h
    rw [List.all_eq_true] at h2
    have := h2 _ (List.mem_map.2 ⟨s, hs, rfl⟩)
    simp only [Bool.and_eq_true] at this
    refine ⟨this.1, fun q hq => ?_⟩
    have h3 := List.all_eq_true.1 this.2 _ (List.mem_map.2 ⟨q, hq, rfl⟩)
    obtain ⟨f, hf, h4⟩ := List.any_eq_true.1 h3
    obtain ⟨f', hf', rfl⟩ := List.mem_map.1 hf
    exact ⟨f', hf', of_decide_eq_true h4⟩
  have hcon : Contractible o I S σ vaxes E new sz (fold c a m z b) d := {
    closed := s1
    binders := hl
    acc := hacc
    newIdx := fun q hq => (hiq q hq).1
    inj := fun q hq r hr => ((s3 q hq).1 r hr).1
    sizesScope := hscope
    capture := fun s hs f hf => (s4 s hs f hf).2
    factorScope := fun s hs f hf => by
      refine wellBound_lexical (s4 s hs f hf).1 (fun t ht => ?_) fun t ht hm => ?_
      · have hnone : ∀ u ∈ binders f, lookup u (d.contract.map fun q => (Sym.var q.1, (at_ (new q.1) : Expr F))) = none :=
          fun u hu => lookup_realised_none fun q hq e => ((s4 s hs f hf).2 q hq).1 (e ▸ hu)
        rcases mem_fv_substitute hnone ht with h | ⟨s', u, h, h1, h2⟩
        · rcases (inv.factors s hs f hf).2 t h with h1 | ⟨q, hq, rfl⟩
          · exact mem_addIdx.2 (.inl (hfvS h1))
          · rcases Finset.mem_union.1 (fv_substitute _ _ ht) with h | h
            · refine absurd ?_ (Finset.mem_sdiff.1 h).2
              unfold keys
              rw [List.map_map, List.mem_toFinset]
              exact List.mem_map.2 ⟨q, inv.sub s hs q hq, rfl⟩
            · obtain ⟨p, hp, h⟩ := mem_rangeFv.1 h
              obtain ⟨r, _, rfl⟩ := List.mem_map.1 hp
              cases mem_fv_at h
        · rcases (inv.factors s hs f hf).2 s' h with h3 | ⟨q, hq, rfl⟩
          · rw [lookup_realised_none fun q hq e => inv.fresh q hq (e ▸ hfvS h3)] at h1
            cases h1
          · rw [lookup_realised ⟨q, inv.sub s hs q hq, rfl⟩] at h1
            cases h1
            exact mem_addIdx.2 (.inr ⟨_, List.mem_map.2 ⟨q, hq, rfl⟩, mem_fv_at h2⟩)
      · rcases mem_addIdx.1 hm with hm | ⟨i, hi, rfl⟩
        · exact huf s hs f hf t ht hm
        · obtain ⟨q, hq, rfl⟩ := List.mem_map.1 hi
          refine ((s4 s hs f hf).2 q (inv.sub s hs q hq)).2 (binders_substitute (fun p hp => ?_) f ht)
          obtain ⟨r, _, rfl⟩ := List.mem_map.1 hp
          rfl
    axis := fun s hs q hq => by
      obtain ⟨f, hf, h⟩ := (hprod _ hv0 s hs).2 q hq
      exact ⟨f, hf, axesOf_mono o _ _ _ (fun _ => Finset.empty_subset _) h⟩
    sizesVal := fun q hq => by
      have h0 : ∀ ρ, Valid (inScope S) σ ρ → ∃ m : Int, 0 < m ∧ check o I true q.2 σ (E ρ) = some (.int m) ∧
          sz (new q.1) = m.toNat := fun ρ hρ => (sumSizes_some _ hkeys (hsame ρ hρ)).1 _ (List.mem_map.2 ⟨q, hq, rfl⟩)
      refine ⟨?_, fun ρ hρ => ?_⟩
      · obtain ⟨w, h1, _, h2⟩ := h0 _ hv0
        omega
      · obtain ⟨w, h1, h2, h3⟩ := h0 ρ hρ
        rw [h2, h3, Int.toNat_of_nonneg h1.le]
    factorVal := fun s hs f hf ρ hρ => by
      rw [hover] at hρ ⊢
      have hρS : Valid (inScope S) σ ρ := fun i hi => by
        have := hρ i (mem_addIdx.2 (.inl hi))
        rw [(sumSizes_some _ hkeys hsz0).2 i] at this
        · exact this
        · rw [hcs]
          intro hm
          obtain ⟨c', hc', rfl⟩ := List.mem_map.1 hm
          obtain ⟨q, hq, rfl⟩ := List.mem_map.1 hc'
          exact (hiq q hq).1 hi
      have h1 := allAssigned_spec (ρ := ρ) _ (hprod ρ hρS s hs).1 fun i hi => hρ i (mem_addIdx.2 (.inr ⟨i, hi, rfl⟩))
      exact Option.isSome_iff_exists.1 (List.all_eq_true.1 h1 _ (List.mem_map.2 ⟨f, hf, rfl⟩)) }
  refine (means_dot hcor hE hd hcon hns hxs' hx fun ρ hρ => ?_).congr fun ρ hρ => (hc ρ hρ).2.symm
  obtain ⟨w, hw, h1⟩ := (Option.any_eq_true _ _).1 (hc ρ hρ).1.1.2
  cases w with
  | sc u => cases u <;> simp [hasTy, Scal.kind] at h1; exact ⟨_, hw⟩
  | vec _ => simp [hasTy] at h1
  | pair _ _ => simp [hasTy] at h1

/-- The folds that are compiled to `einsum` or to one reduction are compiled correctly. -/
theorem plansCorrect_standard {red ein : Bool} {equiv : Expr F → Expr F → Bool} {new : Nat → Nat}
    (h : o.plan = standardPlan red ein equiv new) : PlansCorrect o I J := by
  intro n hcor S σ sizes vaxes E yenv c a m z b p x hE hl hp hdef hx
  have hp' := hp
  rw [h] at hp
  unfold standardPlan at hp
  split at hp
  · rename_i q hq
    cases hp
    split at hq
    · unfold dotPlan at hq
      split at hq
      · cases hq; cases hx
      · rename_i d hd
        split at hq
        · cases hq
          exact means_dotPlan (hcor n le_rfl) hE hl hd hp' hdef hx
        · cases hq
    · cases hq
  · split at hp
    · unfold bulkPlan at hp
      split at hp
      · split at hp
        · rename_i elem k hb
          split at hp
          · cases hp
            exact means_bulk (hcor n le_rfl) hE hl hb hp' hdef hx
          · cases hp
        · cases hp
      · cases hp
    · cases hp

end

/-- How folds are compiled:
* to loops;
* as the compiler does: to `einsum` and to reductions of arrays, too, where its options allow that. Then floats are
  asked to be a commutative ring, with associative and commutative minimum and maximum. -/
inductive FoldsOk [FloatOps F] (o : Opts F) : Prop
  | loops (h : ∀ c a n z b, o.plan c a n z b = none) : FoldsOk o
  | standard (_ : CommRing F) (_ : RingFloat F) (_ : AssocFloat F) (_ : DecidableEq F) (red ein : Bool)
      (equiv : Expr F → Expr F → Bool) (new : Nat → Nat) (h : o.plan = standardPlan red ein equiv new) : FoldsOk o

theorem FoldsOk.plans [FloatOps F] {o : Opts F} (h : FoldsOk o) (I : Ext F) (J : YExt F) : PlansCorrect o I J := by
  cases h with
  | loops h => exact plansCorrect_none h
  | standard _ _ _ _ red ein equiv new h => exact plansCorrect_standard h

end Verif.Codegen
