import Verif.Codegen.Checked
import Verif.Props.C04

/-! The axes of compiled code, read off the expression. -/

set_option linter.unusedSectionVars false

namespace Verif.Codegen
open Verif.Phi Verif.Term Verif.Yarr Verif.Arr
variable {F : Type}

/-- More axes of variables give more axes of code. -/
theorem axesOf_mono (o : Opts F) (e : Expr F) : ∀ V V' : Nat → Finset Nat, (∀ v, V v ⊆ V' v) →
    axesOf o e V ⊆ axesOf o e V' := by
  induction e using size_ind with
  | step e ih' =>
    obtain ⟨h, ts⟩ := e
    intro V V' hV
    cases hpl : planned o h ts with
    | some p =>
      rw [axesOf_plan hpl, axesOf_plan hpl]
      obtain ⟨c, a, n, z, b, rfl, rfl, hpl⟩ := planned_some hpl
      have hs := fun t ht => ih' t (o.small c a n z b p hpl t ht).1 V V' hV
      cases p with
      | fail => exact subset_rfl
      | bulk s k i elems init => exact hs elems (by simp [Plan.exprs])
      | dot s sums products =>
        intro i hi
        simp only [axesPlan, Finset.mem_sdiff, mem_unions, List.mem_map, exists_exists_and_eq_and] at hi ⊢
        obtain ⟨⟨t, ht, hi⟩, hn⟩ := hi
        exact ⟨⟨t, ht, hs t (by simp only [Plan.exprs, List.mem_append]; exact .inr ht) hi⟩, hn⟩
    | none =>
    have ih := fun t (ht : t ∈ ts) => ih' t (size_lt_of_mem ht)
    have hupd : ∀ (v : Nat) (A B : Finset Nat), A ⊆ B → ∀ u, upd V v A u ⊆ upd V' v B u := by
      intro v A B hAB u
      unfold upd
      split
      · exact hAB
      · exact hV u
    have many : unions ((ts.map fun t => (t, axesOf o t)).map fun t => t.2 V) ⊆
        unions ((ts.map fun t => (t, axesOf o t)).map fun t => t.2 V') := by
      intro i hi
      simp only [mem_unions, List.map_map, List.mem_map, exists_exists_and_eq_and, Function.comp] at hi ⊢
      obtain ⟨t, ht, hi⟩ := hi
      exact ⟨t, ht, ih t ht V V' hV hi⟩
    rw [axesOf_node o h ts hpl]
    cases h with
    | store s τ =>
      cases s with
      | idx i => exact subset_rfl
      | var v => exact hV v
    | letv v =>
      rcases ts with _ | ⟨b, _ | ⟨e, _ | ⟨_, _⟩⟩⟩ <;> try exact many
      exact ih e (by simp) _ _ (hupd v _ _ (ih b (by simp) V V' hV))
    | assertEq =>
      rcases ts with _ | ⟨a, l⟩
      · exact many
      · exact ih a (by simp) V V' hV
    | get =>
      rcases ts with _ | ⟨a, _ | ⟨b, _ | ⟨_, _⟩⟩⟩ <;> try exact many
      simp only [List.map, axesStep]
      split
      · exact Finset.union_subset_union_left (ih a (by simp) V V' hV)
      · exact Finset.union_subset_union (ih a (by simp) V V' hV) (ih b (by simp) V V' hV)
    | fold c a =>
      rcases ts with _ | ⟨n, _ | ⟨z, _ | ⟨b, _ | ⟨_, _⟩⟩⟩⟩ <;> try exact many
      exact ih b (by simp) _ _ (hupd a _ _ (ih z (by simp) V V' hV))
    | vec i =>
      rcases ts with _ | ⟨n, _ | ⟨b, _ | ⟨_, _⟩⟩⟩ <;> try exact subset_rfl
      exact Finset.sdiff_subset_sdiff (ih b (by simp) V V' hV) subset_rfl
    | const v τ => exact subset_rfl
    | dim k => exact subset_rfl
    | concat => exact many
    | cons => exact many
    | fst => exact many
    | snd => exact many
    | reduce x y =>
      rcases ts with _ | ⟨z, _ | ⟨b, vs⟩⟩ <;> try exact many
      have hA : unions (((z, axesOf o z) :: vs.map fun t => (t, axesOf o t)).map fun t => t.2 V) ⊆
          unions (((z, axesOf o z) :: vs.map fun t => (t, axesOf o t)).map fun t => t.2 V') := by
        intro i hi
        simp only [mem_unions, List.mem_map, List.mem_cons, exists_exists_and_eq_and] at hi ⊢
        obtain ⟨q, hq, hi⟩ := hi
        refine ⟨q, hq, ?_⟩
        rcases hq with rfl | ⟨t, ht, rfl⟩
        · exact ih z (by simp) V V' hV hi
        · exact ih t (by simp [ht]) V V' hV hi
      refine ih b (by simp) _ _ fun u => ?_
      unfold upd
      split
      · exact hA
      · split
        · exact hA
        · exact hV u
    | op f => exact many
    | ext fn τ => exact many

/-- The position recognised mentions the index. -/
theorem window_index {o : Opts F} {t i : Expr F} {index : Nat} {c : Clip F} (h : window o t i = some (index, c)) :
    Sym.idx index ∈ fv i ∧ Sym.idx index ∉ fv t ∧ matchIndexClip i = some (index, c) := by
  unfold window at h
  split at h
  · split at h
    · rename_i j c' hm
      split at h
      · cases h
      · rename_i hn
        cases h
        refine ⟨?_, hn, hm⟩
        have := (Props.C04_parts _ _ _ hm).1
        have : Sym.idx index ∈ freeIndices i := by rw [this]; simp
        exact (Finset.mem_filter.1 this).1
    · cases h
  · cases h

/-- Scoped expressions mention only symbols in scope. -/
theorem lexical_fv (e : Expr F) : ∀ S, lexical e S = true → fv e ⊆ S := by
  induction e using ind with
  | step h ts ih =>
    intro S hS s hs0
    rw [lexical_node] at hS
    obtain ⟨hs, hc⟩ := mem_fv.1 hs0
    have all : ∀ {l : List (Expr F)}, (l.map lexical).all (fun f => f S) = true → ∀ t ∈ l, lexical t S = true := by
      intro l hl t ht
      exact List.all_eq_true.1 hl _ (List.mem_map.2 ⟨t, ht, rfl⟩)
    have many : (ts.map lexical).all (fun f => f S) = true → s ∈ S ∨ Phi.Head.symbol h = some s := by
      intro hall
      rcases hs with hs | ⟨t, ht, hs⟩
      · exact .inr hs
      · exact .inl (ih t ht S (all hall t ht) hs)
    change s ∉ Phi.Head.captured h at hc
    change Phi.Head.symbol h = some s ∨ _ at hs
    cases h with
    | store s' τ =>
      simp only [lexStep, Bool.and_eq_true, decide_eq_true_eq] at hS
      rcases many hS.2 with h | h
      · exact h
      · simp only [Phi.Head.symbol, Option.some.injEq] at h; exact h ▸ hS.1
    | letv v =>
      rcases ts with _ | ⟨b, _ | ⟨e, _ | ⟨_, _⟩⟩⟩ <;> try exact (many hS).resolve_right (by simp [Phi.Head.symbol])
      simp only [List.map, lexStep, Bool.and_eq_true, decide_eq_true_eq] at hS
      simp only [Phi.Head.captured, Finset.mem_singleton] at hc
      rcases hs with hs | ⟨t, ht, hst⟩
      · cases hs
      · simp only [List.mem_cons, List.not_mem_nil, or_false] at ht
        rcases ht with rfl | rfl
        · exact ih t (by simp) S hS.1.1 hst
        · exact (Finset.mem_insert.1 (ih t (by simp) _ hS.2 hst)).resolve_left hc
    | vec i =>
      rcases ts with _ | ⟨b, _ | ⟨e, _ | ⟨_, _⟩⟩⟩ <;> try exact (many hS).resolve_right (by simp [Phi.Head.symbol])
      simp only [List.map, lexStep, Bool.and_eq_true, decide_eq_true_eq] at hS
      simp only [Phi.Head.captured, Finset.mem_singleton] at hc
      rcases hs with hs | ⟨t, ht, hst⟩
      · cases hs
      · simp only [List.mem_cons, List.not_mem_nil, or_false] at ht
        rcases ht with rfl | rfl
        · exact ih t (by simp) S hS.1.1 hst
        · exact (Finset.mem_insert.1 (ih t (by simp) _ hS.2 hst)).resolve_left hc
    | fold c a =>
      rcases ts with _ | ⟨n, _ | ⟨z, _ | ⟨b, _ | ⟨_, _⟩⟩⟩⟩ <;>
        try exact (many hS).resolve_right (by simp [Phi.Head.symbol])
      simp only [List.map, lexStep, Bool.and_eq_true, decide_eq_true_eq] at hS
      simp only [Phi.Head.captured, Finset.mem_insert, Finset.mem_singleton, not_or] at hc
      rcases hs with hs | ⟨t, ht, hst⟩
      · cases hs
      · simp only [List.mem_cons, List.not_mem_nil, or_false] at ht
        rcases ht with rfl | rfl | rfl
        · exact ih t (by simp) S hS.1.1.1.1.1 hst
        · exact ih t (by simp) S hS.1.1.1.1.2 hst
        · exact (Finset.mem_insert.1 ((Finset.mem_insert.1 (ih t (by simp) _ hS.2 hst)).resolve_left hc.1)).resolve_left hc.2
    | reduce x y =>
      rcases ts with _ | ⟨z, _ | ⟨b, vs⟩⟩ <;> try exact (many hS).resolve_right (by simp [Phi.Head.symbol])
      simp only [List.map_cons, lexStep, Bool.and_eq_true, decide_eq_true_eq] at hS
      simp only [Phi.Head.captured, Finset.mem_insert, Finset.mem_singleton, not_or] at hc
      rcases hs with hs | ⟨t, ht, hst⟩
      · cases hs
      · simp only [List.mem_cons] at ht
        rcases ht with rfl | rfl | ht
        · exact ih t (by simp) S hS.1.1.1.1.1 hst
        · exact (Finset.mem_insert.1 ((Finset.mem_insert.1 (ih t (by simp) _ hS.2 hst)).resolve_left hc.1)).resolve_left hc.2
        · exact ih t (by simp [ht]) S (all hS.1.1.1.1.2 t ht) hst
    | const v τ => exact (many hS).resolve_right (by simp [Phi.Head.symbol])
    | assertEq => exact (many hS).resolve_right (by simp [Phi.Head.symbol])
    | dim k => exact (many hS).resolve_right (by simp [Phi.Head.symbol])
    | get => exact (many hS).resolve_right (by simp [Phi.Head.symbol])
    | concat => exact (many hS).resolve_right (by simp [Phi.Head.symbol])
    | cons => exact (many hS).resolve_right (by simp [Phi.Head.symbol])
    | fst => exact (many hS).resolve_right (by simp [Phi.Head.symbol])
    | snd => exact (many hS).resolve_right (by simp [Phi.Head.symbol])
    | op f => exact (many hS).resolve_right (by simp [Phi.Head.symbol])
    | ext fn τ => exact (many hS).resolve_right (by simp [Phi.Head.symbol])

/-- The axes are free indices, or axes of variables. -/
theorem axesOf_fv (o : Opts F) (e : Expr F) : ∀ (V : Nat → Finset Nat), ∀ i ∈ axesOf o e V,
    Sym.idx i ∈ fv e ∨ ∃ v, i ∈ V v := by
  induction e using size_ind with
  | step e ih' =>
    obtain ⟨h, ts⟩ := e
    intro V i hi
    cases hpl : planned o h ts with
    | some p =>
      rw [axesOf_plan hpl] at hi
      obtain ⟨c, a, n, z, b, rfl, rfl, hpl⟩ := planned_some hpl
      have hs : ∀ t ∈ p.exprs, i ∈ axesOf o t V → i ∉ p.new → Sym.idx i ∈ fv (node (.fold c a) [n, z, b]) ∨ ∃ v, i ∈ V v := by
        intro t ht hi hn
        obtain ⟨h1, h2⟩ := o.small c a n z b p hpl t ht
        rcases ih' t h1 V i hi with h | h
        · exact .inl ((h2 i h).resolve_right hn)
        · exact .inr h
      cases p with
      | fail => simp [axesPlan] at hi
      | bulk s k i elems init => exact hs elems (by simp [Plan.exprs]) hi (by simp [Plan.new])
      | dot s sums products =>
        simp only [axesPlan, Finset.mem_sdiff, mem_unions, List.mem_map, exists_exists_and_eq_and, List.mem_toFinset] at hi
        obtain ⟨⟨t, ht, hi⟩, hn⟩ := hi
        exact hs t (by simp only [Plan.exprs, List.mem_append]; exact .inr ht) hi (by
          simpa only [Plan.new, List.mem_map] using hn)
    | none =>
    have ih := fun t (ht : t ∈ ts) => ih' t (size_lt_of_mem ht)
    have up : ∀ t ∈ ts, Sym.idx i ∈ fv t → Sym.idx i ∉ Phi.Head.captured h → Sym.idx i ∈ fv (node h ts) :=
      fun t ht hi hc => mem_fv.2 ⟨.inr ⟨t, ht, hi⟩, hc⟩
    have one : ∀ t ∈ ts, i ∈ axesOf o t V → Sym.idx i ∉ Phi.Head.captured h →
        Sym.idx i ∈ fv (node h ts) ∨ ∃ v, i ∈ V v := fun t ht hi hc =>
      (ih t ht V i hi).imp_left fun h => up t ht h hc
    have many : i ∈ unions ((ts.map fun t => (t, axesOf o t)).map fun t => t.2 V) →
        Sym.idx i ∉ Phi.Head.captured h → Sym.idx i ∈ fv (node h ts) ∨ ∃ v, i ∈ V v := by
      intro hi hc
      simp only [mem_unions, List.map_map, List.mem_map, exists_exists_and_eq_and, Function.comp] at hi
      obtain ⟨t, ht, hi⟩ := hi
      exact one t ht hi hc
    have bound : ∀ t ∈ ts, ∀ t' ∈ ts, ∀ v, i ∈ axesOf o t (upd V v (axesOf o t' V)) → Sym.idx i ∉ Phi.Head.captured h →
        Sym.idx i ∈ fv (node h ts) ∨ ∃ v, i ∈ V v := by
      intro t ht t' ht' v hi hc
      rcases ih t ht _ i hi with h | ⟨u, h⟩
      · exact .inl (up t ht h hc)
      · unfold upd at h
        split at h
        · exact one t' ht' h hc
        · exact .inr ⟨u, h⟩
    rw [axesOf_node o h ts hpl] at hi
    cases h with
    | store s τ =>
      cases s with
      | idx j =>
        cases Finset.mem_singleton.1 hi
        exact .inl (mem_fv.2 ⟨.inl rfl, by simp [Lang.captured, Phi.Head.captured]⟩)
      | var v => exact .inr ⟨v, hi⟩
    | letv v =>
      rcases ts with _ | ⟨b, _ | ⟨e, _ | ⟨_, _⟩⟩⟩ <;> try exact many hi (by simp [Phi.Head.captured])
      exact bound e (by simp) b (by simp) v hi (by simp [Phi.Head.captured])
    | assertEq =>
      rcases ts with _ | ⟨a, l⟩
      · exact many hi (by simp [Phi.Head.captured])
      · exact one a (by simp) hi (by simp [Phi.Head.captured])
    | get =>
      rcases ts with _ | ⟨a, _ | ⟨b, _ | ⟨_, _⟩⟩⟩ <;> try exact many hi (by simp [Phi.Head.captured])
      simp only [List.map, axesStep] at hi
      split at hi
      · rename_i index c hw
        rcases Finset.mem_union.1 hi with hi | hi
        · exact one a (by simp) hi (by simp [Phi.Head.captured])
        · cases Finset.mem_singleton.1 hi
          exact .inl (up b (by simp) (window_index hw).1 (by simp [Phi.Head.captured]))
      · rcases Finset.mem_union.1 hi with hi | hi
        · exact one a (by simp) hi (by simp [Phi.Head.captured])
        · exact one b (by simp) hi (by simp [Phi.Head.captured])
    | fold c a =>
      rcases ts with _ | ⟨n, _ | ⟨z, _ | ⟨b, _ | ⟨_, _⟩⟩⟩⟩ <;> try exact many hi (by simp [Phi.Head.captured])
      exact bound b (by simp) z (by simp) a hi (by simp [Phi.Head.captured])
    | vec j =>
      rcases ts with _ | ⟨n, _ | ⟨b, _ | ⟨_, _⟩⟩⟩ <;> try (simp [axesStep] at hi; done)
      obtain ⟨hi, hn⟩ := Finset.mem_sdiff.1 hi
      exact one b (by simp) hi (by simpa [Phi.Head.captured] using hn)
    | const v τ => simp [axesStep] at hi
    | dim k => simp [axesStep] at hi
    | reduce x y =>
      rcases ts with _ | ⟨z, _ | ⟨b, vs⟩⟩ <;> try exact many hi (by simp [Phi.Head.captured])
      rcases ih b (by simp) _ i hi with h | ⟨u, h⟩
      · exact .inl (up b (by simp) h (by simp [Phi.Head.captured]))
      · have key : i ∈ unions (((z, axesOf o z) :: vs.map fun t => (t, axesOf o t)).map fun t => t.2 V) →
            Sym.idx i ∈ fv (node (.reduce x y) (z :: b :: vs)) ∨ ∃ v, i ∈ V v := by
          intro hm
          simp only [mem_unions, List.mem_map, List.mem_cons, exists_exists_and_eq_and] at hm
          obtain ⟨q, hq, hm⟩ := hm
          rcases hq with rfl | ⟨t, ht, rfl⟩
          · exact one z (by simp) hm (by simp [Phi.Head.captured])
          · exact one t (by simp [ht]) hm (by simp [Phi.Head.captured])
        unfold upd at h
        split at h
        · exact key h
        · split at h
          · exact key h
          · exact .inr ⟨u, h⟩
    | concat => exact many hi (by simp [Phi.Head.captured])
    | cons => exact many hi (by simp [Phi.Head.captured])
    | fst => exact many hi (by simp [Phi.Head.captured])
    | snd => exact many hi (by simp [Phi.Head.captured])
    | op f => exact many hi (by simp [Phi.Head.captured])
    | ext fn τ => exact many hi (by simp [Phi.Head.captured])

/-- The axes are indices in scope. -/
theorem axesOf_scope (o : Opts F) (e : Expr F) (V : Nat → Finset Nat) (S : Finset Sym) (hl : lexical e S = true)
    (hV : ∀ v i, i ∈ V v → Sym.idx i ∈ S) (i : Nat) (hi : i ∈ axesOf o e V) : Sym.idx i ∈ S := by
  rcases axesOf_fv o e V i hi with h | ⟨v, h⟩
  · exact lexical_fv e S hl h
  · exact hV v i h

variable [FloatOps F]

/-- The axes of `along`. -/
theorem along_axes {x z : Axial F} {index : Nat} {size : YExpr F} (hz : x.along index size = some z)
    (hn : x.axes.Nodup) : z.axes.Nodup ∧ ∀ i, i ∈ z.axes ↔ i ∈ x.axes ∧ i ≠ index := by
  unfold Axial.along at hz
  cases hrk : rankOf x.expr with
  | none => rw [hrk] at hz; cases hz
  | some r =>
    rw [hrk] at hz
    simp only [Option.bind_some] at hz
    split at hz
    swap
    · cases hz
    rename_i hle
    obtain ⟨k, rfl⟩ := Nat.exists_eq_add_of_le hle
    split at hz
    · rename_i hmem
      obtain ⟨front, hsw, hperm⟩ := swapAt_last hn hmem
      have hlt := List.idxOf_lt_length_of_mem hmem
      have hpi : swapAt (List.range (x.axes.length + k)) (x.axes.idxOf index) (x.axes.length - 1) 0 =
          (front ++ [index]).map (x.axes.idxOf ·) ++ (List.range k).map (x.axes.length + ·) := by
        rw [range_axes hn, swapAt_map (x.axes.idxOf ·) x.axes _ hlt (by omega) 0 0, hsw]
      have hfl : front.length = x.axes.length - 1 := by have := hperm.length_eq; simp at this; omega
      rw [hpi] at hz
      have htake : ((front ++ [index]).map (x.axes.idxOf ·) ++ (List.range k).map (x.axes.length + ·)).take
          (x.axes.length - 1) = front.map (x.axes.idxOf ·) := by
        rw [List.map_append, List.append_assoc, List.take_left' (by simpa using hfl)]
      rw [htake, map_getD_idxOf (fun y hy => hperm.mem_iff.1 (by simp [hy]))] at hz
      obtain ⟨rfl, hnd, _⟩ := mk?_eq_some hz
      have hnd' : (front ++ [index]).Nodup := hperm.nodup_iff.2 hn
      have hni : index ∉ front := fun h => (List.nodup_append.1 hnd').2.2 index h index (by simp) rfl
      refine ⟨hnd, fun i => ⟨fun hi => ⟨hperm.mem_iff.1 (by simp [show i ∈ front from hi]), fun e => hni (e ▸ hi)⟩, ?_⟩⟩
      rintro ⟨h1, h2⟩
      have := hperm.mem_iff.2 h1
      simp only [List.mem_append, List.mem_singleton] at this
      exact this.resolve_right h2
    · rename_i hmem
      obtain ⟨rfl, hnd, _⟩ := mk?_eq_some hz
      exact ⟨hnd, fun i => ⟨fun h => ⟨h, fun e => hmem (e ▸ h)⟩, fun h => h.1⟩⟩

theorem mapOpt_eq_forall {α β : Type} {f : α → Option β} : ∀ {l : List α} {bs : List β}, mapOpt f l = some bs →
    List.Forall₂ (fun a b => f a = some b) l bs
  | [], bs, h => by simp [mapOpt] at h; subst h; exact .nil
  | a :: l, bs, h => by
    cases ha : f a with
    | none => simp [mapOpt, ha] at h
    | some b =>
      cases hl : mapOpt f l with
      | none => simp [mapOpt, ha, hl] at h
      | some bs' =>
        simp [mapOpt, ha, hl] at h
        subst h
        exact .cons ha (mapOpt_eq_forall hl)

/-- The axes of compiled code are those read off the expression, each once. -/
theorem compile_axes (o : Opts F) (n : Nat) : ∀ (sizes : Nat → Option (YExpr F)) (vaxes : Nat → List Nat)
    (V : Nat → Finset Nat) (e : Expr F) (x : Axial F), (∀ v i, i ∈ vaxes v ↔ i ∈ V v) →
    compile o n sizes vaxes e = some x → x.axes.Nodup ∧ ∀ i, i ∈ x.axes ↔ i ∈ axesOf o e V := by
  induction n with
  | zero => intro _ _ _ _ _ _ h; cases h
  | succ n ih =>
    intro sizes vaxes V e x hV hx
    obtain ⟨h, ts⟩ := e
    have hupd : ∀ (v : Nat) (l : List Nat) (A : Finset Nat), (∀ i, i ∈ l ↔ i ∈ A) →
        ∀ u i, i ∈ upd vaxes v l u ↔ i ∈ upd V v A u := by
      intro v l A h u i
      unfold upd
      split
      · exact h i
      · exact hV u i
    have align : ∀ sizes ts xs, mapOpt (compile o n sizes vaxes) ts = some xs →
        ∀ i, i ∈ alignment (xs.map Axial.axes) ↔ ∃ t ∈ ts, i ∈ axesOf o t V := by
      intro sizes ts xs hxs i
      have hall := mapOpt_eq_forall hxs
      clear hxs hx
      rw [mem_alignment]
      simp only [List.mem_map, exists_exists_and_eq_and]
      induction hall with
      | nil => simp
      | cons ht _ ih' => simp only [List.mem_cons, exists_eq_or_imp, ih', (ih _ _ V _ _ hV ht).2]
    have many : ∀ xs, mapOpt (compile o n sizes vaxes) ts = some xs →
        ∀ i, i ∈ alignment (xs.map Axial.axes) ↔ i ∈ unions ((ts.map fun t => (t, axesOf o t)).map fun t => t.2 V) := by
      intro xs hxs i
      rw [align _ _ _ hxs]
      simp only [mem_unions, List.map_map, List.mem_map, exists_exists_and_eq_and, Function.comp]
    have two : ∀ a b, ts = [a, b] → ∀ x y, compile o n sizes vaxes a = some x → compile o n sizes vaxes b = some y →
        ∀ i, i ∈ alignment [x.axes, y.axes] ↔ i ∈ unions ((ts.map fun t => (t, axesOf o t)).map fun t => t.2 V) := by
      rintro a b rfl x y hx hy i
      exact many [x, y] (by simp [mapOpt, hx, hy]) i
    rw [compile] at hx
    cases hpl : planned o h ts with
    | some p =>
      rw [axesOf_plan hpl]
      obtain ⟨c, a, m, z, b, rfl, rfl, hpl⟩ := planned_some hpl
      rw [compileStep_plan hpl] at hx
      cases p with
      | fail => cases hx
      | bulk s k j elems init =>
        simp only [planCode, reductionCode, Option.bind_eq_some_iff] at hx
        obtain ⟨y, hy, _, _, _, _, _, _, hx⟩ := hx
        obtain ⟨rfl, hnd, _⟩ := mk?_eq_some hx
        exact ⟨hnd, (ih _ _ V _ _ hV hy).2⟩
      | dot s sums products =>
        simp only [planCode, Option.bind_eq_some_iff] at hx
        obtain ⟨ns, _, xs, hxs, hx⟩ := hx
        simp only [einsumCode, Option.bind_eq_some_iff] at hx
        obtain ⟨ys, hys, es, _, hx⟩ := hx
        split at hx
        · cases hx
        obtain ⟨rfl, hnd, _⟩ := mk?_eq_some hx
        refine ⟨hnd, fun i => ?_⟩
        have h1 := mapOpt_eq_forall hxs
        have h2 := mapOpt_eq_forall hys
        have key : (∃ y ∈ ys, i ∈ y.axes) ↔
            (∃ p ∈ products, ∃ t ∈ p.2, i ∈ axesOf o t V) ∧ i ∉ sums.map Prod.fst := by
          clear * - h1 h2 align
          induction h1 generalizing ys with
          | nil => cases h2; simp
          | cons ha _ ih' =>
            cases h2 with
            | cons hb h2 =>
              simp only [productCode, Option.bind_eq_some_iff] at hb
              obtain ⟨_, _, hb⟩ := hb
              obtain ⟨rfl, _, _⟩ := mk?_eq_some hb
              rw [List.exists_mem_cons_iff, List.exists_mem_cons_iff, ih' _ h2, List.mem_filter, decide_eq_true_eq,
                align _ _ _ ha, or_and_right]
        show i ∈ alignment (ys.map Axial.axes) ↔ _
        rw [mem_alignment]
        simp only [axesPlan, Finset.mem_sdiff, mem_unions, List.mem_toFinset]
        constructor
        · rintro ⟨l, hl, hi⟩
          obtain ⟨y, hy, rfl⟩ := List.mem_map.1 hl
          obtain ⟨⟨p, hp, t, ht, h3⟩, h4⟩ := key.1 ⟨y, hy, hi⟩
          exact ⟨⟨_, List.mem_map.2 ⟨t, List.mem_flatMap.2 ⟨p, hp, ht⟩, rfl⟩, h3⟩, h4⟩
        · rintro ⟨⟨A, hA, hi⟩, h4⟩
          obtain ⟨t, ht, rfl⟩ := List.mem_map.1 hA
          obtain ⟨p, hp, ht⟩ := List.mem_flatMap.1 ht
          obtain ⟨y, hy, h3⟩ := key.2 ⟨⟨p, hp, t, ht, hi⟩, h4⟩
          exact ⟨_, List.mem_map.2 ⟨y, hy, rfl⟩, h3⟩
    | none =>
    rw [axesOf_node o h ts hpl]
    unfold compileStep at hx
    split at hx
    · -- const
      simp only [Option.bind_eq_some_iff] at hx
      obtain ⟨a, _, p, _, hx⟩ := hx
      obtain ⟨rfl, hnd, _⟩ := mk?_eq_some hx
      exact ⟨hnd, fun i => by simp [axesStep]⟩
    · -- index
      simp only [Option.bind_eq_some_iff] at hx
      obtain ⟨z, _, hx⟩ := hx
      obtain ⟨rfl, hnd, _⟩ := mk?_eq_some hx
      exact ⟨hnd, fun i => by simp [axesStep]⟩
    · -- variable
      rename_i v τ
      simp only [Option.bind_eq_some_iff] at hx
      obtain ⟨_, _, _, _, hx⟩ := hx
      obtain ⟨rfl, hnd, _⟩ := mk?_eq_some hx
      exact ⟨hnd, fun i => hV v i⟩
    · -- let
      rename_i v b e
      simp only [Option.bind_eq_some_iff] at hx
      obtain ⟨y, hy, z, hz, hx⟩ := hx
      obtain ⟨rfl, hnd, _⟩ := mk?_eq_some hx
      exact ⟨hnd, (ih _ _ _ _ _ (hupd v _ _ (ih _ _ V _ _ hV hy).2) hz).2⟩
    · -- assertion
      exact ih _ _ V _ _ hV hx
    · -- size
      simp only [Option.bind_eq_some_iff] at hx
      obtain ⟨_, _, _, _, hx⟩ := hx
      obtain ⟨rfl, hnd, _⟩ := mk?_eq_some hx
      exact ⟨hnd, fun i => by simp [axesStep]⟩
    · -- fold
      rename_i c a m z b
      have hx := (compileStep_loop hpl).symm.trans hx
      simp only [loopCode, Option.bind_eq_some_iff] at hx
      obtain ⟨_, _, _, _, init, hi, pre, hp, _, _, _, _, _, _, hx⟩ := hx
      obtain ⟨rfl, hnd, _⟩ := mk?_eq_some hx
      exact ⟨hnd, (ih _ _ _ _ _ (hupd a _ _ (ih _ _ V _ _ hV hi).2) hp).2⟩
    · -- reduction
      rename_i x y z b vs
      simp only [reduceCode, Option.bind_eq_some_iff] at hx
      obtain ⟨init, hi, vecs, hvs, pre, hp, body, -, hx⟩ := hx
      split at hx
      · cases hx
      simp only [Option.bind_eq_some_iff] at hx
      obtain ⟨_, _, _, _, hx⟩ := hx
      split at hx
      · cases hx
      obtain ⟨rfl, hnd, _⟩ := mk?_eq_some hx
      refine ⟨hnd, (ih _ _ _ _ _ (fun u i => ?_) hp).2⟩
      have hA : ∀ i, i ∈ alignment (init.axes :: vecs.map Axial.axes) ↔
          i ∈ unions (((z, axesOf o z) :: vs.map fun t => (t, axesOf o t)).map fun t => t.2 V) := by
        intro i
        have := align sizes (z :: vs) (init :: vecs) (by simp [mapOpt, hi, hvs]) i
        rw [List.map_cons] at this
        rw [this]
        simp only [mem_unions, List.mem_map, List.mem_cons, exists_exists_and_eq_and]
        constructor
        · rintro ⟨t, ht, h⟩
          rcases ht with rfl | ht
          · exact ⟨_, .inl rfl, h⟩
          · exact ⟨_, .inr ⟨t, ht, rfl⟩, h⟩
        · rintro ⟨q, hq, h⟩
          rcases hq with rfl | ⟨t, ht, rfl⟩
          · exact ⟨z, .inl rfl, h⟩
          · exact ⟨t, .inr ht, h⟩
      unfold upd
      split
      · exact hA i
      · split
        · exact hA i
        · exact hV u i
    · -- read
      rename_i t i
      unfold getCode at hx
      simp only [Option.bind_eq_some_iff] at hx
      obtain ⟨tx, ht, r, hr, hx⟩ := hx
      have h1 := (ih _ _ V _ _ hV ht).2
      simp only [List.map, axesStep]
      split at hx
      · rename_i index c hw
        rw [hw]
        simp only
        have key : ∀ e, Axial.mk? (tx.axes ++ [index]) e = some x →
            x.axes.Nodup ∧ ∀ i, i ∈ x.axes ↔ i ∈ axesOf o t V ∪ {index} := by
          intro e hx
          obtain ⟨rfl, hnd, _⟩ := mk?_eq_some hx
          exact ⟨hnd, fun i => by simp [h1, or_comm]⟩
        split at hx
        · exact key _ hx
        · unfold windowGet at hx
          simp only [Option.bind_eq_some_iff] at hx
          obtain ⟨_, _, _, _, _, _, _, _, _, _, _, _, _, _, hx⟩ := hx
          exact key _ hx
      · rename_i hw
        rw [hw]
        simp only [Option.bind_eq_some_iff] at hx
        obtain ⟨ix, hi, hx⟩ := hx
        have h2 := (ih _ _ V _ _ hV hi).2
        unfold itemGet at hx
        split at hx
        · simp only [Option.bind_eq_some_iff] at hx
          obtain ⟨_, _, _, _, hx⟩ := hx
          obtain ⟨rfl, hnd, _⟩ := mk?_eq_some hx
          exact ⟨hnd, fun i => by simp [h1, h2]⟩
        · unfold generalGet at hx
          simp only [Option.bind_eq_some_iff] at hx
          obtain ⟨_, _, _, _, _, _, hx⟩ := hx
          obtain ⟨rfl, hnd, _⟩ := mk?_eq_some hx
          exact ⟨hnd, fun i => by simp [mem_alignment, h1, h2, or_comm]⟩
    · -- concatenation
      rename_i a b
      simp only [Option.bind_eq_some_iff] at hx
      obtain ⟨y, hy, z, hz, _, _, _, _, hx⟩ := hx
      obtain ⟨rfl, hnd, _⟩ := mk?_eq_some hx
      exact ⟨hnd, two a b rfl y z hy hz⟩
    · -- comprehension
      rename_i j m b
      simp only [Option.bind_eq_some_iff] at hx
      obtain ⟨_, _, _, _, y, hy, hx⟩ := hx
      obtain ⟨h1, h2⟩ := ih _ _ V _ _ hV hy
      obtain ⟨h3, h4⟩ := along_axes hx h1
      exact ⟨h3, fun i => by rw [h4, h2]; simp [axesStep]⟩
    · -- scalar operation
      rename_i ts f
      simp only [Option.bind_eq_some_iff] at hx
      obtain ⟨xs, hxs, hx⟩ := hx
      split at hx
      · split at hx
        · obtain ⟨rfl, hnd, _⟩ := mk?_eq_some hx
          refine ⟨hnd, fun i => ?_⟩
          refine Iff.trans ?_ (many _ hxs i)
          simp [mem_alignment]
        · cases hx
      · simp only [Option.bind_eq_some_iff] at hx
        obtain ⟨_, _, hx⟩ := hx
        obtain ⟨rfl, hnd, _⟩ := mk?_eq_some hx
        exact ⟨hnd, many xs hxs⟩
    · -- pair
      rename_i a b
      simp only [Option.bind_eq_some_iff] at hx
      obtain ⟨y, hy, z, hz, hx⟩ := hx
      split at hx
      · unfold Axial.cons at hx
        simp only [Option.bind_eq_some_iff] at hx
        obtain ⟨_, _, _, _, _, _, _, _, _, _, _, _, hx⟩ := hx
        obtain ⟨rfl, hnd, _⟩ := mk?_eq_some hx
        exact ⟨hnd, two a b rfl y z hy hz⟩
      · cases hx
    · -- first
      rename_i t
      split at hx
      · simp only [Option.bind_eq_some_iff] at hx
        obtain ⟨_, _, y, hy, hx⟩ := hx
        unfold Axial.sliceTuple at hx
        simp only [Option.bind_eq_some_iff] at hx
        obtain ⟨_, _, hx⟩ := hx
        split at hx
        · simp only [Option.bind_eq_some_iff] at hx
          obtain ⟨_, _, hx⟩ := hx
          obtain ⟨rfl, hnd, _⟩ := mk?_eq_some hx
          exact ⟨hnd, fun i => by simp [axesStep, unions, (ih _ _ V _ _ hV hy).2]⟩
        · cases hx
      · cases hx
    · -- second
      rename_i t
      split at hx
      · simp only [Option.bind_eq_some_iff] at hx
        obtain ⟨_, _, _, _, y, hy, hx⟩ := hx
        unfold Axial.sliceTuple at hx
        simp only [Option.bind_eq_some_iff] at hx
        obtain ⟨_, _, hx⟩ := hx
        split at hx
        · simp only [Option.bind_eq_some_iff] at hx
          obtain ⟨_, _, hx⟩ := hx
          obtain ⟨rfl, hnd, _⟩ := mk?_eq_some hx
          exact ⟨hnd, fun i => by simp [axesStep, unions, (ih _ _ V _ _ hV hy).2]⟩
        · cases hx
      · cases hx
    · -- external function
      rename_i fn τ ts
      simp only [Option.bind_eq_some_iff] at hx
      obtain ⟨xs, hxs, _, _, _, _, _, _, hx⟩ := hx
      obtain ⟨rfl, hnd, _⟩ := mk?_eq_some hx
      exact ⟨hnd, many xs hxs⟩
    · cases hx

end Verif.Codegen
