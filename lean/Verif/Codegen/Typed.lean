import Verif.Codegen.Compiled

/-! The checks of types are not needed for well-typed programs, and compiling is monotone. -/

set_option linter.unusedSectionVars false

namespace Verif.Codegen
open Verif.Phi Verif.Term Verif.Yarr Verif.Arr
variable {F : Type}

/-- The sub-terms of a typed term are typed. -/
theorem typeOf_child {h : Phi.Head F} {ts : List (Expr F)} {τ : Ty} (ht : Phi.typeOf (node h ts) = some τ) :
    ∀ t ∈ ts, ∃ σ, Phi.typeOf t = some σ := by
  rw [Phi.typeOf_node] at ht
  intro t hm
  by_contra hn
  have hn : Phi.typeOf t = none := by
    cases h : Phi.typeOf t with
    | none => rfl
    | some σ => exact absurd ⟨σ, h⟩ hn
  have hmem : (none, freeIndices t) ∈ ts.map fun t => (Phi.typeOf t, freeIndices t) := by
    rw [← hn]; exact List.mem_map.2 ⟨t, hm, rfl⟩
  generalize ts.map (fun t => (Phi.typeOf t, freeIndices t)) = l at ht hmem
  clear hm hn
  generalize freeIndices t = fr at hmem
  unfold Phi.typeStep at ht
  split at ht
  case h_4 τ' _ ops =>
    split at ht
    · simp only [List.mem_singleton, Prod.mk.injEq] at hmem
      rw [← hmem.1] at ht; cases ht
    · cases ht
    · split at ht
      · rename_i hall
        simp only [List.mem_cons, Prod.mk.injEq, reduceCtorEq, false_and, false_or] at hmem
        rcases hmem with h | h
        · rw [← h.1] at ht; cases ht
        · have := List.all_eq_true.1 hall _ h
          simp at this
      · cases ht
  case h_13 σ _ σ' _ vecs =>
    split at ht
    · cases ht
    split at ht
    · cases ht
    · rename_i e es he
      split at ht
      · rename_i elems hf
        obtain ⟨a', es', rfl, rfl, -⟩ := foldl_pairs hf
        simp only [List.mem_cons, Prod.mk.injEq, reduceCtorEq, false_and, false_or] at hmem
        have : (none : Option Ty) ∈ some a' :: es'.map some := by
          rw [← he]; exact List.mem_map.2 ⟨_, hmem, rfl⟩
        simp at this
      · cases ht
  case h_14 =>
    split at ht
    · rename_i tys hf
      have hf := foldr_some hf
      have : (none : Option Ty) ∈ l.map Prod.fst := List.mem_map.2 ⟨(none, fr), hmem, rfl⟩
      rw [hf] at this
      simp at this
    · cases ht
  case h_15 ops =>
    split at ht
    · rename_i hall
      have := List.all_eq_true.1 hall _ hmem
      simp at this
    · cases ht
  all_goals first
    | (cases ht; done)
    | (simp only [List.not_mem_nil] at hmem; done)
    | (simp only [List.mem_cons, Prod.mk.injEq, reduceCtorEq, false_and, false_or, List.not_mem_nil, or_false] at hmem
       done)
    | (simp only [List.mem_cons, Prod.mk.injEq, reduceCtorEq, false_and, false_or, List.not_mem_nil, or_false] at hmem
       rw [← hmem.1] at ht; cases ht)

theorem fold_types {c a : Nat} {n z b : Expr F} {τ σ σ' : Ty} (ht : Phi.typeOf (node (.fold c a) [n, z, b]) = some τ)
    (hz : Phi.typeOf z = some σ) (hb : Phi.typeOf b = some σ') : σ = σ' := by
  rw [Phi.typeOf_node] at ht
  simp only [List.map, hz, hb] at ht
  generalize Phi.typeOf n = tn at ht
  rcases tn with _ | ((_ | _ | _) | _ | _) <;> simp only [Phi.typeStep] at ht <;> try cases ht
  split at ht
  · assumption
  · cases ht

/-- A loop step by step, with an invariant. -/
theorem loopOpt_inv {α β : Type} {f g : β → α → Option β} {P : β → Prop}
    (h : ∀ b a c, P b → f b a = some c → g b a = some c ∧ P c) {l : List α} {b r : β} (hb : P b)
    (hr : loopOpt f b l = some r) : loopOpt g b l = some r := by
  induction l generalizing b with
  | nil => exact hr
  | cons a l ih =>
    simp only [loopOpt, Option.bind_eq_some_iff] at hr ⊢
    obtain ⟨c, h1, h2⟩ := hr
    obtain ⟨h3, h4⟩ := h b a c hb h1
    exact ⟨c, h3, ih h4 h2⟩

/-- The same for two values of the same kind. -/
theorem loopOpt_typed {β : Type} {f g : β → β → Option β} {P : β → Prop}
    (h : ∀ b a c, P b → P a → f b a = some c → g b a = some c ∧ P c) {l : List β} {b r : β} (hb : P b)
    (hl : ∀ a ∈ l, P a) (hr : loopOpt f b l = some r) : loopOpt g b l = some r := by
  induction l generalizing b with
  | nil => exact hr
  | cons a l ih =>
    simp only [loopOpt, Option.bind_eq_some_iff] at hr ⊢
    obtain ⟨c, h1, h2⟩ := hr
    obtain ⟨h3, h4⟩ := h b a c hb (hl a (by simp)) h1
    exact ⟨c, h3, ih h4 (fun a ha => hl a (by simp [ha])) h2⟩

/-- The same for the order of the array backends. -/
theorem treeLoop_inv {β : Type} {f g : β → β → Option β} {P : β → Prop}
    (h : ∀ b a c, P b → P a → f b a = some c → g b a = some c ∧ P c) (fuel : Nat) : ∀ {l : List β} {b r : β}, P b →
    (∀ a ∈ l, P a) → Backend.treeLoop f fuel b l = some r → Backend.treeLoop g fuel b l = some r := by
  induction fuel with
  | zero => intro l b r _ _ hr; cases hr
  | succ fuel ih =>
    intro l b r hb hl hr
    unfold Backend.treeLoop at hr ⊢
    split at hr
    · rename_i hn
      rw [if_pos hn]
      simp only [Option.bind_eq_some_iff] at hr ⊢
      obtain ⟨b', h1, l', h2, h3⟩ := hr
      have h4 : Backend.accStep g b l = some b' ∧ P b' := by
        unfold Backend.accStep at h1 ⊢
        split at h1
        · rename_i ho
          rw [if_pos ho]
          obtain ⟨x, hx, h1⟩ := Option.bind_eq_some_iff.1 h1
          obtain ⟨h5, h6⟩ := h _ _ _ (hl x (List.mem_of_getLast? hx)) hb h1
          exact ⟨by rw [hx]; exact h5, h6⟩
        · rename_i ho
          rw [if_neg ho]
          cases h1
          exact ⟨rfl, hb⟩
      have hz : ∀ p ∈ (Backend.everyOther l.dropLast).zip (Backend.everyOther l.tail), P p.1 ∧ P p.2 := by
        intro p hp
        obtain ⟨q, w⟩ := p
        have := List.of_mem_zip hp
        exact ⟨hl _ (List.mem_of_mem_dropLast (Backend.everyOther_subset _ _ this.1)),
          hl _ (List.mem_of_mem_tail (Backend.everyOther_subset _ _ this.2))⟩
      have h5 : Backend.batch g (Backend.everyOther l.dropLast) (Backend.everyOther l.tail) = some l' ∧
          ∀ a ∈ l', P a := by
        unfold Backend.batch at h2 ⊢
        generalize (Backend.everyOther l.dropLast).zip (Backend.everyOther l.tail) = ps at h2 hz
        clear h3
        induction ps generalizing l' with
        | nil => cases h2; exact ⟨rfl, by simp⟩
        | cons p ps ih' =>
          simp only [mapOpt, Option.bind_eq_some_iff, Option.some.injEq] at h2 ⊢
          obtain ⟨c, h6, cs, h7, rfl⟩ := h2
          obtain ⟨h8, h9⟩ := h _ _ _ (hz p (by simp)).1 (hz p (by simp)).2 h6
          obtain ⟨h10, h11⟩ := ih' cs h7 fun q hq => hz q (by simp [hq])
          refine ⟨⟨c, h8, cs, h10, rfl⟩, fun a ha => ?_⟩
          rcases List.mem_cons.1 ha with rfl | ha
          · exact h9
          · exact h11 a ha
      exact ⟨b', h4.1, l', h5.1, ih h4.2 h5.2 h3⟩
    · rename_i hn
      rw [if_neg hn]
      cases l with
      | nil => exact hr
      | cons x l => exact (h _ _ _ (hl x (by simp)) hb hr).1

/-- The types of the parts of a reduction. -/
theorem reduce_types {x y : Nat} {z b : Expr F} {vs : List (Expr F)} {τ : Ty}
    (ht : Phi.typeOf (node (.reduce x y) (z :: b :: vs)) = some τ) : Phi.typeOf z = some τ ∧ Phi.typeOf b = some τ ∧
      ∃ a es, τ = es.foldl .pair a ∧ List.Forall₂ (fun t σ => Phi.typeOf t = some (.vector σ)) vs (a :: es) := by
  rw [Phi.typeOf_node] at ht
  cases hz : Phi.typeOf z with
  | none => simp [Phi.typeStep, hz] at ht
  | some σz =>
  cases hb : Phi.typeOf b with
  | none => simp [Phi.typeStep, hz, hb] at ht
  | some σb =>
    simp only [List.map_cons, Phi.typeStep, hz, hb] at ht
    split at ht
    · cases ht
    rename_i he
    have he : σz = σb := by simpa using he
    subst he
    rw [List.map_map] at ht
    split at ht
    · cases ht
    rename_i e es hes
    split at ht
    swap
    · cases ht
    rename_i elems hel
    split at ht
    swap
    · cases ht
    rename_i hee
    subst hee
    cases ht
    obtain ⟨a', es', rfl, rfl, rfl⟩ := foldl_pairs hel
    refine ⟨rfl, rfl, a', es', rfl, ?_⟩
    have := hes
    rw [← List.map_cons] at this
    clear hes hel hb hz
    generalize a' :: es' = l at this
    induction vs generalizing l with
    | nil => cases l with
      | nil => exact .nil
      | cons a l => simp at this
    | cons t vs ih' => cases l with
      | nil => simp at this
      | cons a l =>
        simp only [List.map_cons, List.cons.injEq, Function.comp] at this
        refine .cons ?_ (ih' l this.2)
        have h1 := this.1
        split at h1
        · rename_i e he
          cases h1; exact he
        · cases h1

variable [FloatOps F]

/-- The type of a row. -/
theorem row_type {ls : List (List (D F))} {a : Ty} {es : List Ty}
    (h : List.Forall₂ (fun l σ => ∀ w ∈ l, HasType w σ) ls (a :: es)) {j : Nat} {r : D F} (hr : rowAt ls j = some r) :
    HasType r (es.foldl .pair a) := by
  obtain ⟨ws, h1, h2⟩ := Option.bind_eq_some_iff.1 hr
  have h3 : List.Forall₂ HasType ws (a :: es) := by
    generalize a :: es = ts at h
    clear h2 hr
    replace h1 := mapOpt_eq_forall h1
    induction h1 generalizing ts with
    | nil => cases h; exact .nil
    | @cons l w ls ws g _ ih =>
      cases h with
      | cons g1 g2 => exact .cons (g1 w (List.mem_of_getElem? g)) (ih _ g2)
  cases h3 with
  | cons g1 g2 =>
    cases h2
    exact hasType_foldl g1 g2

/-- The types of the elements of vectors. -/
theorem vecs_types {val : Expr F → Option (D F)} {vs : List (Expr F)} {σs : List Ty} {ls : List (List (D F))}
    (ht : List.Forall₂ (fun t σ => Phi.typeOf t = some (.vector σ)) vs σs)
    (hv : List.Forall₂ (fun t l => val t = some (.vec l)) vs ls)
    (hs : ∀ t ∈ vs, ∀ σ w, Phi.typeOf t = some σ → val t = some w → HasType w σ) :
    List.Forall₂ (fun l σ => ∀ w ∈ l, HasType w σ) ls σs := by
  induction ht generalizing ls with
  | nil => cases hv; exact .nil
  | @cons t σ us σs k1 _ ih' =>
    cases hv with
    | @cons _ l _ ls g3 g4 =>
      refine .cons ?_ (ih' g4 fun u hu => hs u (by simp [hu]))
      cases hs t (by simp) _ _ k1 g3 with
      | vec k => exact k

/-- For a well-typed program in an environment of the declared types the checks of types succeed. -/
theorem check_typed {o : Opts F} {I : Ext F} (e : Expr F) : ∀ (Γ : TCtx) (τ : Ty) (sz : Nat → Nat) (env : Env (D F)) (v : D F),
    Phi.Declared I e Γ → Phi.typeOf e = some τ → EnvTyped Γ env → check o I false e sz env = some v →
    check o I true e sz env = some v := by
  induction e using ind with
  | step h ts ih =>
    intro Γ τ sz env v hd ht henv hv
    have hty := typeOf_child ht
    rw [Phi.declared_node] at hd
    have sound : ∀ t ∈ ts, ∀ σ Γ' env' sz' w, Phi.typeOf t = some σ → Phi.Declared I t Γ' → EnvTyped Γ' env' →
        check o I false t sz' env' = some w → HasType w σ := fun t _ σ Γ' env' sz' w h1 h2 h3 h4 =>
      Props.C14_type_soundness I t Γ' env' σ h1 h2 h3 w (check_run _ _ _ _ h4)
    cases hpl : planned o h ts with
    | some p => rw [check_plan hpl] at hv ⊢; exact hv
    | none =>
    rw [check_node _ _ _ _ _ hpl] at hv ⊢
    have many : ∀ {γ : Type} (p : Option (D F) → Option γ) (_ : p none = none) (l : List (Expr F)) (_ : ∀ t ∈ l, t ∈ ts)
        (_ : ∀ t ∈ l, Phi.Declared I t Γ) (rs : List γ),
        mapOpt p (((l.map fun t => (t, check o I false t)).map fun t => t.2 sz).map (· env)) = some rs →
        mapOpt p (((l.map fun t => (t, check o I true t)).map fun t => t.2 sz).map (· env)) = some rs := by
      intro γ p hp l hl hdl rs h
      simp only [List.map_map, mapOpt_map, Function.comp_def] at h ⊢
      refine mapOpt_mono (fun t ht b hb => ?_) h
      cases hc : check o I false t sz env with
      | none => rw [hc, hp] at hb; cases hb
      | some u =>
        rw [hc] at hb
        obtain ⟨σ, hσ⟩ := hty t (hl t ht)
        rw [ih t (hl t ht) Γ σ _ _ _ (hdl t ht) hσ henv hc]; exact hb
    have one : ∀ t ∈ ts, Phi.Declared I t Γ → ∀ u, check o I false t sz env = some u → check o I true t sz env = some u := by
      intro t ht hdt u hu
      obtain ⟨σ, hσ⟩ := hty t ht
      exact ih t ht Γ σ _ _ _ hdt hσ henv hu
    cases h with
    | const w τ => exact hv
    | store s τ' =>
      rw [Phi.typeOf_node] at ht
      rcases ts with _ | ⟨t, ts⟩
      · cases ht
        obtain ⟨h1, -⟩ := typed_some hv
        obtain ⟨w, h2, h3⟩ := henv s τ hd
        have h4 : some v = some w := h1.symm.trans h2
        cases h4
        simp only [checkDen, typed, h1, Option.bind_some, hasTy_iff.2 h3, Option.any]
        rfl
      · simp [Phi.typeStep] at ht
    | letv u =>
      rcases ts with _ | ⟨a, _ | ⟨b, _ | ⟨_, _⟩⟩⟩ <;> try cases hv
      obtain ⟨σ, hσ⟩ := hty a (by simp)
      obtain ⟨σ', hσ'⟩ := hty b (by simp)
      simp only [List.map, Phi.declStep, hσ] at hd
      simp only [List.map, checkDen, runDen, Option.bind_eq_some_iff] at hv ⊢
      obtain ⟨x, h1, h2⟩ := hv
      exact ⟨x, one a (by simp) hd.1 _ h1, ih b (by simp) _ σ' _ _ _ hd.2 hσ'
        (henv.set (sound a (by simp) σ Γ env sz x hσ hd.1 henv h1)) h2⟩
    | assertEq =>
      rcases ts with _ | ⟨a, l⟩ <;> try cases hv
      have hd' : ∀ t ∈ a :: l, Phi.Declared I t Γ := fun t ht => hd _ (List.mem_map.2 ⟨t, ht, rfl⟩)
      simp only [List.map_cons, checkDen, runDen, assertOf, Option.bind_eq_some_iff] at hv ⊢
      obtain ⟨ns, h1, h2⟩ := hv
      refine ⟨ns, many _ rfl l (by intro t ht; simp [ht]) (by intro t ht; exact hd' t (by simp [ht])) ns h1, ?_⟩
      cases ns with
      | nil => cases h2
      | cons n ns =>
        simp only at h2 ⊢
        split at h2
        · rename_i hc
          rw [if_pos hc]
          exact one a (by simp) (hd' a (by simp)) _ h2
        · cases h2
    | dim k =>
      rcases ts with _ | ⟨a, _ | ⟨b, l⟩⟩ <;> try cases hv
      simp only [List.map, checkDen, runDen, dimOf, Option.bind_eq_some_iff] at hv ⊢
      obtain ⟨n, ⟨x, h1, h2⟩, h3⟩ := hv
      exact ⟨n, ⟨x, one a (by simp) (hd _ (List.mem_map.2 ⟨a, by simp, rfl⟩)) _ h1, h2⟩, h3⟩
    | get =>
      rcases ts with _ | ⟨a, _ | ⟨b, _ | ⟨_, _⟩⟩⟩ <;> try cases hv
      simp only [List.map, checkDen] at hv ⊢
      split at hv
      · rename_i hc
        rw [if_pos hc]
        obtain ⟨vs, n, h1, h2, h3⟩ := getOf_some hv
        simp only [getOf, one a (by simp) (hd _ (List.mem_map.2 ⟨a, by simp, rfl⟩)) _ h1,
          one b (by simp) (hd _ (List.mem_map.2 ⟨b, by simp, rfl⟩)) _ h2, Option.bind_some, Val.asVec, Val.asInt,
          Val.int, h3]
      · cases hv
    | concat =>
      rcases ts with _ | ⟨a, _ | ⟨b, _ | ⟨_, _⟩⟩⟩ <;> try cases hv
      simp only [List.map, checkDen, runDen, concatOf, Option.bind_eq_some_iff] at hv ⊢
      obtain ⟨vs, ⟨x, h1, h2⟩, ws, ⟨y, h3, h4⟩, h5⟩ := hv
      exact ⟨vs, ⟨x, one a (by simp) (hd _ (List.mem_map.2 ⟨a, by simp, rfl⟩)) _ h1, h2⟩, ws,
        ⟨y, one b (by simp) (hd _ (List.mem_map.2 ⟨b, by simp, rfl⟩)) _ h3, h4⟩, h5⟩
    | cons =>
      rcases ts with _ | ⟨a, _ | ⟨b, _ | ⟨_, _⟩⟩⟩ <;> try cases hv
      simp only [List.map, checkDen, runDen, consOf, Option.bind_eq_some_iff] at hv ⊢
      obtain ⟨x, h1, y, h2, h3⟩ := hv
      exact ⟨x, one a (by simp) (hd _ (List.mem_map.2 ⟨a, by simp, rfl⟩)) _ h1, y,
        one b (by simp) (hd _ (List.mem_map.2 ⟨b, by simp, rfl⟩)) _ h2, h3⟩
    | fst | snd =>
      rcases ts with _ | ⟨a, _ | ⟨b, l⟩⟩ <;> try cases hv
      have hda : Phi.Declared I a Γ := hd _ (List.mem_map.2 ⟨a, by simp, rfl⟩)
      obtain ⟨σ, hσ⟩ := hty a (by simp)
      simp only [List.map, checkDen, fstOf, sndOf, Option.bind_eq_some_iff] at hv ⊢
      obtain ⟨x, h1, h2⟩ := hv
      obtain ⟨h3, -⟩ := typed_some h1
      refine ⟨x, ?_, h2⟩
      have h4 := sound a (by simp) σ Γ env sz x hσ hda henv h3
      simp only [typed, one a (by simp) hda _ h3, Option.bind_some, hσ, Option.any, hasTy_iff.2 h4]
      rfl
    | vec i =>
      rcases ts with _ | ⟨n, _ | ⟨b, _ | ⟨_, _⟩⟩⟩ <;> try cases hv
      simp only [List.map, Phi.declStep] at hd
      obtain ⟨σ, hσ⟩ := hty b (by simp)
      simp only [List.map, checkDen, Option.bind_eq_some_iff] at hv ⊢
      obtain ⟨m, ⟨x, h1, h2⟩, hv⟩ := hv
      refine ⟨m, ⟨x, one n (by simp) hd.1 _ h1, h2⟩, ?_⟩
      split at hv
      · rename_i hm
        rw [if_pos hm]
        simp only [vecOf, Option.bind_some, Val.asInt, Val.int, Option.bind_eq_some_iff] at hv ⊢
        obtain ⟨vs, h3, h4⟩ := hv
        exact ⟨vs, mapOpt_mono (fun k _ w hw => ih b (by simp) _ σ _ _ _ hd.2 hσ (henv.set (.sc (.i k))) hw) h3, h4⟩
      · cases hv
    | fold c a =>
      rcases ts with _ | ⟨n, _ | ⟨z, _ | ⟨b, _ | ⟨_, _⟩⟩⟩⟩ <;> try cases hv
      obtain ⟨σ, hσ⟩ := hty z (by simp)
      obtain ⟨σ', hσ'⟩ := hty b (by simp)
      have he : σ = σ' := fold_types ht hσ hσ'
      subst he
      simp only [List.map, Phi.declStep, hσ] at hd
      simp only [List.map, checkDen, runDen, foldOf, Option.bind_eq_some_iff] at hv ⊢
      obtain ⟨m, ⟨x, h1, h2⟩, y, h3, h4⟩ := hv
      refine ⟨m, ⟨x, one n (by simp) hd.1 _ h1, h2⟩, y, one z (by simp) hd.2.1 _ h3, ?_⟩
      refine loopOpt_inv (P := fun w => HasType w σ) (fun w k w' hw hs => ?_)
        (sound z (by simp) σ Γ env sz y hσ hd.2.1 henv h3) h4
      have henv' := (henv.set (s := .var a) hw).set (s := .var c) (v := .int k) (HasType.sc (.i k))
      exact ⟨ih b (by simp) _ σ _ _ _ hd.2.2 hσ' henv' hs, sound b (by simp) σ _ _ sz w' hσ' hd.2.2 henv' hs⟩
    | reduce x y =>
      rcases ts with _ | ⟨z, _ | ⟨b, vs⟩⟩ <;> try cases hv
      obtain ⟨hz, hb, a', es', hτ, hvt⟩ := reduce_types ht
      simp only [List.map_cons, Phi.declStep, hz] at hd
      obtain ⟨hdz, hdv, hdb⟩ := hd
      have hdv : ∀ t ∈ vs, Phi.Declared I t Γ := fun t ht => hdv _ (List.mem_map.2 ⟨t, ht, rfl⟩)
      simp only [List.map_cons, checkDen] at hv ⊢
      split at hv
      swap
      · cases hv
      rename_i hB
      rw [if_pos hB]
      simp only [Option.bind_eq_some_iff, reduceCheck] at hv ⊢
      obtain ⟨a, h1, rows, h2, hv⟩ := hv
      rw [if_neg (by simp)] at hv
      simp only [Option.bind_eq_some_iff] at hv
      obtain ⟨t, h3, w, h4, h5⟩ := hv
      have hrows : rowsOf ((vs.map fun t => (t, check o I true t)).map fun v => v.2 sz env) = some rows := by
        unfold rowsOf at h2 ⊢
        simp only [Option.bind_eq_some_iff] at h2 ⊢
        obtain ⟨ls, h6, h7⟩ := h2
        refine ⟨ls, ?_, h7⟩
        have := many (fun v => v.bind Val.asVec) rfl vs (by intro t ht; simp [ht]) hdv ls (by
          simpa only [List.map_map, Function.comp_def] using h6)
        simpa only [List.map_map, Function.comp_def] using this
      have hta : HasType a τ := sound z (by simp) τ Γ env sz a hz hdz henv h1
      have htr : ∀ r ∈ rows, HasType r τ := by
        intro r hr
        obtain ⟨ls, -, g1, -, g2⟩ := rowsOf_some h2
        rw [hτ]
        obtain ⟨j, hj, rfl⟩ := List.getElem_of_mem hr
        refine row_type ?_ ((g2 j hj).symm.trans (List.getElem?_eq_getElem hj))
        rw [List.map_map, List.forall₂_map_left_iff] at g1
        exact vecs_types hvt g1 fun t ht σ w h6 h7 => sound t (by simp [ht]) σ Γ env sz w h6 (hdv t ht) henv h7
      have henvB : EnvTyped Γ (env.set (.idx (o.batch x)) (some (.int 0))) := by
        intro s σ hs
        obtain ⟨u, hu, hu'⟩ := henv s σ hs
        have hne : s ≠ .idx (o.batch x) := by
          rintro rfl
          rw [hu] at hB
          exact absurd hB.1 (by simp)
        exact ⟨u, by simp [Env.set, hne, hu], hu'⟩
      have step : ∀ p q w, HasType p τ → HasType q τ →
          check o I false b (upd sz (o.batch x) 1)
            (((env.set (.idx (o.batch x)) (some (.int 0))).set (.var x) (some p)).set (.var y) (some q)) = some w →
          check o I true b (upd sz (o.batch x) 1)
            (((env.set (.idx (o.batch x)) (some (.int 0))).set (.var x) (some p)).set (.var y) (some q)) = some w ∧
            HasType w τ := by
        intro p q w hp hq hw
        have henv' := (henvB.set (s := .var x) hp).set (s := .var y) hq
        exact ⟨ih b (by simp) _ τ _ _ _ hdb hb henv' hw, sound b (by simp) τ _ _ _ w hb hdb henv' hw⟩
      refine ⟨a, one z (by simp) hdz _ h1, rows, hrows, ?_⟩
      have hall : ((Phi.typeOf b).any fun τ => hasTy τ a && rows.all (hasTy τ)) = true := by
        rw [hb]
        simpa only [Option.any_some, Bool.and_eq_true, List.all_eq_true, hasTy_iff] using ⟨hta, htr⟩
      rw [if_neg (by simp [hall])]
      simp only [Option.bind_eq_some_iff]
      refine ⟨t, treeLoop_inv (P := fun w => HasType w τ) (fun p q w => step p q w) _ hta htr h3, w, ?_, h5⟩
      exact loopOpt_typed (P := fun w => HasType w τ) (fun p q w => step p q w) hta htr h4
    | op f =>
      have hd' : ∀ t ∈ ts, Phi.Declared I t Γ := fun t ht => hd _ (List.mem_map.2 ⟨t, ht, rfl⟩)
      simp only [checkDen, runDen, opOf, Option.bind_eq_some_iff] at hv ⊢
      obtain ⟨ss, h1, h2⟩ := hv
      exact ⟨ss, many _ rfl ts (by simp) hd' ss h1, h2⟩
    | ext fn τ =>
      have hd' : ∀ t ∈ ts, Phi.Declared I t Γ := fun t ht => hd.1 _ (List.mem_map.2 ⟨t, ht, rfl⟩)
      simp only [checkDen, extCheck, Option.bind_eq_some_iff] at hv ⊢
      obtain ⟨ws, h1, h2⟩ := hv
      refine ⟨ws, ?_, h2⟩
      have := many _ rfl ts (by simp) hd' ws (by simpa only [List.map_map, Function.comp_def] using h1)
      simpa only [List.map_map, Function.comp_def] using this

/-! ### Compiling is monotone -/

section
omit [FloatOps F]
variable {o o' : Opts F}

/-- Options that differ only in the check on pairs and the checks of axes, which the second one passes more often. -/
structure OptsLe (o o' : Opts F) : Prop where
  takes : o'.takes = o.takes
  slicePads : o'.slicePads = o.slicePads
  sliceElision : o'.sliceElision = o.sliceElision
  equiv : o'.equiv = o.equiv
  pairs : ∀ a b, o.pairs a b = true → o'.pairs a b = true
  plan : o'.plan = o.plan
  batch : o'.batch = o.batch
  strict : o'.strict = true → o.strict = true

theorem OptsLe.refl (o : Opts F) : OptsLe o o := ⟨rfl, rfl, rfl, rfl, fun _ _ h => h, rfl, rfl, fun h => h⟩

theorem repeated_mono (ho : OptsLe o o') {x : Axial F} {into : List Nat} {sizes : Nat → Option (YExpr F)} {e : YExpr F}
    (h : x.repeated o.strict into sizes = some e) : x.repeated o'.strict into sizes = some e := by
  unfold Axial.repeated at h ⊢
  split at h
  · cases h
  · rename_i hn
    rw [if_neg fun hc => hn ⟨ho.strict hc.1, hc.2⟩]
    exact h

theorem reduceCode_mono (ho : OptsLe o o')
    {go go' : (Nat → Option (YExpr F)) → (Nat → List Nat) → Expr F → Option (Axial F)}
    (h : ∀ s v e x, go s v e = some x → go' s v e = some x) {sizes : Nat → Option (YExpr F)} {vaxes : Nat → List Nat}
    {x y : Nat} {z b : Expr F} {vs : List (Expr F)} {r : Axial F}
    (hr : reduceCode o go sizes vaxes x y z b vs = some r) : reduceCode o' go' sizes vaxes x y z b vs = some r := by
  unfold reduceCode at hr ⊢
  simp only [Option.bind_eq_some_iff, ho.batch] at hr ⊢
  obtain ⟨init, h1, vecs, h2, pre, h3, body, h4, hr⟩ := hr
  refine ⟨init, h _ _ _ _ h1, vecs, mapOpt_mono (fun t _ y hy => h _ _ _ _ hy) h2, pre, h _ _ _ _ h3, body,
    h _ _ _ _ h4, ?_⟩
  split at hr
  · cases hr
  rename_i hn
  rw [if_neg fun hc => hn ⟨ho.strict hc.1, hc.2⟩]
  simp only [Option.bind_eq_some_iff] at hr ⊢
  obtain ⟨z', h5, vs', h6, hr⟩ := hr
  exact ⟨z', repeated_mono ho h5, vs', mapOpt_mono (fun t _ y hy => repeated_mono ho hy) h6, hr⟩

theorem piece_mono {go go' : Expr F → Option (Axial F)} (h : ∀ e x, go e = some x → go' e = some x)
    {d : YExpr F} {e : Option (Expr F)} {x : YExpr F} (hx : piece go d e = some x) : piece go' d e = some x := by
  cases e with
  | none => exact hx
  | some e =>
    simp only [piece, Option.bind_eq_some_iff] at hx ⊢
    obtain ⟨y, h1, h2⟩ := hx
    exact ⟨y, h _ _ h1, h2⟩

theorem getCode_mono (ho : OptsLe o o') {go go' : Expr F → Option (Axial F)}
    (h : ∀ e x, go e = some x → go' e = some x) {sizes : Nat → Option (YExpr F)} {t i : Expr F} {x : Axial F}
    (hx : getCode o go sizes t i = some x) : getCode o' go' sizes t i = some x := by
  have hw : window o' t i = window o t i := by simp only [window, ho.slicePads]
  have he : ∀ index c, elided o' t index c = elided o t index c := by
    intro index c; simp only [elided, ho.sliceElision, ho.equiv]
  unfold getCode at hx ⊢
  rw [hw, ho.takes]
  simp only [he]
  simp only [Option.bind_eq_some_iff] at hx ⊢
  obtain ⟨target, h1, r, h2, h3⟩ := hx
  refine ⟨target, h _ _ h1, r, h2, ?_⟩
  split at h3
  · rename_i index c hic
    split at h3
    · rename_i hel
      simp only [hel, if_true]
      exact h3
    · rename_i hel
      rw [if_neg hel]
      simp only [windowGet, Option.bind_eq_some_iff] at h3 ⊢
      obtain ⟨size, h4, d, ⟨y, h5, h6⟩, p, h7, s, h8, l, h9, u, h10, h11⟩ := h3
      exact ⟨size, h4, d, ⟨y, h _ _ h5, h6⟩, p, h7, s, piece_mono h h8, l, piece_mono h h9, u, piece_mono h h10, h11⟩
  · simp only [Option.bind_eq_some_iff] at h3 ⊢
    obtain ⟨item, h4, h5⟩ := h3
    exact ⟨item, h _ _ h4, h5⟩

theorem planCode_mono {go go' : (Nat → Option (YExpr F)) → Expr F → Option (Axial F)}
    (h : ∀ s e x, go s e = some x → go' s e = some x) {sizes : Nat → Option (YExpr F)} {p : Plan F} {x : Axial F}
    (hx : planCode go sizes p = some x) : planCode go' sizes p = some x := by
  cases p with
  | fail => exact hx
  | bulk s k i elems init =>
    simp only [planCode, Option.bind_eq_some_iff] at hx ⊢
    obtain ⟨y, h1, z, h2, h3⟩ := hx
    exact ⟨y, h _ _ _ h1, z, h _ _ _ h2, h3⟩
  | dot s sums products =>
    simp only [planCode, Option.bind_eq_some_iff] at hx ⊢
    obtain ⟨ns, h1, xs, h2, h3⟩ := hx
    refine ⟨ns, mapOpt_mono (fun q _ y hy => ?_) h1, xs, mapOpt_mono (fun q _ ys hy => ?_) h2, h3⟩
    · simp only [Option.map_eq_some_iff, Option.bind_eq_some_iff] at hy ⊢
      obtain ⟨m, ⟨w, h4, h5⟩, h6⟩ := hy
      exact ⟨m, ⟨w, h _ _ _ h4, h5⟩, h6⟩
    · exact mapOpt_mono (fun t _ y hy => h _ _ _ hy) hy

theorem compileStep_mono (ho : OptsLe o o')
    {go go' : (Nat → Option (YExpr F)) → (Nat → List Nat) → Expr F → Option (Axial F)}
    (h : ∀ s v e x, go s v e = some x → go' s v e = some x) {sizes : Nat → Option (YExpr F)} {vaxes : Nat → List Nat}
    {hd : Phi.Head F} {ts : List (Expr F)} {x : Axial F} (hx : compileStep o go sizes vaxes hd ts = some x) :
    compileStep o' go' sizes vaxes hd ts = some x := by
  unfold compileStep at hx
  split at hx
  · exact hx
  · exact hx
  · exact hx
  · simp only [compileStep, Option.bind_eq_some_iff] at hx ⊢
    obtain ⟨y, h1, z, h2, h3⟩ := hx
    exact ⟨y, h _ _ _ _ h1, z, h _ _ _ _ h2, h3⟩
  · exact h _ _ _ _ hx
  · simp only [compileStep, Option.bind_eq_some_iff] at hx ⊢
    obtain ⟨y, h1, h2⟩ := hx
    exact ⟨y, h _ _ _ _ h1, h2⟩
  · rename_i c a n z b
    split at hx
    · rename_i p hp
      rw [compileStep_plan (show o'.plan c a n z b = some p by rw [ho.plan]; exact hp)]
      exact planCode_mono (fun s e x => h s vaxes e x) hx
    rename_i hp
    rw [compileStep_loop (show o'.plan c a n z b = none by rw [ho.plan]; exact hp)]
    simp only [loopCode, Option.bind_eq_some_iff] at hx ⊢
    obtain ⟨size, h1, n', h2, init, h3, pre, h4, body, h5, z', h6, h7⟩ := hx
    exact ⟨size, h _ _ _ _ h1, n', h2, init, h _ _ _ _ h3, pre, h _ _ _ _ h4, body, h _ _ _ _ h5, z',
      repeated_mono ho h6, h7⟩
  · exact reduceCode_mono ho h hx
  · exact getCode_mono ho (fun e x => h _ _ e x) hx
  · simp only [compileStep, Option.bind_eq_some_iff] at hx ⊢
    obtain ⟨y, h1, z, h2, y', h3, z', h4, h5⟩ := hx
    exact ⟨y, h _ _ _ _ h1, z, h _ _ _ _ h2, y', repeated_mono ho h3, z', repeated_mono ho h4, h5⟩
  · simp only [compileStep, Option.bind_eq_some_iff] at hx ⊢
    obtain ⟨size, h1, n', h2, y, h3, h4⟩ := hx
    exact ⟨size, h _ _ _ _ h1, n', h2, y, h _ _ _ _ h3, h4⟩
  · simp only [compileStep, Option.bind_eq_some_iff] at hx ⊢
    obtain ⟨xs, h1, h2⟩ := hx
    exact ⟨xs, mapOpt_mono (fun t _ y hy => h _ _ _ _ hy) h1, h2⟩
  · simp only [compileStep, Option.bind_eq_some_iff] at hx ⊢
    obtain ⟨y, h1, z, h2, h3⟩ := hx
    refine ⟨y, h _ _ _ _ h1, z, h _ _ _ _ h2, ?_⟩
    split at h3
    · rename_i hp
      rw [if_pos (ho.pairs _ _ hp)]
      exact h3
    · cases h3
  · simp only [compileStep]
    split at hx
    · simp only [Option.bind_eq_some_iff] at hx ⊢
      obtain ⟨p, h1, y, h2, h3⟩ := hx
      exact ⟨p, h1, y, h _ _ _ _ h2, h3⟩
    · cases hx
  · simp only [compileStep]
    split at hx
    · simp only [Option.bind_eq_some_iff] at hx ⊢
      obtain ⟨p, h1, q, h2, y, h3, h4⟩ := hx
      exact ⟨p, h1, q, h2, y, h _ _ _ _ h3, h4⟩
    · cases hx
  · simp only [compileStep, Option.bind_eq_some_iff] at hx ⊢
    obtain ⟨xs, h1, h2⟩ := hx
    exact ⟨xs, mapOpt_mono (fun t _ y hy => h _ _ _ _ hy) h1, h2⟩
  · cases hx

/-- More fuel, and fewer checks on pairs, do not change the code. -/
theorem compile_mono (ho : OptsLe o o') {n m : Nat} (hnm : n ≤ m) :
    ∀ sizes vaxes (e : Expr F) x, compile o n sizes vaxes e = some x → compile o' m sizes vaxes e = some x := by
  induction n generalizing m with
  | zero => intro _ _ _ _ h; cases h
  | succ n ih =>
    obtain ⟨m, rfl⟩ : ∃ k, m = k + 1 := ⟨m - 1, by omega⟩
    intro sizes vaxes e x hx
    obtain ⟨h, ts⟩ := e
    exact compileStep_mono ho (ih (by omega)) hx

end

theorem mk?_typed {axes : List Nat} {e : YExpr F} {x : Axial F} (h : Axial.mk? axes e = some x) :
    ∃ τ, Yarr.typeOf x.expr = some τ := by
  obtain ⟨rfl, _, τ, h, _⟩ := mk?_eq_some h
  exact ⟨τ, h⟩

theorem planCode_typed {go : (Nat → Option (YExpr F)) → Expr F → Option (Axial F)} {sizes : Nat → Option (YExpr F)}
    {p : Plan F} {x : Axial F} (h : planCode go sizes p = some x) : ∃ τ, Yarr.typeOf x.expr = some τ := by
  cases p with
  | fail => cases h
  | bulk s k i elems init =>
    simp only [planCode, reductionCode, Option.bind_eq_some_iff] at h
    obtain ⟨_, _, _, _, _, _, _, _, h⟩ := h
    exact mk?_typed h
  | dot s sums products =>
    simp only [planCode, einsumCode, Option.bind_eq_some_iff] at h
    obtain ⟨_, _, _, _, _, _, _, _, h⟩ := h
    split at h
    · cases h
    · exact mk?_typed h

/-- Compiled code passes the type checks of array code. -/
theorem compile_typed {o : Opts F} {n : Nat} : ∀ sizes vaxes (e : Expr F) x, compile o n sizes vaxes e = some x →
    ∃ τ, Yarr.typeOf x.expr = some τ := by
  induction n with
  | zero => intro _ _ _ _ h; cases h
  | succ n ih =>
    intro sizes vaxes e x hx
    obtain ⟨h, ts⟩ := e
    change compileStep o (compile o n) sizes vaxes h ts = some x at hx
    unfold compileStep at hx
    split at hx
    · simp only [Option.bind_eq_some_iff] at hx
      obtain ⟨_, _, _, _, h⟩ := hx
      exact mk?_typed h
    · simp only [Option.bind_eq_some_iff] at hx
      obtain ⟨_, _, h⟩ := hx
      exact mk?_typed h
    · simp only [Option.bind_eq_some_iff] at hx
      obtain ⟨_, _, _, _, h⟩ := hx
      exact mk?_typed h
    · simp only [Option.bind_eq_some_iff] at hx
      obtain ⟨_, _, _, _, h⟩ := hx
      exact mk?_typed h
    · exact ih _ _ _ _ hx
    · simp only [Option.bind_eq_some_iff] at hx
      obtain ⟨_, _, _, _, h⟩ := hx
      exact mk?_typed h
    · split at hx
      · rename_i p _
        exact planCode_typed hx
      simp only [loopCode, Option.bind_eq_some_iff] at hx
      obtain ⟨_, _, _, _, _, _, _, _, _, _, _, _, _, _, h⟩ := hx
      exact mk?_typed h
    · simp only [reduceCode, Option.bind_eq_some_iff] at hx
      obtain ⟨_, _, _, _, _, _, _, _, h⟩ := hx
      split at h
      · cases h
      simp only [Option.bind_eq_some_iff] at h
      obtain ⟨_, _, _, _, h⟩ := h
      split at h
      · cases h
      exact mk?_typed h
    · simp only [getCode, Option.bind_eq_some_iff] at hx
      obtain ⟨_, _, _, _, h⟩ := hx
      split at h
      · split at h
        · exact mk?_typed h
        · simp only [windowGet, Option.bind_eq_some_iff] at h
          obtain ⟨_, _, _, _, _, _, _, _, _, _, _, _, _, _, h⟩ := h
          exact mk?_typed h
      · simp only [Option.bind_eq_some_iff] at h
        obtain ⟨_, _, h⟩ := h
        unfold itemGet at h
        split at h
        · simp only [Option.bind_eq_some_iff] at h
          obtain ⟨_, _, _, _, h⟩ := h
          exact mk?_typed h
        · simp only [generalGet, Option.bind_eq_some_iff] at h
          obtain ⟨_, _, _, _, _, _, h⟩ := h
          exact mk?_typed h
    · simp only [Option.bind_eq_some_iff] at hx
      obtain ⟨_, _, _, _, _, _, _, _, h⟩ := hx
      exact mk?_typed h
    · simp only [Option.bind_eq_some_iff] at hx
      obtain ⟨_, _, _, _, _, _, h⟩ := hx
      simp only [Axial.along, Option.bind_eq_some_iff] at h
      obtain ⟨_, _, h⟩ := h
      split at h
      · split at h
        · exact mk?_typed h
        · exact mk?_typed h
      · cases h
    · simp only [Option.bind_eq_some_iff] at hx
      obtain ⟨_, _, h⟩ := hx
      split at h
      · split at h
        · exact mk?_typed h
        · cases h
      · simp only [Option.bind_eq_some_iff] at h
        obtain ⟨_, _, h⟩ := h
        exact mk?_typed h
    · simp only [Option.bind_eq_some_iff] at hx
      obtain ⟨_, _, _, _, h⟩ := hx
      split at h
      · simp only [Axial.cons, Option.bind_eq_some_iff] at h
        obtain ⟨_, _, _, _, _, _, _, _, _, _, _, _, h⟩ := h
        exact mk?_typed h
      · cases h
    · split at hx
      · simp only [Axial.sliceTuple, Option.bind_eq_some_iff] at hx
        obtain ⟨_, _, _, _, _, _, h⟩ := hx
        split at h
        · simp only [Option.bind_eq_some_iff] at h
          obtain ⟨_, _, h⟩ := h
          exact mk?_typed h
        · cases h
      · cases hx
    · split at hx
      · simp only [Axial.sliceTuple, Option.bind_eq_some_iff] at hx
        obtain ⟨_, _, _, _, _, _, _, _, h⟩ := hx
        split at h
        · simp only [Option.bind_eq_some_iff] at h
          obtain ⟨_, _, h⟩ := h
          exact mk?_typed h
        · cases h
      · cases hx
    · simp only [Option.bind_eq_some_iff] at hx
      obtain ⟨_, _, _, _, _, _, _, _, h⟩ := hx
      exact mk?_typed h
    · cases hx

end Verif.Codegen
