import Verif.Frontend.PyValue
import Verif.Props.C21

/-! Scoping of objects and of inferred sizes, and loops over lists of values. -/

set_option linter.unusedSectionVars false

namespace Verif.Frontend
open Verif.Phi Verif.Term Verif.Midend Verif.Codegen
variable {F : Type}

mutual
/-- `P` holds of all expressions an object is made of. -/
def Obj.Comp (P : Expr F → Prop) : Obj F → Prop
  | .scalar a => P (wrap a)
  | .vec e _ => P e
  | .raw v τ => P (node (.const v τ) [])
  | .struct _ fs => fs.Comp P
def Fields.Comp (P : Expr F → Prop) : Fields F → Prop
  | .nil => True
  | .cons _ o rest => o.Comp P ∧ rest.Comp P
end

theorem Fields.Comp.toList {P : Expr F → Prop} : ∀ {fs : Fields F}, fs.Comp P → ∀ o ∈ fs.toList, o.Comp P
  | .nil, _, _, h => by simp [Fields.toList] at h
  | .cons _ o rest, hf, o', h => by
    rw [Fields.Comp] at hf
    rw [Fields.toList, List.mem_cons] at h
    rcases h with rfl | h
    · exact hf.1
    · exact Fields.Comp.toList hf.2 _ h

theorem Fields.Comp.lookup {P : Expr F → Prop} {n : String} {o : Obj F} : ∀ {fs : Fields F}, fs.Comp P →
    fs.lookup n = some o → o.Comp P
  | .nil, _, h => by simp [Fields.lookup] at h
  | .cons m x rest, hf, h => by
    rw [Fields.Comp] at hf
    rw [Fields.lookup] at h
    split at h
    · cases h; exact hf.1
    · exact Fields.Comp.lookup hf.2 h

theorem Obj.Comp.getName {P : Expr F → Prop} {n : String} {o x : Obj F} (h : o.Comp P) (hx : getName n o = some x) :
    x.Comp P := by
  unfold Frontend.getName at hx
  split at hx
  · split at hx
    · cases hx
    · exact Fields.Comp.lookup (by simpa [Obj.Comp] using h) hx
  · exact Fields.Comp.lookup (by simpa [Obj.Comp] using h) hx
  · cases hx

theorem consAll_comp {P : Expr F → Prop} (hc : ∀ a b, P a → P b → P (Phi.cons a b)) :
    ∀ {es : List (Expr F)} {e : Expr F}, (∀ x ∈ es, P x) → consAll es = some e → P e
  | [], _, _, h => by simp [consAll] at h
  | [x], _, hx, h => by simp only [consAll, Option.some.injEq] at h; subst h; exact hx _ (by simp)
  | x :: y :: l, e, hx, h => by
    rw [consAll, Option.map_eq_some_iff] at h
    · obtain ⟨r, hr, rfl⟩ := h
      exact hc _ _ (hx x (by simp)) (consAll_comp hc (fun u hu => hx u (by simp [hu])) hr)
    · simp

mutual
/-- What holds of the components holds of the packed expression. -/
theorem pack_comp {P : Expr F → Prop} (hc : ∀ a b, P a → P b → P (Phi.cons a b)) : ∀ (l : Layout) {o : Obj F} {e : Expr F},
    o.Comp P → pack l o = some e → P e
  | .atom, o, e, ho, h => by
    cases o <;> simp [pack] at h <;> subst h <;> simpa [Obj.Comp] using ho
  | .vec sub, o, e, ho, h => by
    cases o with
    | scalar a =>
      cases a <;> simp [pack] at h
      subst h; simpa [Obj.Comp, wrap] using ho
    | vec e' s => simp only [pack, Option.some.injEq] at h; subst h; simpa [Obj.Comp] using ho
    | raw _ _ => simp [pack] at h
    | struct k fs => simp [pack] at h
  | .struct .positional subs, o, e, ho, h => by
    cases o with
    | struct k fs =>
      cases k <;> simp only [pack, reduceCtorEq, Option.bind_eq_some_iff] at h
      obtain ⟨es, h1, h2⟩ := h
      exact consAll_comp hc (packPos_comp hc subs (fun o' ho' => (Fields.Comp.toList (by simpa [Obj.Comp] using ho)) _ ho') h1) h2
    | _ => simp [pack] at h
  | .struct .dict subs, o, e, ho, h => by
    simp only [pack, Option.bind_eq_some_iff] at h
    obtain ⟨es, h1, h2⟩ := h
    exact consAll_comp hc (packLab_comp hc subs ho h1) h2
  | .struct (.data k) subs, o, e, ho, h => by
    simp only [pack, Option.bind_eq_some_iff] at h
    obtain ⟨es, h1, h2⟩ := h
    exact consAll_comp hc (packLab_comp hc subs ho h1) h2
theorem packPos_comp {P : Expr F → Prop} (hc : ∀ a b, P a → P b → P (Phi.cons a b)) : ∀ (l : LFields) {os : List (Obj F)}
    {es : List (Expr F)}, (∀ o ∈ os, o.Comp P) → packPos l os = some es → ∀ e ∈ es, P e
  | .nil, os, es, _, h => by
    cases os <;> simp [packPos] at h; subst h; simp
  | .cons n l rest, os, es, ho, h => by
    cases os with
    | nil => simp [packPos] at h
    | cons o os =>
      simp only [packPos, Option.bind_eq_some_iff, Option.map_eq_some_iff] at h
      obtain ⟨x, h1, xs, h2, rfl⟩ := h
      intro e he
      rcases List.mem_cons.1 he with rfl | he
      · exact pack_comp hc l (ho o (by simp)) h1
      · exact packPos_comp hc rest (fun o' ho' => ho o' (by simp [ho'])) h2 e he
theorem packLab_comp {P : Expr F → Prop} (hc : ∀ a b, P a → P b → P (Phi.cons a b)) : ∀ (l : LFields) {o : Obj F}
    {es : List (Expr F)}, o.Comp P → packLab l o = some es → ∀ e ∈ es, P e
  | .nil, o, es, _, h => by
    simp [packLab] at h; subst h; simp
  | .cons n l rest, o, es, ho, h => by
    simp only [packLab, Option.bind_eq_some_iff, Option.map_eq_some_iff] at h
    obtain ⟨o', h0, x, h1, xs, h2, rfl⟩ := h
    intro e he
    rcases List.mem_cons.1 he with rfl | he
    · exact pack_comp hc l (ho.getName h0) h1
    · exact packLab_comp hc rest ho h2 e he
end

theorem scoped_cons {a b : Expr F} (ha : Scoped a) (hb : Scoped b) : Scoped (Phi.cons a b) := by
  refine .node (fun k t _ _ => Finset.disjoint_empty_left _) fun t ht => ?_
  simp only [List.mem_cons, List.not_mem_nil, or_false] at ht
  rcases ht with rfl | rfl
  · exact ha
  · exact hb

/-- Replacing symbols by closed expressions keeps scoping. -/
theorem scoped_substitute {σ : List (Sym × Expr F)} (hr : rangeFv σ = ∅) (hσ : ∀ p ∈ σ, Scoped p.2) (e : Expr F) :
    Scoped e → Scoped (substitute σ e) := by
  induction e using ind with
  | step h ts ih =>
    intro hs
    rw [substitute_node]
    split
    · exact hs
    · cases hu : substAt σ h with
      | some u =>
        unfold substAt at hu
        obtain ⟨s, _, h2⟩ := Option.bind_eq_some_iff.1 hu
        exact hσ _ (lookup_mem h2)
      | none =>
        refine .node (fun k t ht ho => ?_) fun t ht => ?_
        · rw [List.getElem?_map, Option.map_eq_some_iff] at ht
          obtain ⟨t', ht', rfl⟩ := ht
          refine (hs.out k t' ht' ho).mono_right fun x hx => ?_
          have := fv_substitute σ t' hx
          rw [hr, Finset.union_empty] at this
          exact (Finset.mem_sdiff.1 this).1
        · obtain ⟨t', ht', rfl⟩ := List.mem_map.1 ht
          exact ih t' ht' (hs.children t' ht')

theorem scoped_atZero {e : Expr F} (h : Scoped e) : Scoped (atZero e) :=
  scoped_substitute (rangeFv_zeros e) (fun p hp => by rw [zeros_snd hp]; exact scoped_int 0) e h

theorem scoped_dimExpr [FloatOps F] {t : Expr F} (h : Scoped t) (k : Nat) : Scoped (dimExpr t k) := by
  induction t using ind generalizing k with
  | step hd ts ih =>
    by_cases hg : ∃ t i, hd = .get ∧ ts = [t, i]
    · obtain ⟨t, i, rfl, rfl⟩ := hg
      rw [dimExpr_get]
      exact ih t (by simp) (h.children t (by simp)) (k + 1)
    · by_cases hve : ∃ j n b, hd = .vec j ∧ ts = [n, b] ∧ k = 0
      · obtain ⟨j, n, b, rfl, rfl, rfl⟩ := hve
        rw [dimExpr_vec]
        exact h.children n (by simp)
      · rw [dimExpr_other (fun t i h => hg ⟨t, i, h⟩) (fun j n b h => hve ⟨j, n, b, h⟩)]
        exact .node (fun _ _ _ _ => Finset.disjoint_empty_left _) fun t ht => by
          rw [List.mem_singleton.1 ht]; exact h

variable [DecidableEq F]

theorem scoped_inferSize [FloatOps F] {body size : Expr F} {symbols : List Sym} {initial : Finset Sym} {s : Sym} (hb : Scoped body)
    (h : inferSize body symbols initial s = some size) : Scoped size := by
  have key : ∀ c ∈ candidates body (symbols.toFinset ∪ initial) s, Scoped c := by
    intro c hc
    obtain ⟨t, ho, rfl, _⟩ := candidates_mem hc
    exact scoped_atZero (scoped_dimExpr (hb.occurs ho) 0)
  obtain ⟨c, hc, ⟨rfl, _⟩ | rfl⟩ := inferSize_eq h
  · exact key _ hc
  · refine .node (fun _ _ _ _ => Finset.disjoint_empty_left _) fun t ht => ?_
    rcases List.mem_cons.1 ht with rfl | ht
    · exact key _ hc
    · exact key _ (mem_distinct.1 ht)

/-! ### Loops over lists -/

section lists
variable {α β γ : Type}

theorem mapOpt_bind {f : α → Option β} {g : β → Option γ} {l : List α} {bs : List β} {cs : List γ}
    (h1 : mapOpt f l = some bs) (h2 : mapOpt g bs = some cs) : mapOpt (fun a => (f a).bind g) l = some cs := by
  induction l generalizing bs cs with
  | nil => simp only [mapOpt, Option.some.injEq] at h1; subst h1; exact h2
  | cons a l ih =>
    simp only [mapOpt, Option.bind_eq_some_iff, Option.some.injEq] at h1
    obtain ⟨b, hb, bs', hbs, rfl⟩ := h1
    simp only [mapOpt, Option.bind_eq_some_iff, Option.some.injEq] at h2
    obtain ⟨c, hc, cs', hcs, rfl⟩ := h2
    simp only [mapOpt, hb, Option.bind_some, hc, ih hbs hcs]

theorem mapOpt_split {f : α → Option β} {g : β → Option γ} {l : List α} {cs : List γ}
    (h : mapOpt (fun a => (f a).bind g) l = some cs) : ∃ bs, mapOpt f l = some bs ∧ mapOpt g bs = some cs := by
  induction l generalizing cs with
  | nil => exact ⟨[], rfl, h⟩
  | cons a l ih =>
    simp only [mapOpt, Option.bind_eq_some_iff, Option.some.injEq] at h
    obtain ⟨c, ⟨b, hb, hc⟩, cs', hcs, rfl⟩ := h
    obtain ⟨bs, h1, h2⟩ := ih hcs
    exact ⟨b :: bs, by simp [mapOpt, hb, h1], by simp [mapOpt, hc, h2]⟩

/-- Two loops that stay related. -/
theorem loopOpt_rel {f : β → α → Option β} {g : γ → α → Option γ} (R : β → γ → Prop) {l : List α}
    (h : ∀ a ∈ l, ∀ b c c', R b c → g c a = some c' → ∃ b', f b a = some b' ∧ R b' c') {b : β} {c c' : γ} (hR : R b c)
    (hg : loopOpt g c l = some c') : ∃ b', loopOpt f b l = some b' ∧ R b' c' := by
  induction l generalizing b c with
  | nil => simp only [loopOpt, Option.some.injEq] at hg ⊢; subst hg; exact ⟨b, rfl, hR⟩
  | cons a l ih =>
    simp only [loopOpt, Option.bind_eq_some_iff] at hg
    obtain ⟨c1, h1, h2⟩ := hg
    obtain ⟨b1, h3, h4⟩ := h a (by simp) b c c1 hR h1
    obtain ⟨b', h5, h6⟩ := ih (fun x hx => h x (by simp [hx])) h4 h2
    exact ⟨b', by simp [loopOpt, h3, h5], h6⟩

end lists

/-! ### Shapes -/

mutual
/-- Values with equal shapes. -/
def PVal.SameShape : PVal F → PVal F → Prop
  | .sc _, .sc _ => True
  | .arr l, .arr l' => PVal.SameShapes l l'
  | .record k fs, .record k' fs' => k = k' ∧ PVal.SameShapeFields fs fs'
  | _, _ => False
def PVal.SameShapes : List (PVal F) → List (PVal F) → Prop
  | [], [] => True
  | a :: l, b :: l' => PVal.SameShape a b ∧ PVal.SameShapes l l'
  | _, _ => False
def PVal.SameShapeFields : List (String × PVal F) → List (String × PVal F) → Prop
  | [], [] => True
  | (n, a) :: l, (m, b) :: l' => n = m ∧ PVal.SameShape a b ∧ PVal.SameShapeFields l l'
  | _, _ => False
end

mutual
theorem shape_of_view : ∀ (l : Layout) {a b : D F} {x y : PVal F}, view l a = some x → view l b = some y →
    PVal.SameShape x y → Val.shape a = Val.shape b
  | .atom, a, b, x, y, ha, hb, h => by
    cases a <;> simp [view] at ha
    cases b <;> simp [view] at hb
    simp [Val.shape, Val.map]
  | .vec sub, a, b, x, y, ha, hb, h => by
    cases a with
    | vec vs =>
      cases b with
      | vec ws =>
        simp only [view, Option.map_eq_some_iff] at ha hb
        obtain ⟨xs, h1, rfl⟩ := ha
        obtain ⟨ys, h2, rfl⟩ := hb
        simp only [PVal.SameShape] at h
        have : vs.map Val.shape = ws.map Val.shape := by
          induction vs generalizing ws xs ys with
          | nil =>
            simp only [mapOpt, Option.some.injEq] at h1; subst h1
            cases ys with
            | nil => have := mapOpt_length h2; simp only [List.length_nil] at this; rw [List.eq_nil_of_length_eq_zero this.symm]
            | cons _ _ => simp [PVal.SameShapes] at h
          | cons v vs ih =>
            simp only [mapOpt, Option.bind_eq_some_iff, Option.some.injEq] at h1
            obtain ⟨x, hx, xs', hxs, rfl⟩ := h1
            cases ys with
            | nil => simp [PVal.SameShapes] at h
            | cons y ys =>
              cases ws with
              | nil => simp [mapOpt] at h2
              | cons w ws =>
                simp only [mapOpt, Option.bind_eq_some_iff, Option.some.injEq, List.cons.injEq] at h2
                obtain ⟨y', hy, ys', hys, rfl, rfl⟩ := h2
                simp only [PVal.SameShapes] at h
                simp [shape_of_view sub hx hy h.1, ih ws xs' hxs ys' hys h.2]
        have h3 : ∀ us : List (D F), us.map (Val.map fun _ => ()) = us.map Val.shape := fun _ => rfl
        rw [Val.shape, Val.shape, Val.map, Val.map, Val.mapList_eq, Val.mapList_eq, h3, h3, this]
      | _ => simp [view] at hb
    | _ => simp [view] at ha
  | .struct k subs, a, b, x, y, ha, hb, h => by
    simp only [view, Option.map_eq_some_iff] at ha hb
    obtain ⟨xs, h1, rfl⟩ := ha
    obtain ⟨ys, h2, rfl⟩ := hb
    simp only [PVal.SameShape] at h
    exact shape_of_viewFields subs h1 h2 h.2
theorem shape_of_viewFields : ∀ (l : LFields) {a b : D F} {x y : List (String × PVal F)}, viewFields l a = some x →
    viewFields l b = some y → PVal.SameShapeFields x y → Val.shape a = Val.shape b
  | .nil, a, b, x, y, ha, _, _ => by simp [viewFields] at ha
  | .cons n l .nil, a, b, x, y, ha, hb, h => by
    simp only [viewFields, Option.map_eq_some_iff] at ha hb
    obtain ⟨x, h1, rfl⟩ := ha
    obtain ⟨y, h2, rfl⟩ := hb
    simp only [PVal.SameShapeFields] at h
    exact shape_of_view l h1 h2 h.2.1
  | .cons n l (.cons m l' rest), a, b, x, y, ha, hb, h => by
    cases a with
    | pair a1 a2 =>
      cases b with
      | pair b1 b2 =>
        rw [viewFields, Option.bind_eq_some_iff] at ha hb
        simp only [Option.map_eq_some_iff] at ha hb
        obtain ⟨x, h1, xs, h3, rfl⟩ := ha
        obtain ⟨y, h2, ys, h4, rfl⟩ := hb
        simp only [PVal.SameShapeFields] at h
        have e1 := shape_of_view l h1 h2 h.2.1
        have e2 := shape_of_viewFields (.cons m l' rest) h3 h4 h.2.2
        simp only [Val.shape] at e1 e2 ⊢
        simp [Val.map, e1, e2]
      | _ => simp [viewFields] at hb
    | _ => simp [viewFields] at ha
end

mutual
theorem sameShape_of_view : ∀ (l : Layout) {a b : D F} {x y : PVal F}, view l a = some x → view l b = some y →
    Val.shape a = Val.shape b → PVal.SameShape x y
  | .atom, a, b, x, y, ha, hb, h => by
    cases a <;> simp [view] at ha
    cases b <;> simp [view] at hb
    subst ha hb; simp [PVal.SameShape]
  | .vec sub, a, b, x, y, ha, hb, h => by
    cases a with
    | vec vs =>
      cases b with
      | vec ws =>
        simp only [view, Option.map_eq_some_iff] at ha hb
        obtain ⟨xs, h1, rfl⟩ := ha
        obtain ⟨ys, h2, rfl⟩ := hb
        simp only [PVal.SameShape]
        have h3 : vs.map Val.shape = ws.map Val.shape := by
          have h3 : ∀ us : List (D F), us.map (Val.map fun _ => ()) = us.map Val.shape := fun _ => rfl
          rw [Val.shape, Val.shape, Val.map, Val.map, Val.mapList_eq, Val.mapList_eq, h3, h3] at h
          exact Val.vec.inj h
        clear h
        induction vs generalizing ws xs ys with
        | nil =>
          simp only [mapOpt, Option.some.injEq] at h1; subst h1
          simp only [List.map_nil, List.nil_eq, List.map_eq_nil_iff] at h3
          subst h3
          simp only [mapOpt, Option.some.injEq] at h2; subst h2
          simp [PVal.SameShapes]
        | cons v vs ih =>
          simp only [mapOpt, Option.bind_eq_some_iff, Option.some.injEq] at h1
          obtain ⟨x, hx, xs', hxs, rfl⟩ := h1
          cases ws with
          | nil => simp at h3
          | cons w ws =>
            simp only [mapOpt, Option.bind_eq_some_iff, Option.some.injEq] at h2
            obtain ⟨y, hy, ys', hys, rfl⟩ := h2
            simp only [List.map_cons, List.cons.injEq] at h3
            simp only [PVal.SameShapes]
            exact ⟨sameShape_of_view sub hx hy h3.1, ih ws xs' hxs ys' hys h3.2⟩
      | _ => simp [view] at hb
    | _ => simp [view] at ha
  | .struct k subs, a, b, x, y, ha, hb, h => by
    simp only [view, Option.map_eq_some_iff] at ha hb
    obtain ⟨xs, h1, rfl⟩ := ha
    obtain ⟨ys, h2, rfl⟩ := hb
    simp only [PVal.SameShape]
    exact ⟨trivial, sameShape_of_viewFields subs h1 h2 h⟩
theorem sameShape_of_viewFields : ∀ (l : LFields) {a b : D F} {x y : List (String × PVal F)}, viewFields l a = some x →
    viewFields l b = some y → Val.shape a = Val.shape b → PVal.SameShapeFields x y
  | .nil, a, b, x, y, ha, _, _ => by simp [viewFields] at ha
  | .cons n l .nil, a, b, x, y, ha, hb, h => by
    simp only [viewFields, Option.map_eq_some_iff] at ha hb
    obtain ⟨x, h1, rfl⟩ := ha
    obtain ⟨y, h2, rfl⟩ := hb
    simp only [PVal.SameShapeFields]
    exact ⟨trivial, sameShape_of_view l h1 h2 h, trivial⟩
  | .cons n l (.cons m l' rest), a, b, x, y, ha, hb, h => by
    cases a with
    | pair a1 a2 =>
      cases b with
      | pair b1 b2 =>
        rw [viewFields, Option.bind_eq_some_iff] at ha hb
        simp only [Option.map_eq_some_iff] at ha hb
        obtain ⟨x, h1, xs, h3, rfl⟩ := ha
        obtain ⟨y, h2, ys, h4, rfl⟩ := hb
        simp only [PVal.SameShapeFields]
        simp only [Val.shape, Val.map, Val.pair.injEq] at h
        exact ⟨trivial, sameShape_of_view l h1 h2 h.1, sameShape_of_viewFields (.cons m l' rest) h3 h4 h.2⟩
      | _ => simp [viewFields] at hb
    | _ => simp [viewFields] at ha
end

end Verif.Frontend
