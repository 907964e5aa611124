import Verif.Midend.OutlineTotal
import Verif.Yarr.Rank

/-! The atoms of programs and of array code; a program that can be built has no operands below an atom. -/

namespace Verif.Midend
open Term
variable {F : Type}

instance : Atoms (Phi.Head F) where
  let_ _ := rfl
  symbol h s e := by
    change Phi.Head.symbol h = some s at e
    cases h <;> simp_all [Phi.Head.symbol]
    rfl

instance : Atoms (Yarr.Head F) where
  let_ _ := rfl
  symbol h s e := by
    change Yarr.Head.symbol h = some s at e
    cases h <;> simp_all [Yarr.Head.symbol]
    rfl

/-- The operands of an expression that can be built are expressions that can be built. -/
theorem phi_typed_subs {h : Phi.Head F} {ts : List (Phi.Expr F)} {τ : Ty}
    (ht : Phi.typeOf (node h ts) = some τ) : ∀ t ∈ ts, ∃ σ, Phi.typeOf t = some σ := by
  rw [Phi.typeOf_node] at ht
  have key : ∀ rs : List (Option Ty × Finset Sym), Phi.typeStep h rs = some τ → ∀ r ∈ rs, ∃ σ, r.1 = some σ := by
    intro rs hr
    unfold Phi.typeStep at hr
    split at hr
    · simp
    · simp
    · simp [hr]
    · rename_i τ' fs ops
      split at hr
      · simp [hr]
      · cases hr
      · split_ifs at hr with hall
        intro r hm
        simp only [List.mem_cons] at hm
        rcases hm with rfl | rfl | hm
        · exact ⟨_, hr⟩
        · exact ⟨_, rfl⟩
        · exact ⟨_, of_decide_eq_true (List.all_eq_true.1 hall r hm)⟩
    · simp
    · simp
    · simp
    · simp
    · simp
    · simp
    · simp
    · simp
    · rename_i vecs
      split_ifs at hr
      split at hr
      · cases hr
      · rename_i e es hmap
        have hf : ∀ (es : List (Option Ty)) (e : Option Ty) (x : Ty),
            es.foldl (fun a b => match a, b with | some a, some b => some (Ty.pair a b) | _, _ => none) e = some x →
            e.isSome ∧ ∀ y ∈ es, y.isSome := by
          intro es
          induction es with
          | nil => intro e x h; simp only [List.foldl_nil] at h; simp [h]
          | cons y es ih =>
            intro e x h
            rw [List.foldl_cons] at h
            obtain ⟨h1, h2⟩ := ih _ _ h
            cases e <;> cases y <;> simp_all
        split at hr
        · rename_i elems hel
          obtain ⟨h1, h2⟩ := hf _ _ _ hel
          intro r hm
          simp only [List.mem_cons] at hm
          rcases hm with rfl | rfl | hm
          · exact ⟨_, rfl⟩
          · exact ⟨_, rfl⟩
          · have : (match r.1 with | some (.vector e) => some e | _ => none) ∈ e :: es := by
              rw [← hmap]; exact List.mem_map.2 ⟨r, hm, rfl⟩
            have hs : (match r.1 with | some (Ty.vector e) => some e | _ => none).isSome := by
              rcases List.mem_cons.1 this with h | h
              · rw [h]; exact h1
              · exact h2 _ h
            cases hr1 : r.1 with
            | none => rw [hr1] at hs; cases hs
            | some σ => exact ⟨σ, rfl⟩
        · cases hr
    · rename_i o
      have hf : ∀ (l : List (Option Ty × Finset Sym)) (x : List Ty),
          l.foldr (fun o acc => match o.1, acc with | some τ, some l => some (τ :: l) | _, _ => none) (some []) = some x →
          ∀ r ∈ l, ∃ σ, r.1 = some σ := by
        intro l
        induction l with
        | nil => intro x _ r hm; cases hm
        | cons q l ih =>
          intro x h r hm
          rw [List.foldr_cons] at h
          split at h
          · rename_i h1 h2
            rcases List.mem_cons.1 hm with rfl | hm
            · exact ⟨_, h1⟩
            · exact ih _ h2 r hm
          · cases h
      split at hr
      · rename_i hx; exact hf _ _ hx
      · cases hr
    · split_ifs at hr with hall
      intro r hm
      exact Option.isSome_iff_exists.1 (List.all_eq_true.1 hall r hm)
    · cases hr
  intro t hm
  exact key _ ht (Phi.typeOf t, freeIndices t) (List.mem_map.2 ⟨t, hm, rfl⟩)

theorem phi_atomLeaves {p : Phi.Expr F} {τ : Ty} (ht : Phi.typeOf p = some τ) : AtomLeaves p := by
  induction p using ind generalizing τ with
  | step h ts ih =>
    intro k us ho ha
    cases ho with
    | refl =>
      rw [Phi.typeOf_node] at ht
      change Phi.Head.isAtom h = true at ha
      cases h <;> simp only [Phi.Head.isAtom, Bool.false_eq_true] at ha <;>
        (cases ts with | nil => rfl | cons t ts => simp [Phi.typeStep] at ht)
    | child hm ho =>
      obtain ⟨σ, hσ⟩ := phi_typed_subs ht _ hm
      exact ih _ hm hσ _ _ ho ha

/-- The operands of array code that can be built can be built. -/
theorem yarr_typed_subs {h : Yarr.Head F} {ts : List (Yarr.YExpr F)} {τ : Yarr.PTy}
    (ht : Yarr.typeOf (node h ts) = some τ) : ∀ t ∈ ts, ∃ σ, Yarr.typeOf t = some σ := by
  rw [Yarr.typeOf_node] at ht
  have hmap : ∀ (l : List (Option Yarr.PTy)) (bs : List Phi.Arr),
      Phi.mapOpt (fun t : Option Yarr.PTy => t.bind Phi.single) l = some bs → ∀ r ∈ l, ∃ σ, r = some σ := by
    intro l bs h r hr
    obtain ⟨i, hi, rfl⟩ := List.mem_iff_getElem.1 hr
    have hF := Yarr.mapOpt_eq_forall₂.1 h
    have := List.forall₂_iff_get.1 hF |>.2 i hi (by rw [← hF.length_eq]; exact hi)
    simp only [List.get_eq_getElem] at this
    cases hl : l[i] with
    | none => rw [hl] at this; cases this
    | some σ => exact ⟨σ, rfl⟩
  have hall : ∀ (l : List (Option Yarr.PTy)), l.all Option.isSome = true → ∀ r ∈ l, ∃ σ, r = some σ :=
    fun l h r hr => Option.isSome_iff_exists.1 (List.all_eq_true.1 h r hr)
  have key : ∀ rs : List (Option Yarr.PTy), Yarr.typeStep h rs = some τ → ∀ r ∈ rs, ∃ σ, r = some σ := by
    intro rs hr
    unfold Yarr.typeStep at hr
    split at hr
    · simp
    · simp
    · simp [hr]
    · simp
    · simp
    · split_ifs at hr with h1
      intro r hm
      rcases List.mem_cons.1 hm with rfl | hm
      · exact ⟨_, rfl⟩
      · exact ⟨_, of_decide_eq_true (List.all_eq_true.1 h1 r hm)⟩
    · simp
    · simp
    · simp
    · simp
    · split_ifs at hr <;> simp only [Option.bind_eq_some_iff] at hr <;>
      · obtain ⟨bs, h2, _⟩ := hr
        intro r hm
        rcases List.mem_cons.1 hm with rfl | hm
        · exact ⟨_, rfl⟩
        · exact hmap _ _ h2 r hm
    · split_ifs at hr with h1
      intro r hm
      rcases List.mem_cons.1 hm with rfl | hm
      · exact ⟨_, rfl⟩
      · exact hall _ h1.2.2.2 r hm
    · split_ifs at hr with h1
      intro r hm
      rcases List.mem_cons.1 hm with rfl | hm
      · exact ⟨_, rfl⟩
      · exact hall _ h1.2.2.2 r hm
    · simp
    · simp
    · simp
    · simp only [Option.bind_eq_some_iff] at hr
      obtain ⟨bs, h2, _⟩ := hr
      exact hmap _ _ h2
    · simp
    · simp
    · exact hmap _ _ hr
    · simp
    · simp only [Option.bind_eq_some_iff] at hr
      obtain ⟨bs, h2, _⟩ := hr
      exact hmap _ _ h2
    · split_ifs at hr with h1
      exact hall _ h1
    · cases hr
  intro t hm
  exact key _ ht _ (List.mem_map.2 ⟨t, hm, rfl⟩)

theorem yarr_atomLeaves {p : Yarr.YExpr F} {τ : Yarr.PTy} (ht : Yarr.typeOf p = some τ) : AtomLeaves p := by
  induction p using ind generalizing τ with
  | step h ts ih =>
    intro k us ho ha
    cases ho with
    | refl =>
      rw [Yarr.typeOf_node] at ht
      change Yarr.Head.isAtom h = true at ha
      cases h <;> simp only [Yarr.Head.isAtom, Bool.false_eq_true] at ha <;>
        (cases ts with | nil => rfl | cons t ts => simp [Yarr.typeStep] at ht)
    | child hm ho =>
      obtain ⟨σ, hσ⟩ := yarr_typed_subs ht _ hm
      exact ih _ hm hσ _ _ ho ha

end Verif.Midend
