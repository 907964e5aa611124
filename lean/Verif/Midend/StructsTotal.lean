import Verif.Midend.StructsOk

/-! Programs on which the struct-of-arrays pass returns. -/

set_option linter.unusedSectionVars false

namespace Verif.Midend
open Verif.Phi Verif.Term
variable {F : Type}

/-! ### More depth does not change the result -/

section mono
variable {rec rec' : Expr F → Nat → Option (Expr F × Nat)} (hm : ∀ e c r, rec e c = some r → rec' e c = some r)
include hm

theorem goList_mono : ∀ {ts : List (Expr F)} {c : Nat} {r : List (Expr F) × Nat}, goList rec ts c = some r →
    goList rec' ts c = some r := by
  intro ts
  induction ts with
  | nil => intro c r h; exact h
  | cons t ts ih =>
    intro c r h
    simp only [goList, Option.bind_eq_some_iff] at h ⊢
    obtain ⟨q, h1, l, h2, h3⟩ := h
    exact ⟨q, hm _ _ _ h1, l, ih h2, h3⟩

theorem soaStep_mono {e : Expr F} {c : Nat} {r : Expr F × Nat} (hr : soaStep rec e c = some r) :
    soaStep rec' e c = some r := by
  unfold soaStep at hr ⊢
  split at hr
  · exact hr
  · simp only [Option.bind_eq_some_iff] at hr ⊢
    obtain ⟨q, h1, h2⟩ := hr
    exact ⟨q, hm _ _ _ h1, h2⟩
  · simp only [Option.bind_eq_some_iff] at hr ⊢
    obtain ⟨q, h1, l, h2, h3⟩ := hr
    exact ⟨q, hm _ _ _ h1, l, hm _ _ _ h2, h3⟩
  · simp only [Option.bind_eq_some_iff] at hr ⊢
    obtain ⟨q, h1, l, h2, h3⟩ := hr
    exact ⟨q, hm _ _ _ h1, l, hm _ _ _ h2, h3⟩
  · simp only [Option.bind_eq_some_iff] at hr ⊢
    obtain ⟨q, h1, l, h2, σ, h3, h4⟩ := hr
    refine ⟨q, hm _ _ _ h1, l, hm _ _ _ h2, σ, h3, ?_⟩
    cases σ with
    | pair a b =>
      simp only [Option.bind_eq_some_iff] at h4 ⊢
      obtain ⟨x, h5, y, h6, h7⟩ := h4
      exact ⟨x, hm _ _ _ h5, y, hm _ _ _ h6, h7⟩
    | scalar k => exact h4
    | vector t => exact h4
  · simp only [Option.bind_eq_some_iff] at hr ⊢
    obtain ⟨q, h1, l, h2, m, h3, h4⟩ := hr
    exact ⟨q, hm _ _ _ h1, l, hm _ _ _ h2, m, goList_mono hm h3, h4⟩
  · simp only [Option.map_eq_some_iff] at hr ⊢
    obtain ⟨q, h1, h2⟩ := hr
    exact ⟨q, goList_mono hm h1, h2⟩

end mono

theorem soaGo_succ : ∀ (n : Nat) (e : Expr F) (c : Nat) (r : Expr F × Nat), soaGo n e c = some r →
    soaGo (n + 1) e c = some r := by
  intro n
  induction n with
  | zero => intro e c r h; cases h
  | succ n ih =>
    intro e c r h
    rw [soaGo] at h ⊢
    simp only [Option.bind_eq_some_iff] at h ⊢
    obtain ⟨τ, hτ, q, hq, h⟩ := h
    exact ⟨τ, hτ, q, soaStep_mono ih hq, h⟩

theorem soaGo_mono {n m : Nat} (hnm : n ≤ m) : ∀ (e : Expr F) (c : Nat) (r : Expr F × Nat), soaGo n e c = some r →
    soaGo m e c = some r := by
  induction hnm with
  | refl => exact fun _ _ _ h => h
  | step _ ih => exact fun e c r h => soaGo_succ _ _ _ _ (ih e c r h)

/-! ### Types of transformed nodes -/

theorem soaGo_type {n c : Nat} {e : Expr F} {r : Expr F × Nat} {τ : Ty} (h : soaGo n e c = some r)
    (ht : typeOf e = some τ) : typeOf r.1 = some (soaTy τ) := by
  cases n with
  | zero => cases h
  | succ n =>
    rw [soaGo, ht] at h
    simp only [Option.bind_some, Option.bind_eq_some_iff] at h
    obtain ⟨q, _, h⟩ := h
    split at h
    · rename_i h1; cases h; exact h1
    · cases h

/-- The type of a node other than a comprehension, from the types of its sub-terms. -/
theorem typeOf_types {h : Head F} (hv : ∀ i, h ≠ .vec i) {ts : List (Expr F)} {σs : List Ty}
    (hs : List.Forall₂ (fun t σ => typeOf t = some σ) ts σs) :
    typeOf (node h ts) = typeStep h (σs.map fun σ => (some σ, ∅)) := by
  rw [typeOf_node, typeStep_free h hv, List.map_map]
  congr 1
  induction hs with
  | nil => rfl
  | cons h1 _ ih => simp only [List.map_cons, ih, Function.comp, h1]

theorem resolveArgs_scalar {c : Option (List Kind)} : ∀ {tys : List Ty} {args : List SigArg} {t r : Option Kind},
    resolveArgs c (tys.zip args) t = some r → tys.length ≤ args.length → ∀ τ ∈ tys, ∃ k, τ = .scalar k := by
  intro tys
  induction tys with
  | nil => simp
  | cons τ tys ih =>
    intro args t r h hl
    cases args with
    | nil => simp at hl
    | cons a args =>
      have hl' : tys.length ≤ args.length := by simpa using hl
      cases τ with
      | vector _ => cases a <;> simp [resolveArgs] at h
      | pair _ _ => cases a <;> simp [resolveArgs] at h
      | scalar k =>
        have : ∃ t' r', resolveArgs c (tys.zip args) t' = some r' := by
          cases a with
          | fixed k' =>
            simp only [List.zip_cons_cons, resolveArgs] at h
            split at h
            · cases h
            · exact ⟨_, _, h⟩
          | T =>
            simp only [List.zip_cons_cons, resolveArgs] at h
            cases t with
            | none => cases c <;> simp at h <;> first | exact ⟨_, _, h⟩ | exact ⟨_, _, h.2⟩
            | some k' => cases c <;> simp at h <;> first | exact ⟨_, _, h.2⟩ | exact ⟨_, _, h.2.2⟩
        obtain ⟨t', r', h'⟩ := this
        intro τ hτ
        rcases List.mem_cons.1 hτ with rfl | hτ
        · exact ⟨k, rfl⟩
        · exact ih h' hl' τ hτ

theorem typeStep_op (o : ScalarOp) (σs : List Ty) : typeStep (.op o : Head F) (σs.map fun σ => (some σ, ∅)) =
    if σs.length = ScalarOp.arity o then resolveSignature σs (signature o) else none := by
  have : (List.foldr (fun o acc => match o.1, acc with
        | some τ, some l => some (τ :: l) | _, _ => none) (some [])
        (σs.map fun σ => ((some σ : Option Ty), (∅ : Finset Sym)))) = some σs := by
    induction σs with
    | nil => rfl
    | cons σ σs ih => rw [List.map_cons, List.foldr_cons, ih]
  exact congrArg (fun x => match x with
    | some tys => if tys.length = ScalarOp.arity o then resolveSignature tys (signature o) else none
    | none => none) this

/-- The heads that the pass keeps, with the same sub-terms. -/
def Kept : Head F → Prop
  | .const _ τ | .ext _ τ => flat τ = true
  | .letv _ | .assertEq | .cons | .fst | .snd | .fold _ _ | .op _ => True
  | _ => False

/-- A kept node gets the converted type. -/
theorem typeStep_soa {h : Head F} (hk : Kept h) {σs : List Ty} {τ : Ty}
    (ht : typeStep h (σs.map fun σ => (some σ, ∅)) = some τ) :
    typeStep h ((σs.map soaTy).map fun σ => (some σ, ∅)) = some (soaTy τ) := by
  cases h with
  | store _ _ | dim _ | get | concat | vec _ | reduce _ _ => exact hk.elim
  | const v σ =>
    cases σs with
    | nil => cases ht; exact congrArg some (soaTy_flat hk).symm
    | cons _ _ => cases ht
  | ext fn σ =>
    simp only [typeStep, List.all_map] at ht ⊢
    have : ∀ l : List Ty, l.all ((fun o : Option Ty × Finset Sym => o.1.isSome) ∘ fun σ => (some σ, ∅)) = true := by
      intro l; simp
    rw [if_pos (this _)] at ht
    rw [if_pos (by simp)]
    cases ht
    exact congrArg some (soaTy_flat hk).symm
  | letv v =>
    rcases σs with _ | ⟨a, _ | ⟨b, _ | ⟨c, l⟩⟩⟩ <;> cases ht
    rfl
  | assertEq =>
    rcases σs with _ | ⟨a, _ | ⟨b, l⟩⟩
    · cases ht
    · cases ht; rfl
    · simp only [List.map, typeStep] at ht ⊢
      split at ht
      · rename_i hall
        cases ht
        rw [if_pos]
        simp only [List.all_map, List.all_eq_true, Function.comp, decide_eq_true_eq, Option.some.injEq] at hall ⊢
        exact fun x hx => congrArg soaTy (hall x hx)
      · cases ht
  | cons =>
    rcases σs with _ | ⟨a, _ | ⟨b, _ | ⟨c, l⟩⟩⟩ <;> cases ht
    rfl
  | fst =>
    rcases σs with _ | ⟨_ | _ | ⟨a, b⟩, _ | ⟨c, l⟩⟩ <;> cases ht
    rfl
  | snd =>
    rcases σs with _ | ⟨_ | _ | ⟨a, b⟩, _ | ⟨c, l⟩⟩ <;> cases ht
    rfl
  | fold k a =>
    rcases σs with _ | ⟨⟨⟨⟩⟩ | _ | _, _ | ⟨b, _ | ⟨c, _ | ⟨d, l⟩⟩⟩⟩ <;> try (cases ht)
    simp only [List.map, typeStep, soaTy] at ht ⊢
    split at ht
    · rename_i hbc
      cases ht
      rw [if_pos (congrArg soaTy hbc)]
    · cases ht
  | op o =>
    rw [typeStep_op] at ht ⊢
    split at ht
    swap
    · cases ht
    rename_i hl
    have hsc : ∀ σ ∈ σs, ∃ k, σ = .scalar k := by
      unfold resolveSignature at ht
      split at ht
      · cases ht
      · rename_i t hres
        refine resolveArgs_scalar hres ?_
        rw [hl]
        cases o <;> exact Nat.le_refl _
    have hid : σs.map soaTy = σs := by
      conv_rhs => rw [← List.map_id σs]
      refine List.map_congr_left fun σ hσ => ?_
      obtain ⟨k, rfl⟩ := hsc σ hσ
      rfl
    rw [hid, if_pos hl, ht]
    obtain ⟨k, rfl⟩ : ∃ k, τ = .scalar k := by
      unfold resolveSignature at ht
      split at ht
      · cases ht
      · split at ht
        · cases ht; exact ⟨_, rfl⟩
        · obtain ⟨k, _, rfl⟩ := Option.map_eq_some_iff.1 ht; exact ⟨k, rfl⟩
    rfl

theorem pairFold_some {es : List Ty} : ∀ {e : Ty}, (es.map some).foldl (fun a b => match a, b with
    | some a, some b => some (Ty.pair a b) | _, _ => none) (some e) = some (es.foldl .pair e) := by
  induction es with
  | nil => intro e; rfl
  | cons b es ih => intro e; exact ih

theorem typeOf_reduce {x y : Nat} {z b v : Expr F} {vs : List (Expr F)} {e : Ty} {es : List Ty}
    (hz : typeOf z = some (es.foldl .pair e)) (hb : typeOf b = some (es.foldl .pair e))
    (hv : typeOf v = some (.vector e)) (hvs : List.Forall₂ (fun t e => typeOf t = some (.vector e)) vs es) :
    typeOf (node (.reduce x y) (z :: b :: v :: vs)) = some (es.foldl .pair e) := by
  rw [typeOf_types (σs := es.foldl .pair e :: es.foldl .pair e :: .vector e :: es.map .vector) (by simp)
    (.cons hz (.cons hb (.cons hv (by rw [List.forall₂_map_right_iff]; exact hvs))))]
  simp only [List.map_cons, typeStep, ne_eq, not_true_eq_false, if_false, List.map_map]
  have h1 : (es.map (((fun v : Option Ty × Finset Sym => match v.1 with
      | some (.vector e) => some e | _ => none) ∘ fun σ => (some σ, ∅)) ∘ Ty.vector)) = es.map some := by
    refine List.map_congr_left fun x _ => rfl
  have h2 := pairFold_some (es := es) (e := e)
  rw [← h1] at h2
  have h3 : ∀ o : Option Ty, o = some (es.foldl .pair e) → (match o with
      | some elems => if elems = es.foldl .pair e then some (es.foldl .pair e) else none
      | none => none) = some (es.foldl .pair e) := by
    rintro o rfl; simp
  exact h3 _ h2

theorem typeOf_vec {i : Nat} {n b : Expr F} {σ : Ty} (hn : typeOf n = some (.scalar .int)) (hfi : freeIndices n = ∅)
    (hb : typeOf b = some σ) : typeOf (vec i n b) = some (.vector σ) := by
  rw [vec, typeOf_node]
  simp [hn, hb, hfi, typeStep]

/-! ### The pass returns -/

variable [FloatOps F] {I : Ext F}

/-- Constants and external functions give no arrays of records. -/
def OutFlat : Head F → Prop
  | .const _ τ | .ext _ τ => flat τ = true
  | _ => True

/-- In every part of the term one conversion is enough to remove the arrays of records: there is no array of
arrays of records. -/
def SoaOk (e : Expr F) : Prop := ∀ h ts, Occurs (node h ts) e →
  (∀ τ, typeOf (node h ts) = some τ → flat (soaTy τ) = true) ∧ OutFlat h

theorem SoaOk.child {h : Head F} {ts : List (Expr F)} (ho : SoaOk (node h ts)) {t : Expr F} (ht : t ∈ ts) : SoaOk t :=
  fun h' ts' hu => ho h' ts' (.child ht hu)

theorem SoaOk.flat {e : Expr F} (ho : SoaOk e) {τ : Ty} (ht : typeOf e = some τ) : flat (soaTy τ) = true := by
  obtain ⟨h, ts⟩ := e
  exact (ho h ts (.refl _)).1 τ ht

theorem Fine.soaOk {e : Expr F} {Γ : TCtx} (hf : Fine true I e Γ) : SoaOk e := by
  intro h ts ho
  obtain ⟨τ, h1, h2⟩ := hf.allFlat _ ho
  refine ⟨fun σ hσ => ?_, ?_⟩
  · rw [h1] at hσ; cases hσ
    rw [soaTy_flat h2]; exact h2
  · cases h with
    | const v σ => obtain ⟨_, rfl⟩ := inv_const h1; exact h2
    | ext fn σ =>
      have : τ = σ := by
        rw [typeOf_node] at h1
        simp only [typeStep] at h1
        split at h1
        · cases h1; rfl
        · cases h1
      subst this; exact h2
    | _ => trivial

/-- What the theorem about the pass asks of a term. -/
structure Ready (I : Ext F) (e : Expr F) (Γ : TCtx) (c : Nat) : Prop where
  fine : Fine false I e Γ
  ctx : CtxFlat Γ
  num : NumBelow c e
  below : CtxBelow c Γ

theorem Ready.mono {e : Expr F} {Γ : TCtx} {c c' : Nat} (h : Ready I e Γ c) (hc : c ≤ c') : Ready I e Γ c' :=
  ⟨h.fine, h.ctx, h.num.mono hc, h.below.mono hc⟩

theorem Ready.child {h : Head F} {ts : List (Expr F)} {Γ : TCtx} {c : Nat} (hr : Ready I (node h ts) Γ c)
    (ho : SoaOk (node h ts)) : ∀ k t, ts[k]? = some t → Ready I t (childCtx h ts k Γ) c := by
  intro k t hk
  obtain ⟨hb0, hb1⟩ := below_node.1 hr.num
  refine ⟨hr.fine.child k t hk, ?_, hb1 t (List.mem_of_getElem? hk), ?_⟩
  · have hty : ∀ (j : Nat) ρ, ts[j]?.bind typeOf = some ρ → flat (soaTy ρ) = true := by
      intro j ρ hρ
      obtain ⟨w, hw, hw'⟩ := Option.bind_eq_some_iff.1 hρ
      exact (ho.child (List.mem_of_getElem? hw)).flat hw'
    intro s ρ hs
    simp only [childCtx] at hs
    split at hs
    · rename_i hcap
      cases h with
      | letv v => exact hty 0 ρ hs
      | vec i => cases hs; rfl
      | fold k a =>
        simp only [bindTy] at hs
        split at hs
        · cases hs; rfl
        · exact hty 1 ρ hs
      | reduce x y => exact hty 0 ρ hs
      | _ => simp [Head.captured] at hcap
    · exact hr.ctx s ρ hs
  · intro s hs
    simp only [childCtx] at hs
    split at hs
    · rename_i hcap; exact hb0 s hcap.2
    · exact hr.below s hs

theorem Ready.spec {e : Expr F} {Γ : TCtx} {c n : Nat} {r : Expr F × Nat} {τ : Ty} (h : Ready I e Γ c)
    (hr : soaGo n e c = some r) (ht : typeOf e = some τ) :
    c ≤ r.2 ∧ NumBelow r.2 r.1 ∧ Fine true I r.1 (soaCtx Γ) ∧ typeOf r.1 = some (soaTy τ) := by
  obtain ⟨h1, h2, h3, h4, _⟩ := soaGo_spec n e c r hr Γ τ h.fine ht h.ctx h.num h.below
  exact ⟨h1, h2, h3, h4⟩

/-- The pass adds no free indices. -/
theorem Ready.freeIndices {e : Expr F} {Γ : TCtx} {c n : Nat} {r : Expr F × Nat} (h : Ready I e Γ c)
    (hr : soaGo n e c = some r) (hfi : freeIndices e = ∅) : freeIndices r.1 = ∅ := by
  obtain ⟨τ, ht, _⟩ := h.fine.typed
  have hnone : ∀ s ∈ fv e, s.isIdx = false := by
    intro s hs
    rw [Term.freeIndices, Finset.filter_eq_empty_iff] at hfi
    simpa using hfi hs
  let Γ0 : TCtx := fun s => if s.isIdx then none else Γ s
  have h0 : ∀ s σ, Γ0 s = some σ → Γ s = some σ ∧ s.isIdx = false := by
    intro s σ hs
    simp only [Γ0] at hs
    split at hs
    · cases hs
    · rename_i h; exact ⟨hs, by simpa using h⟩
  have hf : Fine false I e Γ0 := by
    refine h.fine.agree fun s hs => ?_
    simp only [Γ0]
    split
    · rename_i hi
      rcases hs with hs | hs
      · rw [hnone s hs] at hi; cases hi
      · exact (h.fine.binders_out s hs).symm
    · rfl
  have hR : Ready I e Γ0 c := by
    refine ⟨hf, fun s σ hs => h.ctx s σ (h0 s σ hs).1, h.num, fun s hs => ?_⟩
    obtain ⟨σ, hσ⟩ := Option.ne_none_iff_exists'.1 hs
    exact h.below s (by rw [(h0 s σ hσ).1]; simp)
  obtain ⟨_, _, h3, _⟩ := hR.spec hr ht
  rw [Term.freeIndices, Finset.filter_eq_empty_iff]
  intro s hs
  have := h3.fv_dom s hs
  simp only [soaCtx, ne_eq, Option.map_eq_none_iff] at this
  obtain ⟨σ, hσ⟩ := Option.ne_none_iff_exists'.1 this
  simp [(h0 s σ hσ).2]

/-- The pass returns on the term. -/
def Goes (e : Expr F) (c : Nat) : Prop := ∃ n r, soaGo n e c = some r

theorem goes_step {n c : Nat} {e : Expr F} {r : Expr F × Nat} {τ : Ty} (ht : typeOf e = some τ)
    (hs : soaStep (soaGo n) e c = some r) (hr : typeOf r.1 = some (soaTy τ)) : Goes e c := by
  refine ⟨n + 1, r, ?_⟩
  rw [soaGo, ht]
  simp [hs, hr]

theorem goList_goes : ∀ {ts : List (Expr F)} {c : Nat}, (∀ t ∈ ts, ∀ c', c ≤ c' → Goes t c') →
    ∃ n r, goList (soaGo n) ts c = some r := by
  intro ts
  induction ts with
  | nil => intro c _; exact ⟨0, _, rfl⟩
  | cons t ts ih =>
    intro c h
    obtain ⟨n, r, h1⟩ := h t (by simp) c (Nat.le_refl _)
    have hc := soaGo_counter _ _ _ _ h1
    obtain ⟨m, l, h2⟩ := ih (c := r.2) fun t ht c' hc' => h t (by simp [ht]) c' (Nat.le_trans hc hc')
    refine ⟨max n m, (r.1 :: l.1, l.2), ?_⟩
    simp only [goList, Option.bind_eq_some_iff]
    exact ⟨r, soaGo_mono (Nat.le_max_left _ _) _ _ _ h1, l,
      goList_mono (soaGo_mono (Nat.le_max_right _ _)) h2, rfl⟩

theorem goList_types {n : Nat} : ∀ {ts : List (Expr F)} {c : Nat} {r : List (Expr F) × Nat},
    goList (soaGo n) ts c = some r → (∀ t ∈ ts, ∃ τ, typeOf t = some τ) →
    ∃ σs, List.Forall₂ (fun t σ => typeOf t = some σ) ts σs ∧
      List.Forall₂ (fun t σ => typeOf t = some σ) r.1 (σs.map soaTy) := by
  intro ts
  induction ts with
  | nil => intro c r h _; cases h; exact ⟨[], .nil, .nil⟩
  | cons t ts ih =>
    intro c r h hty
    simp only [goList, Option.bind_eq_some_iff] at h
    obtain ⟨q, h1, l, h2, h3⟩ := h
    cases h3
    obtain ⟨σs, h4, h5⟩ := ih h2 fun t ht => hty t (by simp [ht])
    obtain ⟨τ, hτ⟩ := hty t (by simp)
    exact ⟨τ :: σs, .cons hτ h4, .cons (soaGo_type h1 hτ) h5⟩


/-! ### Comprehensions -/

/-- The pass returns on comprehensions with elements of the given type over transformed terms. -/
def Splits (I : Ext F) (A : Ty) : Prop := ∀ (j : Nat) (n b : Expr F) (Γ : TCtx) (c : Nat),
  Ready I (vec j n b) Γ c → Fine true I n Γ → Fine true I b (Γ.set (.idx j) (some (.scalar .int))) →
  typeOf b = some A → flat (soaVec A) = true → Goes (vec j n b) c

/-- One component of a comprehension of records can be transformed. -/
theorem part_goes {A : Ty} (hS : Splits I A) (hfl : flat (soaVec A) = true) {i j c c1 : Nat} {n b : Expr F} {Γ : TCtx}
    (hΓ : CtxFlat Γ) (hbel : CtxBelow c Γ) (hnb : NumBelow c n) (hbb : NumBelow c b) (hi : i < j) (hj : c ≤ j) (hjc : j < c1)
    (fn : Fine true I n (soaCtx Γ)) (fb : Fine true I b ((soaCtx Γ).set (.idx i) (some (.scalar .int))))
    (tn : typeOf n = some (.scalar .int)) (hfi : freeIndices n = ∅) (tb : typeOf b = some A) :
    typeOf (vec j n (substitute [(.idx i, at_ j)] b)) = some (.vector A) ∧
      Goes (vec j n (substitute [(.idx i, at_ j)] b)) c1 := by
  have hjΓ : soaCtx Γ (.idx j) = none := hbel.soa.fresh hj
  obtain ⟨f1, f2, f3⟩ := vec_rename (I := I) fb tb hjΓ
    (fun hm => absurd (hbb _ hm) (by simp only [symNum]; omega)) (by omega)
  have hTy : typeOf (vec j n (substitute [(.idx i, at_ j)] b)) = some (.vector A) := typeOf_vec tn hfi f2
  have fv : Fine false I (vec j n (substitute [(.idx i, at_ j)] b)) (soaCtx Γ) := by
    refine .node _ hTy (by simp) trivial ?_ ?_
    · intro s hs
      simp only [Head.captured, Finset.mem_singleton] at hs
      rw [hs]; exact hjΓ
    · intro k t hk
      match k, hk with
      | 0, hk => cases hk; rw [childCtx_vec0]; exact fn.relax
      | 1, hk => cases hk; rw [childCtx_vec1]; exact f1.relax
  have hnum : NumBelow c1 (vec j n (substitute [(.idx i, at_ j)] b)) := by
    refine below_node.2 ⟨?_, ?_⟩
    · intro s hs
      simp only [Head.captured, Finset.mem_singleton] at hs
      rw [hs]; exact hjc
    · simp only [List.mem_cons, List.not_mem_nil, or_false]
      rintro t (rfl | rfl)
      · exact hnb.mono (by omega)
      · intro s hs
        exact Nat.lt_of_lt_of_le (hbb s (binders_substitute (by simp only [List.mem_singleton]; rintro p rfl; rfl) b hs)) (by omega)
  exact ⟨hTy, hS j n _ (soaCtx Γ) c1 ⟨fv, hΓ.soa, hnum, hbel.soa.mono (by omega)⟩ fn f1 f2 hfl⟩

/-- A comprehension can be transformed if its parts can. -/
theorem vec_goes {i c : Nat} {n b : Expr F} {Γ : TCtx} {t : Ty} (hR : Ready I (vec i n b) Γ c)
    (ht : typeOf (vec i n b) = some (.vector t)) (hfl : flat (soaVec t) = true)
    (hn : ∀ c', c ≤ c' → Goes n c') (hb : ∀ c', c ≤ c' → Goes b c')
    (hS : ∀ A B, soaTy t = .pair A B → Splits I A ∧ Splits I B) : Goes (vec i n b) c := by
  obtain ⟨_, _, t', h1, htn, hfi, htb, h2⟩ := inv_vec ht
  cases h1; cases h2
  have fn := hR.fine.child 0 n rfl
  have fb := hR.fine.child 1 b rfl
  rw [childCtx_vec0] at fn
  rw [childCtx_vec1] at fb
  obtain ⟨hb0, hb1⟩ := below_node.1 hR.num
  have hi : i < c := hb0 (.idx i) (by simp [Head.captured])
  have Rn : Ready I n Γ c := ⟨fn, hR.ctx, hb1 n (by simp), hR.below⟩
  obtain ⟨k1, ⟨n', c1⟩, e1⟩ := hn c (Nat.le_refl _)
  obtain ⟨p1, p2, p3, p4⟩ := Rn.spec e1 htn
  simp only at p1 p2 p3 p4
  have hfi' := Rn.freeIndices e1 hfi
  have Rb : Ready I b (Γ.set (.idx i) (some (.scalar .int))) c1 :=
    ⟨fb, hR.ctx.set rfl, (hb1 b (by simp)).mono p1, (hR.below.mono p1).set (by simp only [symNum]; omega)⟩
  obtain ⟨k2, ⟨b', c2⟩, e2⟩ := hb c1 p1
  obtain ⟨q1, q2, q3, q4⟩ := Rb.spec e2 htb
  simp only at q1 q2 q3 q4
  rw [soaCtx_set] at q3
  by_cases hpair : ∃ A B, soaTy t = .pair A B
  · obtain ⟨A, B, hAB⟩ := hpair
    obtain ⟨sA, sB⟩ := hS A B hAB
    cases t with
    | scalar k => cases hAB
    | vector u =>
      have : isArr (soaVec u) = true := hfl
      simp only [soaTy] at hAB
      rw [hAB] at this; cases this
    | pair a b0 =>
      simp only [soaTy, Ty.pair.injEq] at hAB
      obtain ⟨rfl, rfl⟩ := hAB
      simp only [soaVec, flat, Bool.and_eq_true] at hfl
      have ea := soaVec_soaTy hfl.1
      have eb := soaVec_soaTy hfl.2
      have hcb := hR.below.mono (Nat.le_trans p1 q1)
      obtain ⟨tl, k3, l, e3⟩ := part_goes sA (ea ▸ hfl.1) (c1 := c2 + 2) hR.ctx hcb (p2.mono q1) q2.fst
        (by omega) (Nat.le_refl c2) (by omega) p3 (q3.fst q4) p4 hfi' (typeOf_fst q4)
      have hl := soaGo_counter _ _ _ _ e3
      obtain ⟨tm, k4, m, e4⟩ := part_goes sB (eb ▸ hfl.2) (c := c2) (j := c2 + 1) (c1 := l.2) hR.ctx hcb (p2.mono q1) q2.snd
        (by omega) (by omega) (by omega) p3 (q3.snd q4) p4 hfi' (typeOf_snd q4)
      refine goes_step (n := max (max k1 k2) (max k3 k4)) (r := (cons l.1 m.1, m.2)) ht ?_ ?_
      · rw [vec, soaStep]
        have g1 := soaGo_mono (m := max (max k1 k2) (max k3 k4)) (by omega) _ _ _ e1
        have g2 := soaGo_mono (m := max (max k1 k2) (max k3 k4)) (by omega) _ _ _ e2
        have g3 := soaGo_mono (m := max (max k1 k2) (max k3 k4)) (by omega) _ _ _ e3
        have g4 := soaGo_mono (m := max (max k1 k2) (max k3 k4)) (by omega) _ _ _ e4
        simp only [g1, Option.bind_some, g2, q4, soaTy, g3, g4]
      · rw [typeOf_cons (soaGo_type e3 tl) (soaGo_type e4 tm)]
        simp only [soaTy, soaVec, ea, eb]
  · have hTe : soaTy (.vector t) = .vector (soaTy t) := by
      cases t with
      | pair a b => exact absurd ⟨_, _, rfl⟩ hpair
      | scalar k => rfl
      | vector u => rfl
    refine goes_step (n := max k1 k2) (r := (vec i n' b', c2)) ht ?_ (by rw [hTe]; exact typeOf_vec p4 hfi' q4)
    rw [vec, soaStep]
    have g1 := soaGo_mono (Nat.le_max_left k1 k2) _ _ _ e1
    have g2 := soaGo_mono (Nat.le_max_right k1 k2) _ _ _ e2
    simp only [g1, Option.bind_some, g2, q4]
    cases hs : soaTy t with
    | pair A B => exact absurd ⟨A, B, hs⟩ hpair
    | scalar k => rfl
    | vector u => rfl

/-! ### Reductions -/

theorem intoTuple_some {fl : Bool} {Γ : TCtx} {P : Ty} {sub : Expr F} (h : FineAt fl I Γ sub P) :
    ∃ r, intoTuple (inTuple P sub) = some r := by
  have h1 := inTuple_fine P h
  have h2 := leafTys_ne P
  generalize inTuple P sub = l at h1
  generalize leafTys P = ls at h1 h2
  cases h1 with
  | nil => exact absurd rfl h2
  | cons _ _ => exact ⟨_, rfl⟩

theorem unflat_some {fl : Bool} {Γ : TCtx} {P : Ty} {sub : Expr F} (h : FineAt fl I Γ sub (flatTy P)) :
    ∃ r, intoTupleLike P (inTuple (flatTy P) sub) = some r := by
  have h1 := inTuple_fine _ h
  rw [leafTys_flatTy, ← List.append_nil (leafTys P)] at h1
  obtain ⟨r', h2, _⟩ := intoLike_fine P h1
  exact ⟨r'.1, by rw [intoTupleLike, h2]; rfl⟩

/-- The types of the component arrays. -/
theorem prim_types {fl : Bool} {Γ : TCtx} : ∀ {es : List Ty} {vs : List (Expr F)},
    List.Forall₂ (FineAt fl I Γ) vs (es.map soaVec) → (∀ e ∈ es, flat (soaVec e) = true) →
    List.Forall₂ (fun t e => typeOf t = some (.vector e)) (List.zipWith inTuple (es.map soaVec) vs).flatten
      ((es.map soaTy).flatMap leafTys) := by
  intro es
  induction es with
  | nil => intro vs h _; cases h; exact .nil
  | cons e es ih =>
    intro vs h hfl
    cases h with
    | cons h1 h2 =>
      have h3 := inTuple_fine _ h1
      rw [leafTys_soaVec (hfl e (by simp)), List.forall₂_map_right_iff] at h3
      simp only [List.map_cons, List.zipWith_cons_cons, List.flatten_cons, List.flatMap_cons]
      exact List.rel_append (h3.imp fun _ _ h => h.2) (ih h2 fun e he => hfl e (by simp [he]))

theorem elemTy_prim {vs : List (Expr F)} {es : List Ty} (h : List.Forall₂ (fun t e => typeOf t = some (.vector e)) vs es) :
    mapOpt (fun v => (typeOf v).bind elemTy) vs = some es := by
  induction h with
  | nil => rfl
  | cons h1 _ ih => simp [mapOpt, h1, ih, elemTy]

theorem reduce_goes {x y c : Nat} {ts : List (Expr F)} {Γ : TCtx} (hR : Ready I (node (.reduce x y) ts) Γ c)
    (ho : SoaOk (node (.reduce x y) ts)) (hts : ∀ t ∈ ts, ∀ c', c ≤ c' → Goes t c') : Goes (node (.reduce x y) ts) c := by
  obtain ⟨τ, ht, _⟩ := hR.fine.typed
  have ht0 := ht
  obtain ⟨z, b, v0, vs0, e0, es0, rfl, hz, hbt, hv0, hvs0, rfl⟩ := inv_reduce ht
  have hV : List.Forall₂ (fun t e => typeOf t = some (.vector e)) (v0 :: vs0) (e0 :: es0) := .cons hv0 hvs0
  generalize hτ : es0.foldl .pair e0 = τ at *
  have Rz := hR.child ho 0 z rfl
  have Rb := hR.child ho 1 b rfl
  rw [childCtx_reduce _ x y _ (by omega)] at Rz
  rw [childCtx_reduce1, hz] at Rb
  have hfl : flat (soaTy τ) = true := ho.flat ht0
  obtain ⟨k1, ⟨z', c1⟩, g1⟩ := hts z (by simp) c (Nat.le_refl _)
  obtain ⟨p1, p2, p3, p4⟩ := Rz.spec g1 hz
  simp only at p1 p2 p3 p4
  obtain ⟨k2, ⟨b', c2⟩, g2⟩ := hts b (by simp) c1 p1
  obtain ⟨q1, q2, q3, q4⟩ := (Rb.mono p1).spec g2 hbt
  simp only at q1 q2 q3 q4
  rw [soaCtx_set, soaCtx_set] at q3
  obtain ⟨k3, ⟨V', c3⟩, g3⟩ := goList_goes (ts := v0 :: vs0) (c := c2) fun t ht c' hc' =>
    hts t (List.mem_cons_of_mem _ (List.mem_cons_of_mem _ ht)) c' (by omega)
  have fV : ∀ t ∈ v0 :: vs0, Fine false I t Γ := by
    intro t htm
    obtain ⟨k, hk⟩ := List.getElem?_of_mem htm
    have := hR.fine.child (k + 2) t (by simpa using hk)
    rwa [childCtx_reduce _ x y _ (by omega)] at this
  obtain ⟨hb0, hb1⟩ := below_node.1 hR.num
  obtain ⟨w1, w2⟩ := goList_spec (soaGo_spec (I := I) k3) hR.ctx g3 fV
    (fun t htm => (hb1 t (List.mem_cons_of_mem _ (List.mem_cons_of_mem _ htm))).mono (Nat.le_trans p1 q1))
    (hR.below.mono (Nat.le_trans p1 q1))
  simp only at w1 w2
  have hc3 : CtxBelow c3 Γ := hR.below.mono (by omega)
  have hV' : List.Forall₂ (FineAt true I (soaCtx Γ)) V' ((e0 :: es0).map soaVec) := by
    have : List.Forall₂ (fun t' e => FineAt true I (soaCtx Γ) t' (soaVec e)) V' (e0 :: es0) :=
      forall₂_comp w2 hV fun t t' e _ h1 h2 => by
        obtain ⟨_, a1, σ, a2, a3, _⟩ := h1
        rw [h2] at a2; cases a2
        exact ⟨a1, a3⟩
    rw [List.forall₂_map_right_iff]
    exact this
  have hVty := mapOpt_typeOf (hV'.imp fun _ _ h => h.2)
  have hVfl : ∀ e ∈ e0 :: es0, flat (soaVec e) = true := by
    intro e he
    have : ∃ t ∈ v0 :: vs0, typeOf t = some (.vector e) := forall₂_exists (R := fun t e => typeOf t = some (.vector e)) hV he
    obtain ⟨t, htm, hte⟩ := this
    exact (ho.child (List.mem_cons_of_mem _ (List.mem_cons_of_mem _ htm))).flat hte
  -- the reduction
  obtain ⟨init, i1⟩ := intoTuple_some (fl := true) (I := I) (Γ := soaCtx Γ) ⟨p3, p4⟩
  obtain ⟨xy, i2⟩ := intoTuple_some (fl := true) (I := I) ⟨q3, q4⟩
  have fI := intoTuple_fine (fl := true) (I := I) (Γ := soaCtx Γ) ⟨p3, p4⟩ i1
  have fX := intoTuple_fine (fl := true) (I := I) ⟨q3, q4⟩ i2
  have bX : NumBelow c3 xy := intoTuple_all (fun _ h => h.fst) (fun _ h => h.snd) (fun _ _ h h' => h.cons h')
    (q2.mono w1) i2
  have hprim := prim_types hV' hVfl
  have helem := elemTy_prim hprim
  have hleaf : leafTys (soaTy τ) = ((e0 :: es0).map soaTy).flatMap leafTys := by
    rw [← hτ, soaTy_foldl, leafTys_foldl]
    simp
  have hpair : pairTys (((e0 :: es0).map soaTy).flatMap leafTys) = some (flatTy (soaTy τ)) := by
    rw [← hleaf]
    unfold flatTy
    cases h : leafTys (soaTy τ) with
    | nil => exact absurd h (leafTys_ne _)
    | cons q qs => rfl
  have n1 : soaCtx Γ (.var c3) = none := hc3.soa.fresh (Nat.le_refl _)
  have n2 : soaCtx Γ (.var (c3 + 1)) = none := hc3.soa.fresh (Nat.le_succ _)
  have hfL := flat_flatTy hfl
  have fv1 : FineAt true I (((soaCtx Γ).set (.var c3) (some (flatTy (soaTy τ)))).set (.var (c3 + 1))
      (some (flatTy (soaTy τ)))) (var c3 (flatTy (soaTy τ))) (flatTy (soaTy τ)) :=
    ⟨.plain rfl rfl (fun _ => hfL) (by simp [headOk, TCtx.set]) (by simp), rfl⟩
  have fv2 : FineAt true I (((soaCtx Γ).set (.var c3) (some (flatTy (soaTy τ)))).set (.var (c3 + 1))
      (some (flatTy (soaTy τ)))) (var (c3 + 1) (flatTy (soaTy τ))) (flatTy (soaTy τ)) :=
    ⟨.plain rfl rfl (fun _ => hfL) (by simp [headOk, TCtx.set]) (by simp), rfl⟩
  obtain ⟨xx, hxx⟩ := unflat_some fv1
  obtain ⟨yy, hyy⟩ := unflat_some fv2
  have fxx := unflat_fine fv1 hxx
  have fyy := unflat_fine fv2 hyy
  have bxx : Bare xx := unflat_all bare_fst bare_snd bare_cons (bare_var _ _) hxx
  have byy : Bare yy := unflat_all bare_fst bare_snd bare_cons (bare_var _ _) hyy
  obtain ⟨s1, _, _⟩ := reduce_rename (c := c3) (x := x) (y := y) fX.1 fX.2 n1 n2 bX fxx fyy bxx byy
  have fprim := prim_fine hV'
  let xy' := substitute [(.var y, yy), (.var x, xx)] xy
  let prim := (List.zipWith inTuple ((e0 :: es0).map soaVec) V').flatten
  have hτe : typeOf (node (.reduce c3 (c3 + 1)) (init :: xy' :: prim)) = some (flatTy (soaTy τ)) := by
    have a1 := fI.2
    have a2 : typeOf xy' = some (flatTy (soaTy τ)) := s1.2
    have a3 : List.Forall₂ (fun t e => typeOf t = some (.vector e)) prim (leafTys (soaTy τ)) := hleaf ▸ hprim
    generalize prim = l at a3
    unfold flatTy at a1 a2 ⊢
    cases h : leafTys (soaTy τ) with
    | nil => exact absurd h (leafTys_ne _)
    | cons q qs =>
      rw [h] at a1 a2 a3
      cases a3 with
      | cons b1 b2 => exact typeOf_reduce a1 a2 b1 b2
  have fE : FineAt true I (soaCtx Γ) (node (.reduce c3 (c3 + 1)) (init :: xy' :: prim)) (flatTy (soaTy τ)) := by
    refine ⟨.node _ hτe (fun _ => hfL) trivial ?_ ?_, hτe⟩
    · intro s hs
      simp only [Head.captured, Finset.mem_insert, Finset.mem_singleton] at hs
      rcases hs with rfl | rfl
      · exact n1
      · exact n2
    · intro k t hk
      match k, hk with
      | 0, hk => cases hk; rw [childCtx_reduce _ _ _ _ (by omega)]; exact fI.1
      | 1, hk => cases hk; rw [childCtx_reduce1, fI.2]; exact s1.1
      | k + 2, hk =>
        rw [childCtx_reduce _ _ _ _ (by omega)]
        exact fprim t (List.mem_of_getElem? (i := k) hk)
  obtain ⟨res, hres⟩ := unflat_some fE
  have fR := unflat_fine fE hres
  refine goes_step (n := max k1 (max k2 k3)) (r := (res, c3 + 2)) ht0 ?_ fR.2
  rw [soaStep]
  have e1 := soaGo_mono (m := max k1 (max k2 k3)) (by omega) _ _ _ g1
  have e2 := soaGo_mono (m := max k1 (max k2 k3)) (by omega) _ _ _ g2
  have e3 := goList_mono (soaGo_mono (m := max k1 (max k2 k3)) (by omega)) g3
  simp only [e1, Option.bind_some, e2, e3]
  unfold soaReduce
  simp only [p4, q4, hVty, i1, i2, fI.2, fX.2, Option.bind_some, if_true, helem, hpair, hxx, hyy]
  rw [show typeOf _ = _ from hτe]
  simp only [Option.bind_some, Option.map_eq_some_iff]
  exact ⟨res, hres, rfl⟩

/-! ### All terms -/

/-- The pass returns, if it does on the comprehensions it builds. -/
theorem goes_core {fl : Bool} (hS : fl = false → ∀ A, Splits I A) (e : Expr F) : ∀ Γ c, Fine fl I e Γ → SoaOk e →
    Ready I e Γ c → Goes e c := by
  induction e using ind with
  | step h ts ih =>
    intro Γ c hf ho hR
    obtain ⟨τ, ht, hfl⟩ := hf.typed
    have hch : ∀ t ∈ ts, ∀ c', c ≤ c' → Goes t c' := by
      intro t htm c' hc'
      obtain ⟨k, hk⟩ := List.getElem?_of_mem htm
      exact ih t htm _ c' (hf.child k t hk) (ho.child htm) ((hR.child ho k t hk).mono hc')
    have hty : ∀ t ∈ ts, ∃ τ, typeOf t = some τ := by
      intro t htm
      obtain ⟨k, hk⟩ := List.getElem?_of_mem htm
      obtain ⟨σ, hσ, _⟩ := (hf.child k t hk).typed
      exact ⟨σ, hσ⟩
    have kept : Kept h → (∀ n, soaStep (soaGo n) (node h ts) c = (goList (soaGo n) ts c).map fun r => (node h r.1, r.2)) →
        Goes (node h ts) c := by
      intro hk hs
      obtain ⟨n, r, h1⟩ := goList_goes hch
      obtain ⟨σs, h2, h3⟩ := goList_types h1 hty
      have hv : ∀ i, h ≠ .vec i := by rintro i rfl; exact hk.elim
      refine goes_step (n := n) (r := (node h r.1, r.2)) ht (by rw [hs, h1]; rfl) ?_
      rw [typeOf_types hv h3]
      rw [typeOf_types hv h2] at ht
      exact typeStep_soa hk ht
    have hout := (ho h ts (.refl _)).2
    cases h with
    | const w σ => exact kept hout fun _ => rfl
    | ext fn σ => exact kept hout fun _ => rfl
    | letv v => exact kept trivial fun _ => rfl
    | assertEq => exact kept trivial fun _ => rfl
    | cons => exact kept trivial fun _ => rfl
    | fst => exact kept trivial fun _ => rfl
    | snd => exact kept trivial fun _ => rfl
    | fold _ _ => exact kept trivial fun _ => rfl
    | op o => exact kept trivial fun _ => rfl
    | store s σ =>
      obtain ⟨rfl, rfl⟩ := inv_store ht
      exact goes_step (n := 0) ht rfl rfl
    | dim k =>
      obtain ⟨a, t, rfl, ha, rfl⟩ := inv_dim ht
      obtain ⟨n, r, h1⟩ := hch a (by simp) c (Nat.le_refl _)
      have Ra := hR.child ho 0 a rfl
      rw [childCtx_none _ _ rfl] at Ra
      obtain ⟨_, _, p3, p4⟩ := Ra.spec h1 ha
      have hF := tupleDim_fine k (soaTy t) p3 p4
      have hne := tupleDim_ne k (soaTy t) r.1
      cases hd : tupleDim k (soaTy t) r.1 with
      | nil => exact absurd hd hne
      | cons d ds =>
        rw [hd] at hF
        cases ds with
        | nil =>
          refine goes_step (n := n) (r := (d, r.2)) ht ?_ (hF d (by simp)).2
          rw [soaStep]
          simp only [h1, Option.bind_some, p4, hd]
        | cons d2 ds =>
          refine goes_step (n := n) (r := (node .assertEq (d :: d2 :: ds), r.2)) ht ?_ ?_
          · rw [soaStep]
            simp only [h1, Option.bind_some, p4, hd]
          · rw [typeOf_types (σs := (d :: d2 :: ds).map fun _ => .scalar .int) (by simp)
              (by
                rw [List.forall₂_map_right_iff]
                exact List.forall₂_same.2 fun t ht => (hF t ht).2)]
            simp [typeStep, soaTy]
    | get =>
      obtain ⟨a, i, k, rfl, ha, hi⟩ := inv_get ht
      obtain ⟨n, r, h1⟩ := hch a (by simp) c (Nat.le_refl _)
      obtain ⟨m, q, h2⟩ := hch i (by simp) r.2 (soaGo_counter _ _ _ _ h1)
      have e1 := soaGo_mono (Nat.le_max_left n m) _ _ _ h1
      have e2 := soaGo_mono (Nat.le_max_right n m) _ _ _ h2
      have hs : soaStep (soaGo (max n m)) (node .get [a, i]) c = some (tupleGet q.1 (soaTy (.vector τ)) r.1, q.2) := by
        rw [soaStep]
        simp only [e1, Option.bind_some, e2, soaGo_type h1 ha]
      exact goes_step ht hs (spec_get (I := I) (soaGo_spec _) hs Γ τ hR.fine ht hR.ctx hR.num hR.below).2.2.2.1
    | concat =>
      obtain ⟨a, b, t, rfl, ha, hb, rfl⟩ := inv_concat ht
      obtain ⟨n, r, h1⟩ := hch a (by simp) c (Nat.le_refl _)
      obtain ⟨m, q, h2⟩ := hch b (by simp) r.2 (soaGo_counter _ _ _ _ h1)
      have e1 := soaGo_mono (Nat.le_max_left n m) _ _ _ h1
      have e2 := soaGo_mono (Nat.le_max_right n m) _ _ _ h2
      have hs : soaStep (soaGo (max n m)) (node .concat [a, b]) c =
          some (tupleCat (soaTy (.vector t)) r.1 q.1, q.2) := by
        rw [soaStep]
        simp only [e1, Option.bind_some, e2, soaGo_type h1 ha, soaGo_type h2 hb, if_true]
      exact goes_step ht hs (spec_concat (I := I) (soaGo_spec _) hs Γ _ hR.fine ht hR.ctx hR.num hR.below).2.2.2.1
    | vec i =>
      obtain ⟨n, b, t, rfl, hn, _, hbt, rfl⟩ := inv_vec ht
      refine vec_goes (t := t) hR ht (ho.flat ht) (hch n (by simp)) (hch b (by simp)) fun A B hAB => ?_
      cases fl with
      | false => exact ⟨hS rfl A, hS rfl B⟩
      | true =>
        have : isArr t = true := hfl rfl
        rw [soaTy_flat (flat_of_isArr this)] at hAB
        rw [hAB] at this; cases this
    | reduce x y => exact reduce_goes hR ho hch

theorem splits_of {A : Ty} (hA : ∀ B C, A = .pair B C → Splits I B ∧ Splits I C) : Splits I A := by
  intro j n b Γ c hR fn fb tb hfl
  obtain ⟨τ, ht, _⟩ := hR.fine.typed
  obtain ⟨_, _, σ, h1, _, _, h4, rfl⟩ := inv_vec ht
  cases h1; rw [tb] at h4; cases h4
  obtain ⟨hb0, hb1⟩ := below_node.1 hR.num
  have core := goes_core (I := I) (fl := true) (fun h => nomatch h)
  refine vec_goes hR ht hfl (fun c' hc' => ?_) (fun c' hc' => ?_) fun B C hBC => ?_
  · exact core n Γ c' fn fn.soaOk ⟨fn.relax, hR.ctx, (hb1 n (by simp)).mono hc', hR.below.mono hc'⟩
  · exact core b _ c' fb fb.soaOk ⟨fb.relax, hR.ctx.set rfl, (hb1 b (by simp)).mono hc',
      (hR.below.mono hc').set (Nat.lt_of_lt_of_le (hb0 _ (by simp [Head.captured])) hc')⟩
  · rw [soaTy_flat (fb.flat_of tb)] at hBC
    exact hA B C hBC

/-- The pass returns on the comprehensions it builds. -/
theorem splits (A : Ty) : Splits I A := by
  induction A with
  | scalar k => exact splits_of fun B C h => nomatch h
  | vector k => exact splits_of fun B C h => nomatch h
  | pair a b iha ihb => exact splits_of fun B C h => by cases h; exact ⟨iha, ihb⟩

/-- The pass returns on programs without arrays of arrays of records. -/
theorem soaGo_goes {p : Expr F} {Γ : TCtx} {c : Nat} (h : SoaInput I p Γ c)
    (hΓ : ∀ s σ, Γ s = some σ → flat σ = true) (ho : SoaOk p) : ∃ n r, soaGo n p c = some r := by
  refine goes_core (fl := false) (fun _ => splits) p Γ c h.fine ho ⟨h.fine, fun s σ hs => ?_, h.below, h.ctxBelow⟩
  rw [soaTy_flat (hΓ s σ hs)]; exact hΓ s σ hs

/-- More depth does not change the result of the whole pass. -/
theorem structOfArrays_mono [DecidableEq F] {p p' : Expr F} {c n m : Nat} (hnm : n ≤ m)
    (h : structOfArrays n c p = some p') : structOfArrays m c p = some p' := by
  simp only [structOfArrays, Option.bind_eq_some_iff] at h ⊢
  obtain ⟨τ, hτ, r, hr, h1⟩ := h
  exact ⟨τ, hτ, r, soaGo_mono hnm _ _ _ hr, h1⟩

/-- The pass returns a program for programs without arrays of arrays of records, if the result contains no
array of records. -/
theorem structOfArrays_goes [DecidableEq F] {p : Expr F} {Γ : TCtx} {c : Nat} {τ : Ty} (h : SoaInput I p Γ c)
    (hΓ : ∀ s σ, Γ s = some σ → flat σ = true) (ho : SoaOk p) (ht : typeOf p = some τ) (hτ : flat τ = true) :
    ∃ n p', structOfArrays n c p = some p' := by
  obtain ⟨n, r, hr⟩ := soaGo_goes h hΓ ho
  obtain ⟨h1, h2, _⟩ := soaGo_value h hΓ ht hr
  refine ⟨n, elim r.1, ?_⟩
  rw [soaTy_flat hτ] at h1
  simp [structOfArrays, ht, hr, h2.elim.2, h1]

/-- Every sub-term is transformed. -/
theorem soaGo_reached {u e : Expr F} (hu : Occurs u e) : ∀ (n c : Nat) (r : Expr F × Nat), soaGo n e c = some r →
    ∃ n' c' r', soaGo n' u c' = some r' := by
  induction hu with
  | refl => exact fun n c r h => ⟨n, c, r, h⟩
  | @child t h ts hm ho ih =>
    intro n c r hr
    cases n with
    | zero => cases hr
    | succ n =>
      simp only [soaGo, Option.bind_eq_some_iff] at hr
      obtain ⟨σ, hσ, q, hq, _⟩ := hr
      obtain ⟨c', r', _, h2⟩ := (soaStep_child (soaGo_counter n) hq).2 t hm
      exact ih n c' r' h2

/-- If the pass returns, there are no arrays of arrays of records. -/
theorem soaOk_of_goes {p : Expr F} {Γ : TCtx} {c n : Nat} {r : Expr F × Nat} (h : SoaInput I p Γ c)
    (hΓ : ∀ s σ, Γ s = some σ → flat σ = true) (hr : soaGo n p c = some r) : SoaOk p := by
  intro hd ts ho
  have hΓ' : CtxFlat Γ := fun s σ hs => by rw [soaTy_flat (hΓ s σ hs)]; exact hΓ s σ hs
  refine ⟨soaGo_occurs ho n c r hr Γ h.fine hΓ' h.below h.ctxBelow, ?_⟩
  obtain ⟨n', c', r', h'⟩ := soaGo_reached ho n c r hr
  cases n' with
  | zero => cases h'
  | succ n' =>
    simp only [soaGo, Option.bind_eq_some_iff] at h'
    obtain ⟨τ, hτ, q, hq, h'⟩ := h'
    split at h'
    swap
    · cases h'
    rename_i hT
    have kept : (goList (soaGo n') ts c').map (fun r => (node hd r.1, r.2)) = some q → ∃ ts', q.1 = node hd ts' := by
      intro h1
      obtain ⟨l, _, rfl⟩ := Option.map_eq_some_iff.1 h1
      exact ⟨_, rfl⟩
    cases hd with
    | const v σ =>
      obtain ⟨ts', h1⟩ := kept hq
      rw [h1] at hT
      obtain ⟨_, rfl⟩ := inv_const hτ
      obtain ⟨_, h2⟩ := inv_const hT
      exact flat_of_soaTy_eq h2.symm
    | ext fn σ =>
      have hσ : ∀ (ts : List (Expr F)) τ, typeOf (node (.ext fn σ) ts) = some τ → τ = σ := by
        intro ts τ ht
        rw [typeOf_node] at ht
        simp only [typeStep] at ht
        split at ht
        · cases ht; rfl
        · cases ht
      obtain ⟨ts', h1⟩ := kept hq
      rw [h1] at hT
      have h2 := hσ _ _ hτ
      have h3 := hσ _ _ hT
      subst h2
      exact flat_of_soaTy_eq h3
    | _ => trivial

end Verif.Midend
