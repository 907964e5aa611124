import Verif.Codegen.Axes

/-! How the environment of compiled code holds the values of the symbols in scope. -/

set_option linter.unusedSectionVars false

namespace Verif.Codegen
open Verif.Phi Verif.Term Verif.Yarr Verif.Arr
variable {F : Type}

/-- The indices among the symbols in scope. -/
def inScope (S : Finset Sym) (i : Nat) : Prop := Sym.idx i ∈ S

/-- Two environments of array code with the same variables in scope. -/
def Agree (S : Finset Sym) (yenv yenv' : Env (YVal F)) : Prop := ∀ v, Sym.var v ∈ S → yenv' (.var v) = yenv (.var v)

/-- Dependence on the indices in scope only. -/
def Local {β : Type} (S : Finset Sym) (f : (Nat → Nat) → β) : Prop :=
  ∀ ρ ρ', (∀ i, Sym.idx i ∈ S → ρ i = ρ' i) → f ρ = f ρ'

variable [FloatOps F] {J : YExt F}

/-- Arrays with leading axes `axes` hold the values `v`. -/
def Holds (S : Finset Sym) (σ : Nat → Nat) (axes : List Nat) (as : List (A F)) (ss : List (List Nat))
    (v : (Nat → Nat) → Option (D F)) : Prop :=
  List.Forall₂ (fun (a : A F) s => a.shape = axes.map σ ++ s) as ss ∧
    ∀ ρ, Valid (inScope S) σ ρ → ∃ w, v ρ = some w ∧ RepsAll w (views axes ρ as ss)

/-- The symbols `S` are in scope. The index `i` ranges over `0, …, σ i - 1` and `sizes i`, if there is one, is code for
`σ i`. The variable `v` has the axes `vaxes v`. `E ρ` are the values of the symbols when the indices have
the values `ρ`, and `yenv` holds the arrays of the variables. -/
structure EnvRel (J : YExt F) (S : Finset Sym) (σ : Nat → Nat) (sizes : Nat → Option (YExpr F))
    (vaxes : Nat → List Nat) (E : (Nat → Nat) → Env (D F)) (yenv : Env (YVal F)) : Prop where
  pos : Positive (inScope S) σ
  size : ∀ i z, sizes i = some z → ∀ yenv', Agree S yenv yenv' → EvalsInt J yenv' z (σ i) ∧ RankOk J yenv' z
  idx : ∀ ρ i, Sym.idx i ∈ S → E ρ (.idx i) = some (.int (ρ i))
  axes : ∀ v i, i ∈ vaxes v → Sym.idx i ∈ S
  var : ∀ v, Sym.var v ∈ S → ∃ as ss, yenv (.var v) = some (pack as) ∧
    Holds S σ (vaxes v) as ss fun ρ => E ρ (.var v)
  fresh : ∀ v, Sym.var v ∉ S → vaxes v = []
  locl : Local S E

variable {S : Finset Sym} {σ : Nat → Nat} {sizes : Nat → Option (YExpr F)} {vaxes : Nat → List Nat}
  {E : (Nat → Nat) → Env (D F)} {yenv : Env (YVal F)}

theorem EnvRel.agree (h : EnvRel J S σ sizes vaxes E yenv) {yenv' : Env (YVal F)} (ha : Agree S yenv yenv') :
    EnvRel J S σ sizes vaxes E yenv' :=
  { h with
    size := fun i z hz y hy => h.size i z hz y fun v hv => (hy v hv).trans (ha v hv)
    var := fun v hv => by rw [ha v hv]; exact h.var v hv }

theorem EnvRel.sizesOk (h : EnvRel J S σ sizes vaxes E yenv) : SizesOk J yenv (inScope S) σ sizes :=
  ⟨fun i e he => h.size i e he yenv fun _ _ => rfl⟩

theorem Agree.mono {S T : Finset Sym} {yenv yenv' : Env (YVal F)} (h : Agree T yenv yenv') (hs : S ⊆ T) :
    Agree S yenv yenv' := fun v hv => h v (hs hv)

theorem Agree.set {v : Nat} (hv : Sym.var v ∉ S) (x : Option (YVal F)) : Agree S yenv (yenv.set (.var v) x) := by
  intro u hu
  have : Sym.var u ≠ Sym.var v := fun e => hv (e ▸ hu)
  simp [Env.set, this]

theorem Agree.trans {S : Finset Sym} {y₁ y₂ y₃ : Env (YVal F)} (h : Agree S y₁ y₂) (h' : Agree S y₂ y₃) :
    Agree S y₁ y₃ := fun v hv => (h' v hv).trans (h v hv)

theorem Local.mono {β : Type} {S T : Finset Sym} {f : (Nat → Nat) → β} (h : Local S f) (hs : S ⊆ T) : Local T f :=
  fun ρ ρ' hρ => h ρ ρ' fun i hi => hρ i (hs hi)

/-- Under a comprehension. -/
theorem EnvRel.under (h : EnvRel J S σ sizes vaxes E yenv) {i m : Nat} {z : YExpr F} (hi : Sym.idx i ∉ S)
    (hm : 0 < m) (hz : ∀ yenv', Agree S yenv yenv' → EvalsInt J yenv' z m ∧ RankOk J yenv' z) :
    EnvRel J (insert (.idx i) S) (upd σ i m) (upd sizes i (some z)) vaxes
      (fun ρ => (E ρ).set (.idx i) (some (.int (ρ i)))) yenv where
  pos j hj := by
    unfold upd
    split
    · exact hm
    · rename_i hne
      refine h.pos j ?_
      rcases Finset.mem_insert.1 hj with e | e
      · cases e; exact absurd rfl hne
      · exact e
  size j z' hz' y hy := by
    have hy' : Agree S yenv y := hy.mono (Finset.subset_insert _ _)
    unfold upd at hz' ⊢
    split at hz'
    · rename_i e
      cases hz'
      rw [if_pos e]
      exact hz y hy'
    · rename_i e
      rw [if_neg e]
      exact h.size j z' hz' y hy'
  idx ρ j hj := by
    rcases Finset.mem_insert.1 hj with e | e
    · cases e; simp [Env.set]
    · have : Sym.idx j ≠ Sym.idx i := fun e' => hi (e' ▸ e)
      simp only [Env.set, this, if_false]
      exact h.idx ρ j e
  axes v j hj := Finset.mem_insert_of_mem (h.axes v j hj)
  var v hv := by
    have hv' : Sym.var v ∈ S := by
      rcases Finset.mem_insert.1 hv with e | e
      · cases e
      · exact e
    obtain ⟨as, ss, h1, h2, h3⟩ := h.var v hv'
    refine ⟨as, ss, h1, ?_, fun ρ hρ => ?_⟩
    · have : (vaxes v).map (upd σ i m) = (vaxes v).map σ := by
        refine List.map_congr_left fun j hj => ?_
        have : j ≠ i := fun e => hi (e ▸ h.axes v j hj)
        simp [upd, this]
      rw [this]; exact h2
    · obtain ⟨w, h4, h5⟩ := h3 ρ fun j hj => by
        have := hρ j (Finset.mem_insert_of_mem hj)
        have hne : j ≠ i := fun e => hi (e ▸ hj)
        simpa [upd, hne] using this
      exact ⟨w, by simp [Env.set, h4], h5⟩
  fresh v hv := h.fresh v fun e => hv (Finset.mem_insert_of_mem e)
  locl ρ ρ' hρ := by
    have h1 := h.locl ρ ρ' fun j hj => hρ j (Finset.mem_insert_of_mem hj)
    have h2 := hρ i (Finset.mem_insert_self _ _)
    simp only [h1, h2]

theorem inScope_insert_var (S : Finset Sym) (v : Nat) : inScope (insert (.var v) S) = inScope S := by
  funext i; simp [inScope]

theorem inScope_insert_idx (S : Finset Sym) (i : Nat) :
    inScope (insert (.idx i) S) = fun j => inScope S j ∨ j = i := by
  funext j; simp [inScope, or_comm]

/-- With one more variable. -/
theorem EnvRel.bind (h : EnvRel J S σ sizes vaxes E yenv) {v : Nat} {axes : List Nat} {as : List (A F)}
    {ss : List (List Nat)} {w : (Nat → Nat) → Option (D F)} (hv : Sym.var v ∉ S)
    (hax : ∀ i ∈ axes, Sym.idx i ∈ S) (hw : Holds S σ axes as ss w) (hl : Local S w) :
    EnvRel J (insert (.var v) S) σ sizes (upd vaxes v axes) (fun ρ => (E ρ).set (.var v) (w ρ))
      (yenv.set (.var v) (some (pack as))) where
  pos := by rw [inScope_insert_var]; exact h.pos
  size i z hz y hy := h.size i z hz y ((Agree.set hv _).trans (hy.mono (Finset.subset_insert _ _)))
  idx ρ i hi := by simp only [Env.set, reduceCtorEq, if_false]; exact h.idx ρ i (by simpa using hi)
  axes u i hi := by
    refine Finset.mem_insert_of_mem ?_
    unfold upd at hi
    split at hi
    · exact hax i hi
    · exact h.axes u i hi
  var u hu := by
    unfold Holds
    rw [inScope_insert_var]
    by_cases e : u = v
    · subst e
      exact ⟨as, ss, by simp [Env.set], by simpa [upd] using hw.1, fun ρ hρ => by simpa [Env.set, upd] using hw.2 ρ hρ⟩
    · obtain ⟨as', ss', h1, h2, h3⟩ := h.var u (by simpa [e] using hu)
      exact ⟨as', ss', by simp [Env.set, e, h1], by simpa [upd, e] using h2,
        fun ρ hρ => by simpa [Env.set, upd, e] using h3 ρ hρ⟩
  fresh u hu := by
    simp only [Finset.mem_insert, not_or] at hu
    have : u ≠ v := fun e => hu.1 (by rw [e])
    simp only [upd, this, if_false]
    exact h.fresh u hu.2
  locl ρ ρ' hρ := by
    have hρ' : ∀ i, Sym.idx i ∈ S → ρ i = ρ' i := fun i hi => hρ i (Finset.mem_insert_of_mem hi)
    simp only [h.locl ρ ρ' hρ', hl ρ ρ' hρ']

/-- What code means, its arrays hold. -/
theorem Means.holds {x : Axial F} {v : (Nat → Nat) → Option (D F)} (h : Means J yenv (inScope S) σ x v) :
    (∀ i ∈ x.axes, Sym.idx i ∈ S) ∧ ∃ as ss, Yarr.eval J x.expr yenv = some (pack as) ∧ RankOk J yenv x.expr ∧
      x.axes.Nodup ∧ Holds S σ x.axes as ss v := by
  obtain ⟨h0, as, ss, hc, hv⟩ := h
  exact ⟨h0, as, ss, hc.value, hc.rank, hc.nodup, hc.shape, hv⟩

theorem holds_scalar (S : Finset Sym) (σ : Nat → Nat) (c : Scal F) :
    Holds S σ [] [NArr.scalar c] [[]] fun _ => some (.sc c) := by
  refine ⟨.cons rfl .nil, fun ρ _ => ⟨_, rfl, ?_⟩⟩
  exact ⟨[], _, rfl, c, rfl, by simp [NArr.scalar, NArr.get?]; rfl⟩

/-! ### Parts of positions -/

omit [FloatOps F] in
theorem parts_add {G : Expr F → Prop} (hj : ∀ a b, G a → G b → G (op2 .add a b)) {t : Option (Clip F)} {o : Expr F}
    {t' : Clip F} (ht : ∀ u, t = some u → (∀ p ∈ u.1, G p) ∧ (∀ p ∈ u.2.1, G p) ∧ ∀ p ∈ u.2.2, G p) (ho : G o)
    (h : clipAdd t o = some t') : (∀ p ∈ t'.1, G p) ∧ (∀ p ∈ t'.2.1, G p) ∧ ∀ p ∈ t'.2.2, G p := by
  unfold clipAdd at h
  split at h
  · cases h
  · split at h
    · rename_i d
      simp only [Option.some.injEq] at h
      subst h
      have := ht _ rfl
      refine ⟨fun p hp => ?_, by simp, by simp⟩
      cases d with
      | none => simp at hp; rw [← hp]; exact ho
      | some d => simp at hp; rw [← hp]; exact hj _ _ (this.1 d rfl) ho
    · cases h

omit [FloatOps F] in
theorem parts_min {G : Expr F → Prop} (hj : ∀ a b, G a → G b → G (op2 .min a b)) {t : Option (Clip F)} {o : Expr F}
    {t' : Clip F} (ht : ∀ u, t = some u → (∀ p ∈ u.1, G p) ∧ (∀ p ∈ u.2.1, G p) ∧ ∀ p ∈ u.2.2, G p) (ho : G o)
    (h : clipMin t o = some t') : (∀ p ∈ t'.1, G p) ∧ (∀ p ∈ t'.2.1, G p) ∧ ∀ p ∈ t'.2.2, G p := by
  unfold clipMin at h
  split at h
  · cases h
  · simp only [Option.map_eq_some_iff] at h
    obtain ⟨⟨d, lo, hi⟩, hu, rfl⟩ := h
    obtain ⟨h1, h2, h3⟩ := ht _ hu
    refine ⟨h1, h2, fun p hp => ?_⟩
    cases hi with
    | none => simp at hp; rw [← hp]; exact ho
    | some d => simp at hp; rw [← hp]; exact hj _ _ (h3 d rfl) ho

omit [FloatOps F] in
theorem parts_max {G : Expr F → Prop} (hj : ∀ a b, G a → G b → G (op2 .max a b)) {t : Option (Clip F)} {o : Expr F}
    {t' : Clip F} (ht : ∀ u, t = some u → (∀ p ∈ u.1, G p) ∧ (∀ p ∈ u.2.1, G p) ∧ ∀ p ∈ u.2.2, G p) (ho : G o)
    (h : clipMax t o = some t') : (∀ p ∈ t'.1, G p) ∧ (∀ p ∈ t'.2.1, G p) ∧ ∀ p ∈ t'.2.2, G p := by
  unfold clipMax at h
  split at h
  · cases h
  · simp only [Option.map_eq_some_iff] at h
    obtain ⟨⟨d, lo, hi⟩, hu, rfl⟩ := h
    obtain ⟨h1, h2, h3⟩ := ht _ hu
    refine ⟨h1, fun p hp => ?_, fun p hp => ?_⟩
    · cases lo with
      | none => simp at hp; rw [← hp]; exact ho
      | some d => simp at hp; rw [← hp]; exact hj _ _ (h2 d rfl) ho
    · cases hi with
      | none => simp at hp
      | some d => simp at hp; rw [← hp]; exact hj _ _ (h3 d rfl) ho

omit [FloatOps F] in
/-- The parts of a recognised position are made of parts of the position. -/
theorem matchClip_parts {G : Expr F → Prop}
    (hs : ∀ f, f ∈ [ScalarOp.add, .subtract, .min, .max] → ∀ a b, G (node (.op f) [a, b]) → G a ∧ G b)
    (hj : ∀ f, f ∈ [ScalarOp.add, .min, .max] → ∀ a b, G a → G b → G (op2 f a b))
    (hn : ∀ a, G a → G (op1 .negate a)) (s : Sym) (e : Expr F) :
    G e → ∀ t, matchClip s e = some t → (∀ p ∈ t.1, G p) ∧ (∀ p ∈ t.2.1, G p) ∧ ∀ p ∈ t.2.2, G p := by
  induction e using ind with
  | step h ts ih =>
    intro hG t ht
    unfold matchClip at ht
    rw [para_node, clipStep] at ht
    split at ht
    · simp only [Option.some.injEq] at ht; subst ht; simp
    · rename_i hne
      clear hne
      unfold clipMatch at ht
      split at ht
      · split at ht
        · simp only [Option.some.injEq] at ht; subst ht; simp
        · cases ht
      all_goals
        first
        | cases ht; done
        | (rename_i a' b' hab
           obtain ⟨a, b, rfl⟩ : ∃ a b, ts = [a, b] := by
             match ts, hab with
             | [a, b], _ => exact ⟨a, b, rfl⟩
           simp only [List.map_cons, List.map_nil, List.cons.injEq, and_true] at hab
           obtain ⟨rfl, rfl⟩ := hab
           obtain ⟨ga, gb⟩ := hs _ (by simp) a b hG
           rcases Props.firstOpt_some ht with ht | ht)
      · exact parts_add (hj _ (by simp)) (ih a (by simp) ga) gb ht
      · exact parts_add (hj _ (by simp)) (ih b (by simp) gb) ga ht
      · exact parts_add (hj _ (by simp)) (ih a (by simp) ga) (hn _ gb) ht
      · refine parts_add (hj _ (by simp)) (fun u hu => ?_) ga ht
        split at hu
        · simp only [Option.some.injEq] at hu; subst hu; simp
        · cases hu
      · exact parts_min (hj _ (by simp)) (ih a (by simp) ga) gb ht
      · exact parts_min (hj _ (by simp)) (ih b (by simp) gb) ga ht
      · exact parts_max (hj _ (by simp)) (ih a (by simp) ga) gb ht
      · exact parts_max (hj _ (by simp)) (ih b (by simp) gb) ga ht

end Verif.Codegen
