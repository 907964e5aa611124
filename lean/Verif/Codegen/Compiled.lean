import Verif.Codegen.Reduced
import Verif.Codegen.External

/-! The main induction: compiled code computes the value of the checked interpreter. -/

set_option linter.unusedSectionVars false

namespace Verif.Codegen
open Verif.Phi Verif.Term Verif.Yarr Verif.Arr
variable {F : Type} [FloatOps F] {J : YExt F} {o : Opts F} {I : Ext F}
variable {S : Finset Sym} {σ : Nat → Nat} {sizes : Nat → Option (YExpr F)} {vaxes : Nat → List Nat}
  {E : (Nat → Nat) → Env (D F)} {yenv : Env (YVal F)}

/-- The loop of a fold. -/
theorem fold_loop {axes : List Nat} {c a : Nat} {b : YExpr F} {τ : PTy}
    {step : (Nat → Nat) → Nat → D F → Option (D F)} (hs : Local S step)
    (H : ∀ (j : Nat) (acc : (Nat → Nat) → Option (D F)) (as : List (A F)) (ss : List (List Nat)), Local S acc →
      Holds S σ axes as ss acc → (∀ ρ, Valid (inScope S) σ ρ → ∃ w, (acc ρ).bind (step ρ j) = some w) →
      ∃ bs ts, Yarr.eval J b ((yenv.set (.var a) (some (pack as))).set (.var c) (some (.arr (.scalar (.i j))))) =
        some (pack bs) ∧ ValRank (pack bs) τ ∧ Holds S σ axes bs ts fun ρ => (acc ρ).bind (step ρ j))
    (l : List Nat) : ∀ (acc : (Nat → Nat) → Option (D F)) (as : List (A F)) (ss : List (List Nat)), Local S acc →
      ValRank (pack as) τ → Holds S σ axes as ss acc →
      (∀ ρ, Valid (inScope S) σ ρ → ∃ w, ((acc ρ).bind fun u => loopOpt (fun u j => step ρ j u) u l) = some w) →
      ∃ bs ts, loopOpt (fun x (j : Nat) =>
          Yarr.eval J b ((yenv.set (.var a) (some x)).set (.var c) (some (.arr (.scalar (.i j)))))) (pack as) l =
        some (pack bs) ∧ ValRank (pack bs) τ ∧
        Holds S σ axes bs ts fun ρ => (acc ρ).bind fun u => loopOpt (fun u j => step ρ j u) u l := by
  induction l with
  | nil =>
    intro acc as ss hl hr hh hd
    refine ⟨as, ss, rfl, hr, ?_⟩
    have : (fun ρ => (acc ρ).bind fun u => loopOpt (fun u j => step ρ j u) u []) = acc := by
      funext ρ; cases acc ρ <;> rfl
    rw [this]; exact hh
  | cons j l ih =>
    intro acc as ss hl hr hh hd
    have heq : (fun ρ => (acc ρ).bind fun u => loopOpt (fun u j => step ρ j u) u (j :: l)) =
        fun ρ => ((acc ρ).bind (step ρ j)).bind fun u => loopOpt (fun u j => step ρ j u) u l := by
      funext ρ; cases acc ρ <;> rfl
    have hd' : ∀ ρ, Valid (inScope S) σ ρ → ∃ w,
        (((acc ρ).bind (step ρ j)).bind fun u => loopOpt (fun u j => step ρ j u) u l) = some w := by
      intro ρ hρ
      obtain ⟨w, hw⟩ := hd ρ hρ
      exact ⟨w, by rw [← hw]; exact (congrFun heq ρ).symm⟩
    obtain ⟨bs, ts, h1, h2, h3⟩ := H j acc as ss hl hh (fun ρ hρ => by
      obtain ⟨w, hw⟩ := hd' ρ hρ
      obtain ⟨u, hu, _⟩ := Option.bind_eq_some_iff.1 hw
      exact ⟨u, hu⟩)
    obtain ⟨cs, us, h4, h5, h6⟩ := ih (fun ρ => (acc ρ).bind (step ρ j)) bs ts
      (fun ρ ρ' hρ => by simp only [hl ρ ρ' hρ, hs ρ ρ' hρ]) h2 h3 hd'
    refine ⟨cs, us, ?_, h5, ?_⟩
    · rw [loopOpt, h1]; exact h4
    · rw [heq]; exact h6

/-- Folds with a plan: if smaller code is correct, then the code made from the plan is correct. -/
def PlansCorrect (o : Opts F) (I : Ext F) (J : YExt F) : Prop :=
  ∀ (n : Nat), (∀ m ≤ n, Correct o I J m) → ∀ {S : Finset Sym} {σ : Nat → Nat} {sizes : Nat → Option (YExpr F)}
    {vaxes : Nat → List Nat} {E : (Nat → Nat) → Env (D F)} {yenv : Env (YVal F)} {c a : Nat} {m z b : Expr F}
    {p : Plan F} {x : Axial F},
    EnvRel J S σ sizes vaxes E yenv → lexical (fold c a m z b) S = true → o.plan c a m z b = some p →
    (∀ ρ, Valid (inScope S) σ ρ → ∃ v, check o I true (fold c a m z b) σ (E ρ) = some v) →
    planCode (fun sizes => compile o n sizes vaxes) sizes p = some x →
    Means J yenv (inScope S) σ x fun ρ => check o I true (fold c a m z b) σ (E ρ)

/-- Without plans. -/
theorem plansCorrect_none {I : Ext F} (h : ∀ c a n z b, o.plan c a n z b = none) : PlansCorrect o I J := by
  intro n _ S σ sizes vaxes E yenv c a m z b p x _ _ hp
  rw [h] at hp
  cases hp

/-- Compiled code computes, at every assignment of the indices in scope, the value of the checked
interpreter. The compiler is asked to refuse pairs of which the components have different axes; the external functions
are vectorised. -/
theorem compile_correct (hp : ∀ a b, o.pairs a b = true → ∀ i, i ∈ a ↔ i ∈ b) (hstrict : o.strict = true)
    (hplans : PlansCorrect o I J) (hJ : Vectorises I J) (n : Nat) :
    Correct o I J n := by
  induction n using Nat.strong_induction_on with
  | _ n ihn =>
  cases n with
  | zero => intro _ _ _ _ _ _ _ _ _ _ _ hx; cases hx
  | succ n =>
  have hc : ∀ m ≤ n, Correct o I J m := fun m hm => ihn m (by omega)
  have ih : Correct o I J n := @hc n le_rfl
  clear ihn
  intro S σ sizes vaxes E yenv e x hE hl hdef hx
  obtain ⟨h, ts⟩ := e
  have hl0 := hl
  rw [lexical_node] at hl
  have hz := valid_zero hE.pos
  have all : (ts.map lexical).all (fun f => f S) = true → ∀ t ∈ ts, lexical t S = true := by
    intro h t ht
    exact List.all_eq_true.1 h _ (List.mem_map.2 ⟨t, ht, rfl⟩)
  change compileStep o (compile o n) sizes vaxes h ts = some x at hx
  cases hpl : planned o h ts with
  | some p =>
    obtain ⟨c, a, m, z, b, rfl, rfl, hpl⟩ := planned_some hpl
    rw [compileStep_plan hpl] at hx
    exact hplans n hc hE hl0 hpl hdef hx
  | none =>
  unfold compileStep at hx
  split at hx
  · -- const
    rename_i v τ
    simp only [Option.bind_eq_some_iff] at hx
    obtain ⟨a, ha, p, hp, hx⟩ := hx
    simp only [check_node _ _ _ (.const v τ) [] rfl, checkDen, ha, Option.bind_some] at hdef ⊢
    obtain ⟨_, hw⟩ := hdef _ hz
    split at hw
    · rename_i hok
      simp only [if_pos hok]
      exact means_const ha hok.1 (hasTy_iff.1 hok.2) hp hx
    · cases hw
  · -- index
    rename_i i τ
    simp only [Option.bind_eq_some_iff] at hx
    obtain ⟨z, hz', hx⟩ := hx
    simp only [lexStep, Bool.and_eq_true, decide_eq_true_eq] at hl
    obtain ⟨h1, h2⟩ := hE.size i z hz' yenv fun _ _ => rfl
    refine (one_range hl.1 h1 h2 hx).congr fun ρ hρ => ?_
    obtain ⟨w, hw⟩ := hdef ρ hρ
    rw [hw]
    rw [check_node] at hw
    swap
    · rfl
    rw [← (typed_some hw).1, hE.idx ρ i hl.1]
  · -- variable
    rename_i v τ
    simp only [Option.bind_eq_some_iff] at hx
    obtain ⟨p, hpp, p', hpp', hx⟩ := hx
    simp only [lexStep, Bool.and_eq_true, decide_eq_true_eq] at hl
    obtain ⟨as, ss, h1, h2, h3⟩ := hE.var v hl.1
    refine means_var (hE.axes v) hE.pos h1 h2 (fun ρ hρ => ?_) hpp hpp' hx
    obtain ⟨w, hw⟩ := hdef ρ hρ
    obtain ⟨u, h4, h5⟩ := h3 ρ hρ
    have hw' := hw
    rw [check_node] at hw'
    swap
    · rfl
    obtain ⟨h6, h7⟩ := typed_some hw'
    obtain ⟨t, ht, h8⟩ := h7 rfl
    cases ht
    have : some u = some w := h4.symm.trans h6
    cases this
    exact ⟨w, hw, h8, h5⟩
  · -- let
    rename_i v b e
    simp only [Option.bind_eq_some_iff] at hx
    obtain ⟨y, hy, z, hz', hx⟩ := hx
    simp only [List.map, lexStep, Bool.and_eq_true, decide_eq_true_eq] at hl
    have hk : ∀ ρ, check o I true (node (.letv v) [b, e]) σ (E ρ) =
        (check o I true b σ (E ρ)).bind fun u => check o I true e σ ((E ρ).set (.var v) (some u)) := by
      intro ρ; rw [check_node] <;> rfl
    have hbd : ∀ ρ, Valid (inScope S) σ ρ → ∃ u, check o I true b σ (E ρ) = some u ∧ ∃ w,
        check o I true e σ ((E ρ).set (.var v) (some u)) = some w := by
      intro ρ hρ
      obtain ⟨w, hw⟩ := hdef ρ hρ
      rw [hk] at hw
      obtain ⟨u, h1, h2⟩ := Option.bind_eq_some_iff.1 hw
      exact ⟨u, h1, w, h2⟩
    have hmb := ih hE hl.1.1 (fun ρ hρ => by obtain ⟨u, h, _⟩ := hbd ρ hρ; exact ⟨u, h⟩) hy
    obtain ⟨h1, as, ss, h2, h3, h4, h5⟩ := hmb.holds
    have hE' := hE.bind hl.1.2 h1 h5 (fun ρ ρ' hρ => by simp only [hE.locl ρ ρ' hρ])
    have hme := ih hE' hl.2 (fun ρ hρ => by
      rw [inScope_insert_var] at hρ
      obtain ⟨u, h6, w, h7⟩ := hbd ρ hρ
      exact ⟨w, by simp only [h6]; exact h7⟩) hz'
    rw [inScope_insert_var] at hme
    refine (means_let h2 hme hx).congr fun ρ hρ => ?_
    obtain ⟨u, h6, w, h7⟩ := hbd ρ hρ
    rw [hk]
    simp only [h6, Option.bind_some]
  · -- assertion
    rename_i t l
    have hlt : lexical t S = true := by
      simp only [lexStep, List.map_cons, List.all_cons, Bool.and_eq_true] at hl
      exact hl.1
    have hk : ∀ ρ, Valid (inScope S) σ ρ →
        check o I true t σ (E ρ) = check o I true (node .assertEq (t :: l)) σ (E ρ) := by
      intro ρ hρ
      obtain ⟨w, hw⟩ := hdef ρ hρ
      rw [hw]
      rw [check_node] at hw
      swap
      · rfl
      simp only [List.map_cons, checkDen, runDen, assertOf, Option.bind_eq_some_iff] at hw
      obtain ⟨ns, _, hw⟩ := hw
      split at hw
      · cases hw
      · split at hw
        · exact hw
        · cases hw
    exact (ih hE hlt (fun ρ hρ => by rw [hk ρ hρ]; exact hdef ρ hρ) hx).congr hk
  · -- size
    rename_i k t
    simp only [Option.bind_eq_some_iff] at hx
    obtain ⟨y, hy, p, hp', hx⟩ := hx
    simp only [lexStep, List.map, List.all_cons, Bool.and_eq_true] at hl
    simp only [check_dim] at hdef ⊢
    exact means_dim (ih hE hl.1 (fun ρ hρ => by
      obtain ⟨w, hw⟩ := hdef ρ hρ
      simp only [dimOf, Option.bind_eq_some_iff] at hw
      obtain ⟨_, ⟨u, h1, _⟩, _⟩ := hw
      exact ⟨u, h1⟩) hy) hp' hx
  · -- fold
    rename_i c a m z b
    have hx := (compileStep_loop hpl).symm.trans hx
    simp only [loopCode, Option.bind_eq_some_iff] at hx
    obtain ⟨size, hsize, n', hn', init, hinit, pre, hpre, body, hbody, z', hz', b', hb', hx⟩ := hx
    simp only [List.map, lexStep, Bool.and_eq_true, decide_eq_true_eq] at hl
    obtain ⟨⟨⟨⟨⟨hlm, hlz⟩, hcS⟩, haS⟩, hca⟩, hlb⟩ := hl
    have hk : ∀ ρ, check o I true (node (.fold c a) [m, z, b]) σ (E ρ) =
        foldOf (check o I true m σ (E ρ)) (check o I true z σ (E ρ)) fun k acc =>
          check o I true b σ (((E ρ).set (.var a) (some acc)).set (.var c) (some (.int k))) := by
      intro ρ; rw [check_node _ _ _ _ _ hpl]; rfl
    have hfd : ∀ ρ, Valid (inScope S) σ ρ → ∃ k : Int, check o I true m σ (E ρ) = some (.int k) ∧ ∃ u w,
        check o I true z σ (E ρ) = some u ∧ loopOpt (fun acc (i : Nat) =>
          check o I true b σ (((E ρ).set (.var a) (some acc)).set (.var c) (some (.int i)))) u (List.range k.toNat) =
          some w := by
      intro ρ hρ
      obtain ⟨w, hw⟩ := hdef ρ hρ
      rw [hk] at hw
      simp only [foldOf, Option.bind_eq_some_iff] at hw
      obtain ⟨k, ⟨q, h1, h2⟩, u, h3, h4⟩ := hw
      refine ⟨k, ?_, u, w, h3, h4⟩
      rw [h1]
      cases q with
      | sc c => cases c <;> simp [Val.asInt] at h2; subst h2; rfl
      | vec _ => cases h2
      | pair _ _ => cases h2
    -- the axes
    have hV : ∀ v i, i ∈ vaxes v ↔ i ∈ (fun v => (vaxes v).toFinset) v := fun v i => List.mem_toFinset.symm
    have hVS : ∀ v i, i ∈ (fun v => (vaxes v).toFinset) v → Sym.idx i ∈ S :=
      fun v i hi => hE.axes v i (List.mem_toFinset.1 hi)
    have hupd : ∀ (v : Nat) (l : List Nat), ∀ u i, i ∈ upd vaxes v l u ↔
        i ∈ upd (fun v => (vaxes v).toFinset) v l.toFinset u := by
      intro v l u i
      unfold upd
      split <;> exact List.mem_toFinset.symm
    obtain ⟨hpn, hpa⟩ := compile_axes o n _ _ _ _ _ (hupd a init.axes) hpre
    obtain ⟨hbn, hba⟩ := compile_axes o n _ _ _ _ _ (hupd a pre.axes) hbody
    obtain ⟨hin, hia⟩ := compile_axes o n _ _ _ _ _ hV hinit
    have hiS : ∀ i ∈ init.axes, Sym.idx i ∈ S := fun i hi => axesOf_scope o z _ S hlz hVS i ((hia i).1 hi)
    have hpS : ∀ i ∈ pre.axes, Sym.idx i ∈ S := by
      intro i hi
      have := axesOf_scope o b _ _ hlb (fun v j hj => ?_) i ((hpa i).1 hi)
      · simpa using this
      · unfold upd at hj
        split at hj
        · exact Finset.mem_insert_of_mem (Finset.mem_insert_of_mem (hiS j (List.mem_toFinset.1 hj)))
        · exact Finset.mem_insert_of_mem (Finset.mem_insert_of_mem (hVS v j hj))
    -- the size and the initial value
    obtain ⟨K, hK1, hK2, hK3⟩ := (ih hE hlm (fun ρ hρ => by obtain ⟨k, h, _⟩ := hfd ρ hρ; exact ⟨_, h⟩) hsize).int
      hE.pos hn' (fun ρ hρ => by obtain ⟨k, h, _⟩ := hfd ρ hρ; exact ⟨k, h⟩)
    have hmz := ih hE hlz (fun ρ hρ => by obtain ⟨k, _, u, w, h, _⟩ := hfd ρ hρ; exact ⟨_, h⟩) hinit
    rw [hstrict] at hz'
    obtain ⟨hz', hzc⟩ := repeated_some hz'
    obtain ⟨hip, hmz'⟩ := hmz.aligned hE.pos hz' hpn hpS (fun i e he => hE.size i e he yenv fun _ _ => rfl) hzc
    obtain ⟨-, as, ss, hz1, hz2, -, hz3⟩ := hmz'.holds
    have hpb : ∀ i ∈ pre.axes, i ∈ body.axes := by
      intro i hi
      refine (hba i).2 (axesOf_mono o b _ _ (fun v => ?_) ((hpa i).1 hi))
      unfold upd
      split
      · exact fun j hj => List.mem_toFinset.2 (hip j (List.mem_toFinset.1 hj))
      · exact subset_rfl
    obtain ⟨rfl, -, τ, hτ, hτr⟩ := mk?_eq_some hx
    -- types
    have hty : Yarr.typeOf z' = some τ ∧ Yarr.typeOf b' = some τ := by
      rw [Yarr.typeOf_node] at hτ
      simp only [List.map] at hτ
      generalize Yarr.typeOf n' = t1 at hτ
      generalize Yarr.typeOf z' = t2 at hτ ⊢
      generalize Yarr.typeOf b' = t3 at hτ ⊢
      unfold Yarr.typeStep at hτ
      split at hτ
      all_goals first | (cases hτ; done) | skip
      all_goals simp_all
    have hk2 : ∀ ρ, Valid (inScope S) σ ρ → check o I true (node (.fold c a) [m, z, b]) σ (E ρ) =
        (check o I true z σ (E ρ)).bind fun u => loopOpt (fun acc (i : Nat) =>
          check o I true b σ (((E ρ).set (.var a) (some acc)).set (.var c) (some (.int i)))) u (List.range K.toNat) := by
      intro ρ hρ
      rw [hk, hK3 ρ hρ]; rfl
    obtain ⟨bs, us, hf1, hf2, hf3⟩ := fold_loop (J := J) (yenv := yenv) (σ := σ) (axes := pre.axes) (c := c) (a := a) (b := b') (τ := τ)
      (step := fun ρ (i : Nat) acc =>
        check o I true b σ (((E ρ).set (.var a) (some acc)).set (.var c) (some (.int i))))
      (fun ρ ρ' hρ => by simp only [hE.locl ρ ρ' hρ]) (by
        intro j acc as ss hla hh hd
        have hE1 := hE.bind haS hpS hh hla
        have hcS' : Sym.var c ∉ insert (Sym.var a) S := by simp [hca, hcS]
        have hE2 := hE1.bind hcS' (axes := []) (by simp) (holds_scalar _ σ (.i (j : Int))) (fun _ _ _ => rfl)
        have hup : upd (upd vaxes a pre.axes) c [] = upd vaxes a pre.axes := by
          funext u
          unfold upd
          split
          · rename_i e
            subst e
            rw [if_neg hca, hE.fresh _ hcS]
          · rfl
        rw [hup] at hE2
        have hval : ∀ ρ, Valid (inScope S) σ ρ →
            check o I true b σ (((E ρ).set (.var a) (acc ρ)).set (.var c) (some (.int j))) =
            (acc ρ).bind fun acc => check o I true b σ (((E ρ).set (.var a) (some acc)).set (.var c) (some (.int j))) := by
          intro ρ hρ
          obtain ⟨w, hw, _⟩ := hh.2 ρ hρ
          rw [hw]; rfl
        have hmb := ih hE2 hlb (fun ρ hρ => by
          rw [inScope_insert_var, inScope_insert_var] at hρ
          obtain ⟨w, hw⟩ := hd ρ hρ
          exact ⟨w, (hval ρ hρ).trans hw⟩) hbody
        rw [inScope_insert_var, inScope_insert_var] at hmb
        obtain ⟨-, hmb'⟩ := hmb.aligned hE.pos hb' hpn hpS (fun i e he => by cases he) (fun i hi => .inl (hpb i hi))
        obtain ⟨-, bs, ts, h1, h2, -, h3⟩ := hmb'.holds
        refine ⟨bs, ts, h1, h2 τ _ hty.2 h1, h3.1, fun ρ hρ => ?_⟩
        obtain ⟨w, h4, h5⟩ := h3.2 ρ hρ
        exact ⟨w, (hval ρ hρ).symm.trans h4, h5⟩)
      (List.range K.toNat) (fun ρ => check o I true z σ (E ρ)) as ss (fun ρ ρ' hρ => by simp only [hE.locl ρ ρ' hρ])
      (hz2 τ _ hty.1 hz1) hz3 (fun ρ hρ => by
        obtain ⟨w, hw⟩ := hdef ρ hρ
        rw [hk2 ρ hρ] at hw
        exact ⟨w, hw⟩)
    have hev : Yarr.eval J (node (.fold c a) [n', z', b']) yenv = some (pack bs) := by
      have hK' : Yarr.eval J n' yenv = _ := hK1
      rw [Yarr.eval_node]
      simp only [List.map, Yarr.den, hK', hz1, Option.bind_some, YVal.asArr, asSize_scalar]
      exact hf1
    refine ⟨hpS, bs, us, ⟨hev, ?_, hpn, hf3.1⟩, fun ρ hρ => ?_⟩
    · intro τ' y h1 h2
      rw [hτ] at h1
      rw [hev] at h2
      cases h1
      cases h2
      exact hf2
    · obtain ⟨w, h1, h2⟩ := hf3.2 ρ hρ
      exact ⟨w, (hk2 ρ hρ).trans h1, h2⟩
  · -- reduction
    rename_i x' y' z b vs
    exact reduce_correct ih hstrict hE (by rw [lexical_node]; exact hl) hdef hx
  · -- read
    rename_i t i
    simp only [lexStep, List.map, List.all_cons, Bool.and_eq_true] at hl
    exact means_get hc hE hl.1 hl.2.1 hdef hx
  · -- concatenation
    rename_i a b
    simp only [Option.bind_eq_some_iff] at hx
    obtain ⟨y, hy, z, hz', y', hy', z', hzz', hx⟩ := hx
    rw [hstrict] at hy' hzz'
    simp only [lexStep, List.map, List.all_cons, Bool.and_eq_true] at hl
    have hk : ∀ ρ, check o I true (node .concat [a, b]) σ (E ρ) =
        concatOf (check o I true a σ (E ρ)) (check o I true b σ (E ρ)) := by
      intro ρ; rw [check_node] <;> rfl
    simp only [hk] at hdef ⊢
    have hd : ∀ ρ, Valid (inScope S) σ ρ → (∃ v, check o I true a σ (E ρ) = some v) ∧
        ∃ v, check o I true b σ (E ρ) = some v := by
      intro ρ hρ
      obtain ⟨w, hw⟩ := hdef ρ hρ
      simp only [concatOf, Option.bind_eq_some_iff] at hw
      obtain ⟨_, ⟨u, h1, _⟩, _, ⟨u', h2, _⟩, _⟩ := hw
      exact ⟨⟨u, h1⟩, ⟨u', h2⟩⟩
    exact means_concat (ih hE hl.1 (fun ρ hρ => (hd ρ hρ).1) hy) (ih hE hl.2.1 (fun ρ hρ => (hd ρ hρ).2) hz')
      hE.pos hE.sizesOk hy' hzz' hx hdef
  · -- comprehension
    rename_i i m b
    simp only [Option.bind_eq_some_iff] at hx
    obtain ⟨size, hsize, n', hn', y, hy, hx⟩ := hx
    simp only [List.map, lexStep, Bool.and_eq_true, decide_eq_true_eq] at hl
    obtain ⟨⟨hlm, hiS⟩, hlb⟩ := hl
    have hvd : ∀ ρ, Valid (inScope S) σ ρ → ∃ k : Int, check o I true m σ (E ρ) = some (.int k) ∧ 0 < k ∧ ∃ vs,
        mapOpt (fun j : Nat => check o I true b (upd σ i k.toNat) ((E ρ).set (.idx i) (some (.int j))))
          (List.range k.toNat) = some vs ∧ check o I true (node (.vec i) [m, b]) σ (E ρ) = some (.vec vs) := by
      intro ρ hρ
      obtain ⟨w, hw⟩ := hdef ρ hρ
      have hw' := hw
      rw [check_vec] at hw'
      simp only [Option.bind_eq_some_iff] at hw'
      obtain ⟨k, ⟨u, h1, h2⟩, h3⟩ := hw'
      split at h3
      · rename_i hpos
        simp only [vecOf, Option.bind_some, Val.asInt, Val.int, Option.bind_eq_some_iff] at h3
        obtain ⟨vs, h4, h5⟩ := h3
        split at h5
        · cases h5
          refine ⟨k, ?_, hpos, vs, h4, hw⟩
          rw [h1]
          cases u with
          | sc c => cases c <;> simp [Val.asInt] at h2; subst h2; rfl
          | vec _ => cases h2
          | pair _ _ => cases h2
        · cases h5
      · cases h3
    have hsz : ∀ yenv', Agree S yenv yenv' → ∃ K : Int, EvalsInt J yenv' n' K ∧ RankOk J yenv' n' ∧
        ∀ ρ, Valid (inScope S) σ ρ → check o I true m σ (E ρ) = some (.int K) := by
      intro yenv' ha
      exact (ih (hE.agree ha) hlm (fun ρ hρ => by obtain ⟨k, h, _⟩ := hvd ρ hρ; exact ⟨_, h⟩) hsize).int
        hE.pos hn' (fun ρ hρ => by obtain ⟨k, h, _⟩ := hvd ρ hρ; exact ⟨k, h⟩)
    obtain ⟨K, hK1, hK2, hK3⟩ := hsz yenv fun _ _ => rfl
    have hint : ∀ {a b : Int}, (some (Val.int a) : Option (D F)) = some (.int b) → a = b := by
      intro a b h
      simpa [Val.int] using h
    have hKpos : 0 < K := by
      obtain ⟨k, h1, h2, _⟩ := hvd _ hz
      rw [hK3 _ hz] at h1
      rw [hint h1]; exact h2
    obtain ⟨M, rfl⟩ : ∃ M : Nat, K = M := ⟨K.toNat, by omega⟩
    have hM : 0 < M := by omega
    have hE' := hE.under hiS hM (z := n') (fun yenv' ha => by
      obtain ⟨K', h1, h2, h3⟩ := hsz yenv' ha
      have := h3 _ hz
      rw [hK3 _ hz] at this
      rw [← hint this] at h1
      exact ⟨h1, h2⟩)
    have hvd' : ∀ ρ, Valid (inScope S) σ ρ → ∃ vs,
        mapOpt (fun j : Nat => check o I true b (upd σ i M) ((E ρ).set (.idx i) (some (.int j))))
          (List.range M) = some vs ∧ check o I true (node (.vec i) [m, b]) σ (E ρ) = some (.vec vs) := by
      intro ρ hρ
      obtain ⟨k, h1, h2, vs, h3, h4⟩ := hvd ρ hρ
      rw [hK3 ρ hρ] at h1
      rw [← hint h1] at h3
      exact ⟨vs, h3, h4⟩
    have hrest : ∀ ρ, Valid (inScope (insert (.idx i) S)) (upd σ i M) ρ → Valid (inScope S) σ ρ ∧ ρ i < M := by
      intro ρ hρ
      refine ⟨fun j hj => ?_, ?_⟩
      · have := hρ j (Finset.mem_insert_of_mem hj)
        have hne : j ≠ i := fun e => hiS (e ▸ hj)
        simpa [upd, hne] using this
      · simpa [upd] using hρ i (Finset.mem_insert_self _ _)
    have hmb := ih hE' hlb (fun ρ hρ => by
      obtain ⟨h1, h2⟩ := hrest ρ hρ
      obtain ⟨vs, h3, h4⟩ := hvd' ρ h1
      obtain ⟨w, _, hw⟩ := mapOpt_all h3 (ρ i) (by simpa using h2)
      exact ⟨w, hw⟩) hy
    rw [inScope_insert_idx] at hmb
    refine (means_along hmb hM hK1 hK2 hx).congr fun ρ hρ => ?_
    obtain ⟨vs, h3, h4⟩ := hvd' ρ hρ
    rw [h4]
    have : (fun k : Nat => check o I true b (upd σ i M)
        ((E (upd ρ i k)).set (.idx i) (some (.int (upd ρ i k i : Nat))))) =
        fun k : Nat => check o I true b (upd σ i M) ((E ρ).set (.idx i) (some (.int k))) := by
      funext k
      rw [hE.locl (upd ρ i k) ρ (fun j hj => by
        have hne : j ≠ i := fun e => hiS (e ▸ hj)
        simp [upd, hne])]
      simp [upd]
    rw [this, h3]; rfl
  · -- scalar operation
    rename_i f
    simp only [Option.bind_eq_some_iff] at hx
    obtain ⟨xs, hxs, hx⟩ := hx
    have hlt : ∀ t ∈ ts, lexical t S = true := all hl
    have htd : ∀ t ∈ ts, ∀ ρ, Valid (inScope S) σ ρ → ∃ v, check o I true t σ (E ρ) = some v := by
      intro t ht ρ hρ
      obtain ⟨w, hw⟩ := hdef ρ hρ
      rw [check_op] at hw
      obtain ⟨ss, s, h1, h2, h3⟩ := opOf_some hw
      obtain ⟨b, _, hb⟩ := mapOpt_all h1 (check o I true t σ (E ρ)) (List.mem_map.2 ⟨t, ht, rfl⟩)
      obtain ⟨u, hu, _⟩ := Option.bind_eq_some_iff.1 hb
      exact ⟨u, hu⟩
    have hall : List.Forall₂ (fun x v => Means J yenv (inScope S) σ x v) xs
        (ts.map fun t ρ => check o I true t σ (E ρ)) := by
      have hf := mapOpt_eq_forall hxs
      clear hxs hx hl all hdef hl0 hpl
      induction hf with
      | nil => exact .nil
      | cons h1 _ ih' =>
        exact .cons (ih hE (hlt _ (by simp)) (htd _ (by simp)) h1)
          (ih' (fun t ht => hlt t (by simp [ht])) fun t ht => htd t (by simp [ht]))
    have hk : ∀ ρ, check o I true (node (.op f) ts) σ (E ρ) =
        opOf f ((ts.map fun t ρ => check o I true t σ (E ρ)).map (· ρ)) := by
      intro ρ; rw [check_op, List.map_map]; rfl
    simp only [hk] at hdef ⊢
    split at hx
    · rename_i hf
      subst hf
      split at hx
      · rename_i y
        obtain ⟨t, rfl⟩ : ∃ t, ts = [t] := by
          have := hall.length_eq
          simp only [List.length_cons, List.length_nil, List.length_map] at this
          exact List.length_eq_one_iff.1 this.symm
        have hm : Means J yenv (inScope S) σ y fun ρ => check o I true t σ (E ρ) := by
          simp only [List.map, List.forall₂_cons, List.forall₂_nil_left_iff, and_true] at hall
          exact hall
        exact means_cast hm hE.pos hx hdef
      · cases hx
    · simp only [Option.bind_eq_some_iff] at hx
      obtain ⟨es, hes, hx⟩ := hx
      exact means_elem hall hE.pos hes hx hdef
  · -- pair
    rename_i a b
    simp only [Option.bind_eq_some_iff] at hx
    obtain ⟨y, hy, z, hz', hx⟩ := hx
    simp only [lexStep, List.map, List.all_cons, Bool.and_eq_true] at hl
    have hk : ∀ ρ, check o I true (node .cons [a, b]) σ (E ρ) =
        consOf (check o I true a σ (E ρ)) (check o I true b σ (E ρ)) := by
      intro ρ; rw [check_node] <;> rfl
    simp only [hk] at hdef ⊢
    have hd : ∀ ρ, Valid (inScope S) σ ρ → (∃ v, check o I true a σ (E ρ) = some v) ∧
        ∃ v, check o I true b σ (E ρ) = some v := by
      intro ρ hρ
      obtain ⟨w, hw⟩ := hdef ρ hρ
      simp only [consOf, Option.bind_eq_some_iff] at hw
      obtain ⟨u, h1, u', h2, _⟩ := hw
      exact ⟨⟨u, h1⟩, ⟨u', h2⟩⟩
    split at hx
    · rename_i hpair
      exact means_cons (ih hE hl.1 (fun ρ hρ => (hd ρ hρ).1) hy) (ih hE hl.2.1 (fun ρ hρ => (hd ρ hρ).2) hz')
        hE.pos (hp _ _ hpair) hx
    · cases hx
  · -- first
    rename_i t
    split at hx
    · rename_i τ τ' hτ
      simp only [Option.bind_eq_some_iff] at hx
      obtain ⟨p, hpp, y, hy, hx⟩ := hx
      simp only [lexStep, List.map, List.all_cons, Bool.and_eq_true] at hl
      have hk : ∀ ρ, check o I true (node .fst [t]) σ (E ρ) =
          fstOf (typed true (some (.pair τ τ')) (check o I true t σ (E ρ))) := by
        intro ρ; rw [check_node, ← hτ] <;> rfl
      have hd : ∀ ρ, Valid (inScope S) σ ρ → ∃ u v, check o I true t σ (E ρ) = some (.pair u v) ∧
          HasType (.pair u v) (.pair τ τ') ∧ check o I true (node .fst [t]) σ (E ρ) = some u := by
        intro ρ hρ
        obtain ⟨w, hw⟩ := hdef ρ hρ
        have hw' := hw
        rw [hk] at hw'
        simp only [fstOf, Option.bind_eq_some_iff] at hw'
        obtain ⟨q, h1, h2⟩ := hw'
        obtain ⟨h3, h4⟩ := typed_some h1
        obtain ⟨t', ht', h5⟩ := h4 rfl
        cases ht'
        cases q with
        | pair u v => cases h2; exact ⟨_, _, h3, h5, hw⟩
        | sc _ => cases h2
        | vec _ => cases h2
      refine means_slice (ih hE hl.1 (fun ρ hρ => by obtain ⟨u, v, h, _⟩ := hd ρ hρ; exact ⟨_, h⟩) hy) hx ?_
      intro ρ u l hρ hu hr
      obtain ⟨u', v', h1, h2, h3⟩ := hd ρ hρ
      rw [h1] at hu
      cases hu
      exact ⟨_, h3, by simpa using repsAll_fst hr h2 hpp⟩
    · cases hx
  · -- second
    rename_i t
    split at hx
    · rename_i τ τ' hτ
      simp only [Option.bind_eq_some_iff] at hx
      obtain ⟨p, hpp, q, hqq, y, hy, hx⟩ := hx
      simp only [lexStep, List.map, List.all_cons, Bool.and_eq_true] at hl
      have hk : ∀ ρ, check o I true (node .snd [t]) σ (E ρ) =
          sndOf (typed true (some (.pair τ τ')) (check o I true t σ (E ρ))) := by
        intro ρ; rw [check_node, ← hτ] <;> rfl
      have hd : ∀ ρ, Valid (inScope S) σ ρ → ∃ u v, check o I true t σ (E ρ) = some (.pair u v) ∧
          HasType (.pair u v) (.pair τ τ') ∧ check o I true (node .snd [t]) σ (E ρ) = some v := by
        intro ρ hρ
        obtain ⟨w, hw⟩ := hdef ρ hρ
        have hw' := hw
        rw [hk] at hw'
        simp only [sndOf, Option.bind_eq_some_iff] at hw'
        obtain ⟨q, h1, h2⟩ := hw'
        obtain ⟨h3, h4⟩ := typed_some h1
        obtain ⟨t', ht', h5⟩ := h4 rfl
        cases ht'
        cases q with
        | pair u v => cases h2; exact ⟨_, _, h3, h5, hw⟩
        | sc _ => cases h2
        | vec _ => cases h2
      refine means_slice (ih hE hl.1 (fun ρ hρ => by obtain ⟨u, v, h, _⟩ := hd ρ hρ; exact ⟨_, h⟩) hy) hx ?_
      intro ρ u l hρ hu hr
      obtain ⟨u', v', h1, h2, h3⟩ := hd ρ hρ
      rw [h1] at hu
      cases hu
      exact ⟨v', h3, repsAll_snd hr h2 hpp hqq⟩
    · cases hx
  · -- external function
    rename_i fn τ
    simp only [Option.bind_eq_some_iff] at hx
    obtain ⟨xs, hxs, es, hes, p, hpp, p', hpp', hx⟩ := hx
    have hlt : ∀ t ∈ ts, lexical t S = true := all hl
    have htd : ∀ t ∈ ts, ∀ ρ, Valid (inScope S) σ ρ → ∃ v, check o I true t σ (E ρ) = some v := by
      intro t ht ρ hρ
      obtain ⟨w, hw⟩ := hdef ρ hρ
      rw [check_ext] at hw
      obtain ⟨ws, h1, -⟩ := extCheck_some hw
      obtain ⟨b, _, hb⟩ := mapOpt_all h1 (check o I true t σ (E ρ)) (List.mem_map.2 ⟨t, ht, rfl⟩)
      exact ⟨b, hb⟩
    have hall : List.Forall₂ (fun x v => Means J yenv (inScope S) σ x v) xs
        (ts.map fun t ρ => check o I true t σ (E ρ)) := by
      have hf := mapOpt_eq_forall hxs
      clear hxs hx hl all hdef hl0 hpl hes hpp'
      induction hf with
      | nil => exact .nil
      | cons h1 _ ih' =>
        exact .cons (ih hE (hlt _ (by simp)) (htd _ (by simp)) h1)
          (ih' (fun t ht => hlt t (by simp [ht])) fun t ht => htd t (by simp [ht]))
    have hk : ∀ ρ, check o I true (node (.ext fn τ) ts) σ (E ρ) =
        extCheck I fn τ ((ts.map fun t ρ => check o I true t σ (E ρ)).map (· ρ)) := by
      intro ρ; rw [check_ext, List.map_map]; rfl
    simp only [hk] at hdef ⊢
    exact means_ext hJ hall hE.pos hes hpp hpp' hx hdef
  · cases hx

end Verif.Codegen
