import Verif.Codegen.Einsum

/-!
The einsum branch of the compiler (`ein/codegen/phi_to_yarr.py:80-153`) computes the value of the fold.
-/

set_option linter.unusedSectionVars false

namespace Verif.Codegen
open Verif.Phi Verif.Term Verif.Yarr Verif.Arr Verif.Midend
variable {F : Type}

section
variable [CommRing F] [FloatOps F] [DecidableEq F]

/-! ### All factors are floats -/

/-- All factors are floats, for all values of the counters. -/
def AllFloat (I : Ext F) : List (Nat × Expr F) → List (Expr F) → Env (D F) → Prop
  | [], p, env => ∀ f ∈ p, ∃ x, run I f env = some (.sc (.f x))
  | (c, n) :: cs, p, env => ∀ j < countOf (run I n env), AllFloat I cs p (env.set (.var c) (some (.int j)))

theorem allFloat_agree (I : Ext F) {cs : List (Nat × Expr F)} {p : List (Expr F)} (hp : ∀ f ∈ p, Scoped f)
    (hc : ∀ q ∈ cs, Scoped q.2) : ∀ env env' : Env (D F), (∀ s, Mentions cs p s → env s = env' s) →
      AllFloat I cs p env → AllFloat I cs p env' := by
  induction cs with
  | nil =>
    intro env env' h ha f hf
    rw [← run_agree (hp f hf) fun s hs => h s (.inl ⟨f, hf, hs⟩)]
    exact ha f hf
  | cons q cs ih =>
    obtain ⟨c, n⟩ := q
    intro env env' h ha j hj
    rw [← run_agree (hc (c, n) (by simp)) fun s hs => h s (.inr ⟨(c, n), by simp, hs⟩)] at hj
    refine ih (fun q hq => hc q (by simp [hq])) _ _ (fun s hs => set_agree (h s ?_)) (ha j hj)
    rcases hs with hs | ⟨q, hq, hs⟩
    · exact .inl hs
    · exact .inr ⟨q, by simp [hq], hs⟩

theorem allFloat_append (I : Ext F) {cs ds : List (Nat × Expr F)} {p q : List (Expr F)} (hp : ∀ f ∈ p, Scoped f)
    (hq : ∀ f ∈ q, Scoped f) (hd : ∀ r ∈ ds, Scoped r.2) (h1 : ∀ r ∈ ds, ∀ f ∈ p, Sym.var r.1 ∉ fv f)
    (h2 : ∀ r ∈ cs, ¬ Mentions ds q (.var r.1)) : ∀ env : Env (D F),
      AllFloat I cs p env → AllFloat I ds q env → AllFloat I (cs ++ ds) (p ++ q) env := by
  induction cs with
  | nil =>
    show ∀ env : Env (D F), (∀ f ∈ p, ∃ x, run I f env = some (.sc (.f x))) → AllFloat I ds q env →
      AllFloat I ds (p ++ q) env
    clear h2
    induction ds with
    | nil =>
      intro env ha hb f hf
      rcases List.mem_append.1 hf with hf | hf
      · exact ha f hf
      · exact hb f hf
    | cons r ds ih =>
      obtain ⟨c, n⟩ := r
      intro env ha hb j hj
      refine ih (fun r hr => hd r (by simp [hr])) (fun r hr => h1 r (by simp [hr])) _ (fun f hf => ?_) (hb j hj)
      rw [← run_agree (hp f hf) (env := env) fun s hs => ?_]
      · exact ha f hf
      · have : s ≠ .var c := fun e => h1 (c, n) (by simp) f hf (e ▸ hs)
        simp [Env.set, this]
  | cons r cs ih =>
    obtain ⟨c, n⟩ := r
    intro env ha hb j hj
    refine ih (fun r hr => h2 r (by simp [hr])) _ (ha j hj) (allFloat_agree I hq hd _ _ (fun s hs => ?_) hb)
    have : s ≠ .var c := fun e => h2 (c, n) (by simp) (e ▸ hs)
    simp [Env.set, this]

theorem allFloat_neg [RingFloat F] (I : Ext F) (cs : List (Nat × Expr F)) {p : List (Expr F)} :
    ∀ env : Env (D F), AllFloat I cs p env → AllFloat I cs (Dot.negHead p) env := by
  induction cs with
  | nil =>
    intro env ha
    cases p with
    | nil => exact ha
    | cons f p =>
      intro g hg
      rcases List.mem_cons.1 hg with rfl | hg
      · obtain ⟨x, hx⟩ := ha f (by simp)
        refine ⟨-x, ?_⟩
        rw [run_node]
        simp [runDen, hx, opOf, mapOpt, Val.asScal, applyOp, RingFloat.neg]
      · exact ha g (by simp [hg])
  | cons r cs ih =>
    obtain ⟨c, n⟩ := r
    exact fun env ha j hj => ih _ (ha j hj)

theorem allFloat_mul (I : Ext F) {x y : Expr F} {S : Finset Sym} {d e : Dot F} (hd : LiftInv x S d)
    (he : LiftInv y S e) (hx : fv x ⊆ S) (hy : fv y ⊆ S) (h : ∀ c ∈ d.counters, c ∉ e.counters) (env : Env (D F))
    (ha : ∀ s ∈ d.summands, AllFloat I s.1 s.2 env) (hb : ∀ s ∈ e.summands, AllFloat I s.1 s.2 env) :
    ∀ s ∈ (d.mul e).summands, AllFloat I s.1 s.2 env := by
  intro s hs
  obtain ⟨p, hp, hs⟩ := List.mem_flatMap.1 hs
  obtain ⟨q, hq, rfl⟩ := List.mem_map.1 hs
  refine allFloat_append I (fun f hf => (hd.factors p hp f hf).1) (fun f hf => (he.factors q hq f hf).1)
    (fun r hr => (he.sizes q hq r hr).1) (fun r hr f hf hm => ?_) (fun r hr hm => ?_) env (ha p hp) (hb q hq)
  · rcases (hd.factors p hp f hf).2 _ hm with h' | ⟨t, ht, h'⟩
    · exact he.fresh r (he.sub q hq r hr) (hx h')
    · exact h t.1 (List.mem_map.2 ⟨t, hd.sub p hp t ht, rfl⟩)
        (List.mem_map.2 ⟨r, he.sub q hq r hr, Sym.var.inj h'⟩)
  · have key : ∀ s : Sym, (s ∈ fv y ∨ ∃ t ∈ q.1, s = .var t.1) → s ≠ .var r.1 := by
      rintro s (h' | ⟨t, ht, rfl⟩) e'
      · exact hd.fresh r (hd.sub p hp r hr) (hy (e' ▸ h'))
      · exact h r.1 (List.mem_map.2 ⟨r, hd.sub p hp r hr, rfl⟩)
          (List.mem_map.2 ⟨t, he.sub q hq t ht, Sym.var.inj e'⟩)
    rcases hm with ⟨f, hf, hm⟩ | ⟨t, ht, hm⟩
    · exact key _ ((he.factors q hq f hf).2 _ hm) rfl
    · exact key _ ((he.sizes q hq t ht).2 _ hm) rfl

/-- If the expression is a float, then so are all factors. -/
theorem lift_floats [RingFloat F] [AssocFloat F] (I : Ext F) : ∀ (k : Nat) (e : Expr F) (S : Finset Sym) (d : Dot F),
    lift k e = some d → Scoped e → lexical e S = true → AccFree e → ∀ (env : Env (D F)) (w : F),
      run I e env = some (.sc (.f w)) → ∀ s ∈ d.summands, AllFloat I s.1 s.2 env := by
  intro k
  induction k with
  | zero => intro e S d h; simp [lift] at h
  | succ k ih =>
    rintro ⟨hd, ts⟩ S d h hs hl hf env w hw
    have pure : ∀ e : Expr F, run I e env = some (.sc (.f w)) → ∀ s ∈ (Dot.pure e).summands, AllFloat I s.1 s.2 env := by
      intro e he s hs
      simp only [Dot.pure, List.mem_singleton] at hs
      subst hs
      intro f hf
      simp only [List.mem_singleton] at hf
      exact ⟨w, hf ▸ he⟩
    have addF : ∀ {d1 d2 r : Dot F}, d1.add d2 = some r → (∀ s ∈ d1.summands, AllFloat I s.1 s.2 env) →
        (∀ s ∈ d2.summands, AllFloat I s.1 s.2 env) → ∀ s ∈ r.summands, AllFloat I s.1 s.2 env := by
      intro d1 d2 r h h1 h2
      unfold Dot.add at h
      split at h
      · cases h
        intro s hs
        rcases List.mem_append.1 hs with hs | hs
        · exact h1 s hs
        · exact h2 s hs
      · cases h
    have negF : ∀ {d1 : Dot F}, (∀ s ∈ d1.summands, AllFloat I s.1 s.2 env) →
        ∀ s ∈ d1.neg.summands, AllFloat I s.1 s.2 env := by
      intro d1 h s hs
      obtain ⟨s, hm, rfl⟩ := List.mem_map.1 hs
      exact allFloat_neg I _ _ (h s hm)
    simp only [lift] at h
    split at h
    · rename_i c a n z b
      split at h
      · rename_i elem hm
        obtain ⟨d', h1, h2⟩ := Option.bind_eq_some_iff.1 h
        obtain ⟨hb, rfl⟩ := matchSummation_some hm
        have hb' := hb
        obtain ⟨f, ts, rfl, ht⟩ := body_child hb'
        obtain ⟨l1, l2, l3, l4, l5, l6⟩ := lexical_fold (c := c) (a := a) hl
        have hc := hs.children
        have he : Scoped elem := (hc (node (.op f) ts) (by simp)).children _ ht
        have ha := hf c a n _ _ elem _ (.refl _) hb
        have hw' := hw
        change run I (fold c a n _ _) env = _ at hw'
        rw [run_fold_red I hb he ha l5.symm] at hw'
        unfold foldOf at hw'
        obtain ⟨m, hm', hw'⟩ := Option.bind_eq_some_iff.1 hw'
        rw [run_node] at hw'
        simp only [runDen, Option.bind_some, redOp] at hw'
        obtain ⟨h3, h4⟩ := loop_sum (fun j : Nat => run I elem (env.set (.var c) (some (.int (j : Int))))) _ _ _ hw'
        have hcount : countOf (run I n env) = m.toNat := by
          obtain ⟨v, hv, hm'⟩ := Option.bind_eq_some_iff.1 hm'
          rw [hv]
          rcases v with (_ | _ | _) | _ | _ <;> simp [Val.asInt] at hm'
          simp [countOf, hm']
        unfold Dot.sum at h2
        split at h2
        · cases h2
        · cases h2
          intro s hs
          obtain ⟨s, hmem, rfl⟩ := List.mem_map.1 hs
          intro j hj
          rw [hcount] at hj
          obtain ⟨x, hx⟩ := h3 j (by simpa using hj)
          exact ih elem _ d' h1 he (lexical_operand l6 _ ht) ((hf.child (t := node (.op f) ts) (by simp)).child ht)
            _ _ hx s hmem
      · cases h; exact pure _ hw
    · rename_i x y
      obtain ⟨d1, h1, h⟩ := Option.bind_eq_some_iff.1 h
      obtain ⟨d2, h2, h⟩ := Option.bind_eq_some_iff.1 h
      rw [run_node] at hw
      obtain ⟨u, v, hu, hv, rfl⟩ := op_float (f := .add) (· + ·) (by
        rintro (_ | _ | _) (_ | _ | _) r h <;> simp [applyOp] at h
        exact ⟨_, _, rfl, rfl, by rw [← h, RingFloat.add]⟩) hw
      exact addF h (ih x S d1 h1 (hs.children _ (by simp)) (lexical_operand hl _ (by simp)) (hf.child (by simp)) _ _ hu)
        (ih y S d2 h2 (hs.children _ (by simp)) (lexical_operand hl _ (by simp)) (hf.child (by simp)) _ _ hv)
    · rename_i x
      obtain ⟨d1, h1, rfl⟩ := Option.map_eq_some_iff.1 h
      rw [run_node] at hw
      have : ∃ u, run I x env = some (.sc (.f u)) := by
        simp only [List.map_cons, List.map_nil, runDen] at hw
        generalize run I x env = v at hw
        rcases v with _ | ((_ | _ | _) | _ | _) <;> simp [opOf, mapOpt, Val.asScal, applyOp] at hw
        exact ⟨_, rfl⟩
      obtain ⟨u, hu⟩ := this
      exact negF (ih x S d1 h1 (hs.children _ (by simp)) (lexical_operand hl _ (by simp)) (hf.child (by simp)) _ _ hu)
    · rename_i x y
      obtain ⟨d1, h1, h⟩ := Option.bind_eq_some_iff.1 h
      obtain ⟨d2, h2, h⟩ := Option.bind_eq_some_iff.1 h
      rw [run_node] at hw
      obtain ⟨u, v, hu, hv, rfl⟩ := op_float (f := .subtract) (· - ·) (by
        rintro (_ | _ | _) (_ | _ | _) r h <;> simp [applyOp] at h
        exact ⟨_, _, rfl, rfl, by rw [← h, RingFloat.sub]⟩) hw
      exact addF h (ih x S d1 h1 (hs.children _ (by simp)) (lexical_operand hl _ (by simp)) (hf.child (by simp)) _ _ hu)
        (negF (ih y S d2 h2 (hs.children _ (by simp)) (lexical_operand hl _ (by simp)) (hf.child (by simp)) _ _ hv))
    · rename_i x y
      obtain ⟨d1, h1, h⟩ := Option.bind_eq_some_iff.1 h
      obtain ⟨d2, h2, h⟩ := Option.bind_eq_some_iff.1 h
      split at h
      · rename_i hdis
        cases h
        have l1 := lexical_operand hl x (by simp)
        have l2 := lexical_operand hl y (by simp)
        have hd1 := lift_inv k x S d1 h1 (hs.children _ (by simp)) l1 (hf.child (by simp))
        have hd2 := lift_inv k y S d2 h2 (hs.children _ (by simp)) l2 (hf.child (by simp))
        rw [run_node] at hw
        obtain ⟨u, v, hu, hv, rfl⟩ := op_float (f := .multiply) (· * ·) (by
          rintro (_ | _ | _) (_ | _ | _) r h <;> simp [applyOp] at h
          exact ⟨_, _, rfl, rfl, by rw [← h, RingFloat.mul]⟩) hw
        exact allFloat_mul I hd1 hd2 (lexical_fv _ _ l1) (lexical_fv _ _ l2) hdis env
          (ih x S d1 h1 (hs.children _ (by simp)) l1 (hf.child (by simp)) _ _ hu)
          (ih y S d2 h2 (hs.children _ (by simp)) l2 (hf.child (by simp)) _ _ hv)
      · cases h; exact pure _ hw
    · cases h; exact pure _ hw

/-! ### Counters and indices -/

/-- The counters have the values of their new indices. -/
def setVars (new : Nat → Nat) (ρ : Nat → Nat) : List (Nat × Expr F) → Env (D F) → Env (D F)
  | [], env => env
  | (c, _) :: cs, env => setVars new ρ cs (env.set (.var c) (some (.int (ρ (new c)))))

/-- What the sizes of nested sums do not depend on, and their values. -/
def SizesAre (I : Ext F) (new : Nat → Nat) (σ : Nat → Nat) (cs : List (Nat × Expr F)) (env : Env (D F)) : Prop :=
  ∀ q ∈ cs, Scoped q.2 ∧ (∀ r ∈ cs, Sym.var r.1 ∉ fv q.2) ∧ countOf (run I q.2 env) = σ (new q.1)

theorem SizesAre.tail {I : Ext F} {new : Nat → Nat} {σ : Nat → Nat} {c : Nat} {n : Expr F} {cs : List (Nat × Expr F)}
    {env : Env (D F)} (h : SizesAre I new σ ((c, n) :: cs) env) (v : Option (D F)) :
    SizesAre I new σ cs (env.set (.var c) v) := by
  intro q hq
  obtain ⟨h1, h2, h3⟩ := h q (by simp [hq])
  refine ⟨h1, fun r hr => h2 r (by simp [hr]), ?_⟩
  rw [← h3, run_agree h1]
  intro s hs
  have : s ≠ .var c := fun e => h2 (c, n) (by simp) (e ▸ hs)
  simp [Env.set, this]

theorem sumOver_nested (I : Ext F) {new : Nat → Nat} {σ : Nat → Nat} {cs : List (Nat × Expr F)} (p : List (Expr F)) :
    ∀ (env : Env (D F)) (ρ : Nat → Nat), (cs.map fun q => new q.1).Nodup → SizesAre I new σ cs env →
      nested I cs p env = sumOver σ (cs.map fun q => new q.1) (fun ρ' => prodOf I p (setVars new ρ' cs env)) ρ := by
  induction cs with
  | nil => intro env ρ _ _; rfl
  | cons q cs ih =>
    obtain ⟨c, n⟩ := q
    intro env ρ hn hs
    obtain ⟨h1, h2⟩ := List.nodup_cons.1 hn
    rw [nested_cons, (hs (c, n) (by simp)).2.2]
    refine Finset.sum_congr rfl fun j _ => ?_
    rw [ih _ (upd ρ (new c) j) h2 (hs.tail _)]
    refine sumOver_congr σ _ (fun ρ' h3 _ => ?_) h2
    have : ρ' (new c) = j := by rw [h3 _ h1]; simp [upd]
    simp only [setVars, this]

theorem allFloat_setVars (I : Ext F) {new : Nat → Nat} {σ : Nat → Nat} {cs : List (Nat × Expr F)} {p : List (Expr F)}
    {ρ : Nat → Nat} : ∀ env : Env (D F), SizesAre I new σ cs env → AllFloat I cs p env →
      (∀ q ∈ cs, ρ (new q.1) < σ (new q.1)) → ∀ f ∈ p, ∃ x, run I f (setVars new ρ cs env) = some (.sc (.f x)) := by
  induction cs with
  | nil => exact fun env _ h _ => h
  | cons q cs ih =>
    obtain ⟨c, n⟩ := q
    intro env hs ha hρ
    refine ih _ (hs.tail _) (ha _ ?_) fun q hq => hρ q (by simp [hq])
    rw [(hs (c, n) (by simp)).2.2]
    exact hρ (c, n) (by simp)

theorem setVars_other {new : Nat → Nat} {ρ : Nat → Nat} {cs : List (Nat × Expr F)} {s : Sym} :
    ∀ env : Env (D F), (∀ q ∈ cs, s ≠ .var q.1) → setVars new ρ cs env s = env s := by
  induction cs with
  | nil => intro env _; rfl
  | cons q cs ih =>
    obtain ⟨c, n⟩ := q
    intro env h
    rw [setVars, ih _ fun q hq => h q (by simp [hq])]
    simp [Env.set, h (c, n) (by simp)]

theorem setVars_counter {new : Nat → Nat} {ρ : Nat → Nat} {cs : List (Nat × Expr F)} {c : Nat} :
    ∀ env : Env (D F), ((∃ q ∈ cs, q.1 = c) ∨ env (.var c) = some (.int (ρ (new c)))) →
      setVars new ρ cs env (.var c) = some (.int (ρ (new c))) := by
  induction cs with
  | nil => intro env h; simpa [setVars] using h
  | cons r cs ih =>
    obtain ⟨c', n⟩ := r
    intro env h
    rw [setVars]
    refine ih _ ?_
    by_cases hc : c' = c
    · subst hc; exact .inr (by simp [Env.set])
    · rcases h with ⟨q, hq, rfl⟩ | h
      · rcases List.mem_cons.1 hq with rfl | hq
        · exact absurd rfl hc
        · exact .inl ⟨q, hq, rfl⟩
      · refine .inr ?_
        have : Sym.var c ≠ Sym.var c' := fun e => hc (Sym.var.inj e).symm
        simp [Env.set, this, h]

/-- The indices have the values `ρ`. -/
def setIdx (ρ : Nat → Nat) : List Nat → Env (D F) → Env (D F)
  | [], env => env
  | i :: l, env => setIdx ρ l (env.set (.idx i) (some (.int (ρ i))))

theorem setIdx_other {ρ : Nat → Nat} {l : List Nat} {s : Sym} : ∀ env : Env (D F), (∀ i ∈ l, s ≠ .idx i) →
    setIdx ρ l env s = env s := by
  induction l with
  | nil => intro env _; rfl
  | cons i l ih =>
    intro env h
    rw [setIdx, ih _ fun q hq => h q (by simp [hq])]
    simp [Env.set, h i (by simp)]

theorem setIdx_index {ρ : Nat → Nat} {l : List Nat} {i : Nat} : ∀ env : Env (D F),
    (i ∈ l ∨ env (.idx i) = some (.int (ρ i))) → setIdx ρ l env (.idx i) = some (.int (ρ i)) := by
  induction l with
  | nil => intro env h; simpa [setIdx] using h
  | cons k l ih =>
    intro env h
    rw [setIdx]
    refine ih _ ?_
    by_cases hk : k = i
    · subst hk; exact .inr (by simp [Env.set])
    · rcases h with h | h
      · exact .inl ((List.mem_cons.1 h).resolve_left (Ne.symm hk))
      · refine .inr ?_
        have : Sym.idx i ≠ Sym.idx k := fun e => hk (Sym.idx.inj e).symm
        simp [Env.set, this, h]

theorem lookup_realised {cs : List (Nat × Expr F)} {new : Nat → Nat} {c : Nat} (h : ∃ q ∈ cs, q.1 = c) :
    Midend.lookup (Sym.var c) (cs.map fun q => (Sym.var q.1, (at_ (new q.1) : Expr F))) = some (at_ (new c)) := by
  induction cs with
  | nil => simp at h
  | cons r cs ih =>
    simp only [List.map_cons, Midend.lookup]
    by_cases e : Sym.var c = .var r.1
    · rw [if_pos e, Sym.var.inj e]
    · rw [if_neg e]
      refine ih ?_
      obtain ⟨q, hq, rfl⟩ := h
      rcases List.mem_cons.1 hq with rfl | hq
      · exact absurd rfl e
      · exact ⟨q, hq, rfl⟩

theorem lookup_realised_none {cs : List (Nat × Expr F)} {new : Nat → Nat} {s : Sym} (h : ∀ q ∈ cs, s ≠ .var q.1) :
    Midend.lookup s (cs.map fun q => (Sym.var q.1, (at_ (new q.1) : Expr F))) = none := by
  induction cs with
  | nil => rfl
  | cons r cs ih =>
    simp only [List.map_cons, Midend.lookup]
    rw [if_neg (h r (by simp))]
    exact ih fun q hq => h q (by simp [hq])

/-- A factor with indices in place of the counters. -/
theorem run_withIndices (I : Ext F) {new : Nat → Nat} {d : Dot F} {f : Expr F} {own : List (Nat × Expr F)}
    {ρ : Nat → Nat} {env : Env (D F)} (hs : Scoped f) (hown : ∀ q ∈ own, q ∈ d.contract)
    (hb : ∀ q ∈ d.contract, Sym.var q.1 ∉ binders f ∧ Sym.idx (new q.1) ∉ binders f)
    (hf : ∀ s ∈ fv f, ((∀ q ∈ d.contract, s ≠ .var q.1) ∧ ∀ q ∈ own, s ≠ .idx (new q.1)) ∨ ∃ q ∈ own, s = .var q.1) :
    run I (withIndices new d f) (setIdx ρ (own.map fun q => new q.1) env) = run I f (setVars new ρ own env) := by
  have h := substitute_strict (Phi.strict I) (fun h fs s env hs => by
      change Phi.Head.symbol h = some s at hs
      cases h <;> simp only [Phi.Head.symbol, reduceCtorEq, Option.some.injEq] at hs
      subst hs; rfl) (d.contract.map fun q => (Sym.var q.1, at_ (new q.1))) (fun p hp => by
        obtain ⟨q, _, rfl⟩ := List.mem_map.1 hp
        exact scoped_at _) f hs (by
        rw [Finset.disjoint_right]
        intro s hs'
        rcases Finset.mem_union.1 hs' with hs' | hs'
        · unfold keys at hs'
          rw [List.map_map, List.mem_toFinset] at hs'
          obtain ⟨q, hq, rfl⟩ := List.mem_map.1 hs'
          exact (hb q hq).1
        · have : ∃ q ∈ d.contract, s ∈ fv (at_ (new q.1) : Expr F) := by
            clear hb hf hown
            unfold rangeFv at hs'
            generalize d.contract = l at hs'
            induction l with
            | nil => simp at hs'
            | cons r l ih =>
              simp only [List.map_cons, List.foldr_cons, Finset.mem_union] at hs'
              rcases hs' with hs' | hs'
              · exact ⟨r, by simp, hs'⟩
              · obtain ⟨q, hq, h⟩ := ih hs'
                exact ⟨q, by simp [hq], h⟩
          obtain ⟨q, hq, hs'⟩ := this
          rw [mem_fv_at hs']
          exact (hb q hq).2) (setIdx ρ (own.map fun q => new q.1) env)
  refine h.trans (run_agree hs fun s hs' => ?_)
  unfold bindEnv
  rcases hf s hs' with ⟨h1, h2⟩ | ⟨q, hq, rfl⟩
  · rw [lookup_realised_none h1]
    show setIdx ρ _ env s = _
    rw [setIdx_other _ (by
      intro i hi
      obtain ⟨q, hq, rfl⟩ := List.mem_map.1 hi
      exact h2 q hq), setVars_other _ fun q hq => h1 q (hown q hq)]
  · rw [lookup_realised ⟨q, hown q hq, rfl⟩, setVars_counter _ (.inl ⟨q, hq, rfl⟩)]
    show run I (at_ _) _ = _
    unfold at_
    rw [run_node]
    simp only [runDen]
    exact setIdx_index _ (.inl (List.mem_map.2 ⟨q, hq, rfl⟩))

/-! ### More indices -/

/-- Other sizes for the indices `l`. -/
def over (M : Nat → Nat) : List Nat → (Nat → Nat) → Nat → Nat
  | [], σ => σ
  | i :: l, σ => over M l (upd σ i (M i))

theorem over_out {M : Nat → Nat} {l : List Nat} {i : Nat} (h : i ∉ l) : ∀ σ, over M l σ i = σ i := by
  induction l with
  | nil => intro σ; rfl
  | cons k l ih =>
    intro σ
    simp only [List.mem_cons, not_or] at h
    rw [over, ih h.2]
    simp [upd, h.1]

theorem over_in {M : Nat → Nat} {l : List Nat} {i : Nat} : ∀ σ, (i ∈ l ∨ σ i = M i) → over M l σ i = M i := by
  induction l with
  | nil => intro σ h; simpa [over] using h
  | cons k l ih =>
    intro σ h
    rw [over]
    refine ih _ ?_
    by_cases hk : i = k
    · subst hk; exact .inr (by simp [upd])
    · rcases h with h | h
      · exact .inl ((List.mem_cons.1 h).resolve_left hk)
      · exact .inr (by simp [upd, hk, h])

/-- The symbols in scope with more indices. -/
def addIdx : List Nat → Finset Sym → Finset Sym
  | [], S => S
  | i :: l, S => addIdx l (insert (.idx i) S)

theorem mem_addIdx {l : List Nat} {s : Sym} : ∀ {S : Finset Sym}, s ∈ addIdx l S ↔ s ∈ S ∨ ∃ i ∈ l, s = .idx i := by
  induction l with
  | nil => intro S; simp [addIdx]
  | cons i l ih =>
    intro S
    rw [addIdx, ih, Finset.mem_insert]
    simp only [List.mem_cons, exists_eq_or_imp]
    tauto

theorem inScope_addIdx (l : List Nat) (S : Finset Sym) : inScope (addIdx l S) = fun j => inScope S j ∨ j ∈ l := by
  funext j
  simp only [inScope, mem_addIdx, Sym.idx.injEq, exists_eq_right']

variable {J : YExt F} {S : Finset Sym} {σ : Nat → Nat} {sizes : Nat → Option (YExpr F)} {vaxes : Nat → List Nat}
  {E : (Nat → Nat) → Env (D F)} {yenv : Env (YVal F)}

/-- One more size. -/
theorem EnvRel.more (h : EnvRel J S σ sizes vaxes E yenv) {i m : Nat} {z : YExpr F} (hi : Sym.idx i ∉ S)
    (hz : ∀ yenv', Agree S yenv yenv' → EvalsInt J yenv' z m ∧ RankOk J yenv' z) :
    EnvRel J S (upd σ i m) (upd sizes i (some z)) vaxes E yenv := by
  have hne : ∀ {j}, Sym.idx j ∈ S → j ≠ i := fun hj e => hi (e ▸ hj)
  refine { h with pos := fun j hj => ?_, size := fun j z' hz' y hy => ?_, var := fun v hv => ?_ }
  · rw [upd, if_neg (hne hj)]; exact h.pos j hj
  · unfold upd at hz' ⊢
    split at hz'
    · rename_i e
      cases hz'
      rw [if_pos e]
      exact hz y hy
    · rename_i e
      rw [if_neg e]
      exact h.size j z' hz' y hy
  · obtain ⟨as, ss, h1, h2, h3⟩ := h.var v hv
    refine ⟨as, ss, h1, ?_, fun ρ hρ => h3 ρ fun j hj => ?_⟩
    · have : (vaxes v).map (upd σ i m) = (vaxes v).map σ := by
        refine List.map_congr_left fun j hj => ?_
        simp [upd, hne (h.axes v j hj)]
      rw [this]; exact h2
    · have := hρ j hj
      simpa [upd, hne hj] using this

theorem EnvRel.mores {M : Nat → Nat} (ns : List (Nat × YExpr F)) : ∀ {σ sizes}, EnvRel J S σ sizes vaxes E yenv →
    (∀ p ∈ ns, Sym.idx p.1 ∉ S ∧ ∀ yenv', Agree S yenv yenv' → EvalsInt J yenv' p.2 (M p.1) ∧ RankOk J yenv' p.2) →
    EnvRel J S (over M (ns.map Prod.fst) σ) (withSums sizes ns) vaxes E yenv := by
  induction ns with
  | nil => intro σ sizes h _; exact h
  | cons p ns ih =>
    intro σ sizes h hp
    obtain ⟨h1, h2⟩ := hp p (by simp)
    exact ih (h.more h1 h2) fun q hq => hp q (by simp [hq])

/-- One more index in scope. -/
theorem EnvRel.enter (h : EnvRel J S σ sizes vaxes E yenv) {i : Nat} (hi : Sym.idx i ∉ S) (hm : 0 < σ i)
    (hz : (sizes i).isSome) : EnvRel J (insert (.idx i) S) σ sizes vaxes
      (fun ρ => (E ρ).set (.idx i) (some (.int (ρ i)))) yenv := by
  obtain ⟨z, hz⟩ := Option.isSome_iff_exists.1 hz
  have := h.under hi hm fun yenv' ha => h.size i z hz yenv' ha
  have e1 : upd σ i (σ i) = σ := by
    funext j
    unfold upd
    split
    · rename_i e; rw [e]
    · rfl
  have e2 : upd sizes i (some z) = sizes := by
    funext j
    unfold upd
    split
    · rename_i e; rw [e, hz]
    · rfl
  rwa [e1, e2] at this

theorem EnvRel.enters (l : List Nat) : ∀ {S E}, EnvRel J S σ sizes vaxes E yenv → l.Nodup →
    (∀ i ∈ l, Sym.idx i ∉ S ∧ 0 < σ i ∧ (sizes i).isSome) →
    EnvRel J (addIdx l S) σ sizes vaxes (fun ρ => setIdx ρ l (E ρ)) yenv := by
  induction l with
  | nil => intro S E h _ _; exact h
  | cons i l ih =>
    intro S E h hn hl
    obtain ⟨h1, h2, h3⟩ := hl i (by simp)
    obtain ⟨hn1, hn2⟩ := List.nodup_cons.1 hn
    refine ih (h.enter h1 h2 h3) hn2 fun k hk => ⟨fun hm => ?_, (hl k (by simp [hk])).2⟩
    rcases Finset.mem_insert.1 hm with e | hm
    · exact hn1 (Sym.idx.inj e ▸ hk)
    · exact (hl k (by simp [hk])).1 hm

theorem withSums_in {ns : List (Nat × YExpr F)} {i : Nat} : ∀ {sizes : Nat → Option (YExpr F)},
    ((∃ p ∈ ns, p.1 = i) ∨ (sizes i).isSome) → (withSums sizes ns i).isSome := by
  induction ns with
  | nil => intro sizes h; simpa [withSums] using h
  | cons q ns ih =>
    intro sizes h
    show (withSums (upd sizes q.1 (some q.2)) ns i).isSome
    refine ih ?_
    by_cases hk : i = q.1
    · exact .inr (by simp [upd, hk])
    · rcases h with ⟨p, hp, e⟩ | h
      · rcases List.mem_cons.1 hp with rfl | hp
        · exact absurd e.symm hk
        · exact .inl ⟨p, hp, e⟩
      · exact .inr (by simp [upd, hk, h])

/-! ### The einsum branch -/

/-- What the compiler takes for granted about a sum of products. `new` gives the new indices, `M` their sizes.
* `closed`, `binders`: names are bound once;
* `acc`: the elements do not mention the accumulators;
* `newIdx`, `inj`: the new indices are new and different;
* `sizesScope`: the sizes do not mention the counters;
* `capture`: no binder in a factor binds a counter or a new index;
* `factorScope`: the factors are well-formed with the new indices;
* `axis`: the code of a factor of each summand has the new index of the counter among its axes, for all counters
  of the summand;
* `sizesVal`, `factorVal`: sizes and factors have values, and these do not violate the conditions of C01. -/
structure Contractible (o : Opts F) (I : Ext F) (S : Finset Sym) (σ : Nat → Nat) (vaxes : Nat → List Nat)
    (E : (Nat → Nat) → Env (D F)) (new M : Nat → Nat) (e : Expr F) (d : Dot F) : Prop where
  closed : Scoped e
  binders : lexical e S = true
  acc : AccFree e
  newIdx : ∀ q ∈ d.contract, Sym.idx (new q.1) ∉ S
  inj : ∀ q ∈ d.contract, ∀ r ∈ d.contract, new q.1 = new r.1 → q.1 = r.1
  sizesScope : ∀ q ∈ d.contract, lexical q.2 S = true
  capture : ∀ s ∈ d.summands, ∀ f ∈ s.2, ∀ q ∈ d.contract,
    Sym.var q.1 ∉ Term.binders f ∧ Sym.idx (new q.1) ∉ Term.binders f
  factorScope : ∀ s ∈ d.summands, ∀ f ∈ s.2,
    lexical (withIndices new d f) (addIdx (s.1.map fun q => new q.1) S) = true
  axis : ∀ s ∈ d.summands, ∀ q ∈ s.1, ∃ f ∈ s.2, new q.1 ∈ axesOf o (withIndices new d f) fun v => (vaxes v).toFinset
  sizesVal : ∀ q ∈ d.contract, 0 < M (new q.1) ∧
    ∀ ρ, Valid (inScope S) σ ρ → check o I true q.2 σ (E ρ) = some (.int (M (new q.1)))
  factorVal : ∀ s ∈ d.summands, ∀ f ∈ s.2,
    ∀ ρ, Valid (inScope (addIdx (s.1.map fun q => new q.1) S)) (over M (d.counters.map new) σ) ρ →
      ∃ v, check o I true (withIndices new d f) (over M (d.counters.map new) σ)
        (setIdx ρ (s.1.map fun q => new q.1) (E ρ)) = some v

theorem forall₂_flip {α β : Type} {R : α → β → Prop} {l : List α} {m : List β} (h : List.Forall₂ (fun a b => R b a) m l) :
    List.Forall₂ R l m := by
  induction h with
  | nil => exact .nil
  | cons h _ ih => exact .cons h ih

theorem forall₂_imp_left {α β : Type} {R T : α → β → Prop} {l : List α} {m : List β} (h : List.Forall₂ R l m) :
    (∀ a ∈ l, ∀ b, R a b → T a b) → List.Forall₂ T l m := by
  induction h with
  | nil => exact fun _ => .nil
  | cons h _ ih => exact fun hT => .cons (hT _ (by simp) _ h) (ih fun a ha => hT a (by simp [ha]))

theorem mapOpt_forall₂ {α β : Type} {f : α → Option β} {l : List α} : ∀ {m : List β}, mapOpt f l = some m →
    List.Forall₂ (fun a b => f a = some b) l m := by
  induction l with
  | nil => intro m h; simp [mapOpt] at h; subst h; exact .nil
  | cons a l ih =>
    intro m h
    simp only [mapOpt, Option.bind_eq_some_iff, Option.some.injEq] at h
    obtain ⟨b, hb, m, hm, rfl⟩ := h
    exact .cons hb (ih hm)

theorem lift_step {k : Nat} {e : Expr F} {d : Dot F} (equiv : Expr F → Expr F → Bool)
    (go : (Nat → Option (YExpr F)) → Expr F → Option (Axial F)) (sizes : Nat → Option (YExpr F)) (new : Nat → Nat)
    {y : Axial F} (hd : lift k e = some d) (h : einsumFold equiv go sizes new k e = some (some y)) :
    ∃ ns xs, mapOpt (fun q : Nat × Expr F => ((go sizes q.2).bind Axial.normal).map fun n => (new q.1, n)) d.contract =
        some ns ∧ mapOpt (fun p : List (Expr F) => mapOpt (fun f => go (withSums sizes ns) (withIndices new d f)) p)
          d.products = some xs ∧ einsumCode (d.counters.map new) xs = some y := by
  unfold einsumFold at h
  rw [hd] at h
  dsimp only at h
  split at h
  · split at h
    · cases h
    · rename_i ns hns
      split at h
      · obtain ⟨xs, h1, h2⟩ := Option.bind_eq_some_iff.1 (Option.some.inj h)
        exact ⟨ns, xs, hns, h1, h2⟩
      · cases h
  · cases h

/-- The code of a sum of products computes the value of the fold. -/
theorem means_dot [RingFloat F] [AssocFloat F] {o : Opts F} {I : Ext F} {new M : Nat → Nat} {e : Expr F}
    {d : Dot F} {k fuel : Nat} {y : Axial F} {ns : List (Nat × YExpr F)} {xs : List (List (Axial F))}
    (hcor : Correct o I J fuel) (hE : EnvRel J S σ sizes vaxes E yenv)
    (hd : lift k e = some d) (hc : Contractible o I S σ vaxes E new M e d)
    (hns : mapOpt (fun q : Nat × Expr F => ((compile o fuel sizes vaxes q.2).bind Axial.normal).map fun n => (new q.1, n))
      d.contract = some ns)
    (hxs : mapOpt (fun p : List (Expr F) => mapOpt (fun f => compile o fuel (withSums sizes ns) vaxes (withIndices new d f)) p)
      d.products = some xs)
    (hy : einsumCode (d.counters.map new) xs = some y)
    (hv : ∀ ρ, Valid (inScope S) σ ρ → ∃ w : F, run I e (E ρ) = some (.sc (.f w))) :
    Means J yenv (inScope S) σ y fun ρ => run I e (E ρ) := by
  have inv := lift_inv k e S d hd hc.closed hc.binders hc.acc
  have hfst : ns.map Prod.fst = d.counters.map new := by
    have := mapOpt_forall₂ hns
    unfold Dot.counters
    clear hy hxs hc inv hns
    generalize d.contract = l at this
    induction this with
    | nil => rfl
    | cons h _ ih =>
      obtain ⟨n, _, rfl⟩ := Option.map_eq_some_iff.1 h
      simpa using ih
  have hz0 : Valid (inScope S) σ fun _ => 0 := valid_zero hE.pos
  have hsz : ∀ p ∈ ns, Sym.idx p.1 ∉ S ∧
      ∀ yenv', Agree S yenv yenv' → EvalsInt J yenv' p.2 (M p.1) ∧ RankOk J yenv' p.2 := by
    intro p hp'
    obtain ⟨q, hq, h⟩ := forall₂_mem_right (mapOpt_forall₂ hns) hp'
    obtain ⟨n, hn, rfl⟩ := Option.map_eq_some_iff.1 h
    obtain ⟨x, hx, hn⟩ := Option.bind_eq_some_iff.1 hn
    refine ⟨hc.newIdx q hq, fun yenv' ha => ?_⟩
    obtain ⟨_, hval⟩ := hc.sizesVal q hq
    obtain ⟨K, h1, h2, h3⟩ := (hcor (hE.agree ha) (hc.sizesScope q hq) (fun ρ hρ => ⟨_, hval ρ hρ⟩) hx).int hE.pos hn
      fun ρ hρ => ⟨_, hval ρ hρ⟩
    have : K = M (new q.1) := by
      have := (h3 _ hz0).symm.trans (hval _ hz0)
      simpa [Val.int] using this
    exact ⟨this ▸ h1, h2⟩
  have hE1 := hE.mores ns hsz
  rw [hfst] at hE1
  set σ' := over M (d.counters.map new) σ with hσ'
  have hσS : ∀ i, Sym.idx i ∈ S → σ' i = σ i := by
    intro i hi
    refine over_out (fun hm => ?_) σ
    obtain ⟨c, hc', rfl⟩ := List.mem_map.1 hm
    obtain ⟨q, hq, rfl⟩ := List.mem_map.1 hc'
    exact hc.newIdx q hq hi
  have hσM : ∀ q ∈ d.contract, σ' (new q.1) = M (new q.1) := fun q hq =>
    over_in σ (.inl (List.mem_map.2 ⟨q.1, List.mem_map.2 ⟨q, hq, rfl⟩, rfl⟩))
  have hvalid : ∀ ρ, Valid (inScope S) σ' ρ ↔ Valid (inScope S) σ ρ := fun ρ =>
    ⟨fun h i hi => hσS i hi ▸ h i hi, fun h i hi => (hσS i hi).symm ▸ h i hi⟩
  have hown : ∀ s ∈ d.summands, (s.1.map fun q => new q.1).Nodup := by
    intro s hs
    have h1 := inv.own s hs
    have h2 := inv.sub s hs
    clear hxs hy
    generalize s.1 = l at h1 h2
    induction l with
    | nil => simp
    | cons q l ih =>
      rw [List.map_cons, List.nodup_cons] at h1 ⊢
      refine ⟨fun hm => h1.1 ?_, ih h1.2 fun r hr => h2 r (by simp [hr])⟩
      obtain ⟨r, hr, e⟩ := List.mem_map.1 hm
      exact List.mem_map.2 ⟨r, hr, hc.inj r (h2 r (by simp [hr])) q (h2 q (by simp)) e⟩
  have hES : ∀ s ∈ d.summands, EnvRel J (addIdx (s.1.map fun q => new q.1) S) σ' (withSums sizes ns) vaxes
      (fun ρ => setIdx ρ (s.1.map fun q => new q.1) (E ρ)) yenv := by
    intro s hs
    refine hE1.enters _ (hown s hs) fun i hi => ?_
    obtain ⟨q, hq, rfl⟩ := List.mem_map.1 hi
    have hq' := inv.sub s hs q hq
    refine ⟨hc.newIdx q hq', ?_, withSums_in (.inl ?_)⟩
    · rw [hσM q hq']; exact (hc.sizesVal q hq').1
    · have : new q.1 ∈ ns.map Prod.fst := by
        rw [hfst]
        exact List.mem_map.2 ⟨q.1, List.mem_map.2 ⟨q, hq', rfl⟩, rfl⟩
      obtain ⟨p, hp', e⟩ := List.mem_map.1 this
      exact ⟨p, hp', e⟩
  -- the values of the factors
  have hfv : ∀ s ∈ d.summands, ∀ f ∈ s.2, ∀ t ∈ fv f,
      ((∀ q ∈ d.contract, t ≠ .var q.1) ∧ ∀ q ∈ s.1, t ≠ .idx (new q.1)) ∨ ∃ q ∈ s.1, t = .var q.1 := by
    intro s hs f hf t ht
    rcases (inv.factors s hs f hf).2 t ht with h | h
    · have htS := lexical_fv _ _ hc.binders h
      exact .inl ⟨fun q hq e => inv.fresh q hq (e ▸ htS), fun q hq e => hc.newIdx q (inv.sub s hs q hq) (e ▸ htS)⟩
    · exact .inr h
  have hrun : ∀ s ∈ d.summands, ∀ f ∈ s.2, ∀ ρ, run I (withIndices new d f) (setIdx ρ (s.1.map fun q => new q.1) (E ρ)) =
      run I f (setVars new ρ s.1 (E ρ)) := fun s hs f hf ρ =>
    run_withIndices I (inv.factors s hs f hf).1 (inv.sub s hs) (hc.capture s hs f hf) (hfv s hs f hf)
  have hsizes : ∀ s ∈ d.summands, ∀ ρ, Valid (inScope S) σ ρ → SizesAre I new σ' s.1 (E ρ) := by
    intro s hs ρ hρ q hq
    have hq' := inv.sub s hs q hq
    refine ⟨(inv.sizes s hs q hq).1, fun r hr hm => ?_, ?_⟩
    · exact inv.fresh r (inv.sub s hs r hr) (lexical_fv _ _ (hc.sizesScope q hq') hm)
    · rw [check_run _ _ _ _ ((hc.sizesVal q hq').2 ρ hρ), hσM q hq']
      simp [countOf]
  have main := means_einsum (J := J) (yenv := yenv) (S := inScope S) (σ := σ') (sums := d.counters.map new)
    (products := xs) (y := y)
    (ps := d.summands.map fun s => (s.1.map fun q => new q.1, s.2.map fun f ρ =>
      run I (withIndices new d f) (setIdx ρ (s.1.map fun q => new q.1) (E ρ))))
    hE1.pos (fun i hi => by
      obtain ⟨c, hc', rfl⟩ := List.mem_map.1 hi
      obtain ⟨q, hq, rfl⟩ := List.mem_map.1 hc'
      exact hc.newIdx q hq) (by
    have h2 : List.Forall₂ (fun (s : List (Nat × Expr F) × List (Expr F)) x =>
        mapOpt (fun f => compile o fuel (withSums sizes ns) vaxes (withIndices new d f)) s.2 = some x) d.summands xs := by
      have := mapOpt_forall₂ hxs
      unfold Dot.products at this
      exact List.forall₂_map_left_iff.1 this
    rw [List.forall₂_map_right_iff]
    refine forall₂_flip (forall₂_imp_left h2 fun s hs x hx => ?_)
    have h3 := mapOpt_forall₂ hx
    refine ⟨?_, ?_, ?_, ?_, hown s hs, ?_, ?_⟩
    · rw [List.forall₂_map_right_iff]
      refine forall₂_flip (forall₂_imp_left h3 fun f hf a ha => ?_)
      have h4 := hcor (hES s hs) (hc.factorScope s hs f hf) (hc.factorVal s hs f hf) ha
      rw [inScope_addIdx] at h4
      refine h4.congr fun ρ hρ => ?_
      obtain ⟨v, h5⟩ := hc.factorVal s hs f hf ρ (by rw [inScope_addIdx]; exact hρ)
      rw [h5, check_run _ _ _ _ h5]
    · have := (hES s hs).pos
      rwa [inScope_addIdx] at this
    · intro v hv' ρ hρ
      obtain ⟨f, hf, rfl⟩ := List.mem_map.1 hv'
      dsimp only at hρ ⊢
      rw [hrun s hs f hf]
      have hρS : Valid (inScope S) σ ρ := (hvalid ρ).1 fun i hi => hρ i (.inl hi)
      obtain ⟨w, hw⟩ := hv ρ hρS
      exact allFloat_setVars I _ (hsizes s hs ρ hρS)
        (lift_floats I k e S d hd hc.closed hc.binders hc.acc _ w hw s hs)
        (fun q hq => hρ _ (.inr (List.mem_map.2 ⟨q, hq, rfl⟩))) f hf
    · rintro rfl
      cases h : s.2 with
      | nil => exact inv.nonempty s hs h
      | cons f p => rw [h] at h3; cases h3
    · intro i hi
      obtain ⟨q, hq, rfl⟩ := List.mem_map.1 hi
      exact List.mem_map.2 ⟨q.1, List.mem_map.2 ⟨q, inv.sub s hs q hq, rfl⟩, rfl⟩
    · intro i hi
      obtain ⟨q, hq, rfl⟩ := List.mem_map.1 hi
      obtain ⟨f, hf, ha⟩ := hc.axis s hs q hq
      obtain ⟨a, ha', hfa⟩ := forall₂_mem_left h3 hf
      exact ⟨a, ha', ((compile_axes o fuel _ vaxes _ _ a (fun _ _ => List.mem_toFinset.symm) hfa).2 _).2 ha⟩) hy
  have hvalue : ∀ ρ, Valid (inScope S) σ ρ → some (.sc (.f (((d.summands.map fun s => ((s.1.map fun q => new q.1),
      s.2.map fun f ρ => run I (withIndices new d f) (setIdx ρ (s.1.map fun q => new q.1) (E ρ)))).map fun p : Product F =>
        sumOver σ' p.1 (fun ρ => (p.2.map fun v => floatOf (v ρ)).prod) ρ).sum))) = run I e (E ρ) := by
    intro ρ hρ
    obtain ⟨w, hw⟩ := hv ρ hρ
    rw [hw, run_lift I k e S d hd hc.closed hc.binders hc.acc _ w hw, List.map_map]
    unfold total
    congr 4
    refine List.map_congr_left fun s hs => ?_
    dsimp only [Function.comp]
    rw [sumOver_nested I s.2 (E ρ) ρ (hown s hs) (hsizes s hs ρ hρ)]
    refine sumOver_congr σ' ρ (fun ρ' h1 _ => ?_) (hown s hs)
    have hEE : E ρ' = E ρ := hE.locl ρ' ρ fun i hi => h1 i fun hm => by
      obtain ⟨q, hq, rfl⟩ := List.mem_map.1 hm
      exact hc.newIdx q (inv.sub s hs q hq) hi
    unfold prodOf
    rw [List.map_map]
    congr 1
    refine List.map_congr_left fun f hf => ?_
    dsimp only [Function.comp]
    rw [hrun s hs f hf, hEE]
  obtain ⟨h1, as, ss, h2, h3⟩ := main
  refine ⟨h1, as, ss, { h2 with shape := ?_ }, fun ρ hρ => ?_⟩
  · have : y.axes.map σ' = y.axes.map σ := List.map_congr_left fun i hi => hσS i (h1 i hi)
    rw [← this]
    exact h2.shape
  · obtain ⟨w, h4, h5⟩ := h3 ρ ((hvalid ρ).2 hρ)
    exact ⟨w, (hvalue ρ hρ).symm.trans h4, h5⟩

theorem means_einsumFold [RingFloat F] [AssocFloat F] {o : Opts F} {I : Ext F} {new M : Nat → Nat} {e : Expr F}
    {d : Dot F} {k fuel : Nat} {y : Axial F} (equiv : Expr F → Expr F → Bool)
    (hcor : Correct o I J fuel) (hE : EnvRel J S σ sizes vaxes E yenv)
    (hd : lift k e = some d) (hc : Contractible o I S σ vaxes E new M e d)
    (hy : einsumFold equiv (fun sizes => compile o fuel sizes vaxes) sizes new k e = some (some y))
    (hv : ∀ ρ, Valid (inScope S) σ ρ → ∃ w : F, run I e (E ρ) = some (.sc (.f w))) :
    Means J yenv (inScope S) σ y fun ρ => run I e (E ρ) := by
  obtain ⟨ns, xs, hns, hxs, hy⟩ := lift_step equiv _ sizes new hd hy
  exact means_dot hcor hE hd hc hns hxs hy hv

end
end Verif.Codegen
