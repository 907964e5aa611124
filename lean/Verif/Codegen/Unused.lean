import Verif.Codegen.Env

/-! The value and the range of an index that an expression does not mention are irrelevant for the checked
interpreter. -/

set_option linter.unusedSectionVars false

namespace Verif.Codegen
open Verif.Phi Verif.Term Verif.Yarr Verif.Arr
variable {F : Type}

/-- The same ranges and values, except for those of the index `B`, which has a value in both. -/
structure Off (B : Nat) (sz sz' : Nat → Nat) (env env' : Env (D F)) : Prop where
  size : ∀ i, i ≠ B → sz i = sz' i
  val : ∀ s, s ≠ Sym.idx B → env s = env' s
  left : (env (.idx B)).isSome = true
  right : (env' (.idx B)).isSome = true

variable {B : Nat} {sz sz' : Nat → Nat} {env env' : Env (D F)}

theorem Off.symm (h : Off B sz sz' env env') : Off B sz' sz env' env :=
  ⟨fun i hi => (h.size i hi).symm, fun s hs => (h.val s hs).symm, h.right, h.left⟩

theorem Off.upd (h : Off B sz sz' env env') (i m : Nat) : Off B (upd sz i m) (upd sz' i m) env env' :=
  { h with size := fun j hj => by unfold Codegen.upd; split; exacts [rfl, h.size j hj] }

theorem Off.set (h : Off B sz sz' env env') (s : Sym) (v : D F) :
    Off B sz sz' (env.set s (some v)) (env'.set s (some v)) where
  size := h.size
  val s' hs' := by unfold Env.set; split; exacts [rfl, h.val s' hs']
  left := by unfold Env.set; split; exacts [rfl, h.left]
  right := by unfold Env.set; split; exacts [rfl, h.right]

theorem Off.override (h : Off B sz sz' env env') {c : Finset Sym} (hc : Sym.idx B ∉ c) (ext : Env (D F)) :
    Off B sz sz' (env.override c ext) (env'.override c ext) where
  size := h.size
  val s' hs' := by unfold Env.override; split; exacts [rfl, h.val s' hs']
  left := by unfold Env.override; rw [if_neg hc]; exact h.left
  right := by unfold Env.override; rw [if_neg hc]; exact h.right

theorem Off.isNone (h : Off B sz sz' env env') (s : Sym) : (env s).isNone = (env' s).isNone := by
  by_cases e : s = .idx B
  · subst e
    have h1 := h.left
    have h2 := h.right
    cases h3 : env (.idx B) <;> cases h4 : env' (.idx B) <;> simp_all
  · rw [h.val s e]

theorem Off.unused (h : Off B sz sz' env env') (t : Expr F) : unused env t = unused env' t := by
  unfold Codegen.unused
  simp only [h.isNone]

theorem Off.absent (h : Off B sz sz' env env') {t : Expr F} (hu : Codegen.unused env t = true)
    (hf : Sym.idx B ∉ fv t) : Codegen.absent (.idx B) t = true := by
  simp only [Codegen.unused, decide_eq_true_eq] at hu
  simp only [Codegen.absent, decide_eq_true_eq]
  refine ⟨hf, fun hb => ?_⟩
  have h1 := hu _ hb
  have h2 := h.left
  cases h3 : env (.idx B) <;> simp_all

variable [FloatOps F]

theorem Off.run (h : Off B sz sz' env env') (I : Ext F) {t : Expr F} (ha : Codegen.absent (.idx B) t = true) :
    run I t env = run I t env' := run_absent t env env' ha h.val

theorem absent_op {f : ScalarOp} {ts : List (Expr F)} {s : Sym} :
    absent s (node (.op f) ts) = true ↔ ∀ t ∈ ts, absent s t = true := by
  have hs : Lang.symbol (Phi.Head.op f : Phi.Head F) = none := rfl
  have hc : Lang.captured (Phi.Head.op f : Phi.Head F) = ∅ := rfl
  simp only [absent, decide_eq_true_eq, mem_fv, mem_binders, hs, hc]
  constructor
  · intro h t ht
    exact ⟨fun hf => h.1 ⟨.inr ⟨t, ht, hf⟩, by simp⟩, fun hb => h.2 (.inr ⟨t, ht, hb⟩)⟩
  · intro h
    refine ⟨fun h' => ?_, fun h' => ?_⟩
    · rcases h'.1 with h' | ⟨t, ht, hf⟩
      · cases h'
      · exact (h t ht).1 hf
    · rcases h' with h' | ⟨t, ht, hf⟩
      · simp at h'
      · exact (h t ht).2 hf

theorem Off.readOk (h : Off B sz sz' env env') (o : Opts F) (I : Ext F) {t i : Expr F}
    (ht : Codegen.absent (.idx B) t = true) (hi : Codegen.absent (.idx B) i = true) :
    readOk o I sz env t i = readOk o I sz' env' t i := by
  unfold Codegen.readOk
  cases hw : window o t i with
  | none => rfl
  | some w =>
    obtain ⟨index, c⟩ := w
    obtain ⟨h1, -, hm⟩ := window_index hw
    have hne : index ≠ B := by
      rintro rfl
      simp only [Codegen.absent, decide_eq_true_eq] at hi
      exact hi.1 h1
    simp only [matchIndexClip, Option.bind_eq_some_iff, Option.map_eq_some_iff, Prod.mk.injEq] at hm
    obtain ⟨j, _, c', hm, rfl, rfl⟩ := hm
    have hp := matchClip_parts (G := fun e => Codegen.absent (.idx B) e = true) (fun f _ a b hG => by
        have := absent_op.1 hG; exact ⟨this a (by simp), this b (by simp)⟩)
      (fun f _ a b ha hb => absent_op.2 (by simp [ha, hb])) (fun a ha => absent_op.2 (by simp [ha])) _ i hi _ hm
    have hl : lowOk I env c'.2.1 = lowOk I env' c'.2.1 := by
      cases hc : c'.2.1 with
      | none => rfl
      | some e => simp only [lowOk, h.run I (hp.2.1 e hc)]
    have hh : ∀ m, highOk I env m c'.2.2 = highOk I env' m c'.2.2 := by
      intro m
      cases hc : c'.2.2 with
      | none => rfl
      | some e => simp only [highOk, h.run I (hp.2.2 e hc)]
    simp only [h.run I ht, h.size j hne, hl, hh]

/-- The ranges of the new indices. -/
theorem Off.sumSizes {v w : Expr F → Option (D F)} (l : List (Nat × Expr F))
    (hv : ∀ q ∈ l, v q.2 = w q.2) : ∀ {sz sz'}, Off B sz sz' env env' → ∀ {s}, sumSizes v l sz = some s →
      ∃ s', sumSizes w l sz' = some s' ∧ Off B s s' env env' := by
  induction l with
  | nil => intro sz sz' h s hs; cases hs; exact ⟨_, rfl, h⟩
  | cons q l ih =>
    intro sz sz' h s hs
    obtain ⟨i, n⟩ := q
    simp only [Codegen.sumSizes, Option.bind_eq_some_iff] at hs ⊢
    obtain ⟨m, ⟨u, h1, h2⟩, hs⟩ := hs
    split at hs
    · rename_i hm
      obtain ⟨s', h3, h4⟩ := ih (fun r hr => hv r (by simp [hr])) (h.upd i m.toNat) hs
      refine ⟨s', ⟨m, ⟨u, by rw [← hv (i, n) (by simp)]; exact h1, h2⟩, ?_⟩, h4⟩
      rw [if_pos hm]; exact h3
    · cases hs

theorem Off.allAssigned {p q : Env (D F) → Bool} (l : List Nat) (hl : B ∉ l) :
    ∀ {env env'}, Off B sz sz' env env' → (∀ e e', Off B sz sz' e e' → p e = true → q e' = true) →
    allAssigned sz l env p = true → allAssigned sz' l env' q = true := by
  induction l with
  | nil => intro env env' h hpq hp; exact hpq _ _ h hp
  | cons i l ih =>
    intro env env' h hpq hp
    simp only [Codegen.allAssigned, List.all_eq_true] at hp ⊢
    intro j hj
    rw [← h.size i fun e => hl (by simp [e])] at hj
    exact ih (fun e => hl (by simp [e])) (h.set _ _) hpq (hp j hj)

/-- The conditions on a plan. -/
theorem Off.checkPlan {o : Opts F} {rec : Expr F → (Nat → Nat) → Env (D F) → Option (D F)} {v : Option (D F)} {p : Plan F}
    (h : Off B sz sz' env env') (hf : ∀ t ∈ p.exprs, Sym.idx B ∈ fv t → B ∈ p.new)
    (hr : ∀ t ∈ p.exprs, Codegen.absent (.idx B) t = true → ∀ {s s' e e'}, Off B s s' e e' → rec t s e = rec t s' e')
    (hp : Codegen.checkPlan o rec sz env v p = true) : Codegen.checkPlan o rec sz' env' v p = true := by
  cases p with
  | fail => cases hp
  | bulk s k i elems init =>
    simp only [Codegen.checkPlan, Bool.and_eq_true] at hp ⊢
    obtain ⟨⟨⟨⟨⟨h1, h2⟩, h3⟩, h4⟩, h5⟩, h6⟩ := hp
    have a1 := h.absent h3 fun e => by simpa [Plan.new] using hf elems (by simp [Plan.exprs]) e
    have a2 := h.absent h4 fun e => by simpa [Plan.new] using hf init (by simp [Plan.exprs]) e
    refine ⟨⟨⟨⟨⟨h1, by rw [← h.isNone]; exact h2⟩, by rw [← h.unused]; exact h3⟩, by rw [← h.unused]; exact h4⟩, ?_⟩, ?_⟩
    · rw [← hr elems (by simp [Plan.exprs]) a1 h]; exact h5
    · rw [← hr init (by simp [Plan.exprs]) a2 h]; exact h6
  | dot s sums products =>
    have e1 : ∀ q ∈ sums, q.2 ∈ (Plan.dot s sums products).exprs := fun q hq => by
      simp only [Plan.exprs, List.mem_append]; exact .inl (List.mem_map.2 ⟨q, hq, rfl⟩)
    have e2 : ∀ p ∈ products, ∀ t ∈ p.2, t ∈ (Plan.dot s sums products).exprs := fun p hp t ht => by
      simp only [Plan.exprs, List.mem_append]; exact .inr (List.mem_flatMap.2 ⟨p, hp, ht⟩)
    simp only [Codegen.checkPlan, Bool.and_eq_true, List.all_eq_true, Option.any_eq_true] at hp ⊢
    obtain ⟨⟨⟨⟨h1, h2⟩, h3⟩, h4⟩, s', h5, h6⟩ := hp
    have hB : B ∉ (Plan.dot s sums products).new := by
      simp only [Plan.new, List.mem_map, not_exists, not_and]
      rintro q hq rfl
      have := (h2 q hq).1
      have hl := h.left
      cases hx : env (.idx q.1) <;> simp_all
    have a1 : ∀ q ∈ sums, Codegen.absent (.idx B) q.2 = true := fun q hq =>
      h.absent (h2 q hq).2 fun e => hB (hf _ (e1 q hq) e)
    have a2 : ∀ p ∈ products, ∀ t ∈ p.2, Codegen.absent (.idx B) t = true := fun p hp t ht =>
      h.absent (h3 p hp t ht) fun e => hB (hf _ (e2 p hp t ht) e)
    obtain ⟨s'', h7, h8⟩ := Off.sumSizes sums (v := fun n => rec n sz env) (w := fun n => rec n sz' env')
      (fun q hq => hr _ (e1 q hq) (a1 q hq) h) h h5
    refine ⟨⟨⟨⟨h1, fun q hq => ⟨by rw [← h.isNone]; exact (h2 q hq).1, by rw [← h.unused]; exact (h2 q hq).2⟩⟩,
      fun p hp t ht => by rw [← h.unused]; exact h3 p hp t ht⟩, h4⟩, s'', h7, fun p hp => ?_⟩
    obtain ⟨h9, h10⟩ := h6 p hp
    refine ⟨?_, h10⟩
    refine Off.allAssigned p.1 (fun hb => ?_) h8 (fun e e' hee hx => ?_) h9
    · obtain ⟨f, hf1, hf2⟩ := List.any_eq_true.1 (h10 B hb)
      have := a2 p hp f hf1
      simp only [Codegen.absent, decide_eq_true_eq] at this
      rcases axesOf_fv o f _ B (of_decide_eq_true hf2) with h' | ⟨v, h'⟩
      · exact this.1 h'
      · simp at h'
    · simp only [List.all_eq_true] at hx ⊢
      intro t ht
      rw [← hr t (e2 p hp t ht) (a2 p hp t ht) hee]
      exact hx t ht

/-- The value and the range of an index that does not occur are irrelevant. -/
theorem check_absent {o : Opts F} {I : Ext F} {B : Nat} (e : Expr F) : ∀ {tc : Bool} {sz sz' : Nat → Nat}
    {env env' : Env (D F)}, absent (.idx B) e = true → Off B sz sz' env env' →
    check o I tc e sz env = check o I tc e sz' env' := by
  have key : ∀ e : Expr F, ∀ {tc : Bool} {sz sz' : Nat → Nat} {env env' : Env (D F)}, absent (.idx B) e = true →
      Off B sz sz' env env' → Verif.Le (check o I tc e sz env) (check o I tc e sz' env') := by
    intro e
    induction e using size_ind with
    | step e ih =>
    intro tc sz sz' env env' ha hO
    have eq : ∀ t, size t < size e → absent (.idx B) t = true → ∀ {tc : Bool} {s s' : Nat → Nat} {n n' : Env (D F)},
        Off B s s' n n' → check o I tc t s n = check o I tc t s' n' := by
      intro t ht ha tc s s' n n' h
      have h1 := ih t ht (tc := tc) ha h
      have h2 := ih t ht (tc := tc) ha h.symm
      cases hv : check o I tc t s n with
      | some v => exact (h1 v hv).symm
      | none =>
        cases hv' : check o I tc t s' n' with
        | none => rfl
        | some v => have := h2 v hv'; rw [hv] at this; cases this
    obtain ⟨h, ts⟩ := e
    obtain ⟨hcap, hsym, hch⟩ := absent_child ha
    have hlt : ∀ t ∈ ts, size t < size (node h ts) := fun t ht => size_lt_of_mem ht
    have child : ∀ t ∈ ts, ∀ {s s' : Nat → Nat} {n n' : Env (D F)},
        Off B s s' n n' → check o I tc t s n = check o I tc t s' n' := fun t ht => eq t (hlt t ht) (hch t ht)
    cases hp : planned o h ts with
    | some p =>
      rw [check_plan hp, check_plan hp, ← hO.run I ha]
      intro v hv
      split at hv
      · rename_i hc
        rw [if_pos ?_]
        · exact hv
        · obtain ⟨c, a, n, z, b, rfl, rfl, hpl⟩ := planned_some hp
          refine hO.checkPlan (fun t ht hf => ?_) (fun t ht hat s s' e e' hee => ?_) hc
          · rcases (o.small _ _ _ _ _ _ hpl t ht).2 B hf with h' | h'
            · simp only [absent, decide_eq_true_eq] at ha
              exact absurd h' ha.1
            · exact h'
          · exact eq t (o.small _ _ _ _ _ _ hpl t ht).1 hat hee
      · cases hv
    | none =>
    rw [check_node _ _ _ _ _ hp]
    have gen : Verif.Le (runDen I h ((ts.map fun t => (t, check o I tc t)).map fun t => t.2 sz) env)
        (runDen I h ((ts.map fun t => (t, check o I tc t)).map fun t => t.2 sz') env') := by
      refine (Phi.strict I).mono h _ _ env env' (by simp) (fun s' hs' => ?_) fun k f g hf hg => ?_
      · rw [hO.val s' fun e => hsym (e ▸ hs')]; exact Verif.Le.rfl
      · simp only [List.map_map, List.getElem?_map, Option.map_eq_some_iff] at hf hg
        obtain ⟨t, ht, rfl⟩ := hf
        obtain ⟨t', ht', rfl⟩ := hg
        rw [ht] at ht'
        cases ht'
        have ht := List.mem_of_getElem? ht
        refine ⟨fun _ => ?_, fun _ ext => ?_⟩
        · dsimp only [Function.comp]; rw [child t ht hO]; exact Verif.Le.rfl
        · dsimp only [Function.comp]; rw [child t ht (hO.override hcap ext)]; exact Verif.Le.rfl
    cases h with
    | const w τ => exact Verif.Le.rfl
    | store s τ =>
      simp only [checkDen]
      rw [hO.val s fun e => hsym (by rw [← e]; rfl)]; exact Verif.Le.rfl
    | letv u => exact gen
    | assertEq => exact gen
    | dim k => exact gen
    | concat => exact gen
    | cons => exact gen
    | fold c a => exact gen
    | op f => exact gen
    | ext fn τ =>
      simp only [checkDen, List.map_map, Function.comp_def]
      rw [List.map_congr_left fun t ht => child t ht hO]
      exact Verif.Le.rfl
    | get =>
      rcases ts with _ | ⟨a, _ | ⟨b, _ | ⟨_, _⟩⟩⟩
      · exact gen
      · exact gen
      · simp only [List.map, checkDen]
        rw [child a (by simp) hO, child b (by simp) hO, hO.readOk o I (hch a (by simp)) (hch b (by simp))]
        exact Verif.Le.rfl
      · exact gen
    | fst =>
      rcases ts with _ | ⟨a, _ | ⟨b, l⟩⟩
      · exact gen
      · simp only [List.map, checkDen]
        rw [child a (by simp) hO]; exact Verif.Le.rfl
      · exact gen
    | snd =>
      rcases ts with _ | ⟨a, _ | ⟨b, l⟩⟩
      · exact gen
      · simp only [List.map, checkDen]
        rw [child a (by simp) hO]; exact Verif.Le.rfl
      · exact gen
    | vec i =>
      rcases ts with _ | ⟨n, _ | ⟨b, _ | ⟨_, _⟩⟩⟩
      · exact gen
      · exact gen
      · simp only [List.map, checkDen]
        rw [child n (by simp) hO]
        have : ∀ m k, check o I tc b (upd sz i m) (env.set (.idx i) (some (.int k))) =
            check o I tc b (upd sz' i m) (env'.set (.idx i) (some (.int k))) :=
          fun m k => child b (by simp) ((hO.upd i m).set _ _)
        simp only [this]
        exact Verif.Le.rfl
      · exact gen
    | reduce x y =>
      rcases ts with _ | ⟨z, _ | ⟨b, vs⟩⟩
      · exact gen
      · exact gen
      · simp only [List.map_cons, List.map_map, Function.comp_def, checkDen]
        rw [← hO.isNone]
        split
        · rename_i hB
          have : ∀ p q, check o I tc b (upd sz (o.batch x) 1)
              (((env.set (.idx (o.batch x)) (some (.int 0))).set (.var x) (some p)).set (.var y) (some q)) =
            check o I tc b (upd sz' (o.batch x) 1)
              (((env'.set (.idx (o.batch x)) (some (.int 0))).set (.var x) (some p)).set (.var y) (some q)) :=
            fun p q => child b (by simp) ((((hO.upd _ _).set _ _).set _ _).set _ _)
          simp only [this]
          rw [child z (by simp) hO, List.map_congr_left fun t ht => child t (by simp [ht]) hO]
          exact Verif.Le.rfl
        · exact Verif.Le.rfl
  intro tc sz sz' env env' ha hO
  have h1 := key e (tc := tc) ha hO
  have h2 := key e (tc := tc) ha hO.symm
  cases hv : check o I tc e sz env with
  | some v => exact (h1 v hv).symm
  | none =>
    cases hv' : check o I tc e sz' env' with
    | none => rfl
    | some v => have := h2 v hv'; rw [hv] at this; cases this

end Verif.Codegen
