import Verif.Codegen.MemoAgree

/-! The requests made for a node, in two contexts that agree on its free symbols. -/

set_option linter.unusedSectionVars false

namespace Verif.Codegen
open Verif.Phi Verif.Term Verif.Yarr Verif.Arr Verif.Midend
variable {F : Type}

/-- A request outside the scope of the node `E`. -/
structure Req0 (N : Expr F → Prop) (E e : Expr F) : Prop where
  known : Known N e
  scope : Scoped e
  sub : fv e ⊆ fv E
  le : height e ≤ height E
  lt : wt E.head ≠ 0 → height e < height E

/-- A request in the scope of the binder `E`. -/
structure Req1 (o : Opts F) (N : Expr F → Prop) (E e : Expr F) : Prop where
  known : Known N e
  scope : Scoped e
  sub : fv e ⊆ fv E ∪ caps o E
  lt : height e < height E

/-- Two contexts in the scope of the binder `E`, made from two contexts around it. -/
structure Inner (o : Opts F) (N : Expr F → Prop) (E : Expr F) (s : Nat → Option (YExpr F)) (v : Nat → List Nat)
    (s' : Nat → Option (YExpr F)) (v' : Nat → List Nat) (t : Nat → Option (YExpr F)) (w : Nat → List Nat)
    (t' : Nat → Option (YExpr F)) (w' : Nat → List Nat) : Prop where
  node : N E
  binder : wt E.head ≠ 0
  idx : ∀ i, Sym.idx i ∉ caps o E → t i = s i
  var : ∀ u, Sym.var u ∉ caps o E → w u = v u
  same : Same (fv E ∪ caps o E) t w t' w'
  clean : Clean o N t w
  clean' : Clean o N t' w'
  axes : ∀ u, Sym.var u ∈ caps o E → ∀ i ∈ w u, Sym.idx i ∈ caps o E ∨ Sym.idx i ∈ fv E ∨
    ∃ u', Sym.var u' ∈ fv E ∧ i ∈ v u'

/-- The same requests, in the scope of the binder. -/
inductive Sim1 (o : Opts F) (N : Expr F → Prop) (E : Expr F) (t : Nat → Option (YExpr F)) (w : Nat → List Nat)
    (t' : Nat → Option (YExpr F)) (w' : Nat → List Nat) {α : Type} : Ask F α → Ask F α → Prop
  | ret (r : Option α) : Sim1 o N E t w t' w' (.ret r) (.ret r)
  | ask {e : Expr F} {k k' : Axial F → Ask F α} : Req1 o N E e →
      (∀ x : Axial F, Supp w e x.axes → Sim1 o N E t w t' w' (k x) (k' x)) →
      Sim1 o N E t w t' w' (.ask true t w e k) (.ask true t' w' e k')

/-- The same requests: first outside the scope of the binder, then inside. -/
inductive Sim0 (o : Opts F) (N : Expr F → Prop) (E : Expr F) (s : Nat → Option (YExpr F)) (v : Nat → List Nat)
    (s' : Nat → Option (YExpr F)) (v' : Nat → List Nat) {α : Type} : Ask F α → Ask F α → Prop
  | ret (r : Option α) : Sim0 o N E s v s' v' (.ret r) (.ret r)
  | ask {e : Expr F} {k k' : Axial F → Ask F α} : Req0 N E e →
      (∀ x : Axial F, Supp v e x.axes → Sim0 o N E s v s' v' (k x) (k' x)) →
      Sim0 o N E s v s' v' (.ask true s v e k) (.ask true s' v' e k')
  | try_ {t : Nat → Option (YExpr F)} {w : Nat → List Nat} {t' : Nat → Option (YExpr F)} {w' : Nat → List Nat}
      {e : Expr F} {k k' : Axial F → Ask F α} : Inner o N E s v s' v' t w t' w' → Req1 o N E e →
      (∀ x : Axial F, Supp w e x.axes → Sim0 o N E s v s' v' (k x) (k' x)) →
      Sim0 o N E s v s' v' (.ask false t w e k) (.ask false t' w' e k')
  | enter {t : Nat → Option (YExpr F)} {w : Nat → List Nat} {t' : Nat → Option (YExpr F)} {w' : Nat → List Nat}
      {m m' : Ask F α} : Inner o N E s v s' v' t w t' w' → Sim1 o N E t w t' w' m m' → Sim0 o N E s v s' v' m m'

theorem Ask.bind_assoc {α β γ : Type} (m : Ask F α) (f : α → Ask F β) (g : β → Ask F γ) :
    (m.bind f).bind g = m.bind fun x => (f x).bind g := by
  induction m with
  | ret r => cases r <;> rfl
  | ask kp s v e k ih =>
    simp only [Ask.bind]
    congr 1
    funext x
    exact ih x

section
variable {o : Opts F} {N : Expr F → Prop} {inputs : Finset Sym} {E : Expr F} {s s' t t' : Nat → Option (YExpr F)}
  {v v' w w' : Nat → List Nat} {α β : Type}

theorem Sim0.one {e : Expr F} {f f' : Axial F → Ask F α} (hr : Req0 N E e)
    (hf : ∀ x : Axial F, Supp v e x.axes → Sim0 o N E s v s' v' (f x) (f' x)) :
    Sim0 o N E s v s' v' ((Ask.one s v e).bind f) ((Ask.one s' v' e).bind f') := .ask hr hf

theorem Sim0.last {e : Expr F} (hr : Req0 N E e) :
    Sim0 o N E s v s' v' (Ask.one s v e) (Ask.one s' v' e) := .ask hr fun _ _ => .ret _

theorem Sim0.trial {e : Expr F} {f f' : Axial F → Ask F α} (hi : Inner o N E s v s' v' t w t' w') (hr : Req1 o N E e)
    (hf : ∀ x : Axial F, Supp w e x.axes → Sim0 o N E s v s' v' (f x) (f' x)) :
    Sim0 o N E s v s' v' ((Ask.try_ t w e).bind f) ((Ask.try_ t' w' e).bind f') := .try_ hi hr hf

theorem Sim0.pure {r r' : Option β} {f f' : β → Ask F α} (h : r = r')
    (hf : ∀ x, Sim0 o N E s v s' v' (f x) (f' x)) :
    Sim0 o N E s v s' v' ((Ask.pure r).bind f) ((Ask.pure r').bind f') := by
  subst h
  cases r with
  | none => exact .ret _
  | some x => exact hf x

theorem Sim0.done {r r' : Option α} (h : r = r') : Sim0 o N E s v s' v' (.ret r) (.ret r') := h ▸ .ret _

theorem Sim1.one {e : Expr F} {f f' : Axial F → Ask F α} (hr : Req1 o N E e)
    (hf : ∀ x : Axial F, Supp w e x.axes → Sim1 o N E t w t' w' (f x) (f' x)) :
    Sim1 o N E t w t' w' ((Ask.one t w e).bind f) ((Ask.one t' w' e).bind f') := .ask hr hf

theorem Sim1.done {r r' : Option α} (h : r = r') : Sim1 o N E t w t' w' (.ret r) (.ret r') := h ▸ .ret _

theorem Sim0.map {l : List (Expr F)} (hl : ∀ e ∈ l, Req0 N E e) : ∀ {f f' : List (Axial F) → Ask F α},
    (∀ xs : List (Axial F), List.Forall₂ (fun e (x : Axial F) => Supp v e x.axes) l xs →
      Sim0 o N E s v s' v' (f xs) (f' xs)) →
    Sim0 o N E s v s' v' ((Ask.map (Ask.one s v) l).bind f) ((Ask.map (Ask.one s' v') l).bind f') := by
  induction l with
  | nil => intro f f' hf; exact hf [] .nil
  | cons e l ih =>
    intro f f' hf
    unfold Ask.map
    rw [Ask.bind_assoc, Ask.bind_assoc]
    refine Sim0.one (hl e (by simp)) fun x hx => ?_
    rw [Ask.bind_assoc, Ask.bind_assoc]
    exact ih (fun e he => hl e (by simp [he])) fun xs hxs => hf _ (.cons hx hxs)

theorem Sim1.map {l : List (Expr F)} (hl : ∀ e ∈ l, Req1 o N E e) : ∀ {f f' : List (Axial F) → Ask F α},
    (∀ xs, Sim1 o N E t w t' w' (f xs) (f' xs)) →
    Sim1 o N E t w t' w' ((Ask.map (Ask.one t w) l).bind f) ((Ask.map (Ask.one t' w') l).bind f') := by
  induction l with
  | nil => intro f f' hf; exact hf []
  | cons e l ih =>
    intro f f' hf
    unfold Ask.map
    rw [Ask.bind_assoc, Ask.bind_assoc]
    refine Sim1.one (hl e (by simp)) fun x _ => ?_
    rw [Ask.bind_assoc, Ask.bind_assoc]
    exact ih (fun e he => hl e (by simp [he])) fun xs => hf _

/-- The sizes of the new indices. -/
theorem Sim0.sums {l : List (Nat × Expr F)} (hl : ∀ q ∈ l, Req0 N E q.2) :
    ∀ {f f' : List (Nat × YExpr F) → Ask F α},
    (∀ ns : List (Nat × YExpr F), ns.map Prod.fst = l.map Prod.fst → Sim0 o N E s v s' v' (f ns) (f' ns)) →
    Sim0 o N E s v s' v'
      ((Ask.map (fun q : Nat × Expr F => (Ask.one s v q.2).bind fun x => .ret (x.normal.map fun n => (q.1, n))) l).bind f)
      ((Ask.map (fun q : Nat × Expr F => (Ask.one s' v' q.2).bind fun x => .ret (x.normal.map fun n => (q.1, n))) l).bind
        f') := by
  induction l with
  | nil => intro f f' hf; exact hf [] rfl
  | cons q l ih =>
    intro f f' hf
    unfold Ask.map
    rw [Ask.bind_assoc, Ask.bind_assoc, Ask.bind_assoc, Ask.bind_assoc]
    refine Sim0.one (hl q (by simp)) fun x hx => ?_
    cases hn : x.normal with
    | none => exact .ret _
    | some n =>
      simp only [Option.map_some, Ask.bind]
      rw [Ask.bind_assoc, Ask.bind_assoc]
      exact ih (fun e he => hl e (by simp [he])) fun ns hns => hf _ (by simp [hns])

/-- The factors of products. -/
theorem Sim1.products {l : List (List Nat × List (Expr F))} (hl : ∀ q ∈ l, ∀ e ∈ q.2, Req1 o N E e) :
    ∀ {f f' : List (List (Axial F)) → Ask F α}, (∀ xs, Sim1 o N E t w t' w' (f xs) (f' xs)) →
    Sim1 o N E t w t' w'
      ((Ask.map (fun p : List Nat × List (Expr F) => Ask.map (Ask.one t w) p.2) l).bind f)
      ((Ask.map (fun p : List Nat × List (Expr F) => Ask.map (Ask.one t' w') p.2) l).bind f') := by
  induction l with
  | nil => intro f f' hf; exact hf []
  | cons q l ih =>
    intro f f' hf
    unfold Ask.map
    rw [Ask.bind_assoc, Ask.bind_assoc]
    refine Sim1.map (hl q (by simp)) fun x => ?_
    rw [Ask.bind_assoc, Ask.bind_assoc]
    exact ih (fun e he => hl e (by simp [he])) fun xs => hf _

/-! ### Parts of positions -/

/-- What holds for the parts of an expression that are compiled when it is read. -/
structure SubPart (N : Expr F → Prop) (S : Finset Sym) (W : Nat) (e : Expr F) : Prop where
  known : Known N e
  scope : Scoped e
  sub : fv e ⊆ S
  le : height e ≤ W

theorem height_le {h : Phi.Head F} {ts : List (Expr F)} (h0 : wt h = 0) {W : Nat} (hl : ∀ t ∈ ts, height t ≤ W) :
    height (node h ts) ≤ W := by
  rw [height_node, h0, Nat.zero_add]
  refine foldr_max_le fun m hm => ?_
  obtain ⟨t, ht, rfl⟩ := List.mem_map.1 hm
  exact hl t ht

theorem SubPart.child {S : Finset Sym} {W : Nat} {h : Phi.Head F} {ts : List (Expr F)} (hp : SubPart N S W (node h ts))
    {t : Expr F} (ht : t ∈ ts) (hsub : fv t ⊆ fv (node h ts)) : SubPart N S W t :=
  ⟨hp.known.child ht, hp.scope.children t ht, hsub.trans hp.sub,
    (Nat.le_add_left _ _).trans ((height_child ht).trans hp.le)⟩

theorem SubPart.up {S : Finset Sym} {W : Nat} {h : Phi.Head F} {ts : List (Expr F)} (h0 : wt h = 0)
    (hc : Phi.Head.captured h = ∅) (hs : Phi.Head.symbol h = none) (hp : ∀ t ∈ ts, SubPart N S W t) :
    SubPart N S W (node h ts) := by
  refine ⟨.node h0 fun t ht => (hp t ht).known, .node (fun k t _ _ => ?_) fun t ht => (hp t ht).scope, ?_,
    height_le h0 fun t ht => (hp t ht).le⟩
  · change Disjoint (Phi.Head.captured h) _
    rw [hc]; simp
  · intro s hs'
    obtain ⟨h1 | ⟨t, ht, h1⟩, -⟩ := mem_fv.1 hs'
    · change Phi.Head.symbol h = _ at h1
      rw [hs] at h1; cases h1
    · exact (hp t ht).sub h1

theorem fv_child {h : Phi.Head F} {ts : List (Expr F)} (hc : Phi.Head.captured h = ∅) {t : Expr F} (ht : t ∈ ts) :
    fv t ⊆ fv (node h ts) := fun s hs => mem_fv.2 ⟨.inr ⟨t, ht, hs⟩, by
      change s ∉ Phi.Head.captured h
      rw [hc]; simp⟩

theorem SubPart.clip {S : Finset Sym} {W : Nat} {e : Expr F} (hp : SubPart N S W e) {y : Sym} {c : Clip F}
    (hm : matchClip y e = some c) :
    (∀ p ∈ c.1, SubPart N S W p) ∧ (∀ p ∈ c.2.1, SubPart N S W p) ∧ ∀ p ∈ c.2.2, SubPart N S W p :=
  matchClip_parts (G := SubPart N S W)
    (fun f _ a b h => ⟨h.child (by simp) (fv_child rfl (by simp)), h.child (by simp) (fv_child rfl (by simp))⟩)
    (fun f _ a b ha hb => .up rfl rfl rfl (by simp only [List.mem_cons, List.not_mem_nil, or_false]; rintro t (rfl | rfl) <;> assumption))
    (fun a ha => .up rfl rfl rfl (by simpa using ha)) y e hp c hm

theorem SubPart.dim [FloatOps F] {S : Finset Sym} {W : Nat} {e : Expr F} (k : Nat) (hp : SubPart N S W e) : SubPart N S W (dimExpr e k) := by
  induction e using ind generalizing k with
  | step hd ts ih =>
    by_cases hg : ∃ t i, hd = .get ∧ ts = [t, i]
    · obtain ⟨t, i, rfl, rfl⟩ := hg
      rw [dimExpr_get]
      exact ih t (by simp) (k + 1) (hp.child (by simp) (fv_child rfl (by simp)))
    · by_cases hve : ∃ j n b, hd = .vec j ∧ ts = [n, b] ∧ k = 0
      · obtain ⟨j, n, b, rfl, rfl, rfl⟩ := hve
        rw [dimExpr_vec]
        exact hp.child (by simp) (fv_out hp.scope (k := 0) rfl rfl)
      · rw [dimExpr_other (fun t i h => hg ⟨t, i, h⟩) (fun j n b h => hve ⟨j, n, b, h⟩)]
        exact .up rfl rfl rfl (by simpa using hp)

/-! ### Contexts in the scope of binders -/

/-- What the axes of code in the scope of a binder are. -/
theorem Inner.supp (hi : Inner o N E s v s' v' t w t' w') {e : Expr F} (hr : Req1 o N E e) {l : List Nat}
    (hl : Supp w e l) : (∀ i ∈ l, t i = t' i) ∧ ∀ i ∈ l, Sym.idx i ∈ caps o E ∨ Sym.idx i ∈ fv E ∨
      ∃ u', Sym.var u' ∈ fv E ∧ i ∈ v u' := by
  refine ⟨fun i h => ?_, fun i h => ?_⟩
  · rcases hl i h with h | ⟨u, hu, h⟩
    · exact hi.same.1 i (hr.sub h)
    · exact (hi.same.2 u (hr.sub hu)).2 i h
  · rcases hl i h with h | ⟨u, hu, h⟩
    · exact (Finset.mem_union.1 (hr.sub h)).symm.imp_right .inl
    · by_cases hc : Sym.var u ∈ caps o E
      · exact hi.axes u hc i h
      · rw [hi.var u hc] at h
        exact .inr (.inr ⟨u, (Finset.mem_union.1 (hr.sub hu)).resolve_right hc, h⟩)

theorem Same.supp {S : Finset Sym} (hs : Same S s v s' v') {e : Expr F} (hsub : fv e ⊆ S) {l : List Nat}
    (hl : Supp v e l) : ∀ i ∈ l, s i = s' i := by
  intro i h
  rcases hl i h with h | ⟨u, hu, h⟩
  · exact hs.1 i (hsub h)
  · exact (hs.2 u (hsub hu)).2 i h

theorem Supp.outer {e : Expr F} {l : List Nat} (hl : Supp v e l) (hsub : fv e ⊆ fv E) :
    ∀ i ∈ l, Sym.idx i ∈ caps o E ∨ Sym.idx i ∈ fv E ∨ ∃ u', Sym.var u' ∈ fv E ∧ i ∈ v u' := by
  intro i h
  rcases hl i h with h | ⟨u, hu, h⟩
  · exact .inr (.inl (hsub h))
  · exact .inr (.inr ⟨u, hsub hu, h⟩)

/-- The scope of a variable. -/
theorem inner_var (ho : Once o N inputs) {h : Phi.Head F} {ts : List (Expr F)} (hE : E = node h ts) (hN : N E)
    (hb : wt E.head ≠ 0) (hs : Same (fv E) s v s' v') (hc : Clean o N s v) (hc' : Clean o N s' v') {a : Nat}
    {l : List Nat} (hcaps : ∀ x ∈ caps o E, x = .var a ∨ ∃ c, x = .var c ∧ v c = [] ∧ v' c = [])
    (ha : Sym.var a ∈ caps o E) (hpl : planned o h ts = none)
    (hne : ∀ c b, h = .fold c b → c ≠ a) (hl : ∀ i ∈ l, s i = s' i)
    (hax : ∀ i ∈ l, Sym.idx i ∈ caps o E ∨ Sym.idx i ∈ fv E ∨ ∃ u', Sym.var u' ∈ fv E ∧ i ∈ v u') :
    Inner o N E s v s' v' s (upd v a l) s' (upd v' a l) := by
  subst hE
  have hs' : Same (fv (node h ts) ∪ caps o (node h ts) \ {.var a}) s v s' v' := by
    refine ⟨fun i hi => ?_, fun u hu => ?_⟩
    · rcases Finset.mem_union.1 hi with hi | hi
      · exact hs.1 i hi
      · rcases hcaps _ (Finset.mem_sdiff.1 hi).1 with h | ⟨c, h, -⟩ <;> cases h
    · rcases Finset.mem_union.1 hu with hu | hu
      · exact hs.2 u hu
      · obtain ⟨h1, h2⟩ := Finset.mem_sdiff.1 hu
        rcases hcaps _ h1 with h | ⟨c, h, h3, h4⟩
        · exact absurd (Finset.mem_singleton.2 h) h2
        · cases h
          rw [h3, h4]; simp
  refine ⟨hN, hb, fun i _ => rfl, fun u hu => ?_, hs'.var hl fun x hx => ?_, hc.var ho hN ha hne hpl, hc'.var ho hN ha hne hpl,
    fun u hu i hi => ?_⟩
  · unfold upd
    rw [if_neg]
    rintro rfl
    exact hu ha
  · simp only [Finset.mem_union, Finset.mem_sdiff, Finset.mem_singleton] at hx ⊢
    tauto
  · unfold upd at hi
    split at hi
    · exact hax i hi
    · rcases hcaps _ hu with h | ⟨c, h, h3, h4⟩
      · cases h; contradiction
      · cases h
        rw [h3] at hi
        cases hi

/-- The scope of the two variables of a reduction. -/
theorem inner_red (ho : Once o N inputs) {x y : Nat} {ts : List (Expr F)} (hE : E = node (.reduce x y) ts) (hN : N E)
    (hs : Same (fv E) s v s' v') (hc : Clean o N s v) (hc' : Clean o N s' v') {l : List Nat}
    (hl : ∀ i ∈ l, s i = s' i)
    (hax : ∀ i ∈ l, Sym.idx i ∈ caps o E ∨ Sym.idx i ∈ fv E ∨ ∃ u', Sym.var u' ∈ fv E ∧ i ∈ v u') :
    Inner o N E s v s' v' s (upd (upd v x l) y l) s' (upd (upd v' x l) y l) := by
  subst hE
  have hx : Sym.var x ∈ caps o (node (.reduce x y) ts) := captured_subset_caps _ _ _ (by simp [Phi.Head.captured])
  have hy : Sym.var y ∈ caps o (node (.reduce x y) ts) := captured_subset_caps _ _ _ (by simp [Phi.Head.captured])
  have hcaps : ∀ u ∈ caps o (node (.reduce x y) ts), u = .var x ∨ u = .var y ∨ u = .idx (o.batch x) := by
    intro u hu
    simp only [caps, planned, Finset.mem_union, Phi.Head.captured, Finset.mem_insert, Finset.mem_singleton,
      Finset.notMem_empty, or_false] at hu
    tauto
  have hs' : Same (fv (node (.reduce x y) ts) ∪ {.idx (o.batch x)}) s v s' v' := by
    refine ⟨fun i hi => ?_, fun u hu => ?_⟩
    · rcases Finset.mem_union.1 hi with hi | hi
      · exact hs.1 i hi
      · cases Finset.mem_singleton.1 hi
        rw [hc.batch x y ts hN, hc'.batch x y ts hN]
    · exact hs.2 u ((Finset.mem_union.1 hu).resolve_right (by simp))
  have hs'' : Same (fv (node (.reduce x y) ts) ∪ {.idx (o.batch x), .var x}) s (upd v x l) s' (upd v' x l) :=
    hs'.var hl fun u hu => by
      simp only [Finset.mem_union, Finset.mem_insert, Finset.mem_singleton] at hu ⊢
      tauto
  refine ⟨hN, by simp [wt, Term.head], fun i _ => rfl, fun u hu => ?_, hs''.var hl fun u hu => ?_,
    (hc.var ho hN hx (by simp) rfl).var ho hN hy (by simp) rfl,
    (hc'.var ho hN hx (by simp) rfl).var ho hN hy (by simp) rfl,
    fun u hu i hi => ?_⟩
  · unfold upd
    rw [if_neg, if_neg] <;> rintro rfl
    · exact hu hx
    · exact hu hy
  · rcases Finset.mem_union.1 hu with hu | hu
    · exact .inl (Finset.mem_union_left _ hu)
    · have := hcaps u hu
      simp only [Finset.mem_union, Finset.mem_insert, Finset.mem_singleton]
      tauto
  · unfold upd at hi
    split at hi
    · exact hax i hi
    · split at hi
      · exact hax i hi
      · rcases hcaps _ hu with h | h | h <;> cases h <;> contradiction

/-- The scope of an index. -/
theorem inner_vec (ho : Once o N inputs) {j : Nat} {ts : List (Expr F)} (hE : E = node (.vec j) ts) (hN : N E)
    (hs : Same (fv E) s v s' v') (hc : Clean o N s v) (hc' : Clean o N s' v') (n : Option (YExpr F)) :
    Inner o N E s v s' v' (upd s j n) v (upd s' j n) v' := by
  subst hE
  have hj : Sym.idx j ∈ caps o (node (.vec j) ts) := captured_subset_caps _ _ _ (by simp [Phi.Head.captured])
  have hcaps : ∀ u ∈ caps o (node (.vec j) ts), u = .idx j := by
    intro u hu
    simpa [caps, planned, Phi.Head.captured] using hu
  refine ⟨hN, by simp [wt, Term.head], fun i hi => ?_, fun u _ => rfl, hs.idx fun x hx => ?_,
    hc.idx ho hN hj (by simp), hc'.idx ho hN hj (by simp), fun u hu => ?_⟩
  · unfold upd
    rw [if_neg]
    rintro rfl
    exact hi hj
  · exact (Finset.mem_union.1 hx).imp_right (hcaps x)
  · cases hcaps _ hu

/-- The scope of the new indices. -/
theorem inner_dot (ho : Once o N inputs) {c a : Nat} {n z b : Expr F} (hE : E = fold c a n z b) (hN : N E)
    {p : Plan F} (hp : o.plan c a n z b = some p)
    (hs : Same (fv E) s v s' v') (hc : Clean o N s v) (hc' : Clean o N s' v') {ns : List (Nat × YExpr F)}
    (hns : ns.map Prod.fst = p.new) :
    Inner o N E s v s' v' (withSums s ns) v (withSums s' ns) v' := by
  subst hE
  have hsub := new_subset_caps hp
  have hj : ∀ j ∈ ns.map Prod.fst, Sym.idx j ∈ caps o (fold c a n z b) := by
    intro j hj
    exact hsub (by simpa [← hns] using hj)
  have hpl : planned o (.fold c a) [n, z, b] ≠ none := by simp [planned, hp]
  have hva : v a = [] ∧ v' a = [] := ⟨hc.acc _ _ _ hN hpl, hc'.acc _ _ _ hN hpl⟩
  have hvc : v c = [] ∧ v' c = [] := ⟨hc.counter _ _ _ hN, hc'.counter _ _ _ hN⟩
  have hcaps : ∀ u ∈ caps o (fold c a n z b), u = .var c ∨ u = .var a ∨ ∃ i ∈ ns.map Prod.fst, u = .idx i := by
    intro u hu
    unfold fold caps at hu
    simp only [planned, hp, Phi.Head.captured, Finset.mem_union, Finset.mem_insert, Finset.mem_singleton,
      Finset.notMem_empty, or_false, List.mem_toFinset, List.mem_map] at hu
    rcases hu with (h | h) | ⟨i, hi, rfl⟩
    · exact .inl h
    · exact .inr (.inl h)
    · exact .inr (.inr ⟨i, by rw [hns]; exact hi, rfl⟩)
  have hs' : Same (fv (fold c a n z b) ∪ {.var c, .var a}) s v s' v' := by
    refine ⟨fun i hi => hs.1 i ((Finset.mem_union.1 hi).resolve_right (by simp)), fun u hu => ?_⟩
    rcases Finset.mem_union.1 hu with hu | hu
    · exact hs.2 u hu
    · simp only [Finset.mem_insert, Finset.mem_singleton, Sym.var.injEq] at hu
      rcases hu with rfl | rfl
      · simp [hvc.1, hvc.2]
      · simp [hva.1, hva.2]
  refine ⟨hN, by simp [wt, Term.head, fold], fun i hi => withSums_not_mem fun h => hi (hj i h), fun u _ => rfl,
    hs'.sums fun x hx => ?_, hc.sums ho hN hj (by simp), hc'.sums ho hN hj (by simp), fun u hu i hi => ?_⟩
  · rcases Finset.mem_union.1 hx with hx | hx
    · exact .inl (Finset.mem_union_left _ hx)
    · rcases hcaps x hx with rfl | rfl | h
      · exact .inl (by simp)
      · exact .inl (by simp)
      · exact .inr h
  · rcases hcaps _ hu with h | h | ⟨i, -, h⟩
    · cases h; rw [hvc.1] at hi; cases hi
    · cases h; rw [hva.1] at hi; cases hi
    · cases h

/-! ### One node -/

variable [FloatOps F]

/-- The requests for a node are the same in two contexts that agree on its free symbols. -/
theorem stepSim (ho : Once o N inputs) {h : Phi.Head F} {ts : List (Expr F)} (hk : Known N (node h ts))
    (hsc : Scoped (node h ts)) (hs : Same (fv (node h ts)) s v s' v') (hc : Clean o N s v) (hc' : Clean o N s' v') :
    Sim0 o N (node h ts) s v s' v' (stepAsk o s v h ts) (stepAsk o s' v' h ts) := by
  have plain : wt h = 0 → Phi.Head.captured h = ∅ → ∀ t ∈ ts, Req0 N (node h ts) t := fun h0 hcap t ht =>
    ⟨hk.child ht, hsc.children t ht, fv_child hcap ht, (Nat.le_add_left _ _).trans (height_child ht),
      fun hne => absurd h0 hne⟩
  have outer : wt h ≠ 0 → ∀ (k : Nat) t, ts[k]? = some t → Phi.outside h k = true → Req0 N (node h ts) t :=
    fun hw k t ht hout =>
    have hm := List.mem_of_getElem? ht
    have hlt : height t < height (node h ts) := by have := height_child (h := h) hm; omega
    ⟨hk.child hm, hsc.children t hm, fv_out hsc ht hout, hlt.le, fun _ => hlt⟩
  have inner : wt h ≠ 0 → ∀ t ∈ ts, Req1 o N (node h ts) t := fun hw t ht =>
    ⟨hk.child ht, hsc.children t ht, fun x hx => by
      by_cases hcap : x ∈ Phi.Head.captured h
      · exact Finset.mem_union_right _ (captured_subset_caps _ _ _ hcap)
      · exact Finset.mem_union_left _ (mem_fv.2 ⟨.inr ⟨t, ht, hx⟩, hcap⟩),
      by have := height_child (h := h) ht; omega⟩
  have part : ∀ W, height (node h ts) ≤ W → wt h = 0 → ∀ e, SubPart N (fv (node h ts)) (height (node h ts)) e →
      Req0 N (node h ts) e := fun W _ h0 e he => ⟨he.known, he.scope, he.sub, he.le, fun hne => absurd h0 hne⟩
  unfold stepAsk
  split
  · -- const
    exact .ret _
  · -- index
    rename_i i τ
    refine .done ?_
    rw [hs.1 i (mem_fv.2 ⟨.inl rfl, by simp [Lang.captured, Phi.Head.captured]⟩)]
  · -- variable
    rename_i u τ
    refine .done ?_
    rw [(hs.2 u (mem_fv.2 ⟨.inl rfl, by simp [Lang.captured, Phi.Head.captured]⟩)).1]
  · -- let
    rename_i u b e
    have hb := outer (by simp [wt]) 0 b rfl rfl
    refine .one hb fun x hx => ?_
    have hN : N (node (.letv u) [b, e]) := hk.self (by simp [wt])
    have hi := inner_var ho rfl hN (by simp [wt, Term.head]) hs hc hc' (a := u) (l := x.axes)
      (fun y hy => .inl (by simpa [caps, planned, Phi.Head.captured] using hy))
      (captured_subset_caps _ _ _ (by simp [Phi.Head.captured])) rfl (by simp) (hs.supp hb.sub hx) (hx.outer hb.sub)
    exact .enter hi (.one (inner (by simp [wt]) e (by simp)) fun y _ => .ret _)
  · -- assertion
    exact .last (plain rfl rfl _ (by simp))
  · -- size
    exact .one (plain rfl rfl _ (by simp)) fun x _ => .ret _
  · -- fold
    rename_i c a n z b
    have hN : N (fold c a n z b) := hk.self (by simp [wt])
    cases hp : o.plan c a n z b with
    | some p =>
      obtain ⟨hout, hin⟩ := ho.plan c a n z b p hN hp
      have hout' : ∀ t ∈ p.outer, Req0 N (fold c a n z b) t := fun t ht =>
        have := hout t ht
        ⟨this.1, this.2.1, this.2.2.2, this.2.2.1.le, fun _ => this.2.2.1⟩
      have hin' : ∀ t ∈ p.inner, Req1 o N (fold c a n z b) t := fun t ht =>
        have := hin t ht
        ⟨this.1, this.2.1, this.2.2.2.trans (Finset.union_subset_union_right (new_subset_caps hp)), this.2.2.1⟩
      dsimp only
      cases p with
      | fail => exact .ret _
      | bulk sf k i elems init =>
        exact .one (hout' elems (by simp [Plan.outer])) fun x _ =>
          .one (hout' init (by simp [Plan.outer])) fun z _ => .ret _
      | dot sf sums products =>
        refine .sums (fun q hq => hout' q.2 (List.mem_map.2 ⟨q, hq, rfl⟩)) fun ns hns => ?_
        refine .enter (inner_dot ho rfl hN hp hs hc hc' hns) (.products (fun q hq e he => ?_) fun xs => .ret _)
        exact hin' e (List.mem_flatMap.2 ⟨q, hq, he⟩)
    | none =>
      dsimp only
      have hz := outer (by simp [wt]) 1 z rfl rfl
      have hb := inner (by simp [wt]) b (by simp)
      refine .one (outer (by simp [wt]) 0 n rfl rfl) fun x _ => .pure rfl fun n' => .one hz fun init hx => ?_
      have hpl : planned o (.fold c a) [n, z, b] = none := by simp [planned, hp]
      have hi : ∀ l : List Nat, (∀ i ∈ l, s i = s' i) →
          (∀ i ∈ l, Sym.idx i ∈ caps o (fold c a n z b) ∨ Sym.idx i ∈ fv (fold c a n z b) ∨
            ∃ u', Sym.var u' ∈ fv (fold c a n z b) ∧ i ∈ v u') →
          Inner o N (fold c a n z b) s v s' v' s (upd v a l) s' (upd v' a l) := fun l =>
        inner_var ho rfl hN (by simp [wt, Term.head]) hs hc hc' (a := a)
          (fun y hy => by
            unfold caps at hy
            simp only [hpl, Phi.Head.captured, Finset.mem_union, Finset.mem_insert, Finset.mem_singleton,
              Finset.notMem_empty, or_false] at hy
            rcases hy with rfl | rfl
            · exact .inr ⟨c, rfl, hc.counter _ _ _ hN, hc'.counter _ _ _ hN⟩
            · exact .inl rfl)
          (captured_subset_caps _ _ _ (by simp [Phi.Head.captured])) hpl
          (by rintro c' b' h; cases h; exact ho.counter _ _ _ hN)
      have hi1 := hi init.axes (hs.supp hz.sub hx) (hx.outer hz.sub)
      refine .trial hi1 hb fun pre hpre => ?_
      obtain ⟨h1, h2⟩ := hi1.supp hb hpre
      refine .enter (hi pre.axes h1 h2) (.one hb fun body _ => .done ?_)
      rw [repeated_congr h1]
  · -- reduction
    rename_i x y z b vs
    have hN : N (node (.reduce x y) (z :: b :: vs)) := hk.self (by simp [wt])
    have hz := outer (by simp [wt]) 0 z rfl rfl
    have hb := inner (by simp [wt]) b (by simp)
    have hvs : ∀ t ∈ vs, Req0 N (node (.reduce x y) (z :: b :: vs)) t := by
      intro t ht
      obtain ⟨k, hk⟩ := List.getElem?_of_mem ht
      exact outer (by simp [wt]) (k + 2) t (by simpa using hk) (by simp [Phi.outside])
    refine .one hz fun init hx => .map hvs fun vecs hvecs => ?_
    dsimp only
    have hall : ∀ i ∈ alignment (init.axes :: vecs.map Axial.axes), ∃ e, Req0 N (node (.reduce x y) (z :: b :: vs)) e ∧
        ∃ l, Supp v e l ∧ i ∈ l := by
      intro i hi
      obtain ⟨l, hl, hi⟩ := (mem_alignment).1 hi
      rcases List.mem_cons.1 hl with rfl | hl
      · exact ⟨z, hz, _, hx, hi⟩
      · obtain ⟨q, hq, rfl⟩ := List.mem_map.1 hl
        obtain ⟨k, hk⟩ := List.getElem?_of_mem hq
        have := hvecs.length_eq
        have hkl : k < vs.length := by rw [this]; exact (List.getElem?_eq_some_iff.1 hk).1
        have h3 := hvecs.get hkl (by rw [← this]; exact hkl)
        rw [List.getElem?_eq_some_iff] at hk
        obtain ⟨hk', hk⟩ := hk
        simp only [List.get_eq_getElem, hk] at h3
        exact ⟨_, hvs _ (List.getElem_mem hkl), _, h3, hi⟩
    have hi1 := inner_red ho rfl hN hs hc hc' (l := alignment (init.axes :: vecs.map Axial.axes))
      (fun i hi => by obtain ⟨e, he, l, hl, hi⟩ := hall i hi; exact hs.supp he.sub hl i hi)
      (fun i hi => by obtain ⟨e, he, l, hl, hi⟩ := hall i hi; exact hl.outer he.sub i hi)
    refine .trial hi1 hb fun pre hpre => ?_
    obtain ⟨h1, h2⟩ := hi1.supp hb hpre
    have hbt := hc.batch _ _ _ hN
    have hbt' := hc'.batch _ _ _ hN
    have hi2 := inner_red ho rfl hN hs hc hc' (l := pre.axes ++ [o.batch x])
      (fun i hi => by
        rcases List.mem_append.1 hi with hi | hi
        · exact h1 i hi
        · rw [List.mem_singleton.1 hi, hbt, hbt'])
      (fun i hi => by
        rcases List.mem_append.1 hi with hi | hi
        · exact h2 i hi
        · rw [List.mem_singleton.1 hi]; exact .inl (batch_mem_caps o x y _))
    refine .enter hi2 (.one hb fun body _ => .done ?_)
    rw [hbt, hbt', repeated_congr h1]
    simp only [repeated_congr h1]
  · -- read
    rename_i t i
    have ht := plain rfl rfl t (by simp)
    have hi := plain rfl rfl i (by simp)
    have hpt : SubPart N (fv (node .get [t, i])) (height (node (.get : Phi.Head F) [t, i])) t :=
      ⟨ht.known, ht.scope, ht.sub, ht.le⟩
    have hpi : SubPart N (fv (node .get [t, i])) (height (node (.get : Phi.Head F) [t, i])) i :=
      ⟨hi.known, hi.scope, hi.sub, hi.le⟩
    refine .one ht fun target _ => .pure rfl fun _ => ?_
    cases hw : window o t i with
    | none => exact .one hi fun item _ => .ret _
    | some q =>
      obtain ⟨index, c⟩ := q
      dsimp only
      split
      · exact .ret _
      obtain ⟨hix, -, hm⟩ := window_index hw
      simp only [matchIndexClip, Option.bind_eq_some_iff, Option.map_eq_some_iff, Prod.mk.injEq] at hm
      obtain ⟨_, _, c', hm, _, rfl⟩ := hm
      obtain ⟨h1, h2, h3⟩ := hpi.clip hm
      have piece : ∀ (d : YExpr F) (c : Option (Expr F)) {f f' : YExpr F → Ask F (Axial F)},
          (∀ p ∈ c, SubPart N (fv (node .get [t, i])) (height (node (.get : Phi.Head F) [t, i])) p) →
          (∀ y, Sim0 o N (node .get [t, i]) s v s' v' (f y) (f' y)) →
          Sim0 o N (node .get [t, i]) s v s' v' ((pieceAsk (Ask.one s v) d c).bind f)
            ((pieceAsk (Ask.one s' v') d c).bind f') := by
        intro d c f f' hp hf
        cases c with
        | none => exact hf d
        | some e =>
          unfold pieceAsk
          rw [Ask.bind_assoc, Ask.bind_assoc]
          exact .one (part _ le_rfl rfl e (hp e rfl)) fun x _ => .pure rfl hf
      unfold windowAsk
      refine .pure (hs.1 index (hi.sub hix)) fun size => ?_
      refine .one (part _ le_rfl rfl _ (hpt.dim 0)) fun x _ => .pure rfl fun d => .pure rfl fun p => ?_
      exact piece _ _ h1 fun _ => piece _ _ h2 fun _ => piece _ _ h3 fun _ => .ret _
  · -- concatenation
    rename_i a b
    have ha := plain rfl rfl a (by simp)
    have hb := plain rfl rfl b (by simp)
    refine .one ha fun x hx => .one hb fun y hy => .done ?_
    have : ∀ i ∈ alignment [x.axes, y.axes], s i = s' i := by
      intro i hi
      obtain ⟨l, hl, hi⟩ := mem_alignment.1 hi
      simp only [List.mem_cons, List.not_mem_nil, or_false] at hl
      rcases hl with rfl | rfl
      · exact hs.supp ha.sub hx i hi
      · exact hs.supp hb.sub hy i hi
    simp only [repeated_congr this]
  · -- comprehension
    rename_i j n b
    have hN : N (node (.vec j) [n, b]) := hk.self (by simp [wt])
    refine .one (outer (by simp [wt]) 0 n rfl rfl) fun x _ => .pure rfl fun n' => ?_
    exact .enter (inner_vec ho rfl hN hs hc hc' _) (.one (inner (by simp [wt]) b (by simp)) fun y _ => .ret _)
  · -- scalar operation
    exact .map (plain rfl rfl) fun xs _ => .ret _
  · -- pair
    exact .one (plain rfl rfl _ (by simp)) fun x _ => .one (plain rfl rfl _ (by simp)) fun y _ => .ret _
  · -- first
    rename_i t
    rcases Phi.typeOf t with _ | τ
    · exact .ret _
    · cases τ with
      | pair τ τ' => exact .pure rfl fun p => .one (plain rfl rfl _ (by simp)) fun x _ => .ret _
      | _ => exact .ret _
  · -- second
    rename_i t
    rcases Phi.typeOf t with _ | τ
    · exact .ret _
    · cases τ with
      | pair τ τ' =>
        exact .pure rfl fun p => .pure rfl fun q => .one (plain rfl rfl _ (by simp)) fun x _ => .ret _
      | _ => exact .ret _
  · -- external function
    exact .map (plain rfl rfl) fun xs _ => .ret _
  · exact .ret _

/-! ### Without a table -/

theorem Sim1.run {m m' : Ask F α} (h : Sim1 o N E t w t' w' m m')
    {go : (Nat → Option (YExpr F)) → (Nat → List Nat) → Expr F → Option (Axial F)}
    (hgo : ∀ e, Req1 o N E e → go t w e = go t' w' e) (hsup : ∀ e x, Req1 o N E e → go t w e = some x → Supp w e x.axes) :
    m.run go = m'.run go := by
  induction h with
  | ret r => rfl
  | ask hr _ ih =>
    simp only [Ask.run]
    rw [← hgo _ hr]
    cases hx : go t w _ with
    | none => rfl
    | some x => exact ih x (hsup _ x hr hx)

theorem Sim0.run {m m' : Ask F α} (h : Sim0 o N E s v s' v' m m')
    {go : (Nat → Option (YExpr F)) → (Nat → List Nat) → Expr F → Option (Axial F)}
    (hgo : ∀ e, Req0 N E e → go s v e = go s' v' e) (hsup : ∀ e x, Req0 N E e → go s v e = some x → Supp v e x.axes)
    (hgo' : ∀ e t w t' w', Inner o N E s v s' v' t w t' w' → Req1 o N E e → go t w e = go t' w' e)
    (hsup' : ∀ e t w t' w' x, Inner o N E s v s' v' t w t' w' → Req1 o N E e → go t w e = some x → Supp w e x.axes) :
    m.run go = m'.run go := by
  induction h with
  | ret r => rfl
  | ask hr _ ih =>
    simp only [Ask.run]
    rw [← hgo _ hr]
    cases hx : go s v _ with
    | none => rfl
    | some x => exact ih x (hsup _ x hr hx)
  | try_ hi hr _ ih =>
    simp only [Ask.run]
    rw [← hgo' _ _ _ _ _ hi hr]
    cases hx : go _ _ _ with
    | none => rfl
    | some x => exact ih x (hsup' _ _ _ _ _ x hi hr hx)
  | enter hi hm => exact hm.run (fun e hr => hgo' e _ _ _ _ hi hr) fun e x hr => hsup' e _ _ _ _ x hi hr

/-- The code of an expression depends only on what is known about its free symbols. -/
theorem compile_agree (ho : Once o N inputs) (n : Nat) : ∀ {s v s' v'} {e : Expr F}, Known N e → Scoped e →
    Same (fv e) s v s' v' → Clean o N s v → Clean o N s' v' → compile o n s v e = compile o n s' v' e := by
  induction n with
  | zero => intros; rfl
  | succ n ih =>
    intro s v s' v' e hk hsc hs hc hc'
    obtain ⟨h, ts⟩ := e
    simp only [compile]
    rw [← run_stepAsk, ← run_stepAsk]
    refine (stepSim ho hk hsc hs hc hc').run (fun e hr => ih hr.known hr.scope (hs.mono hr.sub) hc hc')
      (fun e x hr hx => compile_supp ho hr.known hr.scope hc hx)
      (fun e t w t' w' hi hr => ih hr.known hr.scope (hi.same.mono hr.sub) hi.clean hi.clean')
      fun e t w t' w' x hi hr hx => compile_supp ho hr.known hr.scope hi.clean hx

end

end Verif.Codegen
