import Verif.Codegen.MemoSim

/-! The table of the compiler holds what would be compiled again. -/

set_option linter.unusedSectionVars false

namespace Verif.Codegen
open Verif.Phi Verif.Term Verif.Yarr Verif.Arr Verif.Midend
variable {F : Type} {o : Opts F} {N : Expr F → Prop} {inputs : Finset Sym}

/-- The symbols in scope, if `St` are the binders around. -/
def InScope (o : Opts F) (inputs : Finset Sym) (St : Expr F → Prop) (x : Sym) : Prop :=
  x ∈ inputs ∨ ∃ B, St B ∧ x ∈ caps o B

/-- The expressions in the table. -/
def Key (T : Table F) (e : Expr F) : Prop := ∃ x, (e, x) ∈ T

/-- The table holds, for all expressions whose symbols are in scope, what would be compiled. Other symbols in the table
belong to binders in the table. -/
structure TableOk (o : Opts F) (N : Expr F → Prop) (inputs : Finset Sym) (St : Expr F → Prop)
    (s : Nat → Option (YExpr F)) (v : Nat → List Nat) (T : Table F) : Prop where
  known : ∀ e x, (e, x) ∈ T → Known N e
  scope : ∀ e x, (e, x) ∈ T → Scoped e
  closed : ∀ e x, (e, x) ∈ T → ∀ y ∈ fv e, y ∈ inputs ∨ ∃ B, N B ∧ y ∈ caps o B ∧ (St B ∨ Key T B)
  value : ∀ e x, (e, x) ∈ T → (∀ y ∈ fv e, InScope o inputs St y) → ∃ k, compile o k s v e = some x

/-- A context that is possible in the scope of the binders `St`. -/
structure Ctx (o : Opts F) (N : Expr F → Prop) (inputs : Finset Sym) (St : Expr F → Prop)
    (s : Nat → Option (YExpr F)) (v : Nat → List Nat) : Prop where
  clean : Clean o N s v
  node : ∀ B, St B → N B
  axes : ∀ u, InScope o inputs St (.var u) → ∀ i ∈ v u, InScope o inputs St (.idx i)

/-- An expression that may be compiled in the scope of the binders `St`. -/
structure Ready (o : Opts F) (N : Expr F → Prop) (inputs : Finset Sym) (St : Expr F → Prop) (e : Expr F) : Prop where
  known : Known N e
  scope : Scoped e
  sub : ∀ y ∈ fv e, InScope o inputs St y
  lt : ∀ B, St B → height e < height B

/-- One binder more. -/
def Under (E : Expr F) (St : Expr F → Prop) : Expr F → Prop := fun B => B = E ∨ St B

section
variable {St : Expr F → Prop} {E : Expr F} {s t s' t' : Nat → Option (YExpr F)}
  {v w v' w' : Nat → List Nat} {T : Table F}

theorem InScope.under {x : Sym} (h : InScope o inputs St x) : InScope o inputs (Under E St) x :=
  h.imp_right fun ⟨B, hB, hx⟩ => ⟨B, .inr hB, hx⟩

/-- Nothing in scope is bound by a binder that is entered. -/
theorem not_inScope (ho : Once o N inputs) (hN : N E) (hSt : ∀ B, St B → N B ∧ height E < height B) {x : Sym}
    (hx : x ∈ caps o E) : ¬ InScope o inputs St x := by
  rintro (h | ⟨B, hB, h⟩)
  · exact ho.fresh E hN x hx h
  · have := ho.unique B E (hSt B hB).1 hN x h hx
    subst this
    exact absurd (hSt B hB).2 (lt_irrefl _)

theorem Ctx.under (hc : Ctx o N inputs St s v) (hE : Ready o N inputs St E) (hi : Inner o N E s v s' v' t w t' w') :
    Ctx o N inputs (Under E St) t w := by
  refine ⟨hi.clean, ?_, fun u hu i hiu => ?_⟩
  · rintro B (rfl | hB)
    · exact hi.node
    · exact hc.node B hB
  · by_cases hcu : Sym.var u ∈ caps o E
    · rcases hi.axes u hcu i hiu with h | h | ⟨u', h, h'⟩
      · exact .inr ⟨E, .inl rfl, h⟩
      · exact (hE.sub _ h).under
      · exact (hc.axes u' (hE.sub _ h) i h').under
    · rw [hi.var u hcu] at hiu
      refine (hc.axes u ?_ i hiu).under
      rcases hu with h | ⟨B, rfl | hB, h⟩
      · exact .inl h
      · exact absurd h hcu
      · exact .inr ⟨B, hB, h⟩

/-- Contexts outside and inside a binder agree on what is in scope outside. -/
theorem Inner.agree (ho : Once o N inputs) (hc : Ctx o N inputs St s v) (hE : Ready o N inputs St E)
    (hi : Inner o N E s v s' v' t w t' w') {S : Finset Sym} (hS : ∀ y ∈ S, InScope o inputs St y) : Same S t w s v := by
  have hnot : ∀ y, InScope o inputs St y → y ∉ caps o E := fun y hy hx =>
    not_inScope ho hi.node (fun B hB => ⟨hc.node B hB, hE.lt B hB⟩) hx hy
  refine ⟨fun i h => hi.idx i (hnot _ (hS _ h)), fun u h => ?_⟩
  rw [hi.var u (hnot _ (hS _ h))]
  exact ⟨rfl, fun i hiu => hi.idx i (hnot _ (hc.axes u (hS _ h) i hiu))⟩

variable [FloatOps F]

/-- Entering a binder that is not in the table. -/
theorem TableOk.enter (ho : Once o N inputs) (hc : Ctx o N inputs St s v) (hE : Ready o N inputs St E)
    (hi : Inner o N E s v s' v' t w t' w') (hT : TableOk o N inputs St s v T) (hk : ¬ Key T E) :
    TableOk o N inputs (Under E St) t w T := by
  refine ⟨hT.known, hT.scope, fun e x he y hy => ?_, fun e x he hsub => ?_⟩
  · exact (hT.closed e x he y hy).imp_right fun ⟨B, hB, hyB, h⟩ => ⟨B, hB, hyB, h.imp_left .inr⟩
  · have hin : ∀ y ∈ fv e, InScope o inputs St y := by
      intro y hy
      rcases hsub y hy with h | ⟨B, rfl | hB, h⟩
      · exact .inl h
      · rcases hT.closed e x he y hy with h' | ⟨B', hB', hyB, h'⟩
        · exact .inl h'
        · have := ho.unique B' B hB' hi.node y hyB h
          subst this
          rcases h' with h' | h'
          · exact absurd (hE.lt B' h') (lt_irrefl _)
          · exact absurd h' hk
      · exact .inr ⟨B, hB, h⟩
    obtain ⟨k, hx⟩ := hT.value e x he hin
    refine ⟨k, ?_⟩
    rw [compile_agree ho k (hT.known e x he) (hT.scope e x he) (hi.agree ho hc hE hin) hi.clean hc.clean]
    exact hx

/-- Leaving a binder, which is put into the table. -/
theorem TableOk.leave (ho : Once o N inputs) (hc : Ctx o N inputs St s v) (hE : Ready o N inputs St E)
    (hi : Inner o N E s v s' v' t w t' w') (hT : TableOk o N inputs (Under E St) t w T) {z : Axial F}
    (hz : ∃ k, compile o k s v E = some z) : TableOk o N inputs St s v ((E, z) :: T) := by
  refine ⟨fun e x he => ?_, fun e x he => ?_, fun e x he y hy => ?_, fun e x he hsub => ?_⟩
  · rcases List.mem_cons.1 he with h | he
    · cases h; exact hE.known
    · exact hT.known e x he
  · rcases List.mem_cons.1 he with h | he
    · cases h; exact hE.scope
    · exact hT.scope e x he
  · rcases List.mem_cons.1 he with h | he
    · cases h
      exact (hE.sub y hy).imp_right fun ⟨B, hB, h⟩ => ⟨B, hc.node B hB, h, .inl hB⟩
    · refine (hT.closed e x he y hy).imp_right fun ⟨B, hB, hyB, h⟩ => ⟨B, hB, hyB, ?_⟩
      rcases h with (rfl | h) | ⟨x', h⟩
      · exact .inr ⟨z, by simp⟩
      · exact .inl h
      · exact .inr ⟨x', by simp [h]⟩
  · rcases List.mem_cons.1 he with h | he
    · cases h; exact hz
    · obtain ⟨k, hx⟩ := hT.value e x he fun y hy => (hsub y hy).under
      refine ⟨k, ?_⟩
      rw [← compile_agree ho k (hT.known e x he) (hT.scope e x he) (hi.agree ho hc hE hsub) hi.clean hc.clean]
      exact hx

/-- Adding an entry. -/
theorem TableOk.add (hc : Ctx o N inputs St s v) (hE : Ready o N inputs St E) (hT : TableOk o N inputs St s v T) {z : Axial F}
    (hz : ∃ k, compile o k s v E = some z) : TableOk o N inputs St s v ((E, z) :: T) := by
  refine ⟨fun e x he => ?_, fun e x he => ?_, fun e x he y hy => ?_, fun e x he hsub => ?_⟩
  · rcases List.mem_cons.1 he with h | he
    · cases h; exact hE.known
    · exact hT.known e x he
  · rcases List.mem_cons.1 he with h | he
    · cases h; exact hE.scope
    · exact hT.scope e x he
  · rcases List.mem_cons.1 he with h | he
    · cases h
      exact (hE.sub y hy).imp_right fun ⟨B, hB, h⟩ => ⟨B, hc.node B hB, h, .inl hB⟩
    · refine (hT.closed e x he y hy).imp_right fun ⟨B, hB, hyB, h⟩ => ⟨B, hB, hyB, ?_⟩
      exact h.imp_right fun ⟨x', h⟩ => ⟨x', by simp [h]⟩
  · rcases List.mem_cons.1 he with h | he
    · cases h; exact hz
    · exact hT.value e x he hsub

/-! ### With the table -/

variable [DecidableEq F]

theorem run_mono {α : Type} {n m : Nat} (hnm : n ≤ m) (a : Ask F α) {x : α} (h : a.run (compile o n) = some x) :
    a.run (compile o m) = some x := by
  induction a with
  | ret r => exact h
  | ask kp s v e k ih =>
    simp only [Ask.run, Option.bind_eq_some_iff] at h ⊢
    obtain ⟨y, hy, h⟩ := h
    exact ⟨y, compile_mono (OptsLe.refl o) hnm _ _ _ _ hy, ih y h⟩

/-- What holds for the compiler with a table: it returns what the compiler without a table returns, the table stays
valid, and only expressions that are not higher are added. -/
def Agrees (o : Opts F) (N : Expr F → Prop) (inputs : Finset Sym) (n : Nat)
    (go : Table F × Nat → (Nat → Option (YExpr F)) → (Nat → List Nat) → Expr F → Option (Axial F × (Table F × Nat))) :
    Prop :=
  ∀ St s v e T c, Ctx o N inputs St s v → Ready o N inputs St e → TableOk o N inputs St s v T →
    (∀ x r, go (T, c) s v e = some (x, r) → (∃ k, compile o k s v e = some x) ∧ TableOk o N inputs St s v r.1 ∧
      ∀ k, Key r.1 k → Key T k ∨ height k ≤ height e) ∧
    ∀ x, compile o n s v e = some x → ∃ r, go (T, c) s v e = some (x, r)

variable {go : Table F × Nat → (Nat → Option (YExpr F)) → (Nat → List Nat) → Expr F →
  Option (Axial F × (Table F × Nat))} {n : Nat} {α : Type}

theorem Sim1.memo {St' : Expr F → Prop} (hgo : Agrees o N inputs n go) (hc : Ctx o N inputs St' t w)
    (hfit : ∀ e, Req1 o N E e → Ready o N inputs St' e)
    (hsup : ∀ k e x, Req1 o N E e → compile o k t w e = some x → Supp w e x.axes) {m m' : Ask F α}
    (h : Sim1 o N E t w t' w' m m') : ∀ T c, TableOk o N inputs St' t w T →
    (∀ x r, m.runMemo go (T, c) = some (x, r) → (∃ k, m.run (compile o k) = some x) ∧ TableOk o N inputs St' t w r.1 ∧
      ∀ k, Key r.1 k → Key T k ∨ height k < height E) ∧
    ∀ x, m.run (compile o n) = some x → ∃ r, m.runMemo go (T, c) = some (x, r) := by
  induction h with
  | ret r =>
    intro T c hT
    refine ⟨fun x r' hx => ?_, fun x hx => ⟨(T, c), ?_⟩⟩
    · simp only [Ask.runMemo, Option.map_eq_some_iff, Prod.mk.injEq] at hx
      obtain ⟨x', rfl, rfl, rfl⟩ := hx
      exact ⟨⟨0, rfl⟩, hT, fun k hk => .inl hk⟩
    · simp only [Ask.run] at hx
      simp [Ask.runMemo, hx]
  | @ask e k k' hr _ ih =>
    intro T c hT
    obtain ⟨g1, g2⟩ := hgo St' t w e T c hc (hfit e hr) hT
    refine ⟨fun x r hx => ?_, fun x hx => ?_⟩
    · simp only [Ask.runMemo, Option.bind_eq_some_iff, if_true] at hx
      obtain ⟨⟨y, r1⟩, hy, hx⟩ := hx
      obtain ⟨⟨k1, hk1⟩, hT1, hkey⟩ := g1 y r1 hy
      obtain ⟨⟨k2, hk2⟩, hT2, hkey2⟩ := (ih y (hsup _ _ _ hr hk1) r1.1 r1.2 hT1).1 x r hx
      refine ⟨⟨max k1 k2, ?_⟩, hT2, fun q hq => ?_⟩
      · simp only [Ask.run, Option.bind_eq_some_iff]
        exact ⟨y, compile_mono (OptsLe.refl o) (le_max_left _ _) _ _ _ _ hk1, run_mono (le_max_right _ _) _ hk2⟩
      · rcases hkey2 q hq with h | h
        · exact (hkey q h).imp_right fun h => h.trans_lt hr.lt
        · exact .inr h
    · simp only [Ask.run, Option.bind_eq_some_iff] at hx
      obtain ⟨y, hy, hx⟩ := hx
      obtain ⟨r1, hr1⟩ := g2 y hy
      obtain ⟨-, hT1, -⟩ := g1 y r1 hr1
      obtain ⟨r, hr'⟩ := (ih y (hsup _ _ _ hr hy) r1.1 r1.2 hT1).2 x hx
      refine ⟨r, ?_⟩
      simp only [Ask.runMemo, Option.bind_eq_some_iff, if_true]
      exact ⟨(y, r1), hr1, hr'⟩

/-- After the requests for a node, the table is as it should be, once the node is added. -/
theorem Sim0.memo (ho : Once o N inputs) (hgo : Agrees o N inputs n go) (hc : Ctx o N inputs St s v)
    (hE : Ready o N inputs St E) {m m' : Ask F (Axial F)} (h : Sim0 o N E s v s' v' m m') :
    ∀ T c, TableOk o N inputs St s v T → (wt E.head ≠ 0 → ¬ Key T E) →
    (∀ x r, m.runMemo go (T, c) = some (x, r) → (∃ k, m.run (compile o k) = some x) ∧
      ((∃ k, compile o k s v E = some x) → TableOk o N inputs St s v ((E, x) :: r.1)) ∧
      ∀ k, Key r.1 k → Key T k ∨ height k ≤ height E) ∧
    ∀ x, m.run (compile o n) = some x → ∃ r, m.runMemo go (T, c) = some (x, r) := by
  have fit0 : ∀ e, Req0 N E e → Ready o N inputs St e := fun e hr =>
    ⟨hr.known, hr.scope, fun y hy => hE.sub y (hr.sub hy), fun B hB => hr.le.trans_lt (hE.lt B hB)⟩
  have fit1 : ∀ e, Req1 o N E e → Ready o N inputs (Under E St) e := fun e hr =>
    ⟨hr.known, hr.scope, fun y hy => by
      rcases Finset.mem_union.1 (hr.sub hy) with h | h
      · exact (hE.sub y h).under
      · exact .inr ⟨E, .inl rfl, h⟩,
     fun B hB => by
      rcases hB with rfl | hB
      · exact hr.lt
      · exact hr.lt.trans (hE.lt B hB)⟩
  have sup0 : ∀ k e x, Req0 N E e → compile o k s v e = some x → Supp v e x.axes := fun k e x hr hx =>
    compile_supp ho hr.known hr.scope hc.clean hx
  have sup1 : ∀ {t w t' w'}, Inner o N E s v s' v' t w t' w' → ∀ k e x, Req1 o N E e → compile o k t w e = some x →
      Supp w e x.axes := fun hi k e x hr hx => compile_supp ho hr.known hr.scope hi.clean hx
  induction h with
  | ret r =>
    intro T c hT hnk
    refine ⟨fun x r' hx => ?_, fun x hx => ⟨(T, c), ?_⟩⟩
    · simp only [Ask.runMemo, Option.map_eq_some_iff, Prod.mk.injEq] at hx
      obtain ⟨x', rfl, rfl, rfl⟩ := hx
      exact ⟨⟨0, rfl⟩, fun hz => hT.add hc hE hz, fun k hk => .inl hk⟩
    · simp only [Ask.run] at hx
      simp [Ask.runMemo, hx]
  | @ask e k k' hr _ ih =>
    intro T c hT hnk
    obtain ⟨g1, g2⟩ := hgo St s v e T c hc (fit0 e hr) hT
    have next : ∀ r1 : Table F × Nat, (∀ q, Key r1.1 q → Key T q ∨ height q ≤ height e) →
        wt E.head ≠ 0 → ¬ Key r1.1 E := by
      intro r1 hkey hw hq
      rcases hkey E hq with h | h
      · exact hnk hw h
      · exact absurd (hr.lt hw) (by omega)
    refine ⟨fun x r hx => ?_, fun x hx => ?_⟩
    · simp only [Ask.runMemo, Option.bind_eq_some_iff, if_true] at hx
      obtain ⟨⟨y, r1⟩, hy, hx⟩ := hx
      obtain ⟨⟨k1, hk1⟩, hT1, hkey⟩ := g1 y r1 hy
      obtain ⟨⟨k2, hk2⟩, hT2, hkey2⟩ := (ih y (sup0 _ _ _ hr hk1) r1.1 r1.2 hT1 (next r1 hkey)).1 x r hx
      refine ⟨⟨max k1 k2, ?_⟩, hT2, fun q hq => ?_⟩
      · simp only [Ask.run, Option.bind_eq_some_iff]
        exact ⟨y, compile_mono (OptsLe.refl o) (le_max_left _ _) _ _ _ _ hk1, run_mono (le_max_right _ _) _ hk2⟩
      · rcases hkey2 q hq with h | h
        · exact (hkey q h).imp_right fun h => h.trans hr.le
        · exact .inr h
    · simp only [Ask.run, Option.bind_eq_some_iff] at hx
      obtain ⟨y, hy, hx⟩ := hx
      obtain ⟨r1, hr1⟩ := g2 y hy
      obtain ⟨-, hT1, hkey⟩ := g1 y r1 hr1
      obtain ⟨r, hr'⟩ := (ih y (sup0 _ _ _ hr hy) r1.1 r1.2 hT1 (next r1 hkey)).2 x hx
      refine ⟨r, ?_⟩
      simp only [Ask.runMemo, Option.bind_eq_some_iff, if_true]
      exact ⟨(y, r1), hr1, hr'⟩
  | @try_ t w t' w' e k k' hi hr _ ih =>
    intro T c hT hnk
    obtain ⟨g1, g2⟩ := hgo (Under E St) t w e T c (hc.under hE hi) (fit1 e hr) (hT.enter ho hc hE hi (hnk hi.binder))
    refine ⟨fun x r hx => ?_, fun x hx => ?_⟩
    · simp only [Ask.runMemo, Option.bind_eq_some_iff, Bool.false_eq_true, if_false] at hx
      obtain ⟨⟨y, r1⟩, hy, hx⟩ := hx
      obtain ⟨⟨k1, hk1⟩, -, -⟩ := g1 y r1 hy
      obtain ⟨⟨k2, hk2⟩, hT2, hkey2⟩ := (ih y (sup1 hi _ _ _ hr hk1) T r1.2 hT hnk).1 x r hx
      refine ⟨⟨max k1 k2, ?_⟩, hT2, hkey2⟩
      simp only [Ask.run, Option.bind_eq_some_iff]
      exact ⟨y, compile_mono (OptsLe.refl o) (le_max_left _ _) _ _ _ _ hk1, run_mono (le_max_right _ _) _ hk2⟩
    · simp only [Ask.run, Option.bind_eq_some_iff] at hx
      obtain ⟨y, hy, hx⟩ := hx
      obtain ⟨r1, hr1⟩ := g2 y hy
      obtain ⟨r, hr'⟩ := (ih y (sup1 hi _ _ _ hr hy) T r1.2 hT hnk).2 x hx
      refine ⟨r, ?_⟩
      simp only [Ask.runMemo, Option.bind_eq_some_iff, Bool.false_eq_true, if_false]
      exact ⟨(y, r1), hr1, hr'⟩
  | enter hi hm =>
    intro T c hT hnk
    obtain ⟨g1, g2⟩ := hm.memo hgo (hc.under hE hi) fit1 (sup1 hi) T c (hT.enter ho hc hE hi (hnk hi.binder))
    refine ⟨fun x r hx => ?_, g2⟩
    obtain ⟨h1, h2, h3⟩ := g1 x r hx
    exact ⟨h1, fun hz => h2.leave ho hc hE hi hz, fun k hk => (h3 k hk).imp_right le_of_lt⟩

theorem Table.get_mem {T : Table F} {e : Expr F} {x : Axial F} (h : T.get e = some x) : (e, x) ∈ T := by
  unfold Table.get at h
  obtain ⟨⟨e', x'⟩, hq, rfl⟩ := Option.map_eq_some_iff.1 h
  have h1 := List.find?_some hq
  have h2 := List.mem_of_find?_eq_some hq
  simp only [decide_eq_true_eq] at h1
  subst h1
  exact h2

theorem Table.get_none {T : Table F} {e : Expr F} (h : T.get e = none) : ¬ Key T e := by
  rintro ⟨x, hx⟩
  unfold Table.get at h
  rw [Option.map_eq_none_iff] at h
  have := List.find?_eq_none.1 h _ hx
  simp at this

/-- The compiler with the table agrees with the compiler without it. -/
theorem compileMemo_agrees (ho : Once o N inputs) (n : Nat) :
    Agrees o N inputs n (compileMemo (fun _ => o) n) := by
  induction n with
  | zero =>
    intro St s v e T c _ _ _
    exact ⟨fun x r hx => (by cases hx), fun x hx => (by cases hx)⟩
  | succ n ih =>
    intro St s v e T c hc hE hT
    obtain ⟨h, ts⟩ := e
    simp only [compileMemo]
    cases hg : Table.get T (node h ts) with
    | some x0 =>
      have hv := hT.value _ _ (Table.get_mem hg) hE.sub
      refine ⟨fun x r hx => ?_, fun x hx => ⟨(T, c), ?_⟩⟩
      · cases hx
        exact ⟨hv, hT, fun k hk => .inl hk⟩
      · obtain ⟨k, hk⟩ := hv
        have h1 := compile_mono (OptsLe.refl o) (le_max_left k (n + 1)) _ _ _ _ hk
        have h2 := compile_mono (OptsLe.refl o) (le_max_right k (n + 1)) _ _ _ _ hx
        rw [h1] at h2
        cases h2
        rfl
    | none =>
      have hsame : Same (fv (node h ts)) s v s v := ⟨fun _ _ => rfl, fun _ _ => ⟨rfl, fun _ _ => rfl⟩⟩
      obtain ⟨g1, g2⟩ := (stepSim ho hE.known hE.scope hsame hc.clean hc.clean).memo ho ih hc hE T (c + 1) hT
        fun _ => Table.get_none hg
      have hrun : ∀ k x, (stepAsk o s v h ts).run (compile o k) = some x → compile o (k + 1) s v (node h ts) = some x := by
        intro k x hx
        rw [run_stepAsk] at hx
        exact hx
      refine ⟨fun x r hx => ?_, fun x hx => ?_⟩
      · obtain ⟨⟨y, r1⟩, hy, hx⟩ := Option.map_eq_some_iff.1 hx
        cases hx
        obtain ⟨⟨k, hk⟩, h2, h3⟩ := g1 y r1 hy
        have hz : ∃ k, compile o k s v (node h ts) = some y := ⟨k + 1, hrun k y hk⟩
        refine ⟨hz, h2 hz, ?_⟩
        rintro q ⟨x', hq⟩
        rcases List.mem_cons.1 hq with h | hq
        · cases h; exact .inr le_rfl
        · exact h3 q ⟨x', hq⟩
      · have hx' : (stepAsk o s v h ts).run (compile o n) = some x := by
          rw [run_stepAsk]
          exact hx
        obtain ⟨r, hr⟩ := g2 x hx'
        exact ⟨_, by simp only [hr]; rfl⟩

end

end Verif.Codegen
