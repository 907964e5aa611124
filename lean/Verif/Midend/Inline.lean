import Verif.Midend.Substitution

/-! Model of `inline` (`ein/midend/lining.py:161-185`). -/

namespace Verif.Midend
open Term
variable {H V : Type} [Lang H]

/-- `lining.py:174-177`: a reference to a bound variable is replaced, any other node is rebuilt. -/
def inlineRest (bound : List (Nat × Term H)) (h : H)
    (fs : List (Term H × (List (Nat × Term H) → Term H))) : Term H :=
  match Lang.symbol h with
  | some (.var v) =>
    match lookup v bound with
    | some u => u
    | none => node h (fs.map (fun p => p.2 bound))
  | _ => node h (fs.map (fun p => p.2 bound))

/-- One step of `_go` (`lining.py:167-177`). -/
def inlineAlg (pred : Term H → Bool) (h : H)
    (fs : List (Term H × (List (Nat × Term H) → Term H))) (bound : List (Nat × Term H)) : Term H :=
  match Lang.letVar h, fs with
  | some v, [bind, body] =>
    if pred bind.1 then body.2 ((v, bind.2 bound) :: bound) else inlineRest bound h fs
  | _, _ => inlineRest bound h fs

/-- `_go(expr, bound)` without the memo table `transformed` (`lining.py:167-177`); the table is
modelled in `inlineMemo`. `bound | {var: ...}` is the association list with the new entry first. -/
def inlineGo (pred : Term H → Bool) (bound : List (Nat × Term H)) (t : Term H) : Term H :=
  para (inlineAlg pred) t bound

/-- The `predicate` (`lining.py:162-165`). -/
def inlinePred (onlyRenames : Bool) (bind : Term H) : Bool :=
  if onlyRenames then Lang.isAtom bind.head else true

/-- `inline(program, only_renames=...)` (`lining.py:161-185`). -/
def inline (onlyRenames : Bool) (t : Term H) : Term H :=
  inlineGo (inlinePred onlyRenames) [] t

/-- Unfolding: an inlined `let`. -/
theorem inlineGo_let {pred : Term H → Bool} {v : Nat} {bind body : Term H} (hp : pred bind = true)
    (bound : List (Nat × Term H)) :
    inlineGo pred bound (node (Lang.letHead v) [bind, body]) =
      inlineGo pred ((v, inlineGo pred bound bind) :: bound) body := by
  unfold inlineGo
  rw [para_node]
  simp [inlineAlg, Lang.letVar_letHead, hp]

/-- Is `node h ts` a `let` that will be inlined? -/
def InlinedLet (pred : Term H → Bool) (h : H) (ts : List (Term H)) : Prop :=
  ∃ v bind body, h = Lang.letHead v ∧ ts = [bind, body] ∧ pred bind = true

theorem inlineGo_rest {pred : Term H → Bool} {h : H} {ts : List (Term H)}
    (hn : ¬ InlinedLet pred h ts) (bound : List (Nat × Term H)) :
    inlineGo pred bound (node h ts) =
      match Lang.symbol h with
      | some (.var v) =>
        match lookup v bound with
        | some u => u
        | none => node h (ts.map (inlineGo pred bound))
      | _ => node h (ts.map (inlineGo pred bound)) := by
  have key : inlineGo pred bound (node h ts) =
      inlineRest bound h (ts.map (fun t => (t, para (inlineAlg pred) t))) := by
    unfold inlineGo
    rw [para_node]
    unfold inlineAlg
    split
    · rename_i v bind body hv hfs
      split_ifs with hp
      · exfalso
        apply hn
        match ts, hfs with
        | [b, c], hfs =>
          simp only [List.map_cons, List.map_nil, List.cons.injEq, and_true] at hfs
          refine ⟨v, b, c, Lang.letVar_inj h v hv, rfl, ?_⟩
          rw [← hfs.1] at hp; exact hp
      · rw [hfs]
    · rfl
  rw [key]
  unfold inlineRest
  simp only [List.map_map]
  rfl

/-- A term with no inlined let, no bound variable reference: rebuilt. -/
theorem inlineGo_cases {pred : Term H → Bool} {h : H} {ts : List (Term H)}
    (hn : ¬ InlinedLet pred h ts) (bound : List (Nat × Term H)) :
    (∃ v u, Lang.symbol h = some (.var v) ∧ lookup v bound = some u ∧
        inlineGo pred bound (node h ts) = u) ∨
    ((∀ v, Lang.symbol h = some (.var v) → lookup v bound = none) ∧
        inlineGo pred bound (node h ts) = node h (ts.map (inlineGo pred bound))) := by
  rw [inlineGo_rest hn]
  rcases hs : Lang.symbol h with _ | (v | i)
  · exact Or.inr ⟨fun w hw => by (cases hw), rfl⟩
  · cases hl : lookup v bound with
    | some u => exact Or.inl ⟨v, u, rfl, hl, by simp [hl]⟩
    | none => exact Or.inr ⟨fun w hw => by cases hw; exact hl, by simp [hl]⟩
  · exact Or.inr ⟨fun w hw => by (cases hw), rfl⟩

/-- The environment in which the inlined variables have the values of their definitions. -/
def boundEnv (S : Sem H V) (bound : List (Nat × Term H)) (env : Env V) : Env V
  | .var v => match lookup v bound with
    | some u => S.eval u env
    | none => env (.var v)
  | .idx i => env (.idx i)

theorem boundEnv_cons (S : Sem H V) (bound : List (Nat × Term H)) (v : Nat) (u : Term H)
    (env : Env V) :
    boundEnv S ((v, u) :: bound) env = (boundEnv S bound env).set (.var v) (S.eval u env) := by
  funext s
  cases s with
  | var w =>
    by_cases h : w = v
    · subst h; simp [boundEnv, Env.set, lookup]
    · simp [boundEnv, Env.set, lookup, h]
  | idx i => simp [boundEnv, Env.set]

/-- Variables bound so far, as symbols. -/
def boundKeys {A : Type} (bound : List (Nat × A)) : Finset Sym :=
  (bound.map (fun p => Sym.var p.1)).toFinset

theorem lookup_none_boundKeys {A : Type} {v : Nat} {bound : List (Nat × A)} :
    lookup v bound = none ↔ Sym.var v ∉ boundKeys bound := by
  rw [lookup_none]
  unfold keys boundKeys
  simp

theorem fv_inlineGo (pred : Term H → Bool) (t : Term H) : NoShadow t →
    ∀ bound, fv (inlineGo pred bound t) ⊆ (fv t \ boundKeys bound) ∪ rangeFv bound := by
  induction t using ind with
  | step h ts ih =>
    intro hns bound
    by_cases hil : InlinedLet pred h ts
    · obtain ⟨v, bind, body, rfl, rfl, hp⟩ := hil
      rw [inlineGo_let hp]
      intro s hs
      have h1 := ih body (by simp) (hns.children _ (by simp)) _ hs
      have hv := hns.letOk
      have hbk : boundKeys ((v, inlineGo pred bound bind) :: bound) =
          insert (Sym.var v) (boundKeys bound) := by simp [boundKeys]
      have hrf : s ∈ rangeFv ((v, inlineGo pred bound bind) :: bound) →
          s ∈ fv (inlineGo pred bound bind) ∨ s ∈ rangeFv bound := by
        intro hr
        obtain ⟨p, hp, hs⟩ := mem_rangeFv.1 hr
        rcases List.mem_cons.1 hp with rfl | hp
        · exact Or.inl hs
        · exact Or.inr (mem_rangeFv.2 ⟨p, hp, hs⟩)
      rw [hbk] at h1
      rcases Finset.mem_union.1 h1 with h1 | h1
      · rw [Finset.mem_sdiff, Finset.mem_insert, not_or] at h1
        refine Finset.mem_union_left _ (Finset.mem_sdiff.2 ⟨?_, h1.2.2⟩)
        refine mem_fv.2 ⟨Or.inr ⟨body, by simp, h1.1⟩, ?_⟩
        rw [Lang.captured_let]; simpa using h1.2.1
      · rcases hrf h1 with h2 | h2
        · rcases Finset.mem_union.1 (ih bind (by simp) (hns.children _ (by simp)) _ h2) with h3 | h3
          · rw [Finset.mem_sdiff] at h3
            refine Finset.mem_union_left _ (Finset.mem_sdiff.2 ⟨?_, h3.2⟩)
            refine mem_fv.2 ⟨Or.inr ⟨bind, by simp, h3.1⟩, ?_⟩
            rw [Lang.captured_let]
            simp only [Finset.mem_singleton]
            intro e; rw [e] at h3; exact hv h3.1
          · exact Finset.mem_union_right _ h3
        · exact Finset.mem_union_right _ h2
    · rcases inlineGo_cases hil bound with ⟨v, u, hsym, hl, he⟩ | ⟨hsym, he⟩
      · rw [he]
        intro s hs
        exact Finset.mem_union_right _ (mem_rangeFv.2 ⟨_, lookup_mem hl, hs⟩)
      · rw [he]
        intro s hs
        rw [mem_fv] at hs
        obtain ⟨hs, hnc⟩ := hs
        rcases hs with hs | ⟨t', ht', hs⟩
        · refine Finset.mem_union_left _ (Finset.mem_sdiff.2 ⟨mem_fv.2 ⟨Or.inl hs, hnc⟩, ?_⟩)
          cases s with
          | var v => exact lookup_none_boundKeys.1 (hsym v hs)
          | idx i => simp [boundKeys]
        · obtain ⟨t, ht, rfl⟩ := List.mem_map.1 ht'
          rcases Finset.mem_union.1 (ih t ht (hns.children _ ht) _ hs) with h1 | h1
          · rw [Finset.mem_sdiff] at h1
            exact Finset.mem_union_left _
              (Finset.mem_sdiff.2 ⟨mem_fv.2 ⟨Or.inr ⟨t, ht, h1.1⟩, hnc⟩, h1.2⟩)
          · exact Finset.mem_union_right _ h1

theorem inlineGo_eval (S : Sem H V) (pred : Term H → Bool) (t : Term H) : NoShadow t →
    ∀ (G : Finset Sym) (bound : List (Nat × Term H)), Disjoint (binders t) G → fv t ⊆ G →
    boundKeys bound ⊆ G → rangeFv bound ⊆ G →
    ∀ env, S.eval (inlineGo pred bound t) env = S.eval t (boundEnv S bound env) := by
  induction t using ind with
  | step h ts ih =>
    intro hns G bound hG hfv hk hr env
    by_cases hil : InlinedLet pred h ts
    · obtain ⟨v, bind, body, rfl, rfl, hp⟩ := hil
      rw [inlineGo_let hp]
      have hcs := fun t ht => hns.child_scope (t := t) hG ht
      have hf := fun t ht => fv_child_subset (h := Lang.letHead v) (ts := [bind, body]) (t := t) ht hfv
      simp only [Lang.captured_let] at hcs hf
      have hbody : body ∈ [bind, body] := by simp
      have hbind : bind ∈ [bind, body] := by simp
      have hbindG : fv bind ⊆ G := by
        intro s hs
        have := hf bind hbind hs
        rcases Finset.mem_union.1 this with h1 | h1
        · exact h1
        · rw [Finset.mem_singleton] at h1; subst h1; exact absurd hs hns.letOk
      rw [ih body hbody (hns.children _ hbody) (G ∪ {Sym.var v}) _ (hcs body hbody) (hf body hbody)]
      · rw [boundEnv_cons,
          ih bind hbind (hns.children _ hbind) G bound
            (Finset.disjoint_of_subset_left (binders_child_subset hbind) hG) hbindG hk hr]
        exact (S.eval_wrapLet body bind v hns.letOk _).symm
      · intro s hs
        have : boundKeys ((v, inlineGo pred bound bind) :: bound) =
          insert (Sym.var v) (boundKeys bound) := by simp [boundKeys]
        rw [this, Finset.mem_insert] at hs
        rcases hs with rfl | hs
        · simp
        · exact Finset.mem_union_left _ (hk hs)
      · intro s hs
        refine Finset.mem_union_left _ ?_
        obtain ⟨p, hp, hs⟩ := mem_rangeFv.1 hs
        rcases List.mem_cons.1 hp with rfl | hp
        · rcases Finset.mem_union.1 (fv_inlineGo pred bind (hns.children _ hbind) bound hs) with h1 | h1
          · exact hbindG (Finset.mem_sdiff.1 h1).1
          · exact hr h1
        · exact hr (mem_rangeFv.2 ⟨p, hp, hs⟩)
    · rcases inlineGo_cases hil bound with ⟨v, u, hsym, hl, he⟩ | ⟨hsym, he⟩
      · rw [he, S.eval_symbol hsym]
        simp [boundEnv, hl]
      · rw [he]
        refine S.eval_congr ?_ ?_
        · intro s hs
          cases s with
          | var v => simp [boundEnv, hsym v hs]
          | idx i => rfl
        · rw [List.forall₂_map_left_iff, List.forall₂_same]
          intro t ht ext
          rw [ih t ht (hns.children _ ht) (G ∪ Lang.captured h) bound (hns.child_scope hG ht)
            (fv_child_subset ht hfv) (hk.trans Finset.subset_union_left)
            (hr.trans Finset.subset_union_left)]
          congr 1
          have hcap : Disjoint (Lang.captured h) G :=
            Finset.disjoint_of_subset_left captured_subset_binders hG
          funext s
          cases s with
          | idx i => rfl
          | var v =>
            by_cases hc : Sym.var v ∈ Lang.captured h
            · have hnk : Sym.var v ∉ boundKeys bound := fun hk' =>
                Finset.disjoint_left.1 hcap hc (hk hk')
              simp [boundEnv, lookup_none_boundKeys.2 hnk, Env.override, hc]
            · cases hlk : lookup v bound with
              | none => simp [boundEnv, Env.override, hc, hlk]
              | some u =>
                simp only [boundEnv, Env.override, hc, if_false, hlk]
                refine S.eval_agree _ (fun x hx => ?_)
                have : x ∉ Lang.captured h := fun hxc =>
                  Finset.disjoint_left.1 hcap hxc (hr (mem_rangeFv.2 ⟨_, lookup_mem hlk, hx⟩))
                simp [Env.override, this]

/-- Inlining keeps sub-terms out of scopes they were not in. -/
theorem inlineGo_scoped (pred : Term H → Bool) (t : Term H) : NoShadow t → Scoped t →
    ∀ (G : Finset Sym) (bound : List (Nat × Term H)), Disjoint (binders t) G → fv t ⊆ G →
    rangeFv bound ⊆ G → (∀ p ∈ bound, Scoped p.2) → Scoped (inlineGo pred bound t) := by
  induction t using ind with
  | step h ts ih =>
    intro hns hsc G bound hG hfv hr hb
    by_cases hil : InlinedLet pred h ts
    · obtain ⟨v, bind, body, rfl, rfl, hp⟩ := hil
      rw [inlineGo_let hp]
      have hcs := fun t ht => hns.child_scope (t := t) hG ht
      have hf := fun t ht => fv_child_subset (h := Lang.letHead v) (ts := [bind, body]) (t := t) ht hfv
      simp only [Lang.captured_let] at hcs hf
      have hbody : body ∈ [bind, body] := by simp
      have hbind : bind ∈ [bind, body] := by simp
      have hbindG : fv bind ⊆ G := by
        intro s hs
        have := hf bind hbind hs
        rcases Finset.mem_union.1 this with h1 | h1
        · exact h1
        · rw [Finset.mem_singleton] at h1; subst h1; exact absurd hs hns.letOk
      refine ih body hbody (hns.children _ hbody) (hsc.children _ hbody) (G ∪ {Sym.var v}) _
        (hcs body hbody) (hf body hbody) ?_ ?_
      · intro s hs
        refine Finset.mem_union_left _ ?_
        obtain ⟨p, hp, hs⟩ := mem_rangeFv.1 hs
        rcases List.mem_cons.1 hp with rfl | hp
        · rcases Finset.mem_union.1 (fv_inlineGo pred bind (hns.children _ hbind) bound hs) with h1 | h1
          · exact hbindG (Finset.mem_sdiff.1 h1).1
          · exact hr h1
        · exact hr (mem_rangeFv.2 ⟨p, hp, hs⟩)
      · intro p hp
        rcases List.mem_cons.1 hp with rfl | hp
        · exact ih bind hbind (hns.children _ hbind) (hsc.children _ hbind) G bound
            (Finset.disjoint_of_subset_left (binders_child_subset hbind) hG) hbindG hr hb
        · exact hb p hp
    · rcases inlineGo_cases hil bound with ⟨v, u, hsym, hl, he⟩ | ⟨hsym, he⟩
      · rw [he]
        exact hb _ (lookup_mem hl)
      · rw [he]
        refine .node ?_ ?_
        · intro k u hk ho
          rw [List.getElem?_map, Option.map_eq_some_iff] at hk
          obtain ⟨t, hk, rfl⟩ := hk
          have hd := hsc.out k t hk ho
          rw [Finset.disjoint_left] at hd ⊢
          intro s hc hs
          rcases Finset.mem_union.1 (fv_inlineGo pred t (hns.children _ (List.mem_of_getElem? hk))
            bound hs) with h1 | h1
          · exact hd hc (Finset.mem_sdiff.1 h1).1
          · exact Finset.disjoint_left.1 hG (captured_subset_binders hc) (hr h1)
        · intro u hu
          obtain ⟨t, ht, rfl⟩ := List.mem_map.1 hu
          exact ih t ht (hns.children _ ht) (hsc.children _ ht) (G ∪ Lang.captured h) bound
            (hns.child_scope hG ht) (fv_child_subset ht hfv)
            (hr.trans Finset.subset_union_left) hb

/-- No `let` left. -/
def LetFree (t : Term H) : Prop :=
  ∀ h ts, Occurs (node h ts) t → Lang.letVar h = none

theorem LetFree.node {h : H} {ts : List (Term H)} (hl : Lang.letVar h = none)
    (hc : ∀ t ∈ ts, LetFree t) : LetFree (node h ts) := by
  intro k us ho
  cases ho with
  | refl => exact hl
  | child ht ho => exact hc _ ht k us ho

theorem LetFree.children {h : H} {ts : List (Term H)} (hl : LetFree (Term.node h ts)) :
    ∀ t ∈ ts, LetFree t := fun _ ht k us ho => hl k us (.child ht ho)

/-- `let` nodes have exactly a definition and a body (`unwrap_let`, `ein/term.py:57-59`). -/
def LetArity (t : Term H) : Prop :=
  ∀ h ts, Occurs (node h ts) t → (Lang.letVar h).isSome → ts.length = 2

theorem LetArity.child {h : H} {ts : List (Term H)} (p : LetArity (Term.node h ts)) {t : Term H}
    (ht : t ∈ ts) : LetArity t := fun k us ho hs => p k us (.child ht ho) hs

theorem inlineGo_letFree (t : Term H) : LetArity t → ∀ bound, (∀ p ∈ bound, LetFree p.2) →
    LetFree (inlineGo (fun _ => true) bound t) := by
  induction t using ind with
  | step h ts ih =>
    intro ha bound hb
    by_cases hil : InlinedLet (fun _ => true) h ts
    · obtain ⟨v, bind, body, rfl, rfl, hp⟩ := hil
      rw [inlineGo_let hp]
      refine ih body (by simp) (ha.child (by simp)) _ ?_
      intro p hp
      rcases List.mem_cons.1 hp with rfl | hp
      · exact ih bind (by simp) (ha.child (by simp)) _ hb
      · exact hb p hp
    · rcases inlineGo_cases hil bound with ⟨v, u, hsym, hl, he⟩ | ⟨hsym, he⟩
      · rw [he]; exact hb _ (lookup_mem hl)
      · rw [he]
        refine LetFree.node ?_ ?_
        · cases hl : Lang.letVar h with
          | none => rfl
          | some v =>
            exfalso; apply hil
            have := ha h ts (.refl _) (by simp [hl])
            match ts, this with
            | [a, b], _ => exact ⟨v, a, b, Lang.letVar_inj h v hl, rfl, rfl⟩
        · intro t' ht'
          obtain ⟨t, ht, rfl⟩ := List.mem_map.1 ht'
          exact ih t ht (ha.child ht) bound hb

/-- Inlining is the identity on let-free programs. -/
theorem inlineGo_nil_of_letFree (pred : Term H → Bool) (t : Term H) (hl : LetFree t) :
    inlineGo pred [] t = t := by
  induction t using ind with
  | step h ts ih =>
    have hil : ¬ InlinedLet pred h ts := by
      rintro ⟨v, bind, body, rfl, rfl, _⟩
      have := hl _ _ (.refl _)
      rw [Lang.letVar_letHead] at this; cases this
    rcases inlineGo_cases hil [] with ⟨v, u, hsym, hlk, he⟩ | ⟨hsym, he⟩
    · simp [lookup] at hlk
    · rw [he]
      congr 1
      have : ∀ t ∈ ts, inlineGo pred [] t = t := fun t ht =>
        ih t ht (fun k us ho => hl k us (.child ht ho))
      rw [List.map_congr_left this, List.map_id']

end Verif.Midend
