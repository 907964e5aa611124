import Verif.Midend.OutlineOk

/-!
Strict evaluation and the midend passes.

The evaluators (`naive.py:14-85`, `array_backend.py:157-255`) compute the definition of a `let` before
its body, so hoisting an expression can only introduce a failure if the expression was never evaluated
at its old place. A `Demanding` evaluator fails unless every sub-term is evaluated at least once; such an
evaluation survives sharing and hoisting.
-/

set_option linter.unusedSectionVars false

namespace Verif

/-- `b` has the value of `a` whenever `a` has one. -/
def Le {α : Type} (a b : Option α) : Prop := ∀ v, a = some v → b = some v

theorem Le.rfl {α : Type} {a : Option α} : Le a a := fun _ h => h

theorem Le.of_eq {α : Type} {a b : Option α} (h : a = b) : Le a b := h ▸ Le.rfl

theorem Le.bind {α β : Type} {a b : Option α} {f g : α → Option β} (h : Le a b)
    (hf : ∀ x, a = some x → Le (f x) (g x)) : Le (a.bind f) (b.bind g) := by
  intro v hv
  obtain ⟨x, hx, hfx⟩ := Option.bind_eq_some_iff.1 hv
  rw [h x hx]
  exact hf x hx v hfx

theorem Le.isSome {α : Type} {a b : Option α} (h : Le a b) (ha : a.isSome) : b.isSome := by
  obtain ⟨x, hx⟩ := Option.isSome_iff_exists.1 ha
  rw [h x hx]; rfl

namespace Midend
open Term
variable {H V : Type} [Lang H] [DecidableEq H]

/-- A strict evaluator. -/
structure Strict (H V : Type) [Lang H] where
  den : H → List (Env V → Option V) → Env V → Option V
  den_symbol : ∀ h s env, Lang.symbol h = some s → den h [] env = env s
  den_symbol_le : ∀ h fs s env, Lang.symbol h = some s → Le (den h fs env) (env s)
  den_let : ∀ v f g env, den (Lang.letHead v) [f, g] env =
    (f env).bind fun x => g (env.set (.var v) (some x))
  mono : ∀ h (fs gs : List (Env V → Option V)) env env', fs.length = gs.length →
    (∀ s, Lang.symbol h = some s → Le (env s) (env' s)) →
    (∀ k f g, fs[k]? = some f → gs[k]? = some g →
      (Lang.outside h k = true → Le (f env) (g env')) ∧
      (Lang.outside h k = false → ∀ ext : Env V,
        Le (f (env.override (Lang.captured h) ext)) (g (env'.override (Lang.captured h) ext)))) →
    Le (den h fs env) (den h gs env')

/-- Every sub-term is evaluated at least once. -/
def Strict.Demanding (R : Strict H V) : Prop :=
  ∀ h (fs : List (Env V → Option V)) env, (R.den h fs env).isSome →
    ∀ k f, fs[k]? = some f →
      (Lang.outside h k = true → (f env).isSome) ∧
      (Lang.outside h k = false → ∃ ext : Env V, (f (env.override (Lang.captured h) ext)).isSome)

namespace Strict
variable (R : Strict H V)

/-- Evaluation of a term. -/
def eval (t : Term H) : Env V → Option V := cata R.den t

theorem eval_node (h : H) (ts : List (Term H)) :
    R.eval (node h ts) = R.den h (ts.map R.eval) := cata_node _ _ _

theorem eval_symbol_le {h : H} {s : Sym} (hs : Lang.symbol h = some s) (ts : List (Term H))
    (env : Env V) : Le (R.eval (node h ts) env) (env s) := by
  rw [eval_node]
  exact R.den_symbol_le h _ s env hs

theorem eval_wrapVar (t : Term H) (v : Nat) (env : Env V) :
    R.eval (wrapVar t v) env = env (.var v) := by
  unfold wrapVar
  rw [eval_node]
  exact R.den_symbol _ _ env (Lang.symbol_var t v)

theorem eval_wrapLet (body bind : Term H) (v : Nat) (env : Env V) :
    R.eval (wrapLet body v bind) env =
      (R.eval bind env).bind fun x => R.eval body (env.set (.var v) (some x)) := by
  unfold wrapLet
  rw [eval_node]
  exact R.den_let v _ _ env

/-- Rebuilding lemma. -/
theorem eval_mono {h : H} {ts us : List (Term H)} {env env' : Env V} (hl : ts.length = us.length)
    (hs : ∀ s, Lang.symbol h = some s → Le (env s) (env' s))
    (hc : ∀ k t u, ts[k]? = some t → us[k]? = some u →
      (Lang.outside h k = true → Le (R.eval t env) (R.eval u env')) ∧
      (Lang.outside h k = false → ∀ ext : Env V,
        Le (R.eval t (env.override (Lang.captured h) ext))
          (R.eval u (env'.override (Lang.captured h) ext)))) :
    Le (R.eval (node h ts) env) (R.eval (node h us) env') := by
  rw [eval_node, eval_node]
  refine R.mono h _ _ env env' (by simpa using hl) hs ?_
  intro k f g hf hg
  rw [List.getElem?_map, Option.map_eq_some_iff] at hf hg
  obtain ⟨t, ht, rfl⟩ := hf
  obtain ⟨u, hu, rfl⟩ := hg
  exact hc k t u ht hu

theorem eval_agree (t : Term H) : Scoped t → ∀ {env env' : Env V},
    (∀ s ∈ fv t, Le (env s) (env' s)) → Le (R.eval t env) (R.eval t env') := by
  induction t using ind with
  | step h ts ih =>
    intro hsc env env' ha
    refine R.eval_mono rfl ?_ ?_
    · intro s hs
      refine ha s (mem_fv.2 ⟨Or.inl hs, ?_⟩)
      rw [Lang.captured_symbol h s hs]; simp
    · intro k t u ht hu
      rw [ht] at hu; cases hu
      have hm := List.mem_of_getElem? ht
      refine ⟨fun ho => ?_, fun _ ext => ?_⟩
      · refine ih t hm (hsc.children _ hm) (fun s hs => ha s (mem_fv.2 ⟨Or.inr ⟨t, hm, hs⟩, ?_⟩))
        exact fun hc => Finset.disjoint_left.1 (hsc.out k t ht ho) hc hs
      · refine ih t hm (hsc.children _ hm) (fun s hs => ?_)
        unfold Env.override
        split_ifs with hc
        · exact Le.rfl
        · exact ha s (mem_fv.2 ⟨Or.inr ⟨t, hm, hs⟩, hc⟩)

/-- Every sub-term whose symbols are all in scope outside is evaluated there successfully. -/
theorem eval_occurs (hR : R.Demanding) {b e : Term H} (ho : Occurs b e) : Scoped e → Disjoint (binders e) (fv b) →
    ∀ env, (R.eval e env).isSome → (R.eval b env).isSome := by
  induction ho with
  | refl => intro _ _ env h; exact h
  | @child t h ts ht ho ih =>
    rename_i b
    intro hsc hd env hv
    rw [eval_node] at hv
    obtain ⟨k, hk⟩ := List.getElem?_of_mem ht
    have hdem := hR h _ env hv k (R.eval t) (by rw [List.getElem?_map, hk]; rfl)
    have hd' := Finset.disjoint_of_subset_left (binders_child_subset (h := h) ht) hd
    cases hout : Lang.outside h k with
    | true => exact ih (hsc.children _ ht) hd' env (hdem.1 hout)
    | false =>
      obtain ⟨ext, hext⟩ := hdem.2 hout
      have := ih (hsc.children _ ht) hd' _ hext
      refine Le.isSome (R.eval_agree b ((hsc.children _ ht).occurs ho) (fun s hs => ?_)) this
      have hc : s ∉ Lang.captured h := fun hc =>
        Finset.disjoint_left.1 hd (captured_subset_binders hc) hs
      simp only [Env.override, hc, if_false]
      exact Le.rfl

end Strict

/-- Insertions keep strict values. -/
theorem applyGo_strict (R : Strict H V) (hR : R.Demanding) {ins : Term H → List (Nat × Term H)} 
    (hi : InsOk ins) (n : Nat) :
    ∀ (B : List (Term H × Nat)) (e e' : Term H) (G : Finset Sym) (env env' : Env V),
      InsFresh ins (binders e ∪ G) → NoShadow e → Scoped e → Disjoint (binders e) G → fv e ⊆ G →
      BOk ins e.size B →
      (∀ b v, (b, v) ∈ B → Le (R.eval b env) (env' (.var v)) ∧ fv b ⊆ G ∧ Scoped b) →
      (∀ s ∈ G, Le (env s) (env' s)) →
      applyGo ins n B e = some e' → Le (R.eval e env) (R.eval e' env') := by
  induction n with
  | zero => intro B e e' G env env' _ _ _ _ _ _ _ _ h; simp [applyGo] at h
  | succ n ih =>
    intro B e e' G env env' hfr hns hscp hG hfv hB hval hag h
    unfold applyGo at h
    split at h
    · rename_i v hl
      cases h
      rw [R.eval_wrapVar]
      exact (hval e v (lookupTerm_mem hl)).1
    · simp only [Option.bind_eq_bind, Option.bind_eq_some_iff, Option.pure_def] at h
      obtain ⟨r, hr, ts, hts, he⟩ := h
      cases he
      suffices H : ∀ (l : List (Nat × Term H)) (B : List (Term H × Nat))
          (r : List (Nat × Term H) × List (Term H × Nat)) (env' : Env V),
          (∀ p ∈ l, p ∈ ins e) → (l.map Prod.fst).Nodup → BOk' ins e l B →
          (∀ b v, (b, v) ∈ B → Le (R.eval b env) (env' (.var v)) ∧ fv b ⊆ G ∧ Scoped b) →
          (∀ s ∈ G, Le (env s) (env' s)) →
          bindAll (applyGo ins n) B l = some r → mapAll (applyGo ins n r.2) e.subs = some ts →
          Le (R.eval e env) (R.eval (letAll r.1 (node e.head ts)) env') from
        H (ins e) B r env' (fun _ h => h) (hi.nodup e) (hB.start hi) hval hag hr hts
      intro l
      induction l with
      | nil =>
        intro B r env' _ _ hB' hval hag hr hts
        simp only [bindAll, Option.some.injEq] at hr
        subst hr
        obtain ⟨hd, es⟩ := e
        simp only [letAll, Term.head, Term.subs] at hts ⊢
        have hF := mapAll_forall₂ hts
        refine R.eval_mono hF.length_eq ?_ ?_
        · intro s hs
          refine hag s (hfv (mem_fv.2 ⟨Or.inl hs, ?_⟩))
          rw [Lang.captured_symbol hd s hs]; simp
        · intro k t t' hk hk'
          have hgo : applyGo ins n B t = some t' := by
            have := hF.get (i := k) (List.getElem?_eq_some_iff.1 hk).1 (List.getElem?_eq_some_iff.1 hk').1
            simp only [List.get_eq_getElem] at this
            rw [(List.getElem?_eq_some_iff.1 hk).2, (List.getElem?_eq_some_iff.1 hk').2] at this
            exact this
          have ht := List.mem_of_getElem? hk
          have hcapG : Disjoint (Lang.captured hd) G :=
            Finset.disjoint_of_subset_left captured_subset_binders hG
          refine ⟨fun hout => ?_, fun _ ext => ?_⟩
          · refine ih B t t' G _ _ ?_ (hns.children t ht) (hscp.children t ht)
              (Finset.disjoint_of_subset_left (binders_child_subset ht) hG) ?_
              (hB'.child (size_lt_of_mem ht)) hval hag hgo
            · intro s v b hm hx
              refine hfr s v b hm ?_
              rcases Finset.mem_union.1 hx with hx | hx
              · exact Finset.mem_union_left _ (binders_child_subset ht hx)
              · exact Finset.mem_union_right _ hx
            · intro s hs
              exact hfv (mem_fv.2 ⟨Or.inr ⟨t, ht, hs⟩, fun hc =>
                Finset.disjoint_left.1 (hscp.out k t hk hout) hc hs⟩)
          · refine ih B t t' (G ∪ Lang.captured hd) _ _ ?_ (hns.children t ht) (hscp.children t ht)
              (hns.child_scope hG ht) (fv_child_subset ht hfv) (hB'.child (size_lt_of_mem ht)) ?_ ?_
              hgo
            · intro s v b hm hx
              refine hfr s v b hm ?_
              rcases Finset.mem_union.1 hx with hx | hx
              · exact Finset.mem_union_left _ (binders_child_subset ht hx)
              · rcases Finset.mem_union.1 hx with hx | hx
                · exact Finset.mem_union_right _ hx
                · exact Finset.mem_union_left _ (captured_subset_binders hx)
            · intro b v hm
              obtain ⟨h1, h2, h3⟩ := hval b v hm
              refine ⟨?_, h2.trans Finset.subset_union_left, h3⟩
              obtain ⟨⟨s', b', hm', _⟩, _⟩ := hB' b v hm
              have hnc : Sym.var v ∉ Lang.captured hd := fun hc =>
                hfr s' v b' hm' (Finset.mem_union_left _ (captured_subset_binders hc))
              have hle : Le (R.eval b (env.override (Lang.captured hd) ext)) (R.eval b env) := by
                refine R.eval_agree b h3 (fun x hx => ?_)
                have : x ∉ Lang.captured hd := fun hc => Finset.disjoint_left.1 hcapG hc (h2 hx)
                simp only [Env.override, this, if_false]
                exact Le.rfl
              intro y hy
              simp only [Env.override, hnc, if_false]
              exact h1 y (hle y hy)
            · intro s hs
              by_cases hc : s ∈ Lang.captured hd
              · simp only [Env.override, hc, if_true]; exact Le.rfl
              · simp only [Env.override, hc, if_false]
                rcases Finset.mem_union.1 hs with hs | hs
                · exact hag s hs
                · exact absurd hs hc
      | cons p l ihl =>
        obtain ⟨v, b⟩ := p
        intro B r env' hl hnd hB' hval hag hr hts
        obtain ⟨bind', r', hgo, hr', rfl⟩ := bindAll_cons hr
        have hin : (v, b) ∈ ins e := hl _ List.mem_cons_self
        obtain ⟨hocc, hne⟩ := hi.occurs _ _ _ hin
        have hsc := hi.scope _ _ _ hin
        have hlt := hi.size_lt hin
        have hvB : ∀ b' w, (b', w) ∈ B → w ≠ v := by
          rintro b' w hm rfl
          exact (hB' b' w hm).2 (by simp)
        have hvG : ∀ s ∈ G, s ≠ .var v := by
          rintro s hs rfl
          exact hfr _ _ _ hin (Finset.mem_union_right _ hs)
        have hb : Le (R.eval b env) (R.eval bind' env') := by
          refine ih B b bind' G env _ ?_ (hns.occurs hocc) (hscp.occurs hocc)
            (Finset.disjoint_of_subset_left (binders_occurs hocc) hG) (hsc.trans hfv)
            (hB'.child hlt) hval hag hgo
          intro s w b' hm hx
          refine hfr s w b' hm ?_
          rcases Finset.mem_union.1 hx with hx | hx
          · exact Finset.mem_union_left _ (binders_occurs hocc hx)
          · exact Finset.mem_union_right _ hx
        have hnd' : (l.map Prod.fst).Nodup := by
          simp only [List.map_cons, List.nodup_cons] at hnd; exact hnd.2
        simp only [letAll]
        rw [R.eval_wrapLet]
        intro y hy
        -- the definition is evaluated somewhere below, so also here
        have hbs : (R.eval b env).isSome := R.eval_occurs hR hocc hscp
          (Finset.disjoint_of_subset_right (hsc.trans hfv) hG) env (by rw [hy]; rfl)
        obtain ⟨x, hx⟩ := Option.isSome_iff_exists.1 hbs
        rw [hb x hx]
        refine ihl ((b, v) :: B) r' _ (fun p hp => hl p (List.mem_cons_of_mem _ hp))
          hnd' (hB'.step hin hnd) ?_ ?_ hr' hts y hy
        · intro b' w hm
          rcases List.mem_cons.1 hm with he | hm'
          · cases he
            exact ⟨by simp [Env.set, hx, Le.rfl], hsc.trans hfv, hscp.occurs hocc⟩
          · obtain ⟨h1, h2⟩ := hval b' w hm'
            refine ⟨?_, h2⟩
            simp only [Env.set, Sym.var.injEq, hvB b' w hm', if_false]
            exact h1
        · intro s hs
          simp only [Env.set, hvG s hs, if_false]
          exact hag s hs

theorem applyInsertions_strict (R : Strict H V) (hR : R.Demanding)
    {ins : Term H → List (Nat × Term H)} (hi : InsOk ins) {p p' : Term H} (hfr : InsFresh ins (symbols p)) (hns : NoShadow p) (hs : Scoped p)
    (hcl : Disjoint (binders p) (fv p)) (h : applyInsertions ins p = some p') (env : Env V) :
    Le (R.eval p env) (R.eval p' env) := by
  refine applyGo_strict R hR hi p.size [] p p' (fv p) env env hfr hns hs hcl (Finset.Subset.refl _)
    ?_ ?_ ?_ h
  · intro b v hm; cases hm
  · intro b v hm; cases hm
  · intro s _; exact Le.rfl

/-- Inlining keeps strict values. -/
theorem inlineGo_strict (R : Strict H V) (pred : Term H → Bool) (t : Term H) : NoShadow t →
    Scoped t →
    ∀ (G : Finset Sym) (bound : List (Nat × Term H)), Disjoint (binders t) G → fv t ⊆ G →
    boundKeys bound ⊆ G → rangeFv bound ⊆ G → (∀ p ∈ bound, Scoped p.2) →
    ∀ env env', (∀ v u, lookup v bound = some u → Le (env (.var v)) (R.eval u env')) →
      (∀ s ∈ G, s ∉ boundKeys bound → Le (env s) (env' s)) →
      Le (R.eval t env) (R.eval (inlineGo pred bound t) env') := by
  induction t using ind with
  | step h ts ih =>
    intro hns hsc G bound hG hfv hk hr hbs env env' hb hag
    by_cases hil : InlinedLet pred h ts
    · obtain ⟨v, bind, body, rfl, rfl, hp⟩ := hil
      rw [inlineGo_let hp]
      have hcs := fun t ht => hns.child_scope (t := t) hG ht
      have hf := fun t ht => fv_child_subset (h := Lang.letHead v) (ts := [bind, body]) (t := t) ht hfv
      simp only [Lang.captured_let] at hcs hf
      have hbody : body ∈ [bind, body] := by simp
      have hbind : bind ∈ [bind, body] := by simp
      have hbindG : fv bind ⊆ G := by
        intro s hs
        have := hf bind hbind hs
        rcases Finset.mem_union.1 this with h1 | h1
        · exact h1
        · rw [Finset.mem_singleton] at h1; subst h1; exact absurd hs hns.letOk
      have hbG := Finset.disjoint_of_subset_left (binders_child_subset hbind) hG
      have hkey : boundKeys ((v, inlineGo pred bound bind) :: bound) =
          insert (Sym.var v) (boundKeys bound) := by simp [boundKeys]
      have hvG : Sym.var v ∉ G := fun hv => Finset.disjoint_left.1 hG
        (captured_subset_binders (by rw [Lang.captured_let]; simp)) hv
      have e1 : R.eval (node (Lang.letHead v) [bind, body]) env =
          (R.eval bind env).bind fun x => R.eval body (env.set (.var v) (some x)) :=
        R.eval_wrapLet body bind v env
      rw [e1]
      intro y hy
      obtain ⟨x, hx, hy⟩ := Option.bind_eq_some_iff.1 hy
      have hb1 := ih bind hbind (hns.children _ hbind) (hsc.children _ hbind) G bound hbG hbindG hk hr
        hbs env env' hb hag x hx
      refine ih body hbody (hns.children _ hbody) (hsc.children _ hbody) (G ∪ {Sym.var v}) _
        (hcs body hbody) (hf body hbody) ?_ ?_ ?_ _ env' ?_ ?_ y hy
      · intro s hs
        rw [hkey, Finset.mem_insert] at hs
        rcases hs with rfl | hs
        · simp
        · exact Finset.mem_union_left _ (hk hs)
      · intro s hs
        refine Finset.mem_union_left _ ?_
        obtain ⟨p, hp, hs⟩ := mem_rangeFv.1 hs
        rcases List.mem_cons.1 hp with rfl | hp
        · rcases Finset.mem_union.1 (fv_inlineGo pred bind (hns.children _ hbind) bound hs) with h1 | h1
          · exact hbindG (Finset.mem_sdiff.1 h1).1
          · exact hr h1
        · exact hr (mem_rangeFv.2 ⟨p, hp, hs⟩)
      · intro p hp
        rcases List.mem_cons.1 hp with rfl | hp
        · exact inlineGo_scoped pred bind (hns.children _ hbind) (hsc.children _ hbind) G bound hbG
            hbindG hr hbs
        · exact hbs p hp
      · intro w u hl
        unfold lookup at hl
        split_ifs at hl with hw
        · subst hw; cases hl
          simp only [Env.set, if_true]
          intro z hz; cases hz; exact hb1
        · simp only [Env.set, Sym.var.injEq, hw, if_false]
          exact hb w u hl
      · intro s hs hnk
        rw [hkey, Finset.mem_insert, not_or] at hnk
        rw [Finset.mem_union, Finset.mem_singleton] at hs
        simp only [Env.set, hnk.1, if_false]
        exact hag s (hs.resolve_right hnk.1) hnk.2
    · rcases inlineGo_cases hil bound with ⟨v, u, hsym, hl, he⟩ | ⟨hsym, he⟩
      · rw [he]
        exact fun y hy => hb v u hl y (R.eval_symbol_le hsym ts env y hy)
      · rw [he]
        have hcap : Disjoint (Lang.captured h) G :=
          Finset.disjoint_of_subset_left captured_subset_binders hG
        refine R.eval_mono (by simp) ?_ ?_
        · intro s hs
          refine hag s (hfv (mem_fv.2 ⟨Or.inl hs, by rw [Lang.captured_symbol h s hs]; simp⟩)) ?_
          cases s with
          | var v => exact lookup_none_boundKeys.1 (hsym v hs)
          | idx i => simp [boundKeys]
        · intro k t u hk1 hk2
          rw [List.getElem?_map, hk1] at hk2
          cases hk2
          have ht := List.mem_of_getElem? hk1
          refine ⟨fun hout => ?_, fun _ ext => ?_⟩
          · refine ih t ht (hns.children _ ht) (hsc.children _ ht) G bound
              (Finset.disjoint_of_subset_left (binders_child_subset ht) hG) ?_ hk hr hbs env env' hb hag
            intro s hs
            exact hfv (mem_fv.2 ⟨Or.inr ⟨t, ht, hs⟩, fun hc =>
              Finset.disjoint_left.1 (hsc.out k t hk1 hout) hc hs⟩)
          · refine ih t ht (hns.children _ ht) (hsc.children _ ht) (G ∪ Lang.captured h) bound
              (hns.child_scope hG ht) (fv_child_subset ht hfv) (hk.trans Finset.subset_union_left)
              (hr.trans Finset.subset_union_left) hbs _ _ ?_ ?_
            · intro v u hl
              have hvk : Sym.var v ∈ boundKeys bound := by
                by_contra hcon
                rw [lookup_none_boundKeys.2 hcon] at hl; cases hl
              have hnc : Sym.var v ∉ Lang.captured h := fun hc =>
                Finset.disjoint_left.1 hcap hc (hk hvk)
              have hle : Le (R.eval u env') (R.eval u (env'.override (Lang.captured h) ext)) := by
                refine R.eval_agree u (hbs _ (lookup_mem hl)) (fun x hx => ?_)
                have : x ∉ Lang.captured h := fun hxc =>
                  Finset.disjoint_left.1 hcap hxc (hr (mem_rangeFv.2 ⟨_, lookup_mem hl, hx⟩))
                simp only [Env.override, this, if_false]
                exact Le.rfl
              simp only [Env.override, hnc, if_false]
              intro y hy
              exact hle y (hb v u hl y hy)
            · intro s hs hnk
              by_cases hc : s ∈ Lang.captured h
              · simp only [Env.override, hc, if_true]; exact Le.rfl
              · simp only [Env.override, hc, if_false]
                rcases Finset.mem_union.1 hs with hs | hs
                · exact hag s hs hnk
                · exact absurd hs hc

theorem inline_strict (R : Strict H V) (r : Bool) {p : Term H} (hns : NoShadow p) (hs : Scoped p)
    (hcl : Disjoint (binders p) (fv p)) (env : Env V) :
    Le (R.eval p env) (R.eval (inline r p) env) :=
  inlineGo_strict R _ p hns hs (fv p) [] hcl (Finset.Subset.refl _) (by simp [boundKeys])
    (by simp [rangeFv]) (by simp) env env (by simp [lookup]) (fun _ _ _ => Le.rfl)

theorem outline_strict (R : Strict H V) (hR : R.Demanding) {p p' : Term H}
    (hu : UniqueBinders p) (hns : NoShadow p) (ha : LetArity p) (hs : Scoped p) (h : outline p = some p') (env : Env V) :
    Le (R.eval p env) (R.eval p' env) := by
  obtain ⟨p1, p2, h1, h2, rfl, hu0, hns0, s1, s2, _, _, _⟩ := outline_spec hu hns ha h
  have hs0 := inline_scoped false hns hu.closed hs
  intro v hv
  refine inline_strict R true s2.noShadow (s2.scope (s1.scope hs0)) s2.unique.closed env v ?_
  refine applyInsertions_strict R hR (licm_insOk p1) (number_fresh (le_refl _)) s1.noShadow
    (s1.scope hs0) s1.unique.closed h2 env v ?_
  refine applyInsertions_strict R hR (cse_insOk hu0) (number_fresh (le_refl _)) hns0 hs0 hu0.closed h1
    env v ?_
  exact inline_strict R false hns hs hu.closed env v hv

end Midend
end Verif
