import Verif.Codegen.Built
import Verif.Codegen.MemoSim
import Verif.Midend.Inline

/-! Compiled code mentions what its source mentions, and uses what it binds in the scope only. -/

set_option linter.unusedSectionVars false

namespace Verif.Codegen
open Verif.Phi Verif.Term Verif.Yarr Verif.Arr Verif.Midend
variable {F : Type} {o : Opts F} {N : Expr F → Prop} {inputs X : Finset Sym}

/-- Code that mentions symbols in `X` only, and what it binds only where it is in scope. -/
structure ScopedIn (X : Finset Sym) (c : YExpr F) : Prop where
  sub : fv c ⊆ X
  scope : Scoped c
  arity : LetArity c

theorem kept_scopedIn (X : Finset Sym) : Kept (ScopedIn (F := F) X) := by
  intro h ts hh hts
  have hc : Yarr.Head.captured h = ∅ := by cases h <;> first | rfl | cases hh
  have hsym : Yarr.Head.symbol h = none := by cases h <;> first | rfl | cases hh
  have hl : (Lang.letVar h).isSome = false := by cases h <;> first | rfl | cases hh
  refine ⟨fun s hs => ?_, .node (fun k t _ _ => ?_) fun t ht => (hts t ht).scope, fun g us ho hl' => ?_⟩
  · obtain ⟨h1 | ⟨t, ht, h1⟩, -⟩ := mem_fv.1 hs
    · change Yarr.Head.symbol h = _ at h1
      rw [hsym] at h1; cases h1
    · exact (hts t ht).sub h1
  · change Disjoint (Yarr.Head.captured h) _
    rw [hc]; simp
  · cases ho with
    | refl => rw [hl] at hl'; cases hl'
    | child ht ho => exact (hts _ ht).arity g us ho hl'

theorem scopedIn_var {v : Nat} {p : PTy} (h : Sym.var v ∈ X) : ScopedIn X (node (.var v p) [] : YExpr F) := by
  refine ⟨fun s hs => ?_, .node (by simp) (by simp), fun g us ho hl' => ?_⟩
  · obtain ⟨h1 | ⟨t, ht, h1⟩, -⟩ := mem_fv.1 hs
    · cases h1; exact h
    · cases ht
  · cases ho with
    | refl => cases hl'
    | child ht ho => cases ht

/-- A binder. -/
theorem scopedIn_binder {h : Yarr.Head F} {ts : List (YExpr F)} (hs : Yarr.Head.symbol h = none)
    (hX : Disjoint (Yarr.Head.captured h) X) (hl : (Lang.letVar h).isSome → ts.length = 2)
    (hout : ∀ k t, ts[k]? = some t → Yarr.outside h k = true → ScopedIn X t)
    (hin : ∀ k t, ts[k]? = some t → Yarr.outside h k = false → ScopedIn (X ∪ Yarr.Head.captured h) t) :
    ScopedIn X (node h ts) := by
  have all : ∀ t ∈ ts, ScopedIn (X ∪ Yarr.Head.captured h) t := by
    intro t ht
    obtain ⟨k, hk⟩ := List.getElem?_of_mem ht
    cases ho : Yarr.outside h k with
    | false => exact hin k t hk ho
    | true =>
      have := hout k t hk ho
      exact ⟨this.sub.trans Finset.subset_union_left, this.scope, this.arity⟩
  refine ⟨fun s hs' => ?_, .node (fun k t hk ho => ?_) fun t ht => (all t ht).scope, fun g us ho hl' => ?_⟩
  · obtain ⟨h1 | ⟨t, ht, h1⟩, hc⟩ := mem_fv.1 hs'
    · change Yarr.Head.symbol h = _ at h1
      rw [hs] at h1; cases h1
    · exact (Finset.mem_union.1 ((all t ht).sub h1)).resolve_right hc
  · exact Disjoint.mono_right (hout k t hk ho).sub hX
  · cases ho with
    | refl => exact hl hl'
    | child ht ho => exact (all _ ht).arity g us ho hl'

/-- An expression that may be compiled where the variables `X` are in scope. -/
structure Pre (o : Opts F) (N : Expr F → Prop) (X : Finset Sym) (e : Expr F) : Prop where
  known : Known N e
  scope : Scoped e
  sub : ∀ u, Sym.var u ∈ fv e → Sym.var u ∈ X
  low : ∀ B, N B → height B ≤ height e → Disjoint (caps o B) X

theorem Pre.of {E e : Expr F} (hE : Pre o N X E) (hk : Known N e) (hs : Scoped e) (hsub : ∀ u, Sym.var u ∈ fv e → Sym.var u ∈ fv E)
    (hle : height e ≤ height E) : Pre o N X e :=
  ⟨hk, hs, fun u hu => hE.sub u (hsub u hu), fun B hB hh => hE.low B hB (hh.trans hle)⟩

theorem Pre.self {E : Expr F} (hE : Pre o N X E) (hN : N E) : Disjoint (caps o E) X := hE.low E hN le_rfl

theorem Pre.plain {h : Phi.Head F} {ts : List (Expr F)} (hE : Pre o N X (node h ts)) (hc : Phi.Head.captured h = ∅)
    {t : Expr F} (ht : t ∈ ts) : Pre o N X t :=
  hE.of (hE.known.child ht) (hE.scope.children t ht) (fun _ hu => fv_child hc ht hu)
    ((Nat.le_add_left _ _).trans (height_child ht))

theorem Pre.outer {h : Phi.Head F} {ts : List (Expr F)} (hE : Pre o N X (node h ts)) {k : Nat} {t : Expr F}
    (ht : ts[k]? = some t) (hout : Phi.outside h k = true) : Pre o N X t :=
  have hm := List.mem_of_getElem? ht
  hE.of (hE.known.child hm) (hE.scope.children t hm) (fun _ hu => fv_out hE.scope ht hout hu)
    ((Nat.le_add_left _ _).trans (height_child hm))

theorem Pre.inner (ho : Once o N inputs) {h : Phi.Head F} {ts : List (Expr F)} (hE : Pre o N X (node h ts))
    (hw : wt h ≠ 0) {t : Expr F} (hm : t ∈ ts) : Pre o N (X ∪ Phi.Head.captured h) t := by
  have hlt : height t < height (node h ts) := by have := height_child (h := h) hm; omega
  refine ⟨hE.known.child hm, hE.scope.children t hm, fun u hu => ?_, fun B hB hh => ?_⟩
  · by_cases hc : Sym.var u ∈ Phi.Head.captured h
    · exact Finset.mem_union_right _ hc
    · exact Finset.mem_union_left _ (hE.sub u (mem_fv.2 ⟨.inr ⟨t, hm, hu⟩, hc⟩))
  · rw [Finset.disjoint_union_right]
    refine ⟨hE.low B hB (hh.trans hlt.le), Finset.disjoint_left.2 fun s hs hs' => ?_⟩
    have := ho.unique B _ hB (hE.known.self hw) s hs (captured_subset_caps _ _ _ hs')
    subst this
    omega

theorem ScopedIn.mono {X' : Finset Sym} {c : YExpr F} (h : ScopedIn X c) (hX : X ⊆ X') : ScopedIn X' c :=
  ⟨h.sub.trans hX, h.scope, h.arity⟩

variable [FloatOps F]

/-- Code compiled with this fuel is in scope where its source is. -/
theorem compile_scopedIn (ho : Once o N inputs) (n : Nat) : ∀ {X s v} {e : Expr F} {x : Axial F}, Pre o N X e →
    (∀ i m, s i = some m → ScopedIn X m) → compile o n s v e = some x → ScopedIn X x.expr := by
  induction n with
  | zero => intro X s v e x _ _ h; cases h
  | succ n ih =>
    intro X s v e x hE hs h
    obtain ⟨hd, ts⟩ := e
    have hP := kept_scopedIn (F := F) X
    have hgo : ∀ {v e x}, Pre o N X e → compile o n s v e = some x → ScopedIn X x.expr := fun he hx => ih he hs hx
    have hmap : Phi.Head.captured hd = ∅ → ∀ {xs : List (Axial F)},
        mapOpt (compile o n s v) ts = some xs → ∀ x ∈ xs, ScopedIn X x.expr := fun hc xs hxs =>
      mapOpt_forall hxs fun a ha b hb => hgo (hE.plain hc ha) hb
    have halign : ∀ {xs : List (Axial F)} {axes : List Nat} {es : List (YExpr F)}, (∀ x ∈ xs, ScopedIn X x.expr) →
        mapOpt (fun x : Axial F => x.aligned axes false) xs = some es → ∀ e ∈ es, ScopedIn X e := fun h1 h2 =>
      mapOpt_forall h2 (fun a ha b hb => built_aligned hP (noRepeats_all _) (h1 a ha) hb)
    unfold compile at h
    unfold compileStep at h
    split at h
    · simp only [Option.bind_eq_some_iff] at h
      obtain ⟨a, -, p, -, h⟩ := h
      exact built_mk hP h (built_leaf hP rfl)
    · simp only [Option.bind_eq_some_iff] at h
      obtain ⟨n, hn, h⟩ := h
      exact built_mk hP h (built_one hP rfl (hs _ _ hn))
    · simp only [Option.bind_eq_some_iff] at h
      obtain ⟨a, -, p, -, h⟩ := h
      rw [mk?_expr h]
      exact scopedIn_var (hE.sub _ (mem_fv.2 ⟨.inl rfl, by simp [Lang.captured, Phi.Head.captured]⟩))
    · -- let
      rename_i u b e
      simp only [Option.bind_eq_some_iff] at h
      obtain ⟨a, ha, b', hb, h⟩ := h
      have hN : N (node (.letv u) [b, e]) := hE.known.self (by simp [wt])
      rw [mk?_expr h]
      refine scopedIn_binder rfl (Disjoint.mono_left (captured_subset_caps o (.letv u) [b, e]) (hE.self hN)) (fun _ => rfl)
        (fun k t hk hout => ?_) fun k t hk hout => ?_
      · rcases k with _ | k
        · cases hk; exact hgo (hE.outer (k := 0) rfl rfl) ha
        · simp [Yarr.outside] at hout
      · rcases k with _ | _ | k
        · simp [Yarr.outside] at hout
        · cases hk
          exact ih (hE.inner ho (by simp [wt]) (by simp)) (fun i m hm => (hs i m hm).mono Finset.subset_union_left) hb
        · simp at hk
    · exact hgo (hE.plain rfl (by simp)) h
    · simp only [Option.bind_eq_some_iff] at h
      obtain ⟨a, ha, p, -, h⟩ := h
      exact built_mk hP h (built_one hP rfl (hgo (hE.plain rfl (by simp)) ha))
    · -- fold
      rename_i c a n' z b
      have hN : N (fold c a n' z b) := hE.known.self (by simp [wt])
      split at h
      · rename_i p hp
        obtain ⟨hout, hin⟩ := ho.plan c a n' z b p hN hp
        refine built_planCode hP (fun e he x hx => ?_) (fun s' hs' e he x hx => ?_) hs h
        · have := hout e he
          exact hgo (hE.of this.1 this.2.1 (fun u hu => this.2.2.2 hu) this.2.2.1.le) hx
        · have := hin e he
          refine ih (hE.of this.1 this.2.1 (fun u hu => ?_) this.2.2.1.le) hs' hx
          exact (Finset.mem_union.1 (this.2.2.2 hu)).resolve_right (by simp)
      simp only [loopCode, Option.bind_eq_some_iff] at h
      obtain ⟨m, hm, m', hm', i, hi, pre, -, b', hb, i', hi', b'', hb', h⟩ := h
      rw [mk?_expr h]
      have hin := ih (hE.inner ho (by simp [wt]) (t := b) (by simp)) (fun i m hm => (hs i m hm).mono Finset.subset_union_left) hb
      refine scopedIn_binder rfl (Disjoint.mono_left (captured_subset_caps o (.fold c a) [n', z, b]) (hE.self hN)) (fun h => nomatch h)
        (fun k t hk hout => ?_) fun k t hk hout => ?_
      · rcases k with _ | _ | k
        · cases hk; exact built_normal hP (hgo (hE.outer (k := 0) rfl rfl) hm) hm'
        · cases hk; exact built_repeated hP hs (hgo (hE.outer (k := 1) rfl rfl) hi) hi'
        · simp [Yarr.outside] at hout; omega
      · rcases k with _ | _ | _ | k
        · simp [Yarr.outside] at hout
        · simp [Yarr.outside] at hout
        · cases hk; exact built_aligned (kept_scopedIn _) (noRepeats_all _) hin hb'
        · simp at hk
    · -- reduction
      rename_i x' y' z b vs
      have hN : N (node (.reduce x' y') (z :: b :: vs)) := hE.known.self (by simp [wt])
      simp only [reduceCode, Option.bind_eq_some_iff] at h
      obtain ⟨i, hi, vecs, hvecs, pre, -, b', hb, h⟩ := h
      split at h
      · cases h
      simp only [Option.bind_eq_some_iff] at h
      obtain ⟨i', hi', vs', hvs', h⟩ := h
      split at h
      · cases h
      rw [mk?_expr h]
      have hv : ∀ x ∈ vecs, ScopedIn X x.expr := mapOpt_forall hvecs fun t ht x hx => by
        obtain ⟨k, hk⟩ := List.getElem?_of_mem ht
        exact hgo (hE.outer (k := k + 2) (by simpa using hk) (by simp [Phi.outside])) hx
      refine scopedIn_binder rfl (Disjoint.mono_left (captured_subset_caps o (.reduce x' y') (z :: b :: vs)) (hE.self hN))
        (fun h => nomatch h) (fun k t hk hout => ?_) fun k t hk hout => ?_
      · rcases k with _ | _ | _ | k
        · cases hk; exact built_repeated hP hs (hgo (hE.outer (k := 0) rfl rfl) hi) hi'
        · simp [Yarr.outside] at hout
        · cases hk
          exact built_tupleMaybe hP (mapOpt_forall hvs' fun a ha b hb => built_repeated hP hs (hv a ha) hb)
        · simp at hk
      · rcases k with _ | _ | k
        · simp [Yarr.outside] at hout
        · cases hk
          exact ih (hE.inner ho (by simp [wt]) (t := b) (by simp)) (fun i m hm => (hs i m hm).mono Finset.subset_union_left) hb
        · simp [Yarr.outside] at hout
    · -- read
      rename_i t i
      have ht := hE.plain rfl (t := t) (by simp)
      have hi := hE.plain rfl (t := i) (by simp)
      have hpt : SubPart N (fv (node .get [t, i])) (height (node (.get : Phi.Head F) [t, i])) t :=
        ⟨ht.known, ht.scope, fv_child rfl (by simp), (Nat.le_add_left _ _).trans (height_child (by simp))⟩
      have hpi : SubPart N (fv (node .get [t, i])) (height (node (.get : Phi.Head F) [t, i])) i :=
        ⟨hi.known, hi.scope, fv_child rfl (by simp), (Nat.le_add_left _ _).trans (height_child (by simp))⟩
      have part : ∀ e, SubPart N (fv (node .get [t, i])) (height (node (.get : Phi.Head F) [t, i])) e →
          ∀ x, compile o n s v e = some x → ScopedIn X x.expr := fun e he x hx =>
        hgo (hE.of he.known he.scope (fun u hu => he.sub hu) he.le) hx
      refine built_getCode hP (fun x hx => hgo ht hx) (fun x hx => hgo hi hx) (part _ (hpt.dim 0)) (fun index c hw => ?_) hs h
      obtain ⟨-, -, hm⟩ := window_index hw
      simp only [matchIndexClip, Option.bind_eq_some_iff, Option.map_eq_some_iff, Prod.mk.injEq] at hm
      obtain ⟨_, _, c', hm, _, rfl⟩ := hm
      obtain ⟨h1, h2, h3⟩ := hpi.clip hm
      rintro e (he | he | he)
      · exact part e (h1 e he)
      · exact part e (h2 e he)
      · exact part e (h3 e he)
    · simp only [Option.bind_eq_some_iff] at h
      obtain ⟨a, ha, b, hb, a', ha', b', hb', h⟩ := h
      exact built_mk hP h (built_two hP rfl (built_repeated hP hs (hgo (hE.plain rfl (by simp)) ha) ha')
        (built_repeated hP hs (hgo (hE.plain rfl (by simp)) hb) hb'))
    · -- comprehension
      rename_i i n' b
      simp only [Option.bind_eq_some_iff] at h
      obtain ⟨a, ha, m, hm, y, hy, h⟩ := h
      have hn := built_normal hP (hgo (hE.outer (k := 0) rfl rfl) ha) hm
      have hb : Pre o N X b := hE.of (hE.known.child (by simp)) (hE.scope.children b (by simp))
        (fun u hu => mem_fv.2 ⟨.inr ⟨b, by simp, hu⟩, by simp [Lang.captured, Phi.Head.captured]⟩)
        ((Nat.le_add_left _ _).trans (height_child (by simp)))
      refine built_along hP (ih hb (fun j m' hm' => ?_) hy) hn h
      unfold upd at hm'
      split at hm'
      · cases hm'; exact hn
      · exact hs _ _ hm'
    · simp only [Option.bind_eq_some_iff] at h
      obtain ⟨xs, hxs, h⟩ := h
      split at h
      · split at h
        · rename_i x'
          exact built_mk hP h (built_one hP rfl (hmap rfl hxs x' (by simp)))
        · cases h
      · simp only [Option.bind_eq_some_iff] at h
        obtain ⟨es, hes, h⟩ := h
        exact built_mk hP h (built_node hP rfl (halign (hmap rfl hxs) hes))
    · simp only [Option.bind_eq_some_iff] at h
      obtain ⟨a, ha, b, hb, h⟩ := h
      split at h
      · exact built_cons hP (hgo (hE.plain rfl (by simp)) ha) (hgo (hE.plain rfl (by simp)) hb) h
      · cases h
    · split at h
      · simp only [Option.bind_eq_some_iff] at h
        obtain ⟨p, -, a, ha, h⟩ := h
        exact built_sliceTuple hP (hgo (hE.plain rfl (by simp)) ha) h
      · cases h
    · split at h
      · simp only [Option.bind_eq_some_iff] at h
        obtain ⟨p, -, q, -, a, ha, h⟩ := h
        exact built_sliceTuple hP (hgo (hE.plain rfl (by simp)) ha) h
      · cases h
    · simp only [Option.bind_eq_some_iff] at h
      obtain ⟨xs, hxs, es, hes, p, -, q, -, h⟩ := h
      exact built_mk hP h (built_node hP rfl (halign (hmap rfl hxs) hes))
    · cases h

end Verif.Codegen
