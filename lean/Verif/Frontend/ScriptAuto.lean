import Verif.Frontend.ScriptMain
import Verif.Frontend.ScriptInfer

/-! Programs of the user: comprehensions and folds whose sizes are left out, and the induction over programs. -/

set_option linter.unusedSectionVars false

namespace Verif.Frontend
open Verif.Phi Verif.Term Verif.Midend Verif.Codegen Verif.Props
variable {F : Type} [FloatOps F] [DecidableEq F] {I : Ext F} {Γ Γ' : TCtx} {c c' : Nat}

theorem Sane.vec {i : Nat} {n b : Expr F} {σ : Ty} (hn : Sane I Γ c n (.scalar .int)) (h0 : freeIndices n = ∅) (hi : Sym.idx i ∉ binders n)
    (hb : Sane I (Γ.set (.idx i) (some (.scalar .int))) c b σ) (hΓ : Γ (.idx i) = none) (hc : i < c) :
    Sane I Γ c (Phi.vec i n b) (.vector σ) := by
  have hτ : Phi.typeOf (Phi.vec i n b) = some (.vector σ) := by
    rw [Phi.vec, typeOf_node]
    simp [hn.typed, hb.typed, h0, typeStep]
  refine ⟨hτ, .node _ hτ (by simp) trivial ?_ ?_, ?_, ?_⟩
  · intro s hs
    simp only [Phi.Head.captured, Finset.mem_singleton] at hs
    subst hs
    exact hΓ
  · intro j u hu
    rcases j with _ | _ | j
    · cases hu; rw [childCtx_vec0]; exact hn.fine
    · cases hu; rw [childCtx_vec1]; exact hb.fine
    · simp at hu
  · rw [Phi.vec, below_node]
    refine ⟨fun s hs => ?_, fun u hu => ?_⟩
    · simp only [Phi.Head.captured, Finset.mem_singleton] at hs
      subst hs
      exact hc
    · simp only [List.mem_cons, List.not_mem_nil, or_false] at hu
      rcases hu with rfl | rfl
      · exact hn.below
      · exact hb.below
  · refine noShadow_binding (by simp) fun u hu => ?_
    simp only [List.mem_cons, List.not_mem_nil, or_false] at hu
    simp only [Phi.Head.captured, Finset.mem_singleton, forall_eq]
    rcases hu with rfl | rfl
    · exact ⟨hn.noShadow, hi⟩
    · exact ⟨hb.noShadow, hb.unbound_ctx (by simp [TCtx.set])⟩

theorem Sane.fold {x y : Nat} {n z b : Expr F} {σ : Ty} (hn : Sane I Γ c n (.scalar .int)) (hz : Sane I Γ c z σ)
    (hb : Sane I ((Γ.set (.var y) (some σ)).set (.var x) (some (.scalar .int))) c b σ)
    (hn' : Sym.var x ∉ binders n ∧ Sym.var y ∉ binders n) (hz' : Sym.var x ∉ binders z ∧ Sym.var y ∉ binders z)
    (hx : Γ (.var x) = none) (hy : Γ (.var y) = none) (hc : x < c ∧ y < c) : Sane I Γ c (Phi.fold x y n z b) σ := by
  have hty : Phi.typeOf (Phi.fold x y n z b) = some σ := by
    rw [Phi.fold, typeOf_types (σs := [.scalar .int, σ, σ]) (by simp) (.cons hn.typed (.cons hz.typed (.cons hb.typed .nil)))]
    simp [typeStep]
  refine ⟨hty, .node _ hty (by simp) trivial ?_ ?_, ?_, ?_⟩
  · intro s hs
    simp only [Phi.Head.captured, Finset.mem_insert, Finset.mem_singleton] at hs
    rcases hs with rfl | rfl
    · exact hx
    · exact hy
  · intro j u hu
    rcases j with _ | _ | _ | j
    · cases hu; rw [childCtx_fold0]; exact hn.fine
    · cases hu; rw [childCtx_fold1]; exact hz.fine
    · cases hu; rw [childCtx_fold2, hz.typed]; exact hb.fine
    · simp at hu
  · rw [Phi.fold, below_node]
    refine ⟨fun s hs => ?_, fun u hu => ?_⟩
    · simp only [Phi.Head.captured, Finset.mem_insert, Finset.mem_singleton] at hs
      rcases hs with rfl | rfl
      · exact hc.1
      · exact hc.2
    · simp only [List.mem_cons, List.not_mem_nil, or_false] at hu
      rcases hu with rfl | rfl | rfl
      · exact hn.below
      · exact hz.below
      · exact hb.below
  · refine noShadow_binding (by simp) fun u hu => ?_
    simp only [List.mem_cons, List.not_mem_nil, or_false] at hu
    simp only [Phi.Head.captured, Finset.mem_insert, Finset.mem_singleton, forall_eq_or_imp, forall_eq]
    rcases hu with rfl | rfl | rfl
    · exact ⟨hn.noShadow, hn'⟩
    · exact ⟨hz.noShadow, hz'⟩
    · refine ⟨hb.noShadow, hb.unbound_ctx (by simp [TCtx.set]), hb.unbound_ctx ?_⟩
      simp only [TCtx.set]
      split <;> simp

/-! ### Comprehensions with several indices -/

/-- The context in which indices are bound. -/
def indexed (Γ : TCtx) (is : List Nat) : TCtx := is.foldl (fun Γ i => Γ.set (.idx i) (some (.scalar .int))) Γ

theorem indexed_out {s : Sym} : ∀ {is : List Nat} {Γ : TCtx}, s ∉ is.map Sym.idx → indexed Γ is s = Γ s
  | [], _, _ => rfl
  | i :: is, Γ, h => by
    simp only [List.map_cons, List.mem_cons, not_or] at h
    rw [indexed, List.foldl_cons]
    exact (indexed_out (Γ := Γ.set _ _) h.2).trans (by rw [TCtx.set, if_neg h.1])

theorem indexed_in {i : Nat} : ∀ {is : List Nat} {Γ : TCtx}, i ∈ is → indexed Γ is (.idx i) = some (.scalar .int)
  | j :: is, Γ, h => by
    rw [indexed, List.foldl_cons]
    by_cases hi : i ∈ is
    · exact indexed_in (Γ := Γ.set _ _) hi
    · have hij : i = j := (List.mem_cons.1 h).resolve_right hi
      subst hij
      exact (indexed_out (Γ := Γ.set _ _) (by simpa using hi)).trans (set_self _ _ _)

/-- The local variables in which indices are bound: the last one is the innermost. -/
def opened (os : List (Obj F)) (is : List Nat) : List (Obj F) := (is.map fun i => Obj.scalar (.scalar (at_ i))).reverse ++ os

theorem opened_cons (os : List (Obj F)) (i : Nat) (is : List Nat) : opened os (i :: is) = opened (.scalar (.scalar (at_ i)) :: os) is := by
  simp [opened]

theorem replicate_push (ts : List UTy) (n : Nat) (t : UTy) : List.replicate (n + 1) t ++ ts = List.replicate n t ++ (t :: ts) := by
  rw [List.replicate_succ', List.append_assoc]
  rfl

theorem opened_get (os : List (Obj F)) {c n m : Nat} (h : m ≤ n) : (opened os (List.range' c (n + 1)))[n - m]? = some (.scalar (.scalar (at_ (c + m)))) := by
  unfold opened
  rw [List.getElem?_append_left (by simp; omega), List.getElem?_reverse (by simp; omega)]
  simp only [List.length_map, List.length_range', List.getElem?_map]
  rw [show n + 1 - 1 - (n - m) = m by omega, List.getElem?_range' (by omega)]
  simp

theorem opened_drop (os : List (Obj F)) (c n : Nat) : (opened os (List.range' c n)).drop n = os := by
  unfold opened
  rw [List.drop_left' (by simp)]

theorem extends_indexed (hΓ : Below Γ c) (n : Nat) : Extends c Γ (indexed Γ (List.range' c n)) := by
  refine ⟨(Extends.refl hΓ).1, fun s hs => indexed_out fun hm => ?_⟩
  obtain ⟨i, hi, rfl⟩ := List.mem_map.1 hm
  simp only [List.mem_range'_1] at hi
  simp only [symNum] at hs
  omega

/-- The local variables in the body of a comprehension. -/
theorem locals_indexed : ∀ (n : Nat) {ts : List UTy} {os : List (Obj F)} {Γ : TCtx} {c : Nat}, (∀ t ∈ ts, t.layout.ok = true) →
    List.Forall₂ (Has I Γ c) ts os → Below Γ c → (∀ t ∈ List.replicate n (.sc .int) ++ ts, t.layout.ok = true) ∧
      List.Forall₂ (Has I (indexed Γ (List.range' c n)) (c + n)) (List.replicate n (.sc .int) ++ ts) (opened os (List.range' c n)) ∧
      Below (indexed Γ (List.range' c n)) (c + n)
  | 0, ts, os, Γ, c, h1, h2, h3 => ⟨h1, h2, h3⟩
  | n + 1, ts, os, Γ, c, h1, h2, h3 => by
    have hext : Extends c Γ (Γ.set (.idx c) (some (.scalar .int))) := Extends.set (Extends.refl h3) (le_refl c)
    have := locals_indexed n (ts := .sc .int :: ts) (os := .scalar (.scalar (at_ c)) :: os) (Γ := Γ.set (.idx c) (some (.scalar .int))) (c := c + 1)
      (by simpa using ⟨rfl, h1⟩) (.cons (by simp only [Has, wrap]; exact Sane.store (set_self _ _ _)) (Has.locals_mono (by omega) hext h2))
      (Below.set (h3.mono (by omega)) (Nat.lt_succ_self c))
    rw [replicate_push, List.range'_succ, opened_cons, show c + (n + 1) = c + 1 + n by omega]
    exact this

theorem layout_arrs (t : UTy) : ∀ n, (UTy.arrs n t).layout = vecLayouts n t.layout
  | 0 => rfl
  | n + 1 => by rw [UTy.arrs, UTy.layout, vecLayouts, layout_arrs t n]

theorem arrs_ok {t : UTy} : ∀ n, t.layout.ok = true → (UTy.arrs n t).layout.ok = true
  | 0, h => h
  | n + 1, h => by simpa [UTy.arrs, UTy.layout, Layout.ok] using arrs_ok n h

/-- The type of nested arrays. -/
def vectors : Nat → Ty → Ty
  | 0, τ => τ
  | n + 1, τ => .vector (vectors n τ)

theorem ty_arrs (t : UTy) : ∀ n, (UTy.arrs n t).ty = vectors n t.ty
  | 0 => rfl
  | n + 1 => by rw [UTy.arrs, UTy.ty, vectors, ty_arrs t n]

/-- An expression that binds none of the indices is one where they are bound. -/
theorem Sane.under {e : Expr F} {τ : Ty} (h : Sane I Γ c e τ) {i : Nat} (hi : Sym.idx i ∉ binders e) (hΓ : Γ (.idx i) = none) :
    Sane I (Γ.set (.idx i) (some (.scalar .int))) c e τ where
  typed := h.typed
  fine := h.fine.agree fun s hs => by
    rw [TCtx.set, if_neg]
    rintro rfl
    rcases hs with hs | hs
    · exact h.fine.fv_dom _ hs hΓ
    · exact hi hs
  below := h.below
  noShadow := h.noShadow

/-- Nested comprehensions. -/
theorem Sane.nest {b : Expr F} {σ : Ty} : ∀ {l : List (Nat × Expr F)} {Γ : TCtx}, (l.map Prod.fst).Nodup →
    (∀ p ∈ l, Sane I Γ c p.2 (.scalar .int) ∧ freeIndices p.2 = ∅ ∧ ∀ q ∈ l, Sym.idx q.1 ∉ binders p.2) →
    (∀ p ∈ l, Γ (.idx p.1) = none ∧ p.1 < c) → Sane I (indexed Γ (l.map Prod.fst)) c b σ → Sane I Γ c (Frontend.nest l b) (vectors l.length σ)
  | [], Γ, _, _, _, hb => hb
  | (i, n) :: l, Γ, hnd, hn, hΓ, hb => by
    simp only [List.map_cons, List.nodup_cons] at hnd
    have h1 := hn (i, n) (by simp)
    have h2 := hΓ (i, n) (by simp)
    rw [Frontend.nest, List.length_cons, vectors]
    refine Sane.vec h1.1 h1.2.1 (h1.2.2 (i, n) (by simp)) ?_ h2.1 h2.2
    refine Sane.nest hnd.2 (fun p hp => ?_) (fun p hp => ?_) hb
    · have h3 := hn p (by simp [hp])
      exact ⟨h3.1.under (h3.2.2 (i, n) (by simp)) h2.1, h3.2.1, fun q hq => h3.2.2 q (by simp [hq])⟩
    · have h3 := hΓ p (by simp [hp])
      refine ⟨?_, h3.2⟩
      rw [TCtx.set, if_neg, h3.1]
      rintro h
      injection h with h
      exact hnd.1 (h ▸ List.mem_map_of_mem hp)

/-- What `array` builds, with the sizes left out. -/
theorem auto_parts {k : Nat} {b : Script F} {os : List (Obj F)} {c : Nat} {o : Obj F} {c' : Nat} (hm : make (.auto k b) os c = some (o, c')) :
    ∃ rb l body ns, make b (opened os (List.range' c (k + 1))) (c + (k + 1)) = some (rb, c') ∧ build rb = some l ∧ pack l rb = some body ∧
      Phi.mapOpt (inferSize body ((List.range' c (k + 1)).map .idx) ∅) ((List.range' c (k + 1)).map .idx) = some ns ∧
      o = .vec (nest ((List.range' c (k + 1)).zip ns) body) (vecLayouts k l) := by
  simp only [make, Option.bind_eq_some_iff, Option.map_eq_some_iff, Prod.mk.injEq] at hm
  obtain ⟨⟨q, c2⟩, hq, o', ho, rfl, rfl⟩ := hm
  simp only [arrayPy, Option.bind_eq_some_iff, Option.map_eq_some_iff, Prod.mk.injEq] at hq
  obtain ⟨⟨rb, c3⟩, hrb, l, hl, body, hbody, e, he, rfl, rfl⟩ := hq
  simp only [arrayOf, inferSizes, Option.map_eq_some_iff] at he
  obtain ⟨ns, hns, rfl⟩ := he
  simp only [vecLayouts, unpack, raising] at ho
  split at ho
  · cases ho
    exact ⟨rb, l, body, ns, hrb, hl, hbody, hns, rfl⟩
  · cases ho

/-- The comprehension around a body, with the sizes that are inferred from it. -/
theorem Sane.inferred {k : Nat} {body : Expr F} {σ : Ty} {ns : List (Expr F)} (hΓ : Below Γ c) (hC : c + (k + 1) ≤ c')
    (hsane : Sane I (indexed Γ (List.range' c (k + 1))) c' body σ)
    (hns : Phi.mapOpt (Frontend.inferSize body ((List.range' c (k + 1)).map Sym.idx) ∅) ((List.range' c (k + 1)).map Sym.idx) = some ns) :
    ns.length = k + 1 ∧ (∀ n ∈ ns, Sane I Γ c' n (.scalar .int) ∧ freeIndices n = ∅) ∧
      Sane I Γ c' (Frontend.nest ((List.range' c (k + 1)).zip ns) body) (vectors (k + 1) σ) := by
  have hlen : ns.length = k + 1 := by rw [mapOpt_length hns]; simp
  have hnew : ∀ i ∈ List.range' c (k + 1), Γ (.idx i) = none := fun i hi =>
    fresh_below hΓ (s := .idx i) (by simp only [List.mem_range'_1] at hi; simpa [symNum] using hi.1)
  have key : ∀ n ∈ ns, Sane I Γ c' n (.scalar .int) ∧ freeIndices n = ∅ ∧ binders n ⊆ binders body := by
    intro n hn
    obtain ⟨j, hj⟩ := List.getElem?_of_mem hn
    rw [mapOpt_getElem? hns] at hj
    obtain ⟨s, hs, hz⟩ := Option.bind_eq_some_iff.1 hj
    refine ⟨Sane.inferSize hsane (fun x hx => indexed_out fun hm => hx (by simpa using hm)) (fun x hx => ?_) hΓ.idx hz,
      (C21_scope hsane.fine.scoping hz).2, binders_inferred hz⟩
    simp only [Finset.union_empty, List.mem_toFinset, List.mem_map] at hx
    obtain ⟨i, hi, rfl⟩ := hx
    exact hnew i hi
  refine ⟨hlen, fun n hn => ⟨(key n hn).1, (key n hn).2.1⟩, ?_⟩
  have hfst : (((List.range' c (k + 1)).zip ns).map Prod.fst) = List.range' c (k + 1) := List.map_fst_zip (by simp [hlen])
  have hl : ((List.range' c (k + 1)).zip ns).length = k + 1 := by simp [hlen]
  have := Sane.nest (I := I) (c := c') (b := body) (σ := σ) (l := (List.range' c (k + 1)).zip ns) (Γ := Γ) (by rw [hfst]; exact List.nodup_range')
    (fun p hp => ?_) (fun p hp => ?_) (by rw [hfst]; exact hsane)
  · rwa [hl] at this
  · have h1 := key p.2 (List.of_mem_zip hp).2
    exact ⟨h1.1, h1.2.1, fun q hq hx => hsane.unbound_ctx (by rw [indexed_in (List.of_mem_zip hq).1]; simp) (h1.2.2 hx)⟩
  · have h1 := (List.of_mem_zip hp).1
    refine ⟨hnew _ h1, ?_⟩
    simp only [List.mem_range'_1] at h1
    omega

/-- What `fold` builds, with the count left out. -/
theorem autoFold_parts {z b : Script F} {os : List (Obj F)} {c : Nat} {o : Obj F} {c' : Nat} (hm : make (.autoFold z b) os c = some (o, c')) :
    ∃ oz c1 l ez τ rb body n, make z os c = some (oz, c1) ∧ build oz = some l ∧ pack l oz = some ez ∧ Phi.typeOf ez = some τ ∧
      make b (.scalar (.scalar (var c1 (.scalar .int))) :: unpack l (var (c1 + 1) τ) :: os) (c1 + 2) = some (rb, c') ∧
      pack l rb = some body ∧ inferSize body [.var c1] {.var (c1 + 1)} (.var c1) = some n ∧
      o = unpack l (Phi.fold c1 (c1 + 1) n ez body) := by
  simp only [make, Option.bind_eq_some_iff] at hm
  obtain ⟨⟨oz, c1⟩, hmz, hq⟩ := hm
  simp only [foldPy, Option.bind_eq_some_iff, Option.map_eq_some_iff, Prod.mk.injEq] at hq
  obtain ⟨l, hl, ez, hez, τ, hτ, ⟨rb, c3⟩, hrb, body, hbody, e, he, rfl, rfl⟩ := hq
  simp only [Frontend.foldOf, inferSizes, Option.map_none, mapOpt, Option.bind_eq_some_iff, Option.map_eq_some_iff] at he
  obtain ⟨_, ⟨n, hn, _, h1, h2⟩, n', hn', rfl⟩ := he
  cases h1
  cases h2
  cases hn'
  exact ⟨oz, c1, l, ez, τ, rb, body, n, hmz, hl, hez, hτ, hrb, hbody, hn, rfl⟩

/-- The context of the body of a comprehension differs from that outside in the index. -/
theorem set_outside {s : Sym} {τ : Option Ty} {x : Sym} (h : x ∉ [s].toFinset ∪ ∅) : Γ.set s τ x = Γ x := by
  rw [TCtx.set, if_neg (by rintro rfl; exact h (by simp))]

theorem correct_auto {k : Nat} {b : Script F} (hb : Correct I b) : Correct I (.auto k b) := by
  intro ts t os Γ c r c' hok hos hΓ ht hm
  simp only [typ, Option.bind_eq_some_iff] at ht
  obtain ⟨q, hq, ht⟩ := ht
  split at ht
  · obtain ⟨t, ht', rfl⟩ := Option.map_eq_some_iff.1 ht
    obtain ⟨rb, l, body, ns, hrb, hl, hbody, hns, rfl⟩ := auto_parts hm
    obtain ⟨h1, h2, h3⟩ := locals_indexed (k + 1) hok hos hΓ
    have B := hb _ t _ _ _ rb c' h1 h2 h3 ht' hrb
    obtain ⟨hbuild, hrok⟩ := Has.build B.ok B.has
    cases hbuild.symm.trans hl
    obtain ⟨body', hp, hsane⟩ := Has.pack B.ok B.has
    cases hp.symm.trans hbody
    obtain ⟨_, _, hN⟩ := Sane.inferred hΓ B.grows hsane hns
    refine ⟨le_trans (by omega) B.grows, arrs_ok (k + 1) B.ok, ?_, fun env vs v hvs hv => by simp [sem] at hv⟩
    simp only [UTy.arrs, Has, layout_arrs, ty_arrs, true_and]
    exact hN
  · cases ht

theorem correct_autoFold {z b : Script F} (hz : Correct I z) (hb : Correct I b) : Correct I (.autoFold z b) := by
  intro ts t os Γ c r c' hok hos hΓ ht hm
  simp only [typ, Option.bind_eq_some_iff] at ht
  obtain ⟨q, hq, _, _, t0, ht2, t3, ht3, ht⟩ := ht
  split at ht
  · rename_i hsame
    cases ht
    cases UTy.same_eq hsame
    obtain ⟨oz, c1, l, ez, τ, rb, body, n, hmz, hl, hez, hτ, hrb, hbody, hn, rfl⟩ := autoFold_parts hm
    have Z := hz ts _ os Γ c oz c1 hok hos hΓ ht2 hmz
    have hΓ1 := hΓ.mono Z.grows
    obtain ⟨hbz, hzok⟩ := Has.build Z.ok Z.has
    cases hbz.symm.trans hl
    obtain ⟨ez', hpz, hsz⟩ := Has.pack Z.ok Z.has
    cases hpz.symm.trans hez
    cases hsz.typed.symm.trans hτ
    have hext : Extends c1 Γ ((Γ.set (.var (c1 + 1)) (some t.ty)).set (.var c1) (some (.scalar .int))) :=
      Extends.set (Extends.set (Extends.refl hΓ1) (Nat.le_succ c1)) (le_refl c1)
    have B := hb (.sc .int :: t :: ts) t (.scalar (.scalar (var c1 (.scalar .int))) :: unpack t.layout (var (c1 + 1) t.ty) :: os)
      ((Γ.set (.var (c1 + 1)) (some t.ty)).set (.var c1) (some (.scalar .int))) (c1 + 2) rb c'
      (by simpa using ⟨rfl, Z.ok, hok⟩)
      (.cons (by simp only [Has, wrap]; exact Sane.store (set_self _ _ _))
        (.cons (Sane.unpack Z.ok (Sane.store (by simp [TCtx.set])))
          (Has.locals_mono (by omega) hext (Has.locals_mono Z.grows (Extends.refl hΓ) hos))))
      (Below.set (Below.set (hΓ1.mono (by omega)) (by simp [symNum])) (by simp [symNum])) ht3 hrb
    obtain ⟨body', hp, hsane⟩ := Has.pack B.ok B.has
    cases hp.symm.trans hbody
    have hC : c1 + 2 ≤ c' := B.grows
    have h0 := fresh_below hΓ1 (s := .var c1) (le_refl c1)
    have h1 := fresh_below hΓ1 (s := .var (c1 + 1)) (Nat.le_succ c1)
    have hsn : Sane I Γ c' n (.scalar .int) := Sane.inferSize hsane (fun x hx => by
      simp only [List.toFinset_cons, List.toFinset_nil, Finset.mem_union, Finset.mem_insert, Finset.mem_singleton, not_or] at hx
      rw [TCtx.set, if_neg hx.1.1, TCtx.set, if_neg hx.2]) (by simpa using ⟨h0, h1⟩) hΓ.idx hn
    refine ⟨Z.grows.trans (by omega), Z.ok, Sane.unpack Z.ok ?_, fun env vs v hvs hv => by simp [sem] at hv⟩
    have hnb := binders_inferred hn
    exact Sane.fold hsn (hsz.mono (by omega) (Extends.refl hΓ1)) hsane
      ⟨fun hx => hsane.unbound_ctx (by simp [TCtx.set]) (hnb hx), fun hx => hsane.unbound_ctx (by simp [TCtx.set]) (hnb hx)⟩
      ⟨hsz.unbound_new (le_refl c1), hsz.unbound_new (Nat.le_succ c1)⟩ h0 h1 ⟨by omega, by omega⟩
  · cases ht

mutual
/-- What the library builds for a program has its type and its value. -/
theorem correct : ∀ P : Script F, Correct I P
  | .loc n => correct_loc n
  | .lit s => correct_lit s
  | .assign a b => correct_assign (correct a) (correct b)
  | .un _ a => correct_un (correct a)
  | .bin _ a b => correct_bin (correct a) (correct b)
  | .choose a b d => correct_choose (correct a) (correct b) (correct d)
  | .item x i => correct_item (correct x) (correct i)
  | .size x _ => correct_size (correct x)
  | .array n b => correct_array (correct n) (correct b)
  | .fold n z b => correct_fold (correct n) (correct z) (correct b)
  | .reduce x z b => correct_reduce (correct x) (correct z) (correct b)
  | .concat x y => correct_concat (correct x) (correct y)
  | .record _ fs => correct_record (correctF fs)
  | .field x _ => correct_field (correct x)
  | .part x _ => correct_part (correct x)
  | .auto _ b => correct_auto (correct b)
  | .autoFold z b => correct_autoFold (correct z) (correct b)
theorem correctF : ∀ P : SFields F, CorrectF I P
  | .nil => correctF_nil
  | .cons _ a rest => correctF_cons (correct a) (correctF rest)
end

end Verif.Frontend
