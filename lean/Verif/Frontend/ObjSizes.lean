import Verif.Props.C38
import Verif.Midend.StructsSubst

/-!
Comprehensions that the library itself makes — for slices and for `where` on arrays — and the sizes inferred for them.
-/

set_option linter.unusedSectionVars false

namespace Verif.Frontend
open Verif.Phi Verif.Term Verif.Midend Verif.Codegen Verif.Props
variable {F : Type}

/-- The index `j` is not bound in `e`, and every direct read by it is a read of one of `T`. -/
def ReadsOnly (j : Nat) (T : List (Expr F)) (e : Expr F) : Prop :=
  Sym.idx j ∉ binders e ∧ ∀ X τ us, Occurs (node .get [X, node (.store (.idx j) τ) us]) e → X ∈ T

/-- Conditions on the expressions an operation is applied to, if the indices from `c` on are new, and `B` are the symbols
bound in expressions that are complete: a symbol is either bound, or free. -/
structure Usable (B : Sym → Prop) (c : Nat) (e : Expr F) : Prop where
  scoping : Scoped e
  free : ∀ s, s ∈ fv e → ¬ B s
  bound : ∀ s, s ∈ binders e → B s
  old : ∀ i, Sym.idx i ∈ fv e → i < c
  regular : RegularConsts e

theorem fv_occurs_sub {u e : Expr F} (h : Occurs u e) : fv u ⊆ fv e ∪ binders e := by
  induction h with
  | refl => exact Finset.subset_union_left
  | @child t hd ts hm _ ih =>
    intro x hx
    have h1 := ih hx
    rw [Finset.mem_union] at h1 ⊢
    rcases h1 with h1 | h1
    · by_cases hc : x ∈ Lang.captured hd
      · exact .inr (mem_binders.2 (.inl hc))
      · exact .inl (mem_fv.2 ⟨.inr ⟨_, hm, h1⟩, hc⟩)
    · exact .inr (mem_binders.2 (.inr ⟨_, hm, h1⟩))

theorem fv_store (s : Sym) (τ : Ty) (us : List (Expr F)) (X : Expr F) :
    s ∈ fv (node .get [X, node (.store s τ) us] : Expr F) :=
  mem_fv.2 ⟨.inr ⟨node (.store s τ) us, by simp, mem_fv.2 ⟨.inl rfl, Finset.notMem_empty _⟩⟩, Finset.notMem_empty _⟩

/-- An index that does not appear reads nothing. -/
theorem ReadsOnly.of_absent {j : Nat} {T : List (Expr F)} {e : Expr F} (h1 : Sym.idx j ∉ binders e)
    (h2 : Sym.idx j ∉ fv e) : ReadsOnly j T e := by
  refine ⟨h1, fun X τ us ho => absurd (fv_occurs_sub ho (fv_store _ _ _ _)) ?_⟩
  rw [Finset.mem_union, not_or]
  exact ⟨h2, h1⟩

/-- Composing expressions with heads that bind nothing and do not read keeps the reads. -/
theorem ReadsOnly.node {j : Nat} {T : List (Expr F)} {h : Phi.Head F} {ts : List (Expr F)} (hh : h ≠ .get)
    (hc : Sym.idx j ∉ Head.captured h) (hts : ∀ t ∈ ts, ReadsOnly j T t) : ReadsOnly j T (node h ts) := by
  refine ⟨fun hb => ?_, fun X τ us ho => ?_⟩
  · rcases mem_binders.1 hb with hb | ⟨t, ht, hb⟩
    · exact hc hb
    · exact (hts t ht).1 hb
  · cases ho with
    | refl => exact absurd rfl hh
    | child hm ho => exact (hts _ hm).2 X τ us ho

theorem ReadsOnly.cons {j : Nat} {T : List (Expr F)} {a b : Expr F} (ha : ReadsOnly j T a) (hb : ReadsOnly j T b) :
    ReadsOnly j T (Phi.cons a b) :=
  ReadsOnly.node (by simp) (Finset.notMem_empty _) (by simp only [List.mem_cons, List.not_mem_nil, or_false]; rintro t (rfl | rfl) <;> assumption)

theorem ReadsOnly.fst {j : Nat} {T : List (Expr F)} {a : Expr F} (ha : ReadsOnly j T a) : ReadsOnly j T (Phi.fst a) :=
  ReadsOnly.node (by simp) (Finset.notMem_empty _) (by simp only [List.mem_singleton]; rintro t rfl; exact ha)

theorem ReadsOnly.snd {j : Nat} {T : List (Expr F)} {a : Expr F} (ha : ReadsOnly j T a) : ReadsOnly j T (Phi.snd a) :=
  ReadsOnly.node (by simp) (Finset.notMem_empty _) (by simp only [List.mem_singleton]; rintro t rfl; exact ha)

/-- A read by another expression than the index keeps the reads … -/
theorem ReadsOnly.get {j : Nat} {T : List (Expr F)} {a i : Expr F} (ha : ReadsOnly j T a) (hi : ReadsOnly j T i)
    (hn : ∀ τ us, i ≠ Term.node (.store (.idx j) τ) us) : ReadsOnly j T (Phi.get a i) := by
  refine ⟨fun hb => ?_, fun X τ us ho => ?_⟩
  · rcases mem_binders.1 hb with hb | ⟨t, ht, hb⟩
    · exact absurd hb (Finset.notMem_empty _)
    · rcases List.mem_cons.1 ht with rfl | ht
      · exact ha.1 (by assumption)
      · rw [List.mem_singleton.1 ht] at hb; exact hi.1 hb
  · unfold Phi.get at ho
    generalize hg : Term.node Head.get [X, Term.node (.store (.idx j) τ) us] = g at ho
    cases ho with
    | refl =>
      simp only [Term.node.injEq, List.cons.injEq, true_and, and_true] at hg
      exact absurd hg.2.symm (hn τ us)
    | child hm ho =>
      subst hg
      simp only [List.mem_cons, List.not_mem_nil, or_false] at hm
      rcases hm with rfl | rfl
      · exact ha.2 X τ us ho
      · exact hi.2 X τ us ho

/-- … and a read by the index adds what is read. -/
theorem ReadsOnly.at {j : Nat} {T : List (Expr F)} {a : Expr F} (ha : ReadsOnly j T a) (hT : a ∈ T) :
    ReadsOnly j T (Phi.get a (at_ j)) := by
  have hat : ReadsOnly j T (at_ j : Expr F) := by
    refine ⟨fun hb => ?_, fun X τ us ho => ?_⟩
    · rcases mem_binders.1 hb with hb | ⟨t, ht, _⟩
      · exact absurd hb (Finset.notMem_empty _)
      · cases ht
    · unfold at_ at ho
      generalize hg : Term.node Head.get [X, Term.node (.store (.idx j) τ) us] = g at ho
      cases ho with
      | refl => simp at hg
      | child hm _ => cases hm
  refine ⟨fun hb => ?_, fun X τ us ho => ?_⟩
  · rcases mem_binders.1 hb with hb | ⟨t, ht, hb⟩
    · exact absurd hb (Finset.notMem_empty _)
    · rcases List.mem_cons.1 ht with rfl | ht
      · exact ha.1 (by assumption)
      · rw [List.mem_singleton.1 ht] at hb; exact hat.1 hb
  · unfold Phi.get at ho
    generalize hg : Term.node Head.get [X, Term.node (.store (.idx j) τ) us] = g at ho
    cases ho with
    | refl =>
      simp only [Term.node.injEq, List.cons.injEq, true_and] at hg
      rw [hg.1]; exact hT
    | child hm ho =>
      subst hg
      simp only [List.mem_cons, List.not_mem_nil, or_false] at hm
      rcases hm with rfl | rfl
      · exact ha.2 X τ us ho
      · exact hat.2 X τ us ho

/-- A read by another index. -/
theorem ReadsOnly.get_at {j c : Nat} {T : List (Expr F)} {a : Expr F} (ha : ReadsOnly j T a) (hj : j < c) :
    ReadsOnly j T (Phi.get a (at_ c)) := by
  refine ha.get (ReadsOnly.of_absent ?_ ?_) ?_
  · intro hb
    rcases mem_binders.1 hb with hb | ⟨t, ht, _⟩
    · cases hb
    · cases ht
  · intro hb
    rcases (mem_fv.1 hb).1 with hb | ⟨t, ht, _⟩
    · cases hb; omega
    · cases ht
  · intro τ us heq
    simp only [at_, Term.node.injEq, Head.store.injEq, Sym.idx.injEq] at heq
    omega

/-! ### Components of unpacked objects -/

mutual
theorem unpack_comp {P : Expr F → Prop} (hf : ∀ e, P e → P (Phi.fst e)) (hs : ∀ e, P e → P (Phi.snd e)) :
    ∀ (l : Layout) {e : Expr F}, P e → (unpack l e).Comp P
  | .atom, e, h => by simpa [unpack, Obj.Comp, wrap] using h
  | .vec sub, e, h => by simpa [unpack, Obj.Comp] using h
  | .struct k subs, e, h => by
    simp only [unpack, Obj.Comp]
    exact unpackFields_comp hf hs subs h 0 _
theorem unpackFields_comp {P : Expr F → Prop} (hf : ∀ e, P e → P (Phi.fst e)) (hs : ∀ e, P e → P (Phi.snd e)) :
    ∀ (l : LFields) {e : Expr F}, P e → ∀ i n, (unpackFields l e i n).Comp P
  | .nil, e, h, i, n => by simp [unpackFields, Fields.Comp]
  | .cons m l rest, e, h, i, n => by
    have hiter : ∀ i, P (sndIter i e) := by
      intro i
      induction i with
      | zero => exact h
      | succ i ih => exact hs _ ih
    have hp : P (project e i n) := by
      unfold project
      split
      · exact hf _ (hiter i)
      · exact hiter i
    simp only [unpackFields, Fields.Comp]
    exact ⟨unpack_comp hf hs l hp, unpackFields_comp hf hs rest h (i + 1) n⟩
end

/-! ### Sizes -/

variable [FloatOps F] [DecidableEq F] {I : Ext F}

omit [FloatOps F] [DecidableEq F] in
theorem directReads_get (p : Expr F) : ∀ (C : Finset Sym) (q : Sym × Expr F × Finset Sym), q ∈ directReads p C →
    ∃ τ us, Occurs (Term.node .get [q.2.1, Term.node (.store q.1 τ) us]) p := by
  induction p using ind with
  | step h ts ih =>
    intro C q hq
    rw [directReads_node, List.mem_append] at hq
    rcases hq with hq | hq
    · obtain ⟨r, hr, rfl⟩ := List.mem_map.1 hq
      have hr := Option.mem_toList.1 hr
      unfold directRead at hr
      split at hr
      · cases hr; exact ⟨_, _, .refl _⟩
      · cases hr
    · obtain ⟨l, hl, hq⟩ := List.mem_flatten.1 hq
      obtain ⟨t, ht, rfl⟩ := List.mem_map.1 hl
      obtain ⟨τ, us, ho⟩ := ih t ht _ q hq
      exact ⟨τ, us, .child ht ho⟩

theorem candidates_target {body c : Expr F} {s : Sym} {C : Finset Sym} (h : c ∈ candidates body C s) :
    ∃ X τ us, Occurs (Term.node .get [X, Term.node (.store s τ) us]) body ∧ c = atZero (dimExpr X 0) := by
  obtain ⟨⟨t, c'⟩, h1, h2⟩ := List.mem_filterMap.1 h
  dsimp only at h2
  split at h2
  · cases h2
    obtain ⟨_, hm⟩ := foldl_assign (((directReads body C).filter fun q => q.1 = s).map Prod.snd) []
    rcases hm _ h1 with h | h
    · cases h
    · obtain ⟨q, hq, h6⟩ := List.mem_map.1 h
      obtain ⟨hq1, hq2⟩ := List.mem_filter.1 hq
      obtain ⟨τ, us, ho⟩ := directReads_get body C q hq1
      rw [h6, of_decide_eq_true hq2] at ho
      exact ⟨t, τ, us, ho, rfl⟩
  · cases h2

/-- The inferred size of a comprehension that reads by its index only arrays of one length. -/
theorem inferSize_value {body size : Expr F} {j : Nat} {T : List (Expr F)} (hb : ReadsOnly j T body)
    (h : inferSize body [.idx j] ∅ (.idx j) = some size) {env : Env (D F)} {n : Int}
    (hT : ∀ X ∈ T, intValue I env (atZero (dimExpr X 0)) = some n) : intValue I env size = some n := by
  have key : ∀ c ∈ candidates body ([Sym.idx j].toFinset ∪ ∅) (.idx j), intValue I env c = some n := by
    intro c hc
    obtain ⟨X, τ, us, ho, rfl⟩ := candidates_target hc
    exact hT X (hb.2 X τ us ho)
  obtain ⟨c, hc, ⟨rfl, _⟩ | rfl⟩ := inferSize_eq h
  · exact key _ hc
  · have hall : ∀ l : List (Expr F), (∀ c ∈ l, intValue I env c = some n) →
        mapOpt (fun v : Option (D F) => v.bind Val.asInt) (l.map fun c => run I c env) = some (List.replicate l.length n) := by
      intro l
      induction l with
      | nil => intro _; rfl
      | cons a l ih =>
        intro hl
        have ha := hl a (by simp)
        unfold intValue at ha
        simp only [List.map, mapOpt, ha, Option.bind_some, ih fun c hc => hl c (by simp [hc])]
        rfl
    have hd := hall (distinct (candidates body ([Sym.idx j].toFinset ∪ ∅) (.idx j)))
      fun c hc => key c (mem_distinct.1 hc)
    unfold intValue
    rw [run_node]
    simp only [List.map, runDen, assertOf, List.map_map, Function.comp_def]
    rw [hd, Option.bind_some]
    have hne : (distinct (candidates body ([Sym.idx j].toFinset ∪ ∅) (.idx j))).length ≠ 0 := by
      intro h0
      have := List.eq_nil_of_length_eq_zero h0
      have h1 := mem_distinct.2 hc
      rw [this] at h1; cases h1
    obtain ⟨m, hm⟩ := Nat.exists_eq_succ_of_ne_zero hne
    rw [hm, List.replicate_succ]
    dsimp only
    rw [if_pos (by simp [List.all_replicate])]
    exact key c hc

/-- All indices at zero. -/
def zeroIdx (env : Env (D F)) : Env (D F)
  | .idx _ => some (.int 0)
  | .var v => env (.var v)

theorem run_atZero_zeroIdx {e : Expr F} (hs : Scoped e) (hd : ∀ i, Sym.idx i ∈ binders e → Sym.idx i ∉ fv e)
    (η : Env (D F)) : run I (atZero e) η = run I e (zeroIdx η) := by
  rw [run_atZero_eq hs (by
    rw [Finset.disjoint_left]
    intro x hx hf
    obtain ⟨h1, h2⟩ := Finset.mem_filter.1 hf
    cases x with
    | var v => cases h2
    | idx i => exact hd i hx h1)]
  refine run_agree hs fun x hx => ?_
  unfold bindEnv
  cases hl : lookup x (zeros e) with
  | some u =>
    obtain ⟨rfl, hi⟩ := lookup_zeros hl
    cases x with
    | var v => cases hi
    | idx i => rfl
  | none =>
    cases x with
    | var v => rfl
    | idx i =>
      have : Sym.idx i ∈ keys (zeros e) := by
        rw [keys_zeros]; exact Finset.mem_filter.2 ⟨hx, rfl⟩
      rw [← lookup_isSome, hl] at this; cases this

theorem binders_dimExpr {t : Expr F} (k : Nat) : binders (dimExpr t k) ⊆ binders t := by
  induction t using ind generalizing k with
  | step hd ts ih =>
    by_cases hg : ∃ t i, hd = .get ∧ ts = [t, i]
    · obtain ⟨t, i, rfl, rfl⟩ := hg
      rw [dimExpr_get]
      exact fun x hx => mem_binders.2 (.inr ⟨t, by simp, ih t (by simp) (k + 1) hx⟩)
    · by_cases hve : ∃ j n b, hd = .vec j ∧ ts = [n, b] ∧ k = 0
      · obtain ⟨j, n, b, rfl, rfl, rfl⟩ := hve
        rw [dimExpr_vec]
        exact fun x hx => mem_binders.2 (.inr ⟨n, by simp, hx⟩)
      · rw [dimExpr_other (fun t i h => hg ⟨t, i, h⟩) (fun j n b h => hve ⟨j, n, b, h⟩)]
        intro x hx
        rcases mem_binders.1 hx with h | ⟨t, ht, h⟩
        · cases h
        · rw [List.mem_singleton.1 ht] at h; exact h

theorem regularEnv_zeroIdx {env : Env (D F)} (h : RegularEnv env) : RegularEnv (zeroIdx env) := by
  intro s v hv
  cases s with
  | var x => exact h _ _ hv
  | idx i =>
    simp only [zeroIdx, Option.some.injEq] at hv
    subst hv
    exact .sc _

/-- The length of an array, as it is used for the size of a comprehension. -/
theorem size_of_array {e : Expr F} {B : Sym → Prop} {c : Nat} (he : Usable B c e) (hI : RegularExt I) {env : Env (D F)} (hE : RegularEnv env)
    {vs : List (D F)} (hv : run I e (zeroIdx env) = some (.vec vs)) :
    ∃ n : Int, intValue I env (atZero (dimExpr e 0)) = some n ∧ n.toNat = vs.length := by
  obtain ⟨n, h1, h2⟩ := run_dimExpr_length hI (regularEnv_zeroIdx hE) e he.regular 0 _ vs.length hv rfl
  refine ⟨n, ?_, h2⟩
  unfold intValue
  rw [run_atZero_zeroIdx (scoped_dimExpr he.scoping 0) (fun i hi hf =>
    he.free _ (fv_dimExpr he.scoping 0 hf) (he.bound _ (binders_dimExpr 0 hi))), h1]
  rfl

theorem binders_inferSize {body size : Expr F} {j : Nat} (h : inferSize body [.idx j] ∅ (.idx j) = some size) :
    binders size ⊆ binders body := by
  have key : ∀ c ∈ candidates body ([Sym.idx j].toFinset ∪ ∅) (.idx j), binders c ⊆ binders body := by
    intro c hc
    obtain ⟨t, ho, rfl, _⟩ := candidates_mem hc
    intro x hx
    refine binders_occurs ho (binders_dimExpr 0 (binders_substitute (fun p hp => ?_) _ hx))
    rw [zeros_snd hp]; rfl
  obtain ⟨c, hc, ⟨rfl, _⟩ | rfl⟩ := inferSize_eq h
  · exact key _ hc
  · intro x hx
    rcases mem_binders.1 hx with hb | ⟨t, ht, hb⟩
    · cases hb
    · rcases List.mem_cons.1 ht with ht | ht
      · rw [ht] at hb; exact key _ hc hb
      · exact key _ (mem_distinct.1 ht) hb

theorem binders_cons {S : Set Sym} {a b : Expr F} (ha : ∀ s ∈ binders a, s ∈ S) (hb : ∀ s ∈ binders b, s ∈ S) :
    ∀ s ∈ binders (Phi.cons a b), s ∈ S := by
  intro x hx
  rcases mem_binders.1 hx with hy | ⟨t, ht, hy⟩
  · cases hy
  · simp only [List.mem_cons, List.not_mem_nil, or_false] at ht
    rcases ht with rfl | rfl
    · exact ha _ hy
    · exact hb _ hy

/-- A comprehension over one index that reads by it only the arrays `T`, which have one length. -/
theorem arrayPy_one {f : List (Obj F) → Py (Obj F)} {c c' c'' : Nat} {r o : Obj F} {T : List (Expr F)} {l : Layout}
    (hf : f [.scalar (.scalar (at_ c))] (c + 1) = some (r, c')) (hr : r.ok = true) (hl : build r = some l)
    (hsc : r.Comp Scoped) (hT : r.Comp (ReadsOnly c T)) (h : arrayPy 1 f none c = some (o, c'')) :
    c'' = c' ∧ o.ok = true ∧ build o = some (.vec l) ∧ o.Comp Scoped ∧
      (∀ j T', j ≠ c → r.Comp (ReadsOnly j T') → o.Comp (ReadsOnly j T')) ∧
      (∀ u, r.Comp (Occurs u) → o.Comp (Occurs u)) ∧
      (∀ S : Set Sym, r.Comp (fun e => ∀ s ∈ binders e, s ∈ S) → Sym.idx c ∈ S → o.Comp (fun e => ∀ s ∈ binders e, s ∈ S)) ∧
      ∀ (env : Env (D F)) (n : Int), (∀ X ∈ T, intValue I env (atZero (dimExpr X 0)) = some n) → ∀ ws : List (PVal F),
        mapOpt (fun k : Nat => value I (env.set (.idx c) (some (.int k))) r) (List.range n.toNat) = some ws →
        (∀ a ∈ ws, ∀ b ∈ ws, PVal.SameShape a b) → value I env o = some (.arr ws) := by
  obtain ⟨h1, h2, ns, h3, _, h5, h6⟩ := C38_array (I := I) (n := 1) hf hr hsc (fun _ h => by cases h) h
  obtain ⟨l', body, hl', hpack, hns⟩ := h5 rfl
  cases hl.symm.trans hl'
  have hsize : ∃ size, ns = [size] ∧ inferSize body [.idx c] ∅ (.idx c) = some size := by
    simp only [inferSizes, indicesOf, List.range'_one, List.map, mapOpt, Option.bind_eq_some_iff, Option.some.injEq] at hns
    obtain ⟨b, hb, _, rfl, rfl⟩ := hns
    exact ⟨b, rfl, hb⟩
  obtain ⟨size, rfl, hsize⟩ := hsize
  have ho : o = .vec (vec c size body) l := by
    have hcons : (indicesOf 1 c).map (fun i => (.scalar (.scalar (at_ i)) : Obj F)) = [.scalar (.scalar (at_ c))] := rfl
    simp only [arrayPy, arrayOf, List.range'_one, List.map, hf, Option.bind_some, hl, hpack] at h
    simp only [indicesOf, List.range'_one, List.map] at hns
    simp only [hns, Option.map_some, Option.some.injEq, Prod.mk.injEq] at h
    rw [← h.1]
    simp [vecLayouts, unpack, nest]
  have hbody : Scoped body := pack_comp (fun _ _ => scoped_cons) l hsc hpack
  obtain ⟨hs1, hs2⟩ := C21_scope hbody hsize
  refine ⟨h1, h2, by rw [ho]; simp [build], ?_, fun j T' hj hrj => ?_, fun u hu => ?_, fun S hS hcS => ?_,
    fun env n hn ws hws hrect => ?_⟩
  · rw [ho]
    simp only [Obj.Comp]
    refine .node (fun k t ht hout => ?_) fun t ht => ?_
    · cases k with
      | zero =>
        simp only [List.getElem?_cons_zero, Option.some.injEq] at ht
        subst ht
        change Disjoint {Sym.idx c} _
        rw [Finset.disjoint_singleton_left]
        intro hc
        have := hs1 hc
        simp at this
      | succ k => cases k <;> cases hout
    · simp only [List.mem_cons, List.not_mem_nil, or_false] at ht
      rcases ht with rfl | rfl
      · exact scoped_inferSize hbody hsize
      · exact hbody
  · rw [ho]
    simp only [Obj.Comp]
    have hb : ReadsOnly j T' body := pack_comp (fun _ _ => ReadsOnly.cons) l hrj hpack
    refine ReadsOnly.node (by simp) ?_ ?_
    · change Sym.idx j ∉ ({Sym.idx c} : Finset Sym)
      simpa using hj
    · simp only [List.mem_cons, List.not_mem_nil, or_false]
      rintro t (rfl | rfl)
      · refine ReadsOnly.of_absent (fun h => hb.1 (binders_inferSize hsize h)) fun h => ?_
        have : Sym.idx j ∈ freeIndices t := Finset.mem_filter.2 ⟨h, rfl⟩
        rw [hs2] at this; cases this
      · exact hb
  · rw [ho]
    simp only [Obj.Comp]
    exact .child (by simp) (pack_comp (fun a b ha _ => .child (by simp) ha) l hu hpack)
  · rw [ho]
    simp only [Obj.Comp]
    have hb : ∀ s ∈ binders body, s ∈ S :=
      pack_comp (P := fun e => ∀ s ∈ binders e, s ∈ S) (fun a b ha hb => binders_cons ha hb) l hS hpack
    intro x hx
    rcases mem_binders.1 hx with hy | ⟨t, ht, hy⟩
    · rw [Finset.mem_singleton.1 (show x ∈ ({Sym.idx c} : Finset Sym) from hy)]; exact hcS
    · simp only [List.mem_cons, List.not_mem_nil, or_false] at ht
      rcases ht with rfl | rfl
      · exact hb _ (binders_inferSize hsize hy)
      · exact hb _ hy
  · have hb : ReadsOnly c T body := pack_comp (fun _ _ => ReadsOnly.cons) l hT hpack
    refine (h6 env _).2 ⟨?_, fun _ _ => trivial, hrect⟩
    simp only [List.map, grid, inferSize_value hb hsize hn, Option.bind_some]
    have : mapOpt (fun k : Nat => value I (withIndices env (indicesOf 1 c) [k]) r) (List.range n.toNat) = some ws := hws
    rw [this]; rfl

/-! ### Expressions whose shape does not depend on the indices -/

/-- Where the expression has a value, it has a value of the same shape where all indices are zero. -/
def Steady (I : Ext F) (env : Env (D F)) (e : Expr F) : Prop :=
  ∀ d, run I e env = some d → ∃ d0, run I e (zeroIdx env) = some d0 ∧ Val.shape d0 = Val.shape d

theorem zeroIdx_set (env : Env (D F)) (i : Nat) (v : Option (D F)) : zeroIdx (env.set (.idx i) v) = zeroIdx env := by
  funext s
  cases s with
  | idx j => rfl
  | var x => exact set_of_ne (by simp)

/-- Expressions without free indices are steady. -/
theorem Steady.of_closed {env : Env (D F)} {e : Expr F} (hs : Scoped e) (h : ∀ i, Sym.idx i ∉ fv e) : Steady I env e := by
  intro d hd
  refine ⟨d, ?_, rfl⟩
  rw [← hd]
  refine run_agree hs fun x hx => ?_
  cases x with
  | var v => rfl
  | idx i => exact absurd hx (h i)

theorem Steady.set {env : Env (D F)} {e : Expr F} (h : Steady I env e) (hs : Scoped e) {i : Nat} (hi : Sym.idx i ∉ fv e)
    (v : Option (D F)) : Steady I (env.set (.idx i) v) e := by
  intro d hd
  rw [zeroIdx_set]
  refine h d ?_
  rw [← hd]
  refine (run_agree hs fun x hx => set_of_ne ?_).symm
  rintro rfl; exact hi hx

theorem Steady.fst {env : Env (D F)} {e : Expr F} (h : Steady I env e) : Steady I env (Phi.fst e) := by
  intro d hd
  rw [Frontend.run_fst] at hd
  cases he : run I e env with
  | none => rw [he] at hd; cases hd
  | some v =>
    rw [he] at hd
    cases v with
    | pair a b =>
      cases hd
      obtain ⟨d0, h1, h2⟩ := h _ he
      cases d0 with
      | pair a0 b0 =>
        simp only [Val.shape, Val.map, Val.pair.injEq] at h2
        exact ⟨a0, by rw [Frontend.run_fst, h1]; rfl, h2.1⟩
      | _ => simp [Val.shape, Val.map] at h2
    | _ => cases hd

theorem Steady.snd {env : Env (D F)} {e : Expr F} (h : Steady I env e) : Steady I env (Phi.snd e) := by
  intro d hd
  rw [Frontend.run_snd] at hd
  cases he : run I e env with
  | none => rw [he] at hd; cases hd
  | some v =>
    rw [he] at hd
    cases v with
    | pair a b =>
      cases hd
      obtain ⟨d0, h1, h2⟩ := h _ he
      cases d0 with
      | pair a0 b0 =>
        simp only [Val.shape, Val.map, Val.pair.injEq] at h2
        exact ⟨b0, by rw [Frontend.run_snd, h1]; rfl, h2.2⟩
      | _ => simp [Val.shape, Val.map] at h2
    | _ => cases hd

theorem shape_vec {vs ws : List (D F)} (h : Val.shape (.vec vs : D F) = Val.shape (.vec ws)) :
    vs.map Val.shape = ws.map Val.shape := by
  have h3 : ∀ us : List (D F), us.map (Val.map fun _ => ()) = us.map Val.shape := fun _ => rfl
  rw [Val.shape, Val.shape, Val.map, Val.map, Val.mapList_eq, Val.mapList_eq, h3, h3] at h
  exact Val.vec.inj h

/-- Reads of an array of steady shape. -/
theorem Steady.get {env : Env (D F)} {e i : Expr F} (h : Steady I env e) (hI : RegularExt I) (hE : RegularEnv env)
    (hr : RegularConsts e) {k0 : Int} (hi : intValue I (zeroIdx env) i = some k0) : Steady I env (Phi.get e i) := by
  intro d hd
  rw [run_getAt] at hd
  obtain ⟨vs, h1, k, h2, h3⟩ : ∃ vs, run I e env = some (.vec vs) ∧ ∃ k, intValue I env i = some k ∧ Val.get vs k = some d := by
    simp only [getOf, Option.bind_eq_some_iff] at hd
    obtain ⟨vs, ⟨v, h1, h1'⟩, k, h2, h3⟩ := hd
    cases v <;> simp [Val.asVec] at h1'
    subst h1'
    exact ⟨_, h1, k, Option.bind_eq_some_iff.2 h2, h3⟩
  obtain ⟨d0, h4, h5⟩ := h _ h1
  cases d0 with
  | vec ws =>
    have h6 := shape_vec h5
    have hlen : ws.length = vs.length := by simpa using congrArg List.length h6
    have hreg := run_regular hI e hr env _ hE h1
    have hu : ∀ a ∈ vs, ∀ b ∈ vs, Val.shape a = Val.shape b := by
      cases hreg with
      | vec hu _ => exact Val.uniform_iff.1 hu
    have hlt : (Val.clip ws.length k0) < ws.length := by
      have : 0 < vs.length := by
        unfold Val.get at h3
        cases vs with
        | nil => simp at h3
        | cons _ _ => simp
      unfold Val.clip; omega
    have hw : Val.get ws k0 = some ws[Val.clip ws.length k0] := by
      unfold Val.get; exact List.getElem?_eq_getElem hlt
    refine ⟨_, by
      rw [run_getAt, h4]
      unfold intValue at hi
      simp only [getOf, Option.bind_some, Val.asVec, hi]
      exact hw, ?_⟩
    have h7 : (ws.map Val.shape)[Val.clip ws.length k0]? = (vs.map Val.shape)[Val.clip ws.length k0]? := by rw [h6]
    rw [List.getElem?_map, List.getElem?_map, List.getElem?_eq_getElem hlt, List.getElem?_eq_getElem (hlen ▸ hlt)] at h7
    simp only [Option.map_some, Option.some.injEq] at h7
    rw [h7]
    exact hu _ (List.getElem_mem _) _ (List.mem_of_getElem? h3)
  | _ => simp [Val.shape, Val.map] at h5

theorem intValue_at (env : Env (D F)) (i : Nat) (k : Int) : intValue I (env.set (.idx i) (some (.int k))) (at_ i) = some k := by
  unfold intValue at_
  rw [run_node]
  simp [runDen, Env.set, Val.asInt, Val.int]

theorem intValue_at_zero (env : Env (D F)) (i : Nat) : intValue I (zeroIdx env) (at_ i) = some 0 := by
  unfold intValue at_
  rw [run_node]
  simp [runDen, zeroIdx, Val.asInt, Val.int]

/-! ### Conditions on composed expressions -/

theorem Usable.mono {B : Sym → Prop} {c c' : Nat} {e : Expr F} (h : Usable B c e) (hc : c ≤ c') : Usable B c' e :=
  ⟨h.scoping, h.free, h.bound, fun i hi => lt_of_lt_of_le (h.old i hi) hc, h.regular⟩

theorem Usable.node {B : Sym → Prop} {c : Nat} {h : Phi.Head F} {ts : List (Expr F)} (hts : ∀ t ∈ ts, Usable B c t)
    (hc : Head.captured h = ∅) (hs : ∀ s, Lang.symbol h = some s → False) (hk : ∀ v τ, h ≠ .const v τ) :
    Usable B c (Term.node h ts) := by
  have hc' : Lang.captured h = (∅ : Finset Sym) := hc
  refine ⟨.node (fun k t _ _ => by rw [hc']; exact Finset.disjoint_empty_left _) fun t ht => (hts t ht).scoping,
    fun i hi => ?_, fun i hi => ?_, fun i hi => ?_, ?_⟩
  · rcases (mem_fv.1 hi).1 with hi | ⟨t, ht, hi⟩
    · exact (hs _ hi).elim
    · exact (hts t ht).free i hi
  · rcases mem_binders.1 hi with hi | ⟨t, ht, hi⟩
    · rw [hc'] at hi; cases hi
    · exact (hts t ht).bound i hi
  · rcases (mem_fv.1 hi).1 with hi | ⟨t, ht, hi⟩
    · exact (hs _ hi).elim
    · exact (hts t ht).old i hi
  · exact (Phi.regularConsts_node _ _).2 ⟨fun v τ he => absurd he (hk v τ), fun t ht => (hts t ht).regular⟩

theorem Usable.fst {B : Sym → Prop} {c : Nat} {e : Expr F} (h : Usable B c e) : Usable B c (Phi.fst e) :=
  Usable.node (by simpa using h) rfl (fun s hs => by cases hs) (by simp)

theorem Usable.snd {B : Sym → Prop} {c : Nat} {e : Expr F} (h : Usable B c e) : Usable B c (Phi.snd e) :=
  Usable.node (by simpa using h) rfl (fun s hs => by cases hs) (by simp)

theorem Usable.get {B : Sym → Prop} {c : Nat} {e i : Expr F} (h : Usable B c e) (hi : Usable B c i) : Usable B c (Phi.get e i) :=
  Usable.node (by simp [h, hi]) rfl (fun s hs => by cases hs) (by simp)

theorem usable_at {B : Sym → Prop} {c : Nat} (hB : ¬ B (.idx c)) : Usable B (c + 1) (at_ c : Expr F) := by
  refine ⟨.node (fun k t ht _ => by simp at ht) (by simp), fun i hi => ?_, fun i hi => ?_, fun i hi => ?_, ?_⟩
  · rcases (mem_fv.1 hi).1 with hi | ⟨t, ht, hi⟩
    · cases hi; exact hB
    · cases ht
  · rcases mem_binders.1 hi with hi | ⟨t, ht, hi⟩
    · cases hi
    · cases ht
  · rcases (mem_fv.1 hi).1 with hi | ⟨t, ht, hi⟩
    · cases hi; omega
    · cases ht
  · unfold at_
    rw [Phi.regularConsts_node]
    exact ⟨fun v τ he => (by cases he), fun t ht => (by cases ht)⟩

/-- A new index reads nothing. -/
theorem Usable.readsOnly {B : Sym → Prop} {c : Nat} {e : Expr F} (h : Usable B c e) (hB : ¬ B (.idx c)) (T : List (Expr F)) :
    ReadsOnly c T e :=
  ReadsOnly.of_absent (fun hb => hB (h.bound _ hb)) (fun hb => absurd (h.old _ hb) (by omega))

/-! ### Sizes that are not negative -/

/-- The size of the array is not negative; only the size given for a comprehension could be. -/
def Sized (I : Ext F) (env : Env (D F)) (e : Expr F) : Prop :=
  ∀ n, intValue I env (atZero (dimExpr e 0)) = some n → 0 ≤ n

theorem dimExpr_pos (t : Expr F) (k : Nat) : ∃ j u, dimExpr t (k + 1) = Term.node (.dim j) [u] := by
  induction t using ind generalizing k with
  | step hd ts ih =>
    by_cases hg : ∃ t i, hd = .get ∧ ts = [t, i]
    · obtain ⟨t, i, rfl, rfl⟩ := hg
      rw [dimExpr_get]
      exact ih t (by simp) (k + 1)
    · rw [dimExpr_other (fun t i h => hg ⟨t, i, h⟩) (fun j n b h => by simp at h)]
      exact ⟨_, _, rfl⟩

theorem dim_nonneg {env : Env (D F)} {j : Nat} {u : Expr F} {n : Int} (h : intValue I env (atZero (Term.node (.dim j) [u])) = some n) :
    0 ≤ n := by
  have key : ∀ w : Expr F, intValue I env (Term.node (.dim j) [w]) = some n → 0 ≤ n := by
    intro w hw
    unfold intValue at hw
    rw [run_node] at hw
    simp only [List.map, runDen, dimOf, Option.bind_eq_some_iff] at hw
    obtain ⟨v, ⟨m, _, hm⟩, hv⟩ := hw
    cases hm
    simp [Val.asInt] at hv
    omega
  unfold atZero at h
  rw [substitute_node] at h
  split at h
  · exact key _ h
  · simp only [substAt] at h
    exact key _ h

theorem Sized.get {env : Env (D F)} {e i : Expr F} : Sized I env (Phi.get e i) := by
  intro n hn
  obtain ⟨j, u, h⟩ := dimExpr_pos e 0
  rw [Phi.get, dimExpr_get, h] at hn
  exact dim_nonneg hn

theorem Sized.fst {env : Env (D F)} {e : Expr F} : Sized I env (Phi.fst e) := by
  intro n hn
  rw [Phi.fst, dimExpr_other (by simp) (by simp)] at hn
  exact dim_nonneg hn

theorem Sized.snd {env : Env (D F)} {e : Expr F} : Sized I env (Phi.snd e) := by
  intro n hn
  rw [Phi.snd, dimExpr_other (by simp) (by simp)] at hn
  exact dim_nonneg hn

/-! ### When a size is found -/

theorem inferSize_defined {body X : Expr F} {j : Nat} (ho : Occurs (Phi.get X (at_ j)) body) (hX : Scoped X)
    (hj : Sym.idx j ∉ fv X) (hd : ∀ s ∈ fv X, s ∉ binders body) : (inferSize body [.idx j] ∅ (.idx j)).isSome = true := by
  have := mem_candidates (C := [Sym.idx j].toFinset ∪ ∅) ho (by
    rw [Finset.disjoint_left]
    intro s hs
    have hs := fv_dimExpr hX 0 hs
    simp only [List.toFinset_cons, List.toFinset_nil, Finset.union_empty, Finset.mem_union, not_or]
    refine ⟨fun h => ?_, hd s hs⟩
    rcases Finset.mem_insert.1 h with rfl | h
    · exact hj hs
    · cases h)
  unfold inferSize
  split
  · rename_i h
    rw [h] at this; cases this
  · split <;> rfl

theorem arrayPy_defined (I : Ext F) {f : List (Obj F) → Py (Obj F)} {c c' : Nat} {r : Obj F} {X : Expr F}
    (hf : f [.scalar (.scalar (at_ c))] (c + 1) = some (r, c')) (hr : r.ok = true)
    (ho : r.Comp (Occurs (Phi.get X (at_ c)))) (hX : Scoped X) (hc : Sym.idx c ∉ fv X)
    (hb : r.Comp fun e => ∀ s ∈ fv X, s ∉ binders e) : ∃ o, arrayPy 1 f none c = some (o, c') := by
  obtain ⟨l, body, h1, _, h2, _⟩ := packsTo I r hr
  have hoc : Occurs (Phi.get X (at_ c)) body := pack_comp (fun a b ha _ => .child (by simp) ha) l ho h2
  have hbi : ∀ s ∈ fv X, s ∉ binders body := pack_comp (P := fun e => ∀ s ∈ fv X, s ∉ binders e) (fun a b ha hb s hs h => by
    rcases mem_binders.1 h with h' | ⟨t, ht, h'⟩
    · cases h'
    · simp only [List.mem_cons, List.not_mem_nil, or_false] at ht
      rcases ht with rfl | rfl
      · exact ha s hs h'
      · exact hb s hs h') l hb h2
  obtain ⟨n, hn⟩ := Option.isSome_iff_exists.1 (inferSize_defined hoc hX hc hbi)
  refine ⟨unpack (.vec l) (vec c n body), ?_⟩
  simp [arrayPy, arrayOf, hf, h1, h2, inferSizes, mapOpt, hn, vecLayouts, nest]

end Verif.Frontend
