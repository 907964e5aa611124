import Verif.Midend.SizeClasses
import Verif.Phi.Regular
import Verif.Phi.Busy
import Verif.Midend.Decide

/-! The sizes united by `find_size_classes` are equal. -/

namespace Verif.Midend
open Verif.Phi Verif.Term Verif.Codegen
variable {F : Type}

/-! ### Indices at zero -/

theorem leafSyms_node (h : Phi.Head F) (ts : List (Expr F)) :
    leafSyms (node h ts) = (Head.symbol h).toList ++ (ts.map leafSyms).flatten := cata_node _ _ _

theorem mem_leafSyms {s : Sym} (e : Expr F) : s ∈ fv e → s ∈ leafSyms e := by
  induction e using ind with
  | step h ts ih =>
    intro hs
    rw [leafSyms_node]
    obtain ⟨hs | ⟨t, ht, hs⟩, _⟩ := mem_fv.1 hs
    · have : Head.symbol h = some s := hs
      simp [this]
    · refine List.mem_append_right _ (List.mem_flatten.2 ⟨_, List.mem_map.2 ⟨t, ht, rfl⟩, ih t ht hs⟩)

theorem keys_zeros (e : Expr F) : keys (zeros e) = freeIndices e := by
  ext s
  unfold keys zeros
  simp only [List.map_map, List.mem_toFinset, List.mem_map, List.mem_filter, decide_eq_true_eq, Function.comp_def]
  constructor
  · rintro ⟨_, ⟨_, h⟩, rfl⟩; exact h
  · intro h
    exact ⟨s, ⟨mem_leafSyms e (Finset.mem_filter.1 h).1, h⟩, rfl⟩

theorem zeros_snd {e : Expr F} {p : Sym × Expr F} (h : p ∈ zeros e) : p.2 = int 0 := by
  unfold zeros at h
  obtain ⟨_, _, rfl⟩ := List.mem_map.1 h
  rfl

theorem fv_int (n : Int) : fv (int n : Expr F) = ∅ := by
  ext s
  simp only [int, Finset.notMem_empty, iff_false]
  intro h
  obtain ⟨h | ⟨t, ht, _⟩, _⟩ := mem_fv.1 h
  · cases h
  · cases ht

theorem rangeFv_zeros (e : Expr F) : rangeFv (zeros e) = ∅ := by
  ext s
  simp only [Finset.notMem_empty, iff_false]
  intro h
  obtain ⟨p, hp, h⟩ := mem_rangeFv.1 h
  rw [zeros_snd hp, fv_int] at h
  cases h

theorem scoped_int (n : Int) : Scoped (int n : Expr F) := .node (by intro k t h; simp at h) (by simp)

theorem freeIndices_atZero (e : Expr F) : freeIndices (atZero e) = ∅ := by
  ext s
  simp only [Finset.notMem_empty, iff_false]
  intro h
  obtain ⟨h1, h2⟩ := Finset.mem_filter.1 h
  have := fv_substitute (zeros e) e h1
  rw [rangeFv_zeros, Finset.union_empty, keys_zeros, Finset.mem_sdiff] at this
  exact this.2 (Finset.mem_filter.2 ⟨this.1, h2⟩)

theorem atZero_of_none {e : Expr F} (h : freeIndices e = ∅) : atZero e = e := by
  refine substitute_eq_self _ _ ?_
  rw [keys_zeros, h]
  exact Finset.disjoint_empty_right _

theorem atZero_atZero (e : Expr F) : atZero (atZero e) = atZero e := atZero_of_none (freeIndices_atZero e)

theorem sizeNorm_idem (u : SizeNode F) : sizeNorm (sizeNorm u) = sizeNorm u := by
  cases u with
  | inl i => rfl
  | inr e => exact congrArg Sum.inr (atZero_atZero e)

variable [FloatOps F]

theorem strict_eval (I : Ext F) (e : Expr F) : (Phi.strict I).eval e = run I e := rfl

omit [FloatOps F] in
theorem lookup_zeros {e : Expr F} {s : Sym} {u : Expr F} (h : lookup s (zeros e) = some u) :
    u = int 0 ∧ s.isIdx = true := by
  have hm := lookup_mem h
  refine ⟨zeros_snd hm, ?_⟩
  have : s ∈ keys (zeros e) := List.mem_toFinset.2 (List.mem_map.2 ⟨_, hm, rfl⟩)
  rw [keys_zeros] at this
  exact (Finset.mem_filter.1 this).2

variable [DecidableEq F]

/-- Putting the indices to zero in an expression is putting them to zero in the environment. -/
theorem run_atZero_eq {I : Ext F} {e : Expr F} {η : Env (D F)} (hs : Scoped e)
    (hd : Disjoint (binders e) (freeIndices e)) :
    run I (atZero e) η = run I e (bindEnv (run I) (zeros e) η) := by
  have h := substitute_strict (Phi.strict I) (by
      intro h fs s env hs
      change Head.symbol h = some s at hs
      cases h <;> simp only [Head.symbol, reduceCtorEq, Option.some.injEq] at hs
      subst hs; rfl) (zeros e)
    (fun p hp => by rw [zeros_snd hp]; exact scoped_int 0) e hs (by
      rw [rangeFv_zeros, Finset.union_empty, keys_zeros]; exact hd) η
  exact h

/-- Where all indices are zero, putting them to zero changes nothing. -/
theorem run_atZero {I : Ext F} {e : Expr F} {η : Env (D F)} (hs : Scoped e)
    (hd : Disjoint (binders e) (freeIndices e)) (h0 : ∀ i, η (.idx i) = some (.int 0)) :
    run I (atZero e) η = run I e η := by
  rw [run_atZero_eq hs hd]
  congr 1
  funext s
  unfold bindEnv
  split
  · rename_i u hu
    obtain ⟨rfl, hi⟩ := lookup_zeros hu
    cases s with
    | var v => cases hi
    | idx i => rw [h0 i]; rfl
  · rfl

/-! ### Assignments of values to all symbols of a program -/

/-- The accumulator of a fold after `k` rounds. -/
def iterate (I : Ext F) (c a : Nat) (b : Expr F) (η : Env (D F)) (x : D F) (k : Nat) : Option (D F) :=
  loopOpt (fun acc (i : Nat) => run I b ((η.set (.var a) (some acc)).set (.var c) (some (.int i)))) x (List.range k)

/-- `η` and `sz` describe one moment of an evaluation of `p`: every symbol bound in `p` has the value it is
bound to, where the bodies of comprehensions are looked at for index 0 and the bodies of folds in some round;
`sz i` is the number of values of the index `i`. All sub-expressions have a value there, in particular all
assertions hold. -/
structure Moment (I : Ext F) (p : Expr F) (sz : Nat → Int) (η : Env (D F)) : Prop where
  indices : ∀ i, η (.idx i) = some (.int 0)
  values : ∀ e, Occurs e p → ∃ v, run I e η = some v
  lets : ∀ v b e, Occurs (letIn v b e) p → η (.var v) = run I b η
  sizes : ∀ i n b, Occurs (vec i n b) p → run I n η = some (.int (sz i)) ∧ 0 < sz i
  folds : ∀ c a n z b, Occurs (fold c a n z b) p → ∃ (m : Int) (x y : D F) (k : Nat), run I n η = some (.int m) ∧
    run I z η = some x ∧ (k : Int) < m ∧ iterate I c a b η x k = some y ∧ η (.var a) = some y ∧
    η (.var c) = some (.int k)

/-- Accumulators that are single arrays keep their lengths from round to round. -/
def KeepsShape (I : Ext F) (p : Expr F) (η : Env (D F)) : Prop :=
  ∀ c a n z b, Occurs (fold c a n z b) p → ∀ (m : Int) x, run I n η = some (.int m) → run I z η = some x →
    ∀ k : Nat, (k : Int) ≤ m → ∀ y, iterate I c a b η x k = some y → ∀ axis, Val.dim axis y = Val.dim axis x

/-- The value of an item: the range of an index, or the value of an expression with the indices at zero. -/
def sizeVal (I : Ext F) (sz : Nat → Int) (η : Env (D F)) : SizeNode F → Option (D F)
  | .inl i => some (.int (sz i))
  | .inr e => run I (atZero e) η

theorem sizeVal_norm (I : Ext F) (sz : Nat → Int) (η : Env (D F)) (u : SizeNode F) :
    sizeVal I sz η (sizeNorm u) = sizeVal I sz η u := by
  cases u with
  | inl i => rfl
  | inr e => simp only [sizeNorm, sizeVal, atZero_atZero]

/-- Items in one class have the same value. -/
structure SizesSound (I : Ext F) (sz : Nat → Int) (η : Env (D F)) (s : Equivalence (SizeNode F)) : Prop where
  inv : s.Inv sizeNorm
  val : ∀ u, sizeVal I sz η (s.getParent sizeNorm u) = sizeVal I sz η u

variable {I : Ext F} {sz : Nat → Int} {η : Env (D F)}

theorem sizesSound_empty : SizesSound I sz η .empty :=
  ⟨Equivalence.inv_empty _, fun u => sizeVal_norm I sz η u⟩

theorem SizesSound.unite {s : Equivalence (SizeNode F)} (h : SizesSound I sz η s) {a b : SizeNode F}
    (hab : sizeVal I sz η a = sizeVal I sz η b) : SizesSound I sz η (uniteSize s (a, b)) := by
  refine ⟨h.inv.unite sizeNorm_idem a b, fun u => ?_⟩
  obtain ⟨keep, drop, hkd, hw⟩ := Equivalence.getParent_unite sizeNorm_idem h.inv a b
  have hk : sizeVal I sz η keep = sizeVal I sz η drop := by
    rcases hkd with ⟨rfl, rfl⟩ | ⟨rfl, rfl⟩
    · rw [h.val, h.val, hab]
    · rw [h.val, h.val, hab]
  show sizeVal I sz η ((s.unite sizeNorm a b).1.getParent sizeNorm u) = _
  rw [hw u]
  split
  · rename_i hd
    rw [hk, ← hd, h.val]
  · exact h.val u

theorem SizesSound.unites {l : List (SizeNode F × SizeNode F)}
    (hl : ∀ q ∈ l, sizeVal I sz η q.1 = sizeVal I sz η q.2) :
    ∀ {s}, SizesSound I sz η s → SizesSound I sz η (l.foldl uniteSize s) := by
  induction l with
  | nil => exact fun h => h
  | cons q l ih =>
    intro s h
    exact ih (fun q hq => hl q (List.mem_cons_of_mem _ hq)) (h.unite (hl q List.mem_cons_self))

theorem SizesSound.equiv {s : Equivalence (SizeNode F)} (h : SizesSound I sz η s) {a : SizeNode F}
    {l : List (SizeNode F)} (he : s.equiv sizeNorm (a :: l) = true) :
    ∀ u ∈ l, sizeVal I sz η a = sizeVal I sz η u := by
  intro u hu
  simp only [Equivalence.equiv, List.all_eq_true, decide_eq_true_eq] at he
  rw [← h.val a, he u hu, h.val]

/-- If the first items of the trigger have the same value, then the last one has this value too. -/
def TriggerOk (I : Ext F) (sz : Nat → Int) (η : Env (D F)) (t : List (SizeNode F) × SizeNode F) : Prop :=
  ∀ a l, t.1 = a :: l → (∀ u ∈ l, sizeVal I sz η a = sizeVal I sz η u) → sizeVal I sz η a = sizeVal I sz η t.2

theorem triggerPass_sound {l : List (List (SizeNode F) × SizeNode F)} : ∀ {s}, (∀ t ∈ l, TriggerOk I sz η t) →
    SizesSound I sz η s → SizesSound I sz η (triggerPass l s).1 ∧ ∀ t ∈ (triggerPass l s).2, t ∈ l := by
  induction l with
  | nil => intro s _ h; exact ⟨h, by simp [triggerPass]⟩
  | cons t l ih =>
    obtain ⟨req, x⟩ := t
    intro s hl h
    have hl' : ∀ t ∈ l, TriggerOk I sz η t := fun t ht => hl t (List.mem_cons_of_mem _ ht)
    rw [triggerPass]
    split
    · rename_i he
      have h' : SizesSound I sz η (fire s req x) := by
        cases req with
        | nil => exact h
        | cons r req => exact h.unite (hl _ List.mem_cons_self r req rfl (h.equiv he))
      obtain ⟨h1, h2⟩ := ih hl' h'
      exact ⟨h1, fun t ht => List.mem_cons_of_mem _ (h2 t ht)⟩
    · obtain ⟨h1, h2⟩ := ih hl' h
      refine ⟨h1, fun t ht => ?_⟩
      rcases List.mem_cons.1 ht with rfl | ht
      · exact List.mem_cons_self
      · exact List.mem_cons_of_mem _ (h2 t ht)

theorem triggerLoop_sound : ∀ (n : Nat) {l : List (List (SizeNode F) × SizeNode F)} {s},
    (∀ t ∈ l, TriggerOk I sz η t) → SizesSound I sz η s → SizesSound I sz η (triggerLoop n l s)
  | 0, _, _, _, h => h
  | n + 1, l, s, hl, h => by
    obtain ⟨h1, h2⟩ := triggerPass_sound hl h
    rw [triggerLoop]
    split
    · exact h1
    · exact triggerLoop_sound n (fun t ht => hl t (h2 t ht)) h1

/-! ### The united items have the same value -/

omit [FloatOps F] [DecidableEq F] in
/-- In a program that binds no symbol twice on a path, the binders of a sub-expression are not free in it. -/
theorem binders_fv_occurs {e p : Expr F} (ho : Occurs e p) : NoShadow p → Disjoint (binders p) (fv p) →
    Disjoint (binders e) (fv e) := by
  induction ho with
  | refl => exact fun _ h => h
  | child ht _ ih =>
    intro hn hd
    refine ih (hn.children _ ht) ?_
    have h1 := hn.child_scope hd ht
    exact Finset.disjoint_of_subset_right (fv_child_subset ht (Finset.Subset.refl _)) h1

omit [FloatOps F] [DecidableEq F] in
theorem freeIndices_subset (e : Expr F) : freeIndices e ⊆ fv e := Finset.filter_subset _ _

/-- What is assumed about a program: nothing is bound twice on a path, or is bound and free at once. -/
structure Tidy (p : Expr F) : Prop where
  shadow : NoShadow p
  scoping : Scoped p
  free : Disjoint (binders p) (fv p)

omit [FloatOps F] [DecidableEq F] in
theorem Tidy.occurs {e p : Expr F} (h : Tidy p) (ho : Occurs e p) : Tidy e :=
  ⟨h.shadow.occurs ho, h.scoping.occurs ho, binders_fv_occurs ho h.shadow h.free⟩

/-- The value of an item that is a tidy expression. -/
theorem sizeVal_inr {e : Expr F} (h : Tidy e) (h0 : ∀ i, η (.idx i) = some (.int 0)) :
    sizeVal I sz η (.inr e) = run I e η :=
  run_atZero h.scoping (Finset.disjoint_of_subset_right (freeIndices_subset e) h.free) h0

omit [FloatOps F] [DecidableEq F] in
theorem tidy_leaf {h : Phi.Head F} (hc : h.captured = ∅) : Tidy (node h []) := by
  have hb : binders (node h [] : Expr F) = ∅ := by
    ext s
    simp only [Finset.notMem_empty, iff_false]
    intro hs
    rcases mem_binders.1 hs with hs | ⟨t, ht, _⟩
    · have : s ∈ h.captured := hs
      rw [hc] at this; cases this
    · cases ht
  refine ⟨.node (by simp) (by simp) (by simp), .node (by simp) (by simp), ?_⟩
  rw [hb]; exact Finset.disjoint_empty_left _

omit [FloatOps F] [DecidableEq F] in
/-- A node that binds nothing and names nothing is tidy if its sub-expressions are, and bind nothing that is
free in another. -/
theorem tidy_node {h : Phi.Head F} {ts : List (Expr F)} (hc : h.captured = ∅) (hs : h.symbol = none)
    (hl : h.letVar = none) (ht : ∀ t ∈ ts, Tidy t) (hd : ∀ t ∈ ts, ∀ u ∈ ts, Disjoint (binders t) (fv u)) :
    Tidy (node h ts) := by
  have hc' : Lang.captured h = ∅ := hc
  refine ⟨.node ?_ ?_ fun t h => (ht t h).shadow, .node ?_ fun t h => (ht t h).scoping, ?_⟩
  · intro t _; rw [hc']; exact Finset.disjoint_empty_left _
  · intro v b e hv
    have : h.letVar = some v := hv
    rw [hl] at this; cases this
  · intro k t _ _; rw [hc']; exact Finset.disjoint_empty_left _
  · rw [Finset.disjoint_left]
    intro s h1 h2
    rcases mem_binders.1 h1 with h1 | ⟨t, ht', h1⟩
    · rw [hc'] at h1; cases h1
    · obtain ⟨h2 | ⟨u, hu, h2⟩, _⟩ := mem_fv.1 h2
      · have : h.symbol = some s := h2
        rw [hs] at this; cases this
      · exact Finset.disjoint_left.1 (hd t ht' u hu) h1 h2

omit [FloatOps F] [DecidableEq F] in
theorem Tidy.dim {e : Expr F} (h : Tidy e) (k : Nat) : Tidy (dim e k) :=
  tidy_node rfl rfl rfl (by simpa using h) (by simpa using h.free)

omit [FloatOps F] [DecidableEq F] in
theorem tidy_int (n : Int) : Tidy (int n : Expr F) := tidy_leaf rfl

omit [FloatOps F] [DecidableEq F] in
theorem binders_int (n : Int) : binders (int n : Expr F) = ∅ := by
  ext s
  simp only [Finset.notMem_empty, iff_false]
  intro hs
  rcases mem_binders.1 hs with hs | ⟨t, ht, _⟩
  · have : s ∈ (∅ : Finset Sym) := hs
    cases this
  · cases ht

omit [FloatOps F] [DecidableEq F] in
theorem Tidy.get0 {t : Expr F} (h : Tidy t) : Tidy (node .get [t, int 0]) := by
  refine tidy_node rfl rfl rfl ?_ ?_
  · intro u hu
    rcases List.mem_cons.1 hu with rfl | hu
    · exact h
    · rw [List.mem_singleton.1 hu]; exact tidy_int 0
  · intro u hu w hw
    simp only [List.mem_cons, List.not_mem_nil, or_false] at hu hw
    rcases hu with rfl | rfl
    · rcases hw with rfl | rfl
      · exact h.free
      · rw [fv_int]; exact Finset.disjoint_empty_right _
    · rw [binders_int]; exact Finset.disjoint_empty_left _

omit [DecidableEq F] in
theorem run_dim (e : Expr F) (k : Nat) : run I (dim e k) η = dimOf k (run I e η) := by
  unfold dim; rw [run_node]; rfl

omit [FloatOps F] [DecidableEq F] in
theorem dim_valShape {S : Type} (n : Nat) (v : Val S) (k d : Nat) (h : (valShape n v)[k]? = some d) :
    Val.dim k v = some d := by
  induction n generalizing v k with
  | zero =>
    cases v with
    | sc s => simp [valShape] at h
    | pair a b => simp [valShape] at h
    | vec vs =>
      rw [valShape] at h
      · cases k with
        | zero => simpa [Val.dim] using h
        | succ k => simp at h
      · rintro _ _ _ ⟨⟩
  | succ n ih =>
    cases v with
    | sc s => simp [valShape] at h
    | pair a b => simp [valShape] at h
    | vec vs =>
      cases vs with
      | nil => cases k <;> simp [valShape, Val.dim] at h ⊢; exact h
      | cons v vs =>
        rw [valShape] at h
        cases k with
        | zero => simpa [Val.dim] using h
        | succ k => exact ih v k (by simpa using h)

omit [FloatOps F] [DecidableEq F] in
theorem env_set_self {env : Env (D F)} {s : Sym} {x : Option (D F)} (h : env s = x) : env.set s x = env := by
  funext s'
  unfold Env.set
  split
  · rename_i hs; rw [hs, h]
  · rfl

/-- What is assumed about the values. -/
structure Ordinary (I : Ext F) (p : Expr F) (η : Env (D F)) : Prop where
  consts : RegularConsts p
  ext : RegularExt I
  env : RegularEnv η

omit [FloatOps F] [DecidableEq F] in
theorem regularConsts_occurs {e p : Expr F} (ho : Occurs e p) : RegularConsts p → RegularConsts e := by
  induction ho with
  | refl => exact fun h => h
  | child ht _ ih => exact fun h => ih (((regularConsts_node _ _).1 h).2 _ ht)

omit [DecidableEq F] in
theorem Ordinary.regular {p e : Expr F} (h : Ordinary I p η) (ho : Occurs e p) {v : D F} (hv : run I e η = some v) :
    Val.Regular v :=
  run_regular h.ext e (regularConsts_occurs ho h.consts) η v h.env hv

omit [DecidableEq F] in
/-- All elements of an array have the same lengths. -/
theorem dim_get {t i : Expr F} {vs : List (D F)} {v : D F} (hr : Val.Regular (Val.vec vs))
    (ht : run I t η = some (.vec vs)) (hv : run I (node .get [t, i]) η = some v) (k : Nat) :
    Val.dim k v = Val.dim (k + 1) (.vec vs) := by
  rw [run_node] at hv
  simp only [List.map, runDen, getOf, ht, Option.bind_some, Val.asVec] at hv
  obtain ⟨n, _, hv⟩ := Option.bind_eq_some_iff.1 hv
  have hm := List.mem_of_getElem? hv
  cases hr with
  | vec hu _ =>
    cases vs with
    | nil => cases hm
    | cons w ws =>
      rw [Val.dim]
      exact Val.dim_congr (Val.uniform_iff.1 hu _ hm _ List.mem_cons_self) k

omit [DecidableEq F] in
theorem run_get_vec {t i : Expr F} {v : D F} (hv : run I (node .get [t, i]) η = some v) :
    ∃ vs, run I t η = some (.vec vs) ∧ vs ≠ [] := by
  rw [run_node] at hv
  simp only [List.map, runDen, getOf] at hv
  obtain ⟨vs, h1, hv⟩ := Option.bind_eq_some_iff.1 hv
  obtain ⟨n, _, hv⟩ := Option.bind_eq_some_iff.1 hv
  refine ⟨vs, regular_asVec h1, ?_⟩
  rintro rfl
  cases (List.mem_of_getElem? hv)

omit [DecidableEq F] in
/-- A comprehension at a moment: as many elements as the index has values, the first is the value of the
body. -/
theorem run_vec_moment {p : Expr F} (hm : Moment I p sz η) {i : Nat} {n b : Expr F} (ho : Occurs (vec i n b) p) :
    ∃ w ws, run I (vec i n b) η = some (.vec (w :: ws)) ∧ ((ws.length + 1 : Nat) : Int) = sz i ∧
      run I b η = some w := by
  obtain ⟨v, hv⟩ := hm.values _ ho
  obtain ⟨hn, hpos⟩ := hm.sizes i n b ho
  have hv' := hv
  unfold vec at hv'
  rw [run_node] at hv'
  simp only [List.map, runDen, vecOf, hn, Option.bind_some, Val.asInt, Val.int] at hv'
  obtain ⟨vs, h1, h2⟩ := Option.bind_eq_some_iff.1 hv'
  split at h2
  · cases h2
    have hl := mapOpt_length h1
    rw [List.length_range] at hl
    have h0 := mapOpt_getElem? h1 0
    have hr : (List.range (sz i).toNat)[0]? = some 0 := by
      rw [List.getElem?_range (by omega)]
    rw [hr, Option.bind_some] at h0
    cases vs with
    | nil => simp at hl; omega
    | cons w ws =>
      refine ⟨w, ws, hv, ?_, ?_⟩
      · simp only [List.length_cons] at hl; omega
      · simp only [List.getElem?_cons_zero] at h0
        rw [h0]
        congr 1
        exact (env_set_self (hm.indices i)).symm
  · cases h2

/-- The items united at one node have the same value. -/
theorem sizeFacts_sound {p : Expr F} (ht : Tidy p) (hm : Moment I p sz η) (ho' : Ordinary I p η) (h : Phi.Head F)
    (ts : List (Expr F)) (ho : Occurs (node h ts) p) (l) (hl : sizeFacts h ts = some l) :
    ∀ q ∈ l, sizeVal I sz η q.1 = sizeVal I sz η q.2 := by
  have hself := ht.occurs ho
  have hch : ∀ t ∈ ts, Occurs t p := fun t h => Occurs.trans (.child h (.refl _)) ho
  have val : ∀ {e : Expr F}, Tidy e → sizeVal I sz η (.inr e) = run I e η := fun h => sizeVal_inr h hm.indices
  unfold sizeFacts at hl
  split at hl
  · -- constants
    rename_i v τ
    cases hl
    intro q hq
    obtain ⟨⟨d, k⟩, hdk, rfl⟩ := List.mem_map.1 hq
    have hk : (valShape (tyDepth τ) v)[k]? = some d := by
      simpa using List.mem_zipIdx_iff_getElem?.1 hdk
    rw [val (hself.dim k), val (tidy_int _), run_dim, run_node]
    simp only [runDen, dimOf, Option.bind_some, dim_valShape _ _ _ _ hk]
    rfl
  · -- assertions without operands
    rename_i t
    cases hl
    intro q hq
    rw [List.mem_singleton.1 hq, val hself, val (ht.occurs (hch t (by simp)))]
    obtain ⟨v, hv⟩ := hm.values _ ho
    have hv' := hv
    rw [run_node] at hv'
    cases hv'
  · -- assertions
    rename_i t o ops
    cases hl
    obtain ⟨v, hv⟩ := hm.values _ ho
    have hv' := hv
    rw [run_node] at hv'
    simp only [List.map_cons, runDen, assertOf] at hv'
    obtain ⟨ns, h1, h2⟩ := Option.bind_eq_some_iff.1 hv'
    simp only [mapOpt] at h1
    obtain ⟨m, h3, h4⟩ := Option.bind_eq_some_iff.1 h1
    obtain ⟨ms, h5, h6⟩ := Option.bind_eq_some_iff.1 h4
    cases h6
    simp only at h2
    split at h2
    · rename_i hall
      intro q hq
      rcases List.mem_cons.1 hq with rfl | hq
      · rw [val hself, val (ht.occurs (hch t (by simp))), hv, h2]
      · obtain ⟨s, hs, rfl⟩ := List.mem_map.1 hq
        rw [val (ht.occurs (hch o (by simp))), val (ht.occurs (hch s (by simp [hs])))]
        have hint : ∀ {x : Option (D F)} {n : Int}, x.bind Val.asInt = some n → x = some (.int n) := by
          intro x n hx
          cases x with
          | none => cases hx
          | some x =>
            cases x with
            | sc c => cases c <;> simp [Val.asInt] at hx; subst hx; rfl
            | vec _ => cases hx
            | pair _ _ => cases hx
        rcases List.mem_cons.1 hs with rfl | hs
        · rfl
        · rw [hint h3]
          simp only [List.map_map, mapOpt_map] at h5
          obtain ⟨k, hk, hsk⟩ := List.getElem_of_mem hs
          have h7 := mapOpt_getElem? h5 k
          rw [List.getElem?_eq_getElem hk, hsk, Option.bind_some] at h7
          have hlen := mapOpt_length h5
          rw [List.getElem?_eq_getElem (by omega)] at h7
          have h8 := hint h7.symm
          have h9 : ms[k]'(by omega) = m := by
            have := List.all_eq_true.1 hall _ (List.getElem_mem (by omega : k < ms.length))
            simpa using this
          rw [h9] at h8
          exact h8.symm
    · cases h2
  · -- lets
    rename_i v b e
    split at hl
    · rename_i a hp
      cases hl
      have hb := ht.occurs (hch b (by simp))
      have hv := hm.lets v b e ho
      have hs : run I (var v ((typeOf b).getD (.scalar .int)) : Expr F) η = run I b η := by
        unfold var; rw [run_node]; exact hv
      have htv : Tidy (var v ((typeOf b).getD (.scalar .int)) : Expr F) := tidy_leaf rfl
      intro q hq
      rcases List.mem_cons.1 hq with rfl | hq
      · rw [val htv, val hb, hs]
      · obtain ⟨k, _, rfl⟩ := List.mem_map.1 hq
        rw [val (htv.dim k), val (hb.dim k), run_dim, run_dim, hs]
    · cases hl; simp
  · -- comprehensions
    rename_i i n b
    obtain ⟨r, _, hl⟩ := Option.bind_eq_some_iff.1 hl
    cases hl
    obtain ⟨hn, _⟩ := hm.sizes i n b ho
    obtain ⟨w, ws, hv, hlen, hw⟩ := run_vec_moment hm ho
    intro q hq
    rcases List.mem_cons.1 hq with rfl | hq
    · rw [val (ht.occurs (hch n (by simp))), hn]; rfl
    rcases List.mem_cons.1 hq with rfl | hq
    · rw [val (hself.dim 0), run_dim]
      change some (Val.int (sz i)) = dimOf 0 (run I (vec i n b) η)
      rw [hv, ← hlen]
      rfl
    · obtain ⟨hr0, rfl⟩ := List.mem_replicate.1 hq
      rw [val (hself.dim r), val ((ht.occurs (hch b (by simp))).dim _), run_dim, run_dim]
      change dimOf r (run I (vec i n b) η) = dimOf (r - 1) (run I b η)
      rw [hv, hw]
      obtain ⟨r', rfl⟩ : ∃ r', r = r' + 1 := ⟨r - 1, by omega⟩
      simp only [dimOf, Option.bind_some, Val.dim, Nat.add_sub_cancel]
  · -- reads
    rename_i t i
    obtain ⟨r, _, hl⟩ := Option.bind_eq_some_iff.1 hl
    cases hl
    obtain ⟨v, hv⟩ := hm.values _ ho
    have htt := ht.occurs (hch t (by simp))
    obtain ⟨vs, hvs, hne⟩ := run_get_vec hv
    have hr := ho'.regular (hch t (by simp)) hvs
    intro q hq
    obtain ⟨k, _, hq⟩ := List.mem_flatMap.1 hq
    have h1 : dimOf k (run I (node .get [t, i]) η) = dimOf (k + 1) (run I t η) := by
      rw [hv, hvs]
      simp only [dimOf, Option.bind_some, dim_get hr hvs hv]
    have h2 : dimOf k (run I (node .get [t, int 0]) η) = dimOf (k + 1) (run I t η) := by
      obtain ⟨v0, hv0⟩ : ∃ v0, run I (node .get [t, int 0]) η = some v0 := by
        rw [run_node]
        have hp : 0 < vs.length := List.length_pos_iff.2 hne
        refine ⟨vs[Val.clip vs.length 0]'(Val.clip_lt hp 0), ?_⟩
        have h0 : run I (int 0 : Expr F) η = some (.int 0) := by unfold int; rw [run_node]; rfl
        simp only [List.map, runDen, getOf, hvs, h0, Option.bind_some, Val.asVec, Val.asInt, Val.int, Val.get]
        exact List.getElem?_eq_getElem (Val.clip_lt hp 0)
      rw [hv0, hvs]
      simp only [dimOf, Option.bind_some, dim_get hr hvs hv0]
    simp only [List.mem_cons, List.not_mem_nil, or_false] at hq
    rcases hq with rfl | rfl
    · rw [val (hself.dim k), val (htt.get0.dim k), run_dim, run_dim, h1, h2]
    · rw [val (hself.dim k), val (htt.dim _), run_dim, run_dim, h1]
  · cases hl; simp

omit [DecidableEq F] in
/-- One more round. -/
theorem iterate_succ (I : Ext F) (c a : Nat) (b : Expr F) (η : Env (D F)) (x : D F) (k : Nat) :
    iterate I c a b η x (k + 1) = (iterate I c a b η x k).bind fun y =>
      run I b ((η.set (.var a) (some y)).set (.var c) (some (.int k))) := by
  unfold iterate
  rw [List.range_succ]
  generalize List.range k = l
  induction l generalizing x with
  | nil =>
    simp only [List.nil_append, loopOpt, Option.bind_some]
    cases run I b ((η.set (.var a) (some x)).set (.var c) (some (.int k))) <;> rfl
  | cons i l ih =>
    simp only [List.cons_append, loopOpt]
    cases run I b ((η.set (.var a) (some x)).set (.var c) (some (.int i))) with
    | none => rfl
    | some y => exact ih y

/-- The triggers of a fold are right if the accumulator keeps its lengths. -/
theorem sizeTriggers_sound {p : Expr F} (ht : Tidy p) (hm : Moment I p sz η) (hk : KeepsShape I p η)
    (h : Phi.Head F) (ts : List (Expr F)) (ho : Occurs (node h ts) p) (l) (hl : sizeTriggers h ts = some l) :
    ∀ q ∈ l, TriggerOk I sz η q := by
  have hself := ht.occurs ho
  have hch : ∀ t ∈ ts, Occurs t p := fun t h => Occurs.trans (.child h (.refl _)) ho
  have val : ∀ {e : Expr F}, Tidy e → sizeVal I sz η (.inr e) = run I e η := fun h => sizeVal_inr h hm.indices
  unfold sizeTriggers at hl
  split at hl
  · rename_i c a n z b
    split at hl
    · rename_i arr hp
      obtain ⟨r, _, hl⟩ := Option.bind_eq_some_iff.1 hl
      cases hl
      obtain ⟨m, x, y, k, hn, hz, hkm, hy, ha, hc⟩ := hm.folds c a n z b ho
      have hz' := ht.occurs (hch z (by simp))
      have hb' := ht.occurs (hch b (by simp))
      have hs : run I (var a ((typeOf z).getD (.scalar .int)) : Expr F) η = some y := by
        unfold var; rw [run_node]; exact ha
      have htv : Tidy (var a ((typeOf z).getD (.scalar .int)) : Expr F) := tidy_leaf rfl
      have hac : ∀ axis, Val.dim axis y = Val.dim axis x := hk c a n z b ho m x hn hz k (by omega) y hy
      obtain ⟨u, hu⟩ := hm.values _ (hch b (by simp))
      have hbd : ∀ axis, Val.dim axis u = Val.dim axis x := by
        refine hk c a n z b ho m x hn hz (k + 1) (by omega) u ?_
        rw [iterate_succ, hy, Option.bind_some, env_set_self (env := η) ha, env_set_self hc]
        exact hu
      obtain ⟨v, hv⟩ := hm.values _ ho
      have hex : ∀ axis, Val.dim axis v = Val.dim axis x := by
        have hv' := hv
        rw [run_node] at hv'
        simp only [List.map, runDen, foldOf, hn, hz, Option.bind_some, Val.asInt, Val.int] at hv'
        exact hk c a n z b ho m x hn hz m.toNat (by omega) v hv'
      intro q hq
      obtain ⟨axis, _, hq⟩ := List.mem_flatMap.1 hq
      have v1 : sizeVal I sz η (.inr (dim (var a ((typeOf z).getD (.scalar .int))) axis)) = dimOf axis (some x) := by
        rw [val (htv.dim axis), run_dim, hs]; simp only [dimOf, Option.bind_some, hac]
      have v2 : sizeVal I sz η (.inr (dim b axis)) = dimOf axis (some x) := by
        rw [val (hb'.dim axis), run_dim, hu]; simp only [dimOf, Option.bind_some, hbd]
      have v3 : sizeVal I sz η (.inr (dim z axis)) = dimOf axis (some x) := by
        rw [val (hz'.dim axis), run_dim, hz]
      have v4 : sizeVal I sz η (.inr (dim (node (.fold c a) [n, z, b]) axis)) = dimOf axis (some x) := by
        rw [val (hself.dim axis), run_dim, hv]; simp only [dimOf, Option.bind_some, hex]
      simp only [List.mem_cons, List.not_mem_nil, or_false] at hq
      intro w ws hw _
      rcases hq with rfl | rfl | rfl | rfl <;> cases hw <;> simp only [v1, v2, v3, v4]
    · cases hl; simp
  · cases hl; simp

/-- Items in one class have the same value at every moment of an evaluation. -/
theorem findSizeClasses_sound {p : Expr F} (ht : Tidy p) (hm : Moment I p sz η) (ho : Ordinary I p η)
    (hk : KeepsShape I p η) {s : Equivalence (SizeNode F)} (hs : findSizeClasses p = some s) : SizesSound I sz η s := by
  unfold findSizeClasses at hs
  obtain ⟨facts, h1, hs⟩ := Option.bind_eq_some_iff.1 hs
  obtain ⟨triggers, h2, hs⟩ := Option.bind_eq_some_iff.1 hs
  cases hs
  refine triggerLoop_sound _ ?_ (SizesSound.unites ?_ sizesSound_empty)
  · intro q hq
    obtain ⟨l, hl, hq⟩ := List.mem_flatten.1 hq
    refine mapOpt_prop (P := fun l => ∀ q ∈ l, TriggerOk I sz η q) ?_ h2 l hl q hq
    intro e he l hl
    obtain ⟨h, ts⟩ := e
    exact sizeTriggers_sound ht hm hk h ts (mem_occurrences.1 he) l hl
  · intro q hq
    obtain ⟨l, hl, hq⟩ := List.mem_flatten.1 hq
    refine mapOpt_prop (P := fun l => ∀ q ∈ l, sizeVal I sz η q.1 = sizeVal I sz η q.2) ?_ h1 l hl q hq
    intro e he l hl
    obtain ⟨h, ts⟩ := e
    exact sizeFacts_sound ht hm ho h ts (mem_occurrences.1 he) l hl

end Verif.Midend
