import Verif.Frontend.InferSizes
import Verif.Toy

/-!
C21 — inferred comprehension sizes.

`body` is the expression a comprehension or fold is built from, `symbols` its indices (or its counter), and
`initial` the accumulator. An array `t` is read *directly* by a symbol `s` if `t[s]` occurs in the body. Its
length can be computed outside if the expression `dimExpr t 0` for it (`_dim_of`: `dim t 0`, where a size of a
comprehension or a dimension of an array that is read from is used instead where possible) mentions nothing bound
by the comprehension or inside the body.
-/

namespace Verif.Props
open Verif.Phi Verif.Term Verif.Midend Verif.Codegen Verif.Frontend
variable {F : Type} [FloatOps F] [DecidableEq F] {I : Ext F}

/-- What is bound by a comprehension or fold, or inside its body. -/
def boundInside (body : Expr F) (symbols : List Sym) (initial : Finset Sym) : Finset Sym :=
  symbols.toFinset ∪ initial ∪ binders body

/-- C21: if no size is given, every array read directly by the symbol, whose length can be computed outside, has as
many elements as the inferred size says, wherever in the body the read is evaluated; so no such read is clamped.

Here `env` is where the comprehension is evaluated, and `env'` is any environment inside. Outer indices, if the
length mentions any, are at 0: the size is inferred for index 0 (`C21_ragged_counterexample`). -/
theorem C21_direct_reads_partial {body size t : Expr F} {symbols : List Sym} {initial : Finset Sym} {s : Sym} {τ : Ty}
    (hb : Tidy body) (hz : inferSize body symbols initial s = some size)
    (hr : Occurs (Phi.get t (node (.store s τ) [])) body)
    (hout : Disjoint (fv (dimExpr t 0)) (boundInside body symbols initial))
    {env env' : Env (D F)} (hin : ∀ x, x ∉ boundInside body symbols initial → env' x = env x)
    (h0 : ∀ i, Sym.idx i ∈ fv (dimExpr t 0) → env (.idx i) = some (.int 0))
    (hc : RegularConsts body) (hI : RegularExt I) (he : RegularEnv env') {n : Int} {vs : List (D F)}
    (hn : run I size env = some (.int n)) (hv : run I t env' = some (.vec vs)) :
    vs.length = n.toNat ∧
      ∀ k : Int, 0 ≤ k → k < n → k.toNat < vs.length ∧ Val.get vs k = vs[k.toNat]? := by
  have hto : Occurs t body := Occurs.trans (.child (by simp) (.refl _)) hr
  have htd := tidy_dimExpr (hb.occurs hto) 0
  have h1 := run_inferSize hz hn (mem_candidates hr hout)
  obtain ⟨m, h2, h3⟩ := run_dimExpr_length hI he t (regularConsts_occurs hto hc) 0 _ vs.length hv rfl
  -- the candidate is evaluated with indices at zero
  have h4 : run I (atZero (dimExpr t 0)) env = run I (dimExpr t 0) env' := by
    rw [run_atZero_eq htd.scoping (htd.free.mono_right (Finset.filter_subset _ _))]
    refine run_agree htd.scoping fun x hx => ?_
    rw [hin x (Finset.disjoint_left.1 hout hx)]
    unfold bindEnv
    split
    · rename_i u hu
      obtain ⟨rfl, hi⟩ := lookup_zeros hu
      cases x with
      | var v => cases hi
      | idx i => rw [h0 i hx]; rfl
    · rfl
  rw [h1, h2] at h4
  cases h4
  refine ⟨h3.symm, fun k hk hkn => ?_⟩
  have hlt : k.toNat < vs.length := by omega
  refine ⟨hlt, ?_⟩
  unfold Val.get Val.clip
  congr 1
  omega

/-- C21: inferred sizes mention nothing that is bound inside, and no indices, so they can be computed where the
comprehension stands. -/
theorem C21_scope {body size : Expr F} {symbols : List Sym} {initial : Finset Sym} {s : Sym} (hb : Scoped body)
    (hz : inferSize body symbols initial s = some size) :
    fv size ⊆ fv body \ (symbols.toFinset ∪ initial) ∧ freeIndices size = ∅ := by
  have key : ∀ c ∈ candidates body (symbols.toFinset ∪ initial) s,
      fv c ⊆ fv body \ (symbols.toFinset ∪ initial) ∧ freeIndices c = ∅ := by
    intro c hc
    obtain ⟨t, h1, rfl, h2, h3⟩ := candidates_mem hc
    refine ⟨fun x hx => ?_, freeIndices_atZero _⟩
    have hx' := fv_substitute _ _ hx
    rw [rangeFv_zeros, Finset.union_empty] at hx'
    have hx2 := (Finset.mem_sdiff.1 hx').1
    exact Finset.mem_sdiff.2 ⟨h3 x hx2 (fv_dimExpr (hb.occurs h1) 0 hx2), Finset.disjoint_left.1 h2 hx2⟩
  obtain ⟨c, hc, ⟨rfl, _⟩ | rfl⟩ := inferSize_eq hz
  · exact key _ hc
  · have hsub : ∀ x ∈ fv (node Head.assertEq (c :: distinct (candidates body (symbols.toFinset ∪ initial) s))),
        ∃ c' ∈ candidates body (symbols.toFinset ∪ initial) s, x ∈ fv c' := by
      intro x hx
      obtain ⟨h | ⟨t, ht, h⟩, _⟩ := mem_fv.1 hx
      · cases h
      · rcases List.mem_cons.1 ht with rfl | ht
        · exact ⟨_, hc, h⟩
        · exact ⟨t, mem_distinct.1 ht, h⟩
    refine ⟨fun x hx => ?_, ?_⟩
    · obtain ⟨c', h1, h2⟩ := hsub x hx
      exact (key c' h1).1 h2
    · ext x
      simp only [Finset.notMem_empty, iff_false]
      intro h
      obtain ⟨h1, h2⟩ := Finset.mem_filter.1 h
      obtain ⟨c', h3, h4⟩ := hsub x h1
      have : x ∈ freeIndices c' := Finset.mem_filter.2 ⟨h4, h2⟩
      rw [(key c' h3).2] at this
      cases this

/-- C21, the result: `array(λ i. … t[i] …)`, for an array `t` that mentions nothing bound inside and no indices, has as
many elements as `t`. -/
theorem C21_array_length {body e t : Expr F} {i : Nat} {τ : Ty} (hb : Tidy body) (ha : arrayOf [i] body none = some e)
    (hr : Occurs (Phi.get t (node (.store (.idx i) τ) [])) body)
    (hout : Disjoint (fv t) (boundInside body [.idx i] ∅)) (hix : freeIndices t = ∅)
    (hc : RegularConsts body) (hI : RegularExt I) {env : Env (D F)} (he : RegularEnv env) {vs ws : List (D F)}
    (hv : run I t env = some (.vec vs)) (hw : run I e env = some (.vec ws)) : ws.length = vs.length := by
  have hto : Occurs t body := Occurs.trans (.child (by simp) (.refl _)) hr
  simp only [arrayOf, inferSizes, List.map, mapOpt, Option.map_eq_some_iff, Option.bind_eq_some_iff,
    Option.some.injEq] at ha
  obtain ⟨ns, ⟨n, hz, _, rfl, rfl⟩, rfl⟩ := ha
  simp only [List.zip_cons_cons, List.zip_nil_right, nest] at hw
  unfold vec at hw
  rw [run_node] at hw
  simp only [List.map, runDen, vecOf] at hw
  obtain ⟨m, h1, hw⟩ := Option.bind_eq_some_iff.1 hw
  obtain ⟨us, h2, hw⟩ := Option.bind_eq_some_iff.1 hw
  split at hw
  · cases hw
    have hl := mapOpt_length h2
    rw [List.length_range] at hl
    have hsub := fv_dimExpr (hb.occurs hto).scoping 0
    obtain ⟨h3, _⟩ := C21_direct_reads_partial (env' := env) hb hz hr (hout.mono_left hsub) (fun _ _ => rfl) (by
      intro j hj
      have : Sym.idx j ∈ freeIndices t := Finset.mem_filter.2 ⟨hsub hj, rfl⟩
      rw [hix] at this; cases this) hc hI he (eq_int_of_asInt h1) hv
    rw [hl, h3]
  · cases hw

/-- C21, folds: an inferred count mentions neither the counter nor the accumulator, and no indices. -/
theorem C21_fold_scope {body init e : Expr F} {c a : Nat} (hb : Scoped body) (h : foldOf c a init body none = some e) :
    ∃ n, e = fold c a n init body ∧ fv n ⊆ fv body \ {.var c, .var a} ∧ freeIndices n = ∅ := by
  simp only [Frontend.foldOf, inferSizes, Option.map_none, mapOpt, Option.bind_eq_some_iff, Option.map_eq_some_iff,
    Option.some.injEq] at h
  obtain ⟨ns, ⟨n, hz, _, rfl, rfl⟩, m, hm, rfl⟩ := h
  cases hm
  obtain ⟨h1, h2⟩ := C21_scope hb hz
  refine ⟨n, rfl, fun x hx => ?_, h2⟩
  have := h1 hx
  simp only [List.toFinset_cons, List.toFinset_nil, Finset.mem_sdiff, Finset.mem_union, Finset.mem_insert,
    Finset.notMem_empty, or_false, Finset.mem_singleton] at this ⊢
  exact this

/-- C21, folds: `fold(λ c a. … t[c] …, init)`, for an array `t` that mentions nothing bound inside and no indices, makes
as many steps as `t` has elements. -/
theorem C21_fold_count {body init e t : Expr F} {c a : Nat} {τ : Ty} (hb : Tidy body)
    (h : foldOf c a init body none = some e)
    (hr : Occurs (Phi.get t (node (.store (.var c) τ) [])) body)
    (hout : Disjoint (fv t) (boundInside body [.var c] {.var a})) (hix : freeIndices t = ∅)
    (hc : RegularConsts body) (hI : RegularExt I) {env : Env (D F)} (he : RegularEnv env) {vs : List (D F)} {w : D F}
    (hv : run I t env = some (.vec vs)) (hw : run I e env = some w) :
    run I (fold c a (int vs.length) init body) env = some w := by
  have hto : Occurs t body := Occurs.trans (.child (by simp) (.refl _)) hr
  simp only [Frontend.foldOf, inferSizes, Option.map_none, mapOpt, Option.bind_eq_some_iff, Option.map_eq_some_iff,
    Option.some.injEq] at h
  obtain ⟨ns, ⟨n, hz, _, rfl, rfl⟩, m, hm, rfl⟩ := h
  cases hm
  have hsub := fv_dimExpr (hb.occurs hto).scoping 0
  unfold fold at hw ⊢
  rw [run_node] at hw ⊢
  simp only [List.map, runDen, Phi.foldOf] at hw ⊢
  obtain ⟨m, h1, hw⟩ := Option.bind_eq_some_iff.1 hw
  obtain ⟨h3, _⟩ := C21_direct_reads_partial (env' := env) hb hz hr (hout.mono_left hsub) (fun _ _ => rfl) (by
    intro j hj
    have : Sym.idx j ∈ freeIndices t := Finset.mem_filter.2 ⟨hsub hj, rfl⟩
    rw [hix] at this; cases this) hc hI he (eq_int_of_asInt h1) hv
  have h4 : (run I (int vs.length) env).bind Val.asInt = some (vs.length : Int) := rfl
  rw [h4, Option.bind_some, Int.toNat_natCast, h3]
  exact hw

omit [FloatOps F] in
/-- C21: a size is inferred as soon as there is one direct read of an array whose length can be computed outside. -/
theorem C21_inferred {body t : Expr F} {symbols : List Sym} {initial : Finset Sym} {s : Sym} {τ : Ty}
    (hr : Occurs (Phi.get t (node (.store s τ) [])) body)
    (hout : Disjoint (fv (dimExpr t 0)) (boundInside body symbols initial)) :
    ∃ size, inferSize body symbols initial s = some size := by
  have h := mem_candidates hr hout
  unfold inferSize
  split
  · rename_i hc; rw [hc] at h; cases h
  · split <;> exact ⟨_, rfl⟩

/-! ### Non-vacuity -/

/-- Two vectors, and a matrix. -/
def vecVar (v : Nat) : Expr Int := var v (.vector (.scalar .int))
def matVar (v : Nat) : Expr Int := var v (.vector (.vector (.scalar .int)))

/-- The body of `array(λ i j. x[i] * m[i][j] + y[j])` -/
def scaled : Expr Int :=
  op2 .add (op2 .multiply (Phi.get (vecVar 0) (at_ 4)) (Phi.get (Phi.get (matVar 2) (at_ 4)) (at_ 5)))
    (Phi.get (vecVar 1) (at_ 5))

theorem scaled_tidy : Tidy scaled := ⟨by decide +kernel, by decide +kernel, by decide +kernel⟩

/-- The sizes: `assert_eq(dim x 0; dim x 0, dim m 0)` and `assert_eq(dim m 1; dim m 1, dim y 0)`. -/
example : inferSizes scaled [.idx 4, .idx 5] ∅ none =
    some [node .assertEq [dim (vecVar 0) 0, dim (vecVar 0) 0, dim (matVar 2) 0],
      node .assertEq [dim (matVar 2) 1, dim (matVar 2) 1, dim (vecVar 1) 0]] := by decide +kernel

/-- Where the comprehension is evaluated. -/
def scaledEnv : Env (D Int) := Toy.envOf [(0, Toy.ints [1, 2]), (1, Toy.ints [5, 6, 7]),
  (2, .vec [Toy.ints [1, 2, 3], Toy.ints [4, 5, 6]])]

theorem regular_env_of {l : List (Nat × D Int)} (h : ∀ q ∈ l, Val.Regular q.2) : RegularEnv (Toy.envOf l) := by
  intro s w hw
  cases s with
  | idx i => cases hw
  | var v =>
    unfold Toy.envOf at hw
    obtain ⟨q, hq, rfl⟩ := Option.map_eq_some_iff.1 hw
    exact h q (List.mem_of_find?_eq_some hq)

theorem scaledEnv_regular : RegularEnv scaledEnv := regular_env_of (by decide +kernel)

theorem scaled_consts : RegularConsts scaled := regularConsts_of _ (by decide +kernel)

/-- Inside, at `i = 1`, `j = 2`, the row `m[1]` has 3 elements, which is the inferred size for `j`. -/
example : ∃ size, inferSize scaled [.idx 4, .idx 5] ∅ (.idx 5) = some size ∧
    run Toy.noExt size scaledEnv = some (.int 3) ∧
    (Toy.ints [4, 5, 6] : D Int) = .vec [.sc (.i 4), .sc (.i 5), .sc (.i 6)] ∧
    [Val.sc (.i 4), .sc (.i 5), .sc (.i 6 : Scal Int)].length = (3 : Int).toNat := by
  obtain ⟨size, h1, h2⟩ := Toy.exists_of_any (o := inferSize scaled [.idx 4, .idx 5] ∅ (.idx 5))
    (q := fun size => run Toy.noExt size scaledEnv = some (.int 3)) (by decide +kernel)
  have := C21_direct_reads_partial (I := Toy.noExt) (t := Phi.get (matVar 2) (at_ 4)) (τ := .scalar .int)
    (env := scaledEnv) (env' := (scaledEnv.set (.idx 4) (some (.int 1))).set (.idx 5) (some (.int 2)))
    (vs := [Val.sc (.i 4), .sc (.i 5), .sc (.i 6)]) (n := 3) scaled_tidy h1
    (mem_occurrences.1 (by decide +kernel)) (by decide +kernel) (by
      intro x hx
      have h4 : x ≠ .idx 4 := by rintro rfl; exact hx (by decide +kernel)
      have h5 : x ≠ .idx 5 := by rintro rfl; exact hx (by decide +kernel)
      simp [Env.set, h4, h5]) (by
      intro i hi
      have : ∀ s ∈ fv (dimExpr (Phi.get (matVar 2) (at_ 4)) 0), s.isIdx = false := by decide +kernel
      cases this _ hi) scaled_consts (by intro fn vs v h; cases h)
    ((scaledEnv_regular.set _ (.sc _)).set _ (.sc _)) h2 (by decide +kernel)
  exact ⟨size, h1, h2, rfl, this.1⟩

/-- A fold with an inferred count: `fold(λ k a. a + x[k], 0)` -/
example : Frontend.foldOf 6 7 (int 0) (op2 .add (Toy.ivar 7) (Phi.get (vecVar 0) (Toy.ivar 6))) none =
    some (fold 6 7 (dim (vecVar 0) 0) (int 0) (op2 .add (Toy.ivar 7) (Phi.get (vecVar 0) (Toy.ivar 6)))) := by
  decide +kernel

/-- It makes two steps. -/
example : ∃ e w, Frontend.foldOf 6 7 (int 0) (op2 .add (Toy.ivar 7) (Phi.get (vecVar 0) (Toy.ivar 6))) none = some e ∧
    run Toy.noExt e scaledEnv = some w ∧
    run Toy.noExt (fold 6 7 (int 2) (int 0) (op2 .add (Toy.ivar 7) (Phi.get (vecVar 0) (Toy.ivar 6)))) scaledEnv =
      some w := by
  obtain ⟨e, h1, h2⟩ := Toy.exists_of_any
    (o := Frontend.foldOf 6 7 (int 0) (op2 .add (Toy.ivar 7) (Phi.get (vecVar 0) (Toy.ivar 6))) none)
    (q := fun e => run Toy.noExt e scaledEnv = some (.int 3)) (by decide +kernel)
  exact ⟨e, _, h1, h2, C21_fold_count (t := vecVar 0) (τ := .scalar .int) (vs := [.int 1, .int 2])
    ⟨by decide +kernel, by decide +kernel, by decide +kernel⟩ h1
    (mem_occurrences.1 (by decide +kernel)) (by decide +kernel) (by decide +kernel)
    (regularConsts_of _ (by decide +kernel)) (by intro fn vs v h; cases h) scaledEnv_regular (by decide +kernel) h2⟩

/-- An array kept in the accumulator does not give the count: `fold(λ k a. array(λ l < 1. a[k]), x)` is refused. -/
example : Frontend.foldOf 6 7 (vecVar 0) (vec 8 (int 1) (Phi.get (vecVar 7) (Toy.ivar 6))) none = none := by
  decide +kernel

/-- The length of the result of `array(λ i. x[i] + 1)` -/
example : ∃ e ws, arrayOf [4] (op2 .add (Phi.get (vecVar 0) (at_ 4)) (int 1)) none = some e ∧
    run Toy.noExt e scaledEnv = some (.vec ws) ∧ ws.length = 2 := by
  obtain ⟨e, h1, h2⟩ := Toy.exists_of_any (o := arrayOf [4] (op2 .add (Phi.get (vecVar 0) (at_ 4)) (int 1)) none)
    (q := fun e => run Toy.noExt e scaledEnv = some (Toy.ints [2, 3])) (by decide +kernel)
  exact ⟨e, _, h1, h2, rfl⟩

/-! ### Where the property fails -/

/-- `fold(λ k a. array(λ l < 1. a[l]), i, x)`: all of `x` for `i = 0`, and only the first element for `i = 1`. -/
def shrinking : Expr Int :=
  fold 6 7 (at_ 4) (vecVar 0) (vec 8 (int 1) (Phi.get (vecVar 7) (at_ 8)))

/-- C21 fails for arrays whose length depends on an outer index: the size of `array(λ j. shrinking[j])` is inferred
for index 0 (`comprehension.py:81`), where the length is 2. At `i = 1` the array has one element, and reading it by
`j < 2` is clamped. The whole is well-typed. -/
theorem C21_ragged_counterexample :
    ∃ size, inferSize (Phi.get shrinking (at_ 5)) [.idx 5] ∅ (.idx 5) = some size ∧
      Phi.typeOf (vec 4 (int 2) (vec 5 size (Phi.get shrinking (at_ 5)))) = some (.vector (.vector (.scalar .int))) ∧
      Disjoint (fv (dimExpr shrinking 0)) (boundInside (Phi.get shrinking (at_ 5)) [.idx 5] ∅) ∧
      run Toy.noExt size (scaledEnv.set (.idx 4) (some (.int 1))) = some (.int 2) ∧
      run Toy.noExt shrinking (scaledEnv.set (.idx 4) (some (.int 1))) = some (Toy.ints [1]) ∧
      run Toy.noExt (vec 4 (int 2) (vec 5 size (Phi.get shrinking (at_ 5)))) scaledEnv =
        some (.vec [Toy.ints [1, 2], Toy.ints [1, 1]]) :=
  Toy.exists_of_any (by decide +kernel)

end Verif.Props
