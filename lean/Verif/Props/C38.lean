import Verif.Frontend.ObjLemmas
import Verif.Toy

/-!
C38 — operations on arrays of records.

The user writes functions on Python objects: numbers, arrays, and records of them. An object has a *value* (`value`):
a number, a list of values, or a record of values. The library packs records into nested pairs to build one expression,
and unpacks what comes back; a record read from an array, or an accumulator, is made of projections. The theorems say
that none of this can be seen: reads, comprehensions, folds and reductions are those of the values.
-/

set_option linter.unusedSectionVars false

namespace Verif.Props
open Verif.Phi Verif.Term Verif.Midend Verif.Codegen Verif.Frontend
variable {F : Type} [FloatOps F] [DecidableEq F] {I : Ext F}

/-! ### Specification -/

/-- Reading an element, with the index clamped to the bounds. -/
def element : PVal F → Int → Option (PVal F)
  | .arr l, k => l[(max 0 (min k (l.length - 1))).toNat]?
  | _, _ => none

/-- Reading by several indices. -/
def elements : PVal F → List Int → Option (PVal F)
  | v, [] => some v
  | v, k :: ks => (element v k).bind fun w => elements w ks

/-- The array of the values of a function of indices; sizes that are not defined make it undefined. -/
def grid : List (Option Int) → (List Nat → Option (PVal F)) → Option (PVal F)
  | [], f => f []
  | n :: ns, f => n.bind fun n =>
      (mapOpt (fun k => grid ns fun ks => f (k :: ks)) (List.range n.toNat)).map .arr

/-- Elements of the first `n` dimensions have equal shapes. -/
def Rectangular : Nat → PVal F → Prop
  | 0, _ => True
  | n + 1, .arr l => (∀ a ∈ l, Rectangular n a) ∧ ∀ a ∈ l, ∀ b ∈ l, PVal.SameShape a b
  | _ + 1, _ => False

/-- The environment in which the indices `is` have the values `ks`. -/
def withIndices (env : Env (D F)) : List Nat → List Nat → Env (D F)
  | i :: is, k :: ks => withIndices (env.set (.idx i) (some (.int k))) is ks
  | _, _ => env

/-- The number an integer expression stands for. -/
def intValue (I : Ext F) (env : Env (D F)) (e : Expr F) : Option Int := (run I e env).bind Val.asInt

/-- `env'` is `env` but for the two variables a fold or reduction introduces. -/
def Inside (x y : Nat) (env env' : Env (D F)) : Prop := ∀ s, s ≠ .var x → s ≠ .var y → env' s = env s

/-! ### Indexing -/

theorem run_getAt (e i : Expr F) (env : Env (D F)) : run I (Phi.get e i) env = getOf (run I e env) (run I i env) := by
  rw [Phi.get, run_node]; rfl

theorem get_eq_element {vs : List (D F)} {ws : List (PVal F)} {sub : Layout} (h : mapOpt (view sub) vs = some ws) (k : Int) :
    (Val.get vs k).bind (view sub) = element (.arr ws) k := by
  rw [element, mapOpt_getElem? h, Val.get, Val.clip, mapOpt_length h]

/-- The value of an array. -/
theorem value_arr {x : Obj F} (hx : x.ok = true) {env : Env (D F)} {ws : List (PVal F)}
    (hv : value I env x = some (.arr ws)) :
    ∃ e sub vs, x = .vec e sub ∧ sub.ok = true ∧ run I e env = some (.vec vs) ∧ mapOpt (view sub) vs = some ws := by
  cases x with
  | vec e sub =>
    simp only [value, Option.bind_eq_some_iff] at hv
    obtain ⟨d, h3, h4⟩ := hv
    cases d with
    | vec vs =>
      simp only [view, Option.map_eq_some_iff, PVal.arr.injEq] at h4
      obtain ⟨_, h5, rfl⟩ := h4
      exact ⟨e, sub, vs, rfl, by simpa [Obj.ok] using hx, h3, h5⟩
    | _ => simp [view] at h4
  | scalar a =>
    simp only [value, Option.bind_eq_some_iff] at hv
    obtain ⟨d, _, h4⟩ := hv
    cases d <;> simp [view] at h4
  | raw _ _ => simp [Obj.ok] at hx
  | struct k fs => simp [value] at hv

theorem value_read {e : Expr F} {sub : Layout} (hsub : sub.ok = true) {env : Env (D F)} {vs : List (D F)}
    {ws : List (PVal F)} (h1 : run I e env = some (.vec vs)) (h2 : mapOpt (view sub) vs = some ws) {i : Expr F} {k : Int}
    (hi : intValue I env i = some k) : value I env (unpack sub (Phi.get e i)) = element (.arr ws) k := by
  rw [value_unpack I env sub hsub, run_getAt, h1, ← get_eq_element h2]
  unfold intValue at hi
  simp only [getOf, Option.bind_some, Val.asVec, hi]

/-- C38, `x[a, b, …]`: the element at the clamped indices, for arrays of any records. -/
theorem C38_index {x : Obj F} (hx : x.ok = true) {env : Env (D F)} {as : List (ScalarLike F)} {ks : List Int} {v w : PVal F}
    (hv : value I env x = some v) (hk : mapOpt (fun a => intValue I env (wrap a)) as = some ks)
    (hw : elements v ks = some w) (c : Nat) :
    ∃ o, getItem (as.map .at) x c = some (o, c) ∧ value I env o = some w := by
  induction as generalizing x v ks with
  | nil =>
    simp only [mapOpt, Option.some.injEq] at hk
    subst hk
    cases hw
    exact ⟨x, rfl, hv⟩
  | cons a as ih =>
    simp only [mapOpt, Option.bind_eq_some_iff, Option.some.injEq] at hk
    obtain ⟨k, h1, ks', h2, rfl⟩ := hk
    obtain ⟨u, hu, hw'⟩ := Option.bind_eq_some_iff.1 hw
    cases v with
    | arr ws =>
      obtain ⟨e, sub, vs, rfl, hsub, h3, h4⟩ := value_arr hx hv
      simp only [List.map, getItem]
      exact ih (ok_unpack sub hsub _) ((value_read hsub h3 h4 h1).trans hu) h2 hw'
    | _ => simp [element] at hu

/-! ### Comprehensions -/

theorem rectangular_rows {l : Layout} {vs : List (D F)} {ws : List (PVal F)} (h : mapOpt (view l) vs = some ws) :
    Val.uniform vs = true ↔ ∀ a ∈ ws, ∀ b ∈ ws, PVal.SameShape a b := by
  have back : ∀ v ∈ vs, ∃ w ∈ ws, view l v = some w := fun v hv => mapOpt_all h v hv
  have forth : ∀ w ∈ ws, ∃ v ∈ vs, view l v = some w := by
    intro w hw
    obtain ⟨k, hk⟩ := List.mem_iff_getElem?.1 hw
    rw [mapOpt_getElem? h] at hk
    obtain ⟨v, h1, h2⟩ := Option.bind_eq_some_iff.1 hk
    exact ⟨v, List.mem_of_getElem? h1, h2⟩
  rw [Val.uniform_iff]
  constructor
  · intro hu a ha b hb
    obtain ⟨v, h1, h2⟩ := forth a ha
    obtain ⟨v', h3, h4⟩ := forth b hb
    exact sameShape_of_view l h2 h4 (hu v h1 v' h3)
  · intro hs v hv v' hv'
    obtain ⟨w, h1, h2⟩ := back v hv
    obtain ⟨w', h3, h4⟩ := back v' hv'
    exact shape_of_view l h2 h4 (hs w h1 w' h3)

/-- A nest of comprehensions computes the grid of the values of its body. -/
theorem nest_grid {layout : Layout} {body : Expr F} : ∀ (l : List (Nat × Expr F)) (env₀ env : Env (D F)) (w : PVal F),
    (∀ p ∈ l, run I p.2 env = run I p.2 env₀) → (∀ p ∈ l, Scoped p.2 ∧ ∀ q ∈ l, Sym.idx q.1 ∉ fv p.2) →
    ((run I (nest l body) env).bind (view (vecLayouts l.length layout)) = some w ↔
      grid (l.map fun p => intValue I env₀ p.2) (fun ks => (run I body (withIndices env (l.map Prod.fst) ks)).bind (view layout))
        = some w ∧ Rectangular l.length w)
  | [], env₀, env, w, _, _ => by simp [nest, vecLayouts, grid, withIndices, Rectangular]
  | (i, n) :: l, env₀, env, w, hn, hs => by
    have h0 : run I n env = run I n env₀ := hn (i, n) (by simp)
    have hk : ∀ (k : Nat) (u : PVal F), _ ↔ _ := fun k u => nest_grid (layout := layout) (body := body) l env₀
      (env.set (.idx i) (some (.int k))) u (fun p hp => by
        rw [← hn p (by simp [hp])]
        refine run_agree (hs p (by simp [hp])).1 fun x hx => ?_
        refine set_of_ne ?_
        rintro rfl
        exact (hs p (by simp [hp])).2 (i, n) (by simp) hx) (fun p hp => ⟨(hs p (by simp [hp])).1, fun q hq =>
          (hs p (by simp [hp])).2 q (by simp [hq])⟩)
    simp only [nest, List.map_cons, List.length_cons, vecLayouts, grid]
    unfold vec
    rw [run_node]
    simp only [List.map, runDen, vecOf, h0]
    change (((intValue I env₀ n).bind _).bind _ = _) ↔ _
    cases intValue I env₀ n with
    | none => simp
    | some m =>
      simp only [Option.bind_some]
      constructor
      · intro h
        obtain ⟨d, h1, h2⟩ := Option.bind_eq_some_iff.1 h
        obtain ⟨vs, h3, h1⟩ := Option.bind_eq_some_iff.1 h1
        split at h1
        · rename_i hu
          cases h1
          simp only [view, Option.map_eq_some_iff] at h2
          obtain ⟨ws, h4, rfl⟩ := h2
          have h5 := mapOpt_bind h3 h4
          have h6 : ∀ k ∈ List.range m.toNat, ∀ u, (run I (nest l body) (env.set (.idx i) (some (.int k)))).bind
              (view (vecLayouts l.length layout)) = some u → grid (l.map fun p => intValue I env₀ p.2) (fun ks =>
                (run I body (withIndices env (i :: l.map Prod.fst) (k :: ks))).bind (view layout)) = some u :=
            fun k _ u hu => ((hk k u).1 hu).1
          refine ⟨by rw [mapOpt_mono h6 h5]; rfl, fun a ha => ?_, (rectangular_rows h4).1 hu⟩
          obtain ⟨k, hk'⟩ := List.mem_iff_getElem?.1 ha
          rw [mapOpt_getElem? h5] at hk'
          obtain ⟨j, _, h7⟩ := Option.bind_eq_some_iff.1 hk'
          exact ((hk j a).1 h7).2
        · cases h1
      · rintro ⟨h, hr⟩
        obtain ⟨ws, h1, rfl⟩ := Option.map_eq_some_iff.1 h
        have h5 : mapOpt (fun k : Nat => (run I (nest l body) (env.set (.idx i) (some (.int k)))).bind
            (view (vecLayouts l.length layout))) (List.range m.toNat) = some ws := by
          have : ∀ a ∈ ws, Rectangular l.length a := hr.1
          clear hr h
          generalize List.range m.toNat = ks at h1 ⊢
          induction ks generalizing ws with
          | nil => exact h1
          | cons k ks ih =>
            simp only [mapOpt, Option.bind_eq_some_iff, Option.some.injEq] at h1
            obtain ⟨b, hb, bs, hbs, rfl⟩ := h1
            rw [mapOpt, (hk k b).2 ⟨hb, this b (by simp)⟩, Option.bind_some, ih bs (fun a ha => this a (by simp [ha])) hbs]
            rfl
        obtain ⟨vs, h3, h4⟩ := mapOpt_split h5
        have h3' : mapOpt (fun k : Nat => run I (nest l body) (env.set (.idx i) (some (.int (k : Int)))))
          (List.range m.toNat) = some vs := h3
        rw [h3', Option.bind_some, if_pos ((rectangular_rows h4).2 hr.2)]
        simp only [Option.bind_some, view, h4]
        rfl

/-- What a comprehension binds. -/
def indicesOf (n c : Nat) : List Nat := List.range' c n

/-- C38, `array(f, size=…)`: if `f`, called with the indices, returns the object `r`, then the result is the array of the
values of `r` for all values of the indices; it is defined if these are, and have equal shapes. The sizes are those given,
or are inferred from the expression for `r` (C21). -/
theorem C38_array {n : Nat} {f : List (Obj F) → Py (Obj F)} {sizes : Option (List (Expr F))} {c c' c'' : Nat} {r o : Obj F}
    (hf : f ((indicesOf n c).map fun i => .scalar (.scalar (at_ i))) (c + n) = some (r, c'))
    (hr : r.ok = true) (hsc : r.Comp Scoped)
    (hsz : ∀ ms, sizes = some ms → ∀ m ∈ ms, Scoped m ∧ ∀ i, c ≤ i → Sym.idx i ∉ fv m)
    (h : arrayPy n f sizes c = some (o, c'')) :
    c'' = c' ∧ o.ok = true ∧ ∃ ns : List (Expr F), ns.length = n ∧ (∀ ms, sizes = some ms → ns = ms) ∧
      (sizes = none → ∃ l e, build r = some l ∧ pack l r = some e ∧
        inferSizes e ((indicesOf n c).map .idx) ∅ none = some ns) ∧
      ∀ env w, value I env o = some w ↔
        grid (ns.map (intValue I env)) (fun ks => value I (withIndices env (indicesOf n c) ks) r) = some w ∧
          Rectangular n w := by
  obtain ⟨l, e, h1, h2, h3, h4⟩ := packsTo I r hr
  simp only [arrayPy, arrayOf, Option.bind_eq_some_iff, Option.map_eq_some_iff, Prod.mk.injEq] at h
  obtain ⟨⟨r', k⟩, hf', l', hl', e', he', x, ⟨ns, hns, rfl⟩, rfl, rfl⟩ := h
  have hff := hf.symm.trans hf'
  simp only [Option.some.injEq, Prod.mk.injEq] at hff
  obtain ⟨rfl, rfl⟩ := hff
  dsimp only at hl' he'
  cases h1.symm.trans hl'
  cases h3.symm.trans he'
  have hlen : ns.length = n := by
    unfold inferSizes at hns
    split at hns
    · split at hns
      · rename_i hh; cases hns; simpa using hh
      · cases hns
    · have := mapOpt_length hns; simpa using this
  have hok : ∀ m, (vecLayouts m l).ok = true := by
    intro m
    induction m with
    | zero => exact h2
    | succ m ih => simpa [vecLayouts, Layout.ok] using ih
  refine ⟨rfl, ok_unpack _ (hok n) _, ns, hlen, ?_, ?_, fun env w => ?_⟩
  · rintro ms rfl
    simp only [inferSizes] at hns
    split at hns
    · cases hns; rfl
    · cases hns
  · rintro rfl
    exact ⟨l, e, h1, h3, hns⟩
  · rw [value_unpack I env _ (hok n)]
    have hm1 : ((List.range' c n).zip ns).map Prod.fst = List.range' c n := by
      rw [List.map_fst_zip]; simp [hlen]
    have hm2 : ((List.range' c n).zip ns).map Prod.snd = ns := by
      rw [List.map_snd_zip]; simp [hlen]
    have hmem : ∀ p ∈ (List.range' c n).zip ns, c ≤ p.1 ∧ p.1 < c + n ∧ p.2 ∈ ns := by
      rintro ⟨i, m⟩ hp
      have h5 := List.of_mem_zip hp
      have h6 := List.mem_range'_1.1 h5.1
      exact ⟨h6.1, h6.2, h5.2⟩
    have hfree : ∀ m ∈ ns, Scoped m ∧ ∀ i, c ≤ i → i < c + n → Sym.idx i ∉ fv m := by
      intro m hm
      cases sizes with
      | some ms =>
        simp only [inferSizes] at hns
        split at hns
        · cases hns
          exact ⟨(hsz _ rfl m hm).1, fun i hi _ => (hsz _ rfl m hm).2 i hi⟩
        · cases hns
      | none =>
        simp only [inferSizes] at hns
        have hbody : Scoped e := pack_comp (fun _ _ => scoped_cons) l hsc h3
        obtain ⟨j, hj⟩ := List.mem_iff_getElem?.1 hm
        rw [mapOpt_getElem? hns] at hj
        obtain ⟨s, hs, hsize⟩ := Option.bind_eq_some_iff.1 hj
        refine ⟨scoped_inferSize hbody hsize, fun i hi hi' hmem => ?_⟩
        have := (C21_scope hbody hsize).1 hmem
        simp only [Finset.mem_sdiff, Finset.mem_union, List.mem_toFinset, List.mem_map] at this
        exact this.2 (.inl ⟨i, List.mem_range'_1.2 ⟨hi, hi'⟩, rfl⟩)
    have key := nest_grid (I := I) (layout := l) (body := e) ((List.range' c n).zip ns) env env w (fun _ _ => rfl)
      (fun p hp => ⟨(hfree p.2 (hmem p hp).2.2).1, fun q hq => (hfree p.2 (hmem p hp).2.2).2 q.1 (hmem q hq).1 (hmem q hq).2.1⟩)
    have hm3 : (((List.range' c n).zip ns).map fun p => intValue I env p.2) = ns.map (intValue I env) := by
      conv_rhs => rw [← hm2]
      rw [List.map_map]; rfl
    have hl3 : ((List.range' c n).zip ns).length = n := by simp [hlen]
    rw [hm1, hm3, hl3] at key
    rw [key]
    simp only [h4, indicesOf]

/-! ### Folds -/

/-- The object for a fold's counter. -/
def counterObj (c : Nat) : Obj F := .scalar (.scalar (var c (.scalar .int)))

theorem run_ofVar (v : Nat) (τ : Ty) (env : Env (D F)) : run I (var v τ) env = env (.var v) := by
  rw [var, run_node]; rfl

/-- C38, `fold(init, step, count)`: let `step`, called with objects for the counter and the accumulator, return the object
`r`, laid out like `init`, and let `g` be what it computes: wherever the counter has the value `k` and the accumulator the
value `v`, the value of `r` is `g k v`, if that is defined. Then the result of the fold is that of the loop
`v₀, g 0 v₀, g 1 (g 0 v₀), …`, if that is defined. -/
theorem C38_fold_partial {init r o : Obj F} {step : Obj F → Obj F → Py (Obj F)} {count : Option (Expr F)} {c c' c'' : Nat}
    (hi : init.ok = true) (hr : r.ok = true) (hlay : build r = build init) {l : Layout} {z : Expr F} {τ : Ty}
    (hl : build init = some l) (hz : pack l init = some z) (hτ : Phi.typeOf z = some τ)
    (hstep : step (counterObj c) (unpack l (var (c + 1) τ)) (c + 2) = some (r, c'))
    (h : foldPy init step count c = some (o, c'')) :
    c'' = c' ∧ o.ok = true ∧ ∃ m : Expr F, (∀ m', count = some m' → m = m') ∧
      (count = none → ∃ body, pack l r = some body ∧ inferSize body [.var c] {.var (c + 1)} (.var c) = some m) ∧
      ∀ (env : Env (D F)) (n : Int) (v w : PVal F) (g : Nat → PVal F → Option (PVal F)),
        intValue I env m = some n → value I env init = some v →
        (∀ env' (k : Nat) v w, Inside c (c + 1) env env' → (k : Int) < n → value I env' (counterObj c) = some (.sc (.i k)) →
          value I env' (unpack l (var (c + 1) τ)) = some v → g k v = some w → value I env' r = some w) →
        loopOpt (fun v k => g k v) v (List.range n.toNat) = some w → value I env o = some w := by
  obtain ⟨l1, e1, h1, h2, h3, h4⟩ := packsTo I init hi
  obtain ⟨l2, e2, h5, h6, h7, h8⟩ := packsTo I r hr
  cases hl.symm.trans h1
  cases hz.symm.trans h3
  cases (hl.symm.trans hlay.symm).trans h5
  simp only [foldPy, Frontend.foldOf, hl, hz, hτ, Option.bind_some] at h
  change ((step (counterObj c) _ _).bind _) = _ at h
  rw [hstep] at h
  simp only [Option.bind_some, h7, Option.map_eq_some_iff, Option.bind_eq_some_iff, Prod.mk.injEq] at h
  obtain ⟨x, ⟨ns, hns, m, hm, rfl⟩, rfl, rfl⟩ := h
  refine ⟨rfl, ok_unpack _ h2 _, m, ?_, ?_, ?_⟩
  · rintro m' rfl
    simp only [Option.map_some, inferSizes] at hns
    split at hns
    · cases hns; cases hm; rfl
    · cases hns
  · rintro rfl
    simp only [Option.map_none, inferSizes, mapOpt, Option.bind_eq_some_iff, Option.some.injEq] at hns
    obtain ⟨b, hb, _, rfl, rfl⟩ := hns
    cases hm
    exact ⟨e2, h7, hb⟩
  · intro env n v w g hn hv hg hloop
    rw [value_unpack I env _ h2]
    unfold fold
    rw [run_node]
    simp only [List.map, runDen, Phi.foldOf]
    unfold intValue at hn
    rw [hn, Option.bind_some]
    rw [h4 env] at hv
    obtain ⟨d, hd, hvd⟩ := Option.bind_eq_some_iff.1 hv
    rw [hd, Option.bind_some]
    obtain ⟨b', hb', hR⟩ := loopOpt_rel (f := fun acc (i : Nat) => run I e2 ((env.set (.var (c + 1)) (some acc)).set (.var c)
        (some (.int i)))) (g := fun v k => g k v) (R := fun (d : D F) (v : PVal F) => view l d = some v)
        (l := List.range n.toNat) (fun k hk b v v' hR hgk => by
      have hlt : (k : Int) < n := by have := List.mem_range.1 hk; omega
      have hval := hg ((env.set (.var (c + 1)) (some b)).set (.var c) (some (.int k))) k v v' (fun s hs1 hs2 => by
        rw [set_of_ne hs1, set_of_ne hs2]) hlt (by
          simp only [counterObj, value, wrap, run_ofVar]
          simp [Env.set, view, Val.int]) (by
          rw [value_unpack I _ _ h2, run_ofVar]
          simp [Env.set, hR]) hgk
      rw [h8] at hval
      obtain ⟨b', h9, h10⟩ := Option.bind_eq_some_iff.1 hval
      exact ⟨b', h9, h10⟩) hvd hloop
    rw [hb', Option.bind_some, hR]

/-! ### Reductions -/

/-- C38, `x.reduce(init, f)`: let `f`, called with objects for the accumulator and an element, return the object `r`, and let
`g` be what it computes: wherever the accumulator has the value `v` and the element the value `y`, the value of `r` is
`g v y`, if that is defined. Then the result is that of the loop over the elements of the array from the left. (The array
backends combine elements in another order: C05.) -/
theorem C38_reduce {e : Expr F} {sub : Layout} {init r o : Obj F} {f : Obj F → Obj F → Py (Obj F)} {c c' c'' : Nat} {τ : Ty}
    (hs : (Obj.vec e sub).ok = true) (hi : init.ok = true) (hr : r.ok = true) (hτ : Phi.typeOf e = some (.vector τ))
    (hf : f (unpack sub (var c τ)) (unpack sub (var (c + 1) τ)) (c + 2) = some (r, c'))
    (h : reducePy (.vec e sub) init f c = some (o, c'')) :
    c'' = c' ∧ o.ok = true ∧ ∀ (env : Env (D F)) (v w : PVal F) (ys : List (PVal F)) (g : PVal F → PVal F → Option (PVal F)),
        value I env (.vec e sub) = some (.arr ys) → value I env init = some v →
        (∀ env' v y w, Inside c (c + 1) env env' → value I env' (unpack sub (var c τ)) = some v →
          value I env' (unpack sub (var (c + 1) τ)) = some y → y ∈ ys → g v y = some w → value I env' r = some w) →
        loopOpt g v ys = some w → value I env o = some w := by
  obtain ⟨l1, e1, h1, h2, h3, h4⟩ := packsTo I init hi
  obtain ⟨l2, e2, h5, h6, h7, h8⟩ := packsTo I r hr
  simp only [reducePy, hτ, hf, Option.bind_some, h5, h1] at h
  split at h
  · rename_i hsub
    subst hsub
    split at h
    · rename_i hinit
      subst hinit
      simp only [h3, h7, Option.bind_some, Option.some.injEq, Prod.mk.injEq] at h
      obtain ⟨rfl, rfl⟩ := h
      refine ⟨rfl, ok_unpack _ h2 _, ?_⟩
      intro env v w ys g hy hv hg hloop
      rw [value_unpack I env _ h2, run_node]
      simp only [List.map, runDen]
      obtain ⟨e', sub', vs, heq, _, hvs, hmap⟩ := value_arr hs hy
      cases heq
      rw [h4 env] at hv
      obtain ⟨d, hd, hvd⟩ := Option.bind_eq_some_iff.1 hv
      simp only [reduceOf, mapOpt, hvs, Option.bind_some, Val.asVec, List.all_nil, if_true, hd]
      have hlen := mapOpt_length hmap
      -- the loop over positions is the loop over elements
      have hloop' : loopOpt (fun v (k : Nat) => (ys[k]?).bind (g v)) v (List.range vs.length) = some w := by
        rw [← hlen]
        have aux : ∀ (pre post : List (PVal F)) (v : PVal F), pre ++ post = ys → loopOpt g v post = some w →
            loopOpt (fun v (k : Nat) => (ys[k]?).bind (g v)) v (List.range' pre.length post.length) = some w := by
          intro pre post
          induction post generalizing pre with
          | nil => intro v _ hv; exact hv
          | cons y post ih =>
            intro v heq hv
            simp only [loopOpt, Option.bind_eq_some_iff] at hv
            obtain ⟨v', h9, h10⟩ := hv
            rw [List.length_cons, List.range'_succ, loopOpt]
            have hget : ys[pre.length]? = some y := by rw [← heq]; simp
            rw [hget, Option.bind_some, h9, Option.bind_some]
            have := ih (pre ++ [y]) v' (by simpa using heq) h10
            simpa using this
        have := aux [] ys v rfl hloop
        rwa [List.length_nil, ← List.range_eq_range'] at this
      obtain ⟨b', hb', hR⟩ := loopOpt_rel (f := fun acc (i : Nat) => (rowAt [vs] i).bind fun y =>
          run I e2 ((env.set (.var c) (some acc)).set (.var (c + 1)) (some y)))
          (g := fun v (k : Nat) => (ys[k]?).bind (g v)) (R := fun (d : D F) (v : PVal F) => view l1 d = some v)
          (l := List.range vs.length) (fun k hk b v v' hR hgk => by
        obtain ⟨y, hyk, hgy⟩ := Option.bind_eq_some_iff.1 hgk
        have hyv := hyk
        rw [mapOpt_getElem? hmap] at hyv
        obtain ⟨u, hu, huy⟩ := Option.bind_eq_some_iff.1 hyv
        have hval := hg ((env.set (.var c) (some b)).set (.var (c + 1)) (some u)) v y v' (fun s hs1 hs2 => by
            rw [set_of_ne hs2, set_of_ne hs1]) (by
            rw [value_unpack I _ _ h2, run_ofVar]
            simp [Env.set, hR]) (by
            rw [value_unpack I _ _ h2, run_ofVar]
            simp [Env.set, huy]) (List.mem_of_getElem? hyk) hgy
        rw [h8] at hval
        obtain ⟨b', h9, h10⟩ := Option.bind_eq_some_iff.1 hval
        refine ⟨b', ?_, h10⟩
        simp only [rowAt, mapOpt, hu, Option.bind_some, pairAll, List.foldl_nil, h9]) hvd hloop'
      rw [hb', Option.bind_some, hR]
    · cases h
  · cases h

/-! ### Non-vacuity, and a counterexample -/

namespace C38Example
open Verif.Toy

/-- Fields of dicts. -/
def xy (a b : Expr Int) : Obj Int :=
  .struct .dict (.cons "x" (.scalar (.scalar a)) (.cons "y" (.scalar (.scalar b)) .nil))
def yx (a b : Expr Int) : Obj Int :=
  .struct .dict (.cons "y" (.scalar (.scalar a)) (.cons "x" (.scalar (.scalar b)) .nil))

def xyLayout : Layout := .struct .dict (.cons "x" .atom (.cons "y" .atom .nil))

/-- `ps`, an array of points -/
def pts : Obj Int := .vec (var 0 (.vector (.pair (.scalar .int) (.scalar .int)))) xyLayout

def pt (a b : Int) : D Int := .pair (.int a) (.int b)
def num (a : Int) : PVal Int := .sc (.i a)
def pxy (a b : Int) : PVal Int := .record .dict [("x", num a), ("y", num b)]
def pyx (a b : Int) : PVal Int := .record .dict [("y", num a), ("x", num b)]
def ptsEnv : Env (D Int) := envOf [(0, .vec [pt 1 10, pt 2 20, pt 3 30])]

example : value noExt ptsEnv pts = some (.arr [pxy 1 10, pxy 2 20, pxy 3 30]) := by decide +kernel

/-- `ps[7]` is the last point. -/
example : ∃ o, getItem [.at (.int 7)] pts 5 = some (o, 5) ∧ value noExt ptsEnv o = some (pxy 3 30) :=
  C38_index (as := [.int 7]) (ks := [7]) (x := pts) (by decide +kernel) (v := .arr [pxy 1 10, pxy 2 20, pxy 3 30])
    (by decide +kernel) (by decide +kernel) (by decide +kernel) 5

/-- The components of an object, as a user's function reads them. -/
def fieldOf (n : String) (o : Obj Int) : Expr Int :=
  match getName n o with
  | some (.scalar a) => wrap a
  | _ => int 0

/-- `lambda i: {"x": ps[i]["x"] + ps[i]["y"], "y": i}` -/
def summed (is : List (Obj Int)) : Py (Obj Int) := fun c =>
  match is with
  | [.scalar i] => (getItem [.at i] pts c).map fun r =>
      (xy (op2 .add (fieldOf "x" r.1) (fieldOf "y" r.1)) (wrap i), r.2)
  | _ => none

/-- What it returns for the index. -/
def summedBody : Obj Int :=
  let p := Phi.get (var 0 (.vector (.pair (.scalar .int) (.scalar .int)))) (at_ 5)
  xy (op2 .add (Phi.fst p) (Phi.snd p)) (at_ 5)

/-- `array(lambda i: {"x": ps[i]["x"] + ps[i]["y"], "y": i})`: the size is inferred, and the values are those of the
function. -/
example : ∃ o c, arrayPy 1 summed none 5 = some (o, c) ∧ o.ok = true ∧
    value noExt ptsEnv o = some (.arr [pxy 11 0, pxy 22 1, pxy 33 2]) := by
  obtain ⟨⟨o, c⟩, h⟩ := Option.isSome_iff_exists.1 (show (arrayPy 1 summed none 5).isSome = true by decide +kernel)
  obtain ⟨h1, h2, ns, h3, _, h5, h6⟩ := C38_array (I := noExt) (r := summedBody) (c' := 6) (n := 1) rfl (by decide +kernel)
    (show Scoped (_ : Expr Int) ∧ Scoped (_ : Expr Int) ∧ True from ⟨by decide +kernel, by decide +kernel, trivial⟩)
    (fun _ h => by cases h) h
  obtain ⟨l, e, h7, h8, h9⟩ := h5 rfl
  have h7' : l = xyLayout := Option.some.inj (h7.symm.trans rfl)
  subst h7'
  have h8' : e = Phi.cons _ _ := Option.some.inj (h8.symm.trans rfl)
  subst h8'
  have h9' : ns = [dim (var 0 (.vector (.pair (.scalar .int) (.scalar .int)))) 0] :=
    Option.some.inj (h9.symm.trans (by decide +kernel))
  subst h9'
  refine ⟨o, c, h, h2, (h6 ptsEnv _).2 ⟨by decide +kernel, fun _ _ => trivial, ?_⟩⟩
  simp [PVal.SameShape, PVal.SameShapeFields, pxy, num]

/-- `lambda k, s: (s[1], s[0] + s[1])` -/
def fibStep (_ : Obj Int) (s : Obj Int) : Py (Obj Int) := fun c =>
  match s with
  | .struct .positional (.cons _ (.scalar a) (.cons _ (.scalar b) .nil)) =>
    some (.struct .positional (.cons "" (.scalar b) (.cons "" (.scalar (.scalar (op2 .add (wrap a) (wrap b)))) .nil)), c)
  | _ => none

def pairObj (a b : Expr Int) : Obj Int :=
  .struct .positional (.cons "" (.scalar (.scalar a)) (.cons "" (.scalar (.scalar b)) .nil))
def ptup (a b : Int) : PVal Int := .record .positional [("", num a), ("", num b)]

/-- What the step means. -/
def fib (_ : Nat) : PVal Int → Option (PVal Int)
  | .record .positional [("", .sc (.i a)), ("", .sc (.i b))] => some (ptup b (a + b))
  | _ => none

/-- `fold((0, 1), lambda k, s: (s[1], s[0] + s[1]), count=n)` for `n = 7` -/
example : ∃ o c, foldPy (pairObj (int 0) (int 1)) fibStep (some (ivar 0)) 5 = some (o, c) ∧ o.ok = true ∧
    value noExt (envOf [(0, .int 7)]) o = some (ptup 13 21) := by
  obtain ⟨⟨o, c⟩, h⟩ := Option.isSome_iff_exists.1
    (show (foldPy (pairObj (int 0) (int 1)) fibStep (some (ivar 0)) 5).isSome = true by decide +kernel)
  obtain ⟨h1, h2, m, h3, _, h4⟩ := C38_fold_partial (I := noExt) (r := pairObj (Phi.snd (var 6 _))
      (op2 .add (Phi.fst (var 6 (.pair (.scalar .int) (.scalar .int)))) (Phi.snd (var 6 _)))) (c' := 7)
    (by decide +kernel) (by decide +kernel) (by decide +kernel) rfl rfl rfl rfl h
  cases h3 _ rfl
  refine ⟨o, c, h, h2, h4 (envOf [(0, .int 7)]) 7 (ptup 0 1) _ fib (by decide +kernel) (by decide +kernel) ?_ (by decide +kernel)⟩
  intro env' k v w _ _ _ hv hg
  have hrun : value noExt env' (pairObj (Phi.fst (var 6 (.pair (.scalar .int) (.scalar .int)))) (Phi.snd (var 6 _))) = some v := hv
  rw [show (pairObj (Phi.fst (var 6 (.pair (.scalar .int) (.scalar .int)))) (Phi.snd (var 6 _)) : Obj Int) =
    unpack (.struct .positional (.cons "" .atom (.cons "" .atom .nil))) (var 6 _) from rfl,
    value_unpack noExt _ _ (by decide +kernel), run_ofVar] at hrun
  obtain ⟨d, hd, hvd⟩ := Option.bind_eq_some_iff.1 hrun
  unfold fib at hg
  split at hg
  · rename_i a b
    cases hg
    cases d with
    | pair d1 d2 =>
      cases d1 <;> cases d2 <;> simp [view, viewFields] at hvd
      obtain ⟨rfl, rfl⟩ := hvd
      simp [pairObj, value, valueFields, wrap, run_fst, run_snd, run_ofVar, op2, run_node, runDen, hd, fstOf, sndOf, opOf, mapOpt,
        Val.asScal, applyOp, view, ptup, num]
    | _ => simp [view, viewFields] at hvd
  · cases hg

/-- The larger of two points, by `x`: `lambda p, q: where(p["x"] < q["x"], q, p)`. -/
def largerStep (p q : Obj Int) : Py (Obj Int) :=
  wherePy (.scalar (op2 .less (fieldOf "x" p) (fieldOf "x" q))) q p

/-- What it means. -/
def larger2 : PVal Int → PVal Int → Option (PVal Int)
  | .record .dict [("x", .sc (.i a)), ("y", .sc (.i b))], .record .dict [("x", .sc (.i a')), ("y", .sc (.i b'))] =>
    some (if a < a' then pxy a' b' else pxy a b)
  | _, _ => none

/-- The point in a variable. -/
def ptVar (v : Nat) : Expr Int := var v (.pair (.scalar .int) (.scalar .int))

theorem value_ptVar {env : Env (D Int)} {v : Nat} {a b : Int}
    (h : value noExt env (unpack xyLayout (ptVar v)) = some (pxy a b)) : env (.var v) = some (pt a b) := by
  rw [value_unpack noExt _ _ (by decide +kernel), ptVar, run_ofVar] at h
  obtain ⟨d, hd, hvd⟩ := Option.bind_eq_some_iff.1 h
  rw [hd]
  cases d with
  | pair d1 d2 =>
    cases d1 <;> cases d2 <;> simp [view, viewFields, xyLayout, pxy, num] at hvd
    obtain ⟨rfl, rfl⟩ := hvd
    rfl
  | _ => simp [view, viewFields, xyLayout] at hvd

/-- `ps.reduce({"x": 0, "y": 0}, lambda p, q: where(p["x"] < q["x"], q, p))` -/
example : ∃ o c, reducePy pts (xy (int 0) (int 0)) largerStep 5 = some (o, c) ∧ o.ok = true ∧
    value noExt ptsEnv o = some (pxy 3 30) := by
  obtain ⟨⟨o, c⟩, h⟩ := Option.isSome_iff_exists.1
    (show (reducePy pts (xy (int 0) (int 0)) largerStep 5).isSome = true by decide +kernel)
  obtain ⟨h1, h2, h3⟩ := C38_reduce (I := noExt) (c' := 7)
    (r := xy (where_ (op2 .less (Phi.fst (ptVar 5)) (Phi.fst (ptVar 6))) (.scalar (Phi.fst (ptVar 6))) (.scalar (Phi.fst (ptVar 5))))
      (where_ (op2 .less (Phi.fst (ptVar 5)) (Phi.fst (ptVar 6))) (.scalar (Phi.snd (ptVar 6))) (.scalar (Phi.snd (ptVar 5)))))
    (by decide +kernel) (by decide +kernel) (by decide +kernel) rfl rfl h
  refine ⟨o, c, h, h2, h3 ptsEnv (pxy 0 0) _ [pxy 1 10, pxy 2 20, pxy 3 30] larger2 (by decide +kernel) (by decide +kernel) ?_
    (by decide +kernel)⟩
  intro env' v y w _ hv hy _ hg
  unfold larger2 at hg
  split at hg
  · cases hg
    have e1 := value_ptVar hv
    have e2 := value_ptVar hy
    simp [xy, value, valueFields, wrap, run_fst, run_snd, run_ofVar, op2, run_node, runDen, e1, e2, fstOf, sndOf, opOf, mapOpt,
      Val.asScal, applyOp, view, pxy, num, ptVar, where_, pt, Val.int]
    split <;> rfl
  · cases hg

/-- `array(lambda i: {"y": a[i]["y"], "x": a[i]["x"]})` of an array of points: the same fields in another order. -/
def reordered (_ a : Obj Int) : Py (Obj Int) :=
  arrayPy 1 (fun is c => match is with
    | [.scalar i] => (getItem [.at i] a c).map fun r => (yx (fieldOf "y" r.1) (fieldOf "x" r.1), r.2)
    | _ => none) none

/-- C38: `fold` does not compare the layout of the body with that of the accumulator (`comprehension.py:164-169` compares the
layout of `init` with itself), and the elements of an array are not reordered. So a step that only rebuilds the points with
their fields in another order — its result has the same fields with the same values — swaps the fields, without an error. -/
theorem C38_fold_counterexample : ∃ o c r c', foldPy pts reordered (some (int 1)) 5 = some (o, c) ∧
    reordered (counterObj 5) (unpack (.vec xyLayout) (var 6 (.vector (.pair (.scalar .int) (.scalar .int))))) 7 = some (r, c') ∧
    value noExt ptsEnv pts = some (.arr [pxy 1 10, pxy 2 20, pxy 3 30]) ∧
    value noExt ((ptsEnv.set (.var 6) (some (.vec [pt 1 10, pt 2 20, pt 3 30]))).set (.var 5) (some (.int 0))) r =
      some (.arr [pyx 10 1, pyx 20 2, pyx 30 3]) ∧
    value noExt ptsEnv o = some (.arr [pxy 10 1, pxy 20 2, pxy 30 3]) := by
  obtain ⟨⟨o, c⟩, h, ho⟩ := exists_of_any (o := foldPy pts reordered (some (int 1)) 5)
    (q := fun q => value noExt ptsEnv q.1 = some (.arr [pxy 10 1, pxy 20 2, pxy 30 3])) (by decide +kernel)
  obtain ⟨⟨r, c'⟩, hr, hv⟩ := exists_of_any
    (o := reordered (counterObj 5) (unpack (.vec xyLayout) (var 6 (.vector (.pair (.scalar .int) (.scalar .int))))) 7)
    (q := fun q => value noExt ((ptsEnv.set (.var 6) (some (.vec [pt 1 10, pt 2 20, pt 3 30]))).set (.var 5) (some (.int 0))) q.1
      = some (.arr [pyx 10 1, pyx 20 2, pyx 30 3])) (by decide +kernel)
  exact ⟨o, c, r, c', h, hr, by decide +kernel, hv, ho⟩

end C38Example

end Verif.Props
