import Verif.Props.C01Default
import Verif.Props.C08Array
import Verif.Props.C20
import Verif.Props.C33
import Verif.Props.C35
import Verif.Codegen.CodeScoped
import Verif.Midend.Lazy

/-!
# C34: the NumPy backend, from the program to memory

`stage(program)(env)` of the NumPy backend (`ein/backend/numpy_backend.py:175-186`, `ein/codegen/phi_to_yarr.py:25-345`)
rewrites arrays of records (C11), compiles to array code (C01), simplifies it (C29), shares and hoists (C08),
marks operations that may overwrite an operand (C20), and executes the result.

Specification: `run`, the meaning of the program as written; `Represents`, when arrays represent a value;
`HVal.read`, the arrays that array objects show in memory.
-/

namespace Verif.Props
open Verif.Codegen Verif.Phi Verif.Term Verif.Yarr Verif.Arr Verif.Midend Verif.Backend
variable {F : Type} [FloatOps F] [DecidableEq F]

/-- `transform(program)` (`phi_to_yarr.py:25-314`): records, compilation and simplification. -/
def arrayProgram (o : Opts F) (n c fuel : Nat) (p : Expr F) : Option (YExpr F) :=
  (structOfArrays n c p).bind fun q => (compileProgram (program o) fuel q).bind simplifyArrayCode

/-- The code that is executed (`numpy_backend.py:175-176`). -/
def numpyCode (o : Opts F) (n c fuel : Nat) (p : Expr F) : Option (YExpr F) :=
  ((arrayProgram o n c fuel p).bind outline).map applyInplace

/-- What `outline` asks of the array code: every symbol is bound by one node, and is used in its scope only. -/
structure WellScoped (r : YExpr F) : Prop where
  unique : UniqueBinders r
  scope : Scoped r
  arity : LetArity r

instance (r : YExpr F) : Decidable (WellScoped r) :=
  decidable_of_iff (UniqueBinders r ∧ Scoped r ∧ LetArity r)
    ⟨fun ⟨a, b, c⟩ => ⟨a, b, c⟩, fun ⟨a, b, c⟩ => ⟨a, b, c⟩⟩

/-- C34: if the NumPy backend returns a value, then the arrays it returns represent the value of the program as
written, and no array that existed before has changed.

What is missing: the conditions of C01 on the program without records (`Setting`), those of C08 on the array code
(`WellScoped`), that no comparison is executed in place (C20), and that the backend returns a value. -/
theorem C34_numpy_partial (o : Opts F) (I : Ext F) (J : YExt F) (hJ : Vectorises I J) (B : Machine F) (hB : B.Lawful J) {n c fuel : Nat}
    {p q : Expr F} {Γ : TCtx} {S : Finset Sym} {τ : Ty} {env : Env (D F)} {yenv : Env (YVal F)} {v w : D F} {y r e : YExpr F}
    (hp : SoaInput I p Γ c) (hΓ : ∀ s σ, Γ s = some σ → noRecordArrays σ = true)
    (hq : structOfArrays n c p = some q) (hset : Setting o I fuel q S Γ τ env yenv v y)
    (hr : arrayProgram o n c fuel p = some r) (hw : WellScoped r) (he : numpyCode o n c fuel p = some e)
    (H H' : Mem F) (refs : Env HVal) (hc : ConstsShown B e H) (hrefs : EnvShows H refs yenv) (hn : NoInplaceCompare e)
    (hrun : run I p env = some w) (u : HVal) (hu : exec B J e refs H = (some u, H')) :
    (∃ as, u.read H' = some (pack as) ∧ Represents w as) ∧ ∀ (a : Nat) (b : A F), H[a]? = some b → H'[a]? = some b := by
  have hwv : w = v := by
    have h1 := (C11_partial hp hΓ hq).2.2 env w hset.values hrun
    have h2 := (C01_compiled_meaning_partial o I J hJ fuel q S Γ τ env yenv v y hset).2.1
    rw [h1] at h2
    exact Option.some.inj h2
  subst hwv
  obtain ⟨hy, -, as, r', h1, h2, h3, h4⟩ := C01_compiled_meaning_partial o I J hJ fuel q S Γ τ env yenv w y hset
  have hr' : r' = r := by
    rw [arrayProgram, hq, Option.bind_some, hy, Option.bind_some, h3] at hr
    exact Option.some.inj hr
  subst hr'
  simp only [numpyCode, hr, Option.bind_some, Option.map_eq_some_iff] at he
  obtain ⟨r'', hr'', rfl⟩ := he
  obtain ⟨z, h5, h6⟩ := C20_same_result_partial B J hB r'' H H' refs yenv hc hrefs hn u hu
  have h7 := outline_unique (strict J) hw.unique (hw.unique.noShadow_scoped hw.scope) hw.arity hw.scope hr'' yenv h4 h5
  subst h7
  refine ⟨⟨as, h6, h2⟩, fun a b hab => ?_⟩
  have := C20_buffers_unchanged B J hB r'' H refs yenv hc hrefs a b hab
  rwa [hu] at this

omit [FloatOps F] in
/-- C34: once the program is compiled, the code that is executed exists. -/
theorem C34_code_exists [FloatOps F] (o : Opts F) {n c fuel : Nat} {p : Expr F} {r : YExpr F} {τ : PTy}
    (hr : arrayProgram o n c fuel p = some r) (hw : WellScoped r) (hl : LetFree r) (ht : Yarr.typeOf r = some τ) :
    ∃ e, numpyCode o n c fuel p = some e := by
  obtain ⟨r', hr'⟩ := (C08_outline_array_code_returns hw.unique (hw.unique.noShadow_scoped hw.scope) hw.arity ht).2 hl
  exact ⟨applyInplace r', by simp [numpyCode, hr, hr']⟩

/-! ### From the source program, with the cache of the compiler -/

/-- `transform(program)`, with the table of the compiler (`phi_to_yarr.py:36`, `297-304`). -/
def cachedArrayProgram (o : Opts F) (n c fuel : Nat) (p : Expr F) : Option (YExpr F) :=
  (structOfArrays n c p).bind fun q => (compileProgramMemo (fun _ => program o) fuel q).bind simplifyArrayCode

/-- The code that is executed, compiled with the table. -/
def cachedNumpyCode (o : Opts F) (n c fuel : Nat) (p : Expr F) : Option (YExpr F) :=
  ((cachedArrayProgram o n c fuel p).bind outline).map applyInplace

/-- No `let` is among the binders, and the two names of a reduction are different. -/
def plainBinder : Expr F → Bool
  | .node (.letv _) _ => false
  | .node (.reduce x y) _ => decide (x ≠ y)
  | _ => true

/-- C34: if no two different binders that the compiler meets bind the same name (C35), then array code is well scoped:
every symbol is bound by one node, and is used in its scope only. -/
theorem C34_code_well_scoped (o : Opts F) {n c fuel : Nat} {p q : Expr F} {r : YExpr F} {L : List (Expr F)}
    (hq : structOfArrays n c p = some q) (hL : Cacheable (program o) L q) (hr : arrayProgram o n c fuel p = some r) :
    WellScoped r ∧ (∃ τ, Yarr.typeOf r = some τ) ∧ ((∀ B ∈ L, plainBinder B = true) → LetFree r) := by
  rw [arrayProgram, hq, Option.bind_some, Option.bind_eq_some_iff] at hr
  obtain ⟨y, hy, hr⟩ := hr
  obtain ⟨h1, h2, ⟨τ, h3⟩, h4⟩ := code_scoped (once_of_binds hL.once) (fun u hu hw => hL.all u (mem_bindersOf.2 ⟨hu, hw⟩))
    hL.closed hy ((C35_cache_partial _ L q hL y).1 _ hy)
  obtain ⟨r', hr', ht, -⟩ := C29_simplification_preserves_value (fun _ _ => none) y τ h3
  rw [hr'] at hr
  cases hr
  have hs : Scoped r := scoped_cancelTuple _ (scoped_cancelShape _ h2.scope) _ hr'
  refine ⟨⟨(h1.cancel hr').unique ht hs, hs, letArity_of_typed ht⟩, ⟨τ, ht⟩, fun hp => letFree_cancel (h4 ?_ ?_) hr'⟩
  · rintro ⟨h, ts⟩ hB
    have := hp _ hB
    cases h <;> first | rfl | cases this
  · intro x y ts hB
    exact of_decide_eq_true (hp _ hB)

/-- With the table, the same code is executed. -/
theorem C34_cached_code (o : Opts F) {n c fuel m : Nat} {p q : Expr F} {y : YExpr F} {L : List (Expr F)}
    (hq : structOfArrays n c p = some q) (hL : Cacheable (program o) L q) (hy : compileProgram (program o) fuel q = some y)
    {e : YExpr F} (he : cachedNumpyCode o n c m p = some e) : numpyCode o n c fuel p = some e := by
  simp only [cachedNumpyCode, cachedArrayProgram, hq, Option.bind_some, Option.bind_assoc, Option.map_eq_some_iff,
    Option.bind_eq_some_iff] at he
  obtain ⟨r, ⟨y', h1, h2⟩, rfl⟩ := he
  obtain ⟨k, hk⟩ := (C35_cache_partial _ L q hL y').2 m h1
  have hyy : y = y' := by
    obtain ⟨a, ha, hn⟩ := Option.bind_eq_some_iff.1 hy
    obtain ⟨b, hb, hn'⟩ := Option.bind_eq_some_iff.1 hk
    have h3 := compile_mono (OptsLe.refl _) (le_max_left fuel k) _ _ _ _ ha
    rw [compile_mono (OptsLe.refl _) (le_max_right fuel k) _ _ _ _ hb] at h3
    cases h3
    rw [hn] at hn'
    exact Option.some.inj hn'
  subst hyy
  obtain ⟨r1, h3, h4⟩ := h2
  simp [numpyCode, arrayProgram, hq, hy, h3, h4]

/-- C34, with conditions on the program without records only, and with the table of the compiler: if no two different
binders that the compiler meets bind the same name, and the NumPy backend returns a value, then the arrays it returns
represent the value of the program as written, and no array that existed before has changed.

What is missing: the conditions of C01 (`Setting`) and C35 (`Cacheable`) on the program without records, that no
comparison is executed in place (C20), and that the backend returns a value. -/
theorem C34_numpy_cached_partial (o : Opts F) (I : Ext F) (J : YExt F) (hJ : Vectorises I J) (B : Machine F) (hB : B.Lawful J) {n c fuel m : Nat}
    {p q : Expr F} {Γ : TCtx} {S : Finset Sym} {τ : Ty} {env : Env (D F)} {yenv : Env (YVal F)} {v w : D F} {y e : YExpr F}
    {L : List (Expr F)} (hp : SoaInput I p Γ c) (hΓ : ∀ s σ, Γ s = some σ → noRecordArrays σ = true)
    (hq : structOfArrays n c p = some q) (hset : Setting o I fuel q S Γ τ env yenv v y) (hL : Cacheable (program o) L q)
    (he : cachedNumpyCode o n c m p = some e) (H H' : Mem F) (refs : Env HVal) (hc : ConstsShown B e H)
    (hrefs : EnvShows H refs yenv) (hn : NoInplaceCompare e) (hrun : run I p env = some w) (u : HVal)
    (hu : exec B J e refs H = (some u, H')) :
    (∃ as, u.read H' = some (pack as) ∧ Represents w as) ∧ ∀ (a : Nat) (b : A F), H[a]? = some b → H'[a]? = some b := by
  obtain ⟨hy, r, h3, -⟩ := hset.compiled
  have hr : arrayProgram o n c fuel p = some r := by simp [arrayProgram, hq, hy, h3]
  exact C34_numpy_partial o I J hJ B hB hp hΓ hq hset hr (C34_code_well_scoped o hq hL hr).1
    (C34_cached_code o hq hL hy he) H H' refs hc hrefs hn hrun u hu

/-- C34: under the same conditions, and if the program contains no `let`, the code that is executed exists: neither
the compiler with its table nor the passes after it fail. -/
theorem C34_cached_code_exists (o : Opts F) (I : Ext F) {n c fuel : Nat} {p q : Expr F} {Γ : TCtx} {S : Finset Sym} {τ : Ty}
    {env : Env (D F)} {yenv : Env (YVal F)} {v : D F} {y : YExpr F} {L : List (Expr F)}
    (hq : structOfArrays n c p = some q) (hset : Setting o I fuel q S Γ τ env yenv v y) (hL : Cacheable (program o) L q)
    (hl : ∀ B ∈ L, plainBinder B = true) :
    ∃ e, cachedNumpyCode o n c fuel p = some e ∧ numpyCode o n c fuel p = some e := by
  obtain ⟨hy, r, h3, -⟩ := hset.compiled
  have hr : arrayProgram o n c fuel p = some r := by simp [arrayProgram, hq, hy, h3]
  obtain ⟨hw, ⟨σ, ht⟩, hlf⟩ := C34_code_well_scoped o hq hL hr
  obtain ⟨e, he⟩ := C34_code_exists o hr hw (hlf hl) ht
  refine ⟨e, ?_, he⟩
  have hm := (C35_cache_partial _ L q hL y).1 _ hy
  simp only [numpyCode, hr, Option.bind_some] at he
  simp only [cachedNumpyCode, cachedArrayProgram, hq, Option.bind_some, hm, h3]
  exact he

/-! ### An example: a program with records, a sum of products and in-place operations -/

namespace C34Example
open C11Example C33Example

/-- `array(λ i. (x[i] + x[i], x[i]))`, for the input `x` (variable 0) -/
def records34 : Expr Int :=
  let xi := Phi.get (fs 0) (at_ 10)
  vec 10 (dim (fs 0) 0) (cons (op2 .add xi xi) xi)

/-- `array(λ i. (∑ c < y.size, y[c] * records34[i].0) + -(records34[i].1))` -/
def p34 : Expr Int := vec 11 (dim (fs 0) 0)
  (op2 .add (sum7 12 13 (dim (fs 1) 0) (op2 .multiply (at7 1 12) (Phi.fst (Phi.get records34 (at_ 11)))))
    (node (.op .negate) [Phi.snd (Phi.get records34 (at_ 11))]))

/-- The constants of the code. -/
def consts34 : List (YVal Int) := [.arr (.scalar (.i 0)), .arr (.scalar (.i 1)), .arr (.scalar (.f 0))]

/-- The memory: the inputs `x` and `y` and the constants. -/
def mem34 : Mem Int := [⟨[3], [3, 1, 2].map Scal.f, rfl⟩, ⟨[2], [5, 7].map Scal.f, rfl⟩] ++ consts34.filterMap YVal.asArr

/-- Constants are at their place in memory; all bound values are copied. -/
def machine34 : Machine Int where
  const v := whole20 (2 + consts34.idxOf v) []
  copies _ _ := true
  other _ _ _ := none

/-- The inputs are the first two buffers. -/
def refs34 : Env HVal := fun s =>
  if s = .var 0 then some (whole20 0 [3]) else if s = .var 1 then some (whole20 1 [2]) else none

/-- All constants of the code are in memory. -/
def shown34 (e : YExpr Int) : Bool := (Midend.occurrences e).all fun u =>
  match u.head with
  | .const v _ => decide ((machine34.const v).read mem34 = some v)
  | _ => true

theorem consts34_of {e : YExpr Int} (h : shown34 e = true) : ConstsShown machine34 e mem34 := by
  intro v τ ts ho
  have h1 := List.all_eq_true.1 h _ (Midend.mem_occurrences.2 ho)
  have h2 : (machine34.const v).read mem34 = some v := of_decide_eq_true h1
  exact h2

theorem refs34_shows : EnvShows mem34 refs34 arrays7 := by
  intro s
  unfold refs34
  split
  · subst_vars
    show HVal.read _ _ = _
    decide +kernel
  · split
    · subst_vars
      show HVal.read _ _ = _
      decide +kernel
    · rename_i h0 h1
      have : arrays7 s = none := by
        rcases s with x | i
        · have h0 : 0 ≠ x := fun e => h0 (e ▸ rfl)
          have h1 : 1 ≠ x := fun e => h1 (e ▸ rfl)
          simp [arrays7, yenvOf, List.find?, h0, h1]
        · rfl
      rw [this]
      trivial

theorem lawful34 : machine34.Lawful (fun _ _ => none) := by
  intro h vs H ys y v _ _ _ hv; cases hv

theorem flat7 : ∀ s σ, ctx7 s = some σ → noRecordArrays σ = true := by
  rintro (x | i) σ h
  · by_cases h0 : x = 0
    · subst h0; cases h; rfl
    · by_cases h1 : x = 1
      · subst h1; cases h; rfl
      · simp [ctx7, ctxOf, List.find?, Ne.symm h0, Ne.symm h1] at h
  · cases h

theorem input34 : SoaInput Toy.noExt p34 ctx7 20 :=
  soaInput_of (by decide +kernel) (by decide +kernel) (by decide +kernel) (by decide +kernel) (by decide +kernel)
    (by decide +kernel) (by decide +kernel)

/-- Is the operation executed in place? -/
def inPlace : Yarr.Head Int → Bool
  | .elem _ (some _) => true
  | _ => false

/-- What is asked of the program without records. -/
def set34 (q : Expr Int) : Bool :=
  lexical q blurInputs && decide (Phi.typeOf q = some (.vector (.scalar .float))) && declB q ctx7 &&
    (check defaultOpts Toy.noExt false q (fun _ => 0) env7).isSome && (compileProgram (evenPairs defaultOpts) 30 q).isSome

theorem setting34 : ∃ q v y, structOfArrays 20 20 p34 = some q ∧
    Setting defaultOpts Toy.noExt 30 q blurInputs ctx7 (.vector (.scalar .float)) env7 arrays7 v y := by
  obtain ⟨q, hq, h⟩ : ∃ q, structOfArrays 20 20 p34 = some q ∧ set34 q = true := Toy.exists_of_any (by decide +kernel)
  simp only [set34, Bool.and_eq_true, decide_eq_true_eq, Option.isSome_iff_exists] at h
  obtain ⟨⟨⟨⟨h1, h2⟩, h3⟩, v, hv⟩, y, hy⟩ := h
  obtain ⟨_, _, hs⟩ := default_setting
  exact ⟨q, v, y, hq, hs.inputs, h1, h2, declB_declared _ _ _ h3, hs.values, hs.arrays, hv, hy, hs.folds⟩

/-- The value of the program. -/
theorem value34 : run Toy.noExt p34 env7 = some (floats [69, 23, 46]) := by decide +kernel

/-- The theorem applies: the backend returns an array which represents the value; the code contains an `einsum` and
an operation that is executed in place. -/
example : ∃ e u H', numpyCode defaultOpts 20 20 30 p34 = some e ∧
    exec machine34 (fun _ _ => none) e refs34 mem34 = (some u, H') ∧ occursIn isEinsum e = true ∧ occursIn inPlace e = true ∧
    (∃ as, u.read H' = some (pack as) ∧ Represents (floats [69, 23, 46]) as) ∧
    ∀ (a : Nat) (b : A Int), mem34[a]? = some b → H'[a]? = some b := by
  obtain ⟨q, v, y, hq, hset⟩ := setting34
  obtain ⟨r, hr, hw⟩ : ∃ r, arrayProgram defaultOpts 20 20 30 p34 = some r ∧ decide (WellScoped r) = true :=
    Toy.exists_of_any (by decide +kernel)
  obtain ⟨e, he, h⟩ : ∃ e, numpyCode defaultOpts 20 20 30 p34 = some e ∧
      ((shown34 e && noCompare20 e && occursIn isEinsum e && occursIn inPlace e) &&
        (exec machine34 (fun _ _ => none) e refs34 mem34).1.isSome) = true := Toy.exists_of_any (by decide +kernel)
  simp only [Bool.and_eq_true, Option.isSome_iff_exists] at h
  obtain ⟨⟨⟨⟨h1, h2⟩, h3⟩, h4⟩, u, hu⟩ := h
  refine ⟨e, u, _, he, Prod.ext hu rfl, h3, h4, ?_⟩
  exact C34_numpy_partial defaultOpts Toy.noExt (fun _ _ => none) (vectorises_none _) machine34 lawful34 input34 flat7 hq hset hr
      (of_decide_eq_true hw) he mem34 _ refs34 (consts34_of h1) refs34_shows (noCompare20_of h2) value34 u (Prod.ext hu rfl)

/-- The hypotheses of `C34_code_exists`. -/
example : (arrayProgram defaultOpts 20 20 30 p34).any (fun r => decide (WellScoped r) && decide (LetFree r) &&
    (Yarr.typeOf r).isSome) = true := by decide +kernel

/-- The program without records binds every name once. -/
theorem cacheable34 : ∃ q, structOfArrays 20 20 p34 = some q ∧
    Cacheable (program defaultOpts) (reach (program defaultOpts) 20 q) q ∧
    ∀ B ∈ reach (program defaultOpts) 20 q, plainBinder B = true := by
  obtain ⟨q, hq, h⟩ : ∃ q, structOfArrays 20 20 p34 = some q ∧
      decide (Cacheable (program defaultOpts) (reach (program defaultOpts) 20 q) q ∧
        ∀ B ∈ reach (program defaultOpts) 20 q, plainBinder B = true) = true := Toy.exists_of_any (by decide +kernel)
  exact ⟨q, hq, of_decide_eq_true h⟩

/-- The theorem on the whole pipeline with the table applies as well. -/
example : ∃ e u H', cachedNumpyCode defaultOpts 20 20 30 p34 = some e ∧
    exec machine34 (fun _ _ => none) e refs34 mem34 = (some u, H') ∧
    (∃ as, u.read H' = some (pack as) ∧ Represents (floats [69, 23, 46]) as) ∧
    ∀ (a : Nat) (b : A Int), mem34[a]? = some b → H'[a]? = some b := by
  obtain ⟨q, v, y, hq, hset⟩ := setting34
  obtain ⟨q', hq', hL, hl⟩ := cacheable34
  cases hq.symm.trans hq'
  obtain ⟨e, he, he'⟩ := C34_cached_code_exists defaultOpts Toy.noExt hq hset hL hl
  obtain ⟨e1, he1, h⟩ : ∃ e, numpyCode defaultOpts 20 20 30 p34 = some e ∧
      ((shown34 e && noCompare20 e) &&
        (exec machine34 (fun _ _ => none) e refs34 mem34).1.isSome) = true := Toy.exists_of_any (by decide +kernel)
  cases he'.symm.trans he1
  simp only [Bool.and_eq_true, Option.isSome_iff_exists] at h
  obtain ⟨⟨h1, h2⟩, u, hu⟩ := h
  refine ⟨e, u, _, he, Prod.ext hu rfl, ?_⟩
  exact C34_numpy_cached_partial defaultOpts Toy.noExt (fun _ _ => none) (vectorises_none _) machine34 lawful34 input34 flat7 hq hset hL he
    mem34 _ refs34 (consts34_of h1) refs34_shows (noCompare20_of h2) value34 u (Prod.ext hu rfl)

/-- The array that is returned. -/
example : (numpyCode defaultOpts 20 20 30 p34).any (fun e =>
    let run := exec machine34 (fun _ _ => none) e refs34 mem34
    (run.1.bind fun v => v.read run.2) = some (.arr ⟨[3], [69, 23, 46].map Scal.f, rfl⟩)) = true := by decide +kernel

/-- On the program on which the interpreter fails (C33) the NumPy backend returns the right value. -/
example : (numpyCode defaultOpts 20 20 30 q33).any (fun e =>
    Yarr.eval (fun _ _ => none) e (yenvOf [(0, .scalar (.i 3))]) = some (.arr (.scalar (.i 55)))) = true := by
  decide +kernel

end C34Example
end Verif.Props
