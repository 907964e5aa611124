import Verif.Frontend.Decorated
import Verif.Props.C18
import Verif.Props.C39

/-!
C40 — decorated functions, from Python to arrays.

In any history of calls of a function decorated with `@function` or `@typed_function`, with any of the three backends, a call
that returns returns arrays that represent the value of the user's function on the values of the arguments. This
composes the frontend on objects (C38, C39), the cache of decorated functions (C18) and the backends (C34, C37).
-/

set_option linter.unusedSectionVars false

namespace Verif.Props
open Verif.Phi Verif.Term Verif.Midend Verif.Codegen Verif.Frontend Verif.Yarr Verif.Arr Verif.Backend

/-! ### Which traces a history makes -/

section
variable {Arg Ty B Prog Code Res Err : Type} [DecidableEq Ty] [DecidableEq B]
  (S : Setup Arg Ty B Prog Code Res Err)

/-- The runs of the user's function in a history: the types and the backend they were made for, and the number of symbols
that existed. -/
def traces : FState Ty B Code → List (List Arg × B) → List ((List Ty × B) × Nat)
  | _, [] => []
  | σ, (args, b) :: rest =>
    (match typesFromArgs S args with
      | .ok types => if (Frontend.lookup (types, b) σ.staged).isNone then [((types, b), σ.supply)] else []
      | .error _ => []) ++ traces (call S σ args b).2 rest

/-- What is cached comes from one of these traces. -/
def CacheFrom (T : List ((List Ty × B) × Nat)) (σ : FState Ty B Code) : Prop :=
  ∀ types b vars code, Frontend.lookup (types, b) σ.staged = some (vars, code) →
    ∃ s prog, ((types, b), s) ∈ T ∧ (S.trace s types).1 = .ok (vars, prog) ∧ S.stage b prog = .ok code

/-- The outcome of a call that returns is that of code staged from a trace for its types. -/
def FromTrace (T : List ((List Ty × B) × Nat)) (args : List Arg) (b : B) (r : Res) : Prop :=
  ∃ types s vars prog code, typesFromArgs S args = .ok types ∧ ((types, b), s) ∈ T ∧
    (S.trace s types).1 = .ok (vars, prog) ∧ S.stage b prog = .ok code ∧ S.exec code (vars.zip args) = .ok r

theorem call_from {T : List ((List Ty × B) × Nat)} {σ : FState Ty B Code} (hσ : CacheFrom S T σ) (args : List Arg) (b : B) :
    CacheFrom S (T ++ traces S σ [(args, b)]) (call S σ args b).2 ∧
      ∀ r, (call S σ args b).1 = .ok r → FromTrace S (T ++ traces S σ [(args, b)]) args b r := by
  have hmono : ∀ T', CacheFrom S (T ++ T') σ := fun T' types b vars code h => by
    obtain ⟨s, prog, h1, h2⟩ := hσ types b vars code h
    exact ⟨s, prog, List.mem_append_left _ h1, h2⟩
  cases ht : typesFromArgs S args with
  | error e => simp only [call, ht]; exact ⟨hmono _, fun r hr => by cases hr⟩
  | ok types =>
    cases hl : Frontend.lookup (types, b) σ.staged with
    | some vc =>
      obtain ⟨vars, code⟩ := vc
      simp only [call, ht, hl]
      refine ⟨hmono _, fun r hr => ?_⟩
      obtain ⟨s, prog, h1, h2, h3⟩ := hσ types b vars code hl
      exact ⟨types, s, vars, prog, code, ht, List.mem_append_left _ h1, h2, h3, hr⟩
    | none =>
      have hT : ((types, b), σ.supply) ∈ T ++ traces S σ [(args, b)] := by simp [traces, ht, hl]
      simp only [call, ht, hl]
      cases htr : S.trace σ.supply types with
      | mk res s2 =>
        cases res with
        | error e => exact ⟨hmono _, fun r hr => by cases hr⟩
        | ok vp =>
          obtain ⟨vars, prog⟩ := vp
          cases hst : S.stage b prog with
          | error e => simp only [hst]; exact ⟨hmono _, fun r hr => by cases hr⟩
          | ok code =>
            simp only [hst]
            refine ⟨?_, fun r hr => ⟨types, σ.supply, vars, prog, code, ht, hT, by rw [htr], hst, hr⟩⟩
            intro types' b' vars' code' h
            rw [lookup_cons] at h
            by_cases hk : (types, b) = (types', b')
            · rw [if_pos hk] at h
              simp only [Prod.mk.injEq, Option.some.injEq] at hk h
              obtain ⟨rfl, rfl⟩ := hk
              obtain ⟨rfl, rfl⟩ := h
              exact ⟨σ.supply, prog, hT, by rw [htr], hst⟩
            · rw [if_neg hk] at h
              exact hmono _ _ _ _ _ h

theorem calls_from : ∀ (hist : List (List Arg × B)) (T : List ((List Ty × B) × Nat)) (σ : FState Ty B Code), CacheFrom S T σ →
    ∀ (k : Nat) args b r, hist[k]? = some (args, b) → (calls S σ hist).1[k]? = some (.ok r) →
      FromTrace S (T ++ traces S σ hist) args b r
  | [], _, _, _, _, _, _, _, h, _ => by cases h
  | (args, b) :: rest, T, σ, hσ, k, args', b', r, hk, hr => by
    obtain ⟨h1, h2⟩ := call_from S hσ args b
    have he : T ++ traces S σ ((args, b) :: rest) = (T ++ traces S σ [(args, b)]) ++ traces S (call S σ args b).2 rest := by
      simp only [traces, List.append_nil, List.append_assoc]
    rw [he]
    cases k with
    | zero =>
      simp only [List.getElem?_cons_zero, Option.some.injEq, Prod.mk.injEq] at hk
      obtain ⟨rfl, rfl⟩ := hk
      simp only [calls, List.getElem?_cons_zero, Option.some.injEq] at hr
      obtain ⟨types, s, vars, prog, code, g1, g2, g3⟩ := h2 r hr
      exact ⟨types, s, vars, prog, code, g1, List.mem_append_left _ g2, g3⟩
    | succ k =>
      exact calls_from rest _ _ h1 k args' b' r hk hr

/-- In any history of calls, a call that returns returns what the code returns that was staged, by this call or by an
earlier one, from a run of the user's function for the types of the arguments and for the backend. -/
theorem C40_origin (s₀ : Nat) (hist : List (List Arg × B)) (k : Nat) (args : List Arg) (b : B) (r : Res)
    (hk : hist[k]? = some (args, b)) (hr : (calls S (FState.init s₀) hist).1[k]? = some (.ok r)) :
    FromTrace S (traces S (FState.init s₀) hist) args b r := by
  have := calls_from S hist [] (FState.init s₀) (fun types b vars code h => by simp [FState.init, lookup_nil] at h) k args b r hk hr
  rwa [List.nil_append] at this

end

variable {F : Type} [FloatOps F] [DecidableEq F]

/-! ### Specification -/

/-- The user's function computes `g` on arguments of types `τs`: applied to arrays that are variables, it returns an object
whose value is `g` of the values of the variables. -/
def Computes (I : Ext F) (f : List (Obj F) → Py (Obj F)) (τs : List Ty) (g : List (PVal F) → Option (PVal F)) : Prop :=
  ∀ c args o c' env vs v, argObjs c τs = some args → f args (c + τs.length) = some (o, c') → RegularEnv env →
    mapOpt (value I env) args = some vs → g vs = some v → value I env o = some v

/-- The array is of its dtype and represents `w`, which is the nested value `v`. -/
def Contains (a : Input F) (w : D F) (v : PVal F) : Prop :=
  HasType w a.type ∧ Reps a.array.shape a.array.get? w ∧ ∃ l, unambiguous a.type = some l ∧ view l w = some v

/-- The inputs of a program: variable, type, value and array. -/
def inputsOf : List Nat → List (Input F) → List (D F) → List (Nat × Ty × D F × A F)
  | x :: xs, a :: as, w :: ws => (x, a.type, w, a.array) :: inputsOf xs as ws
  | _, _, _ => []

/-- What is asked of a traced program and inputs: the conditions of C11, of C01 and C35 on the program without records, of
C20 for NumPy and of C30 for PyTorch. -/
structure Supported (o : Opts F) (I : Ext F) (J : YExt F) (n fuel : Nat) (lib : Lib) (e : Expr F) (c : Nat)
    (l : List (Nat × Ty × D F × A F)) : Prop where
  input : SoaInput I e (inputTypes l) c
  compiled : ∃ q τ v y L, structOfArrays n c e = some q ∧
    Setting o I fuel q (inputSyms l) (inputTypes l) τ (inputValues l) (inputArrays l) v y ∧ Cacheable (program o) L q
  inplace : lib = .numpy → ∀ e', cachedNumpyCode o n c fuel e = some e' → NoInplaceCompare e'
  agree : lib = .torch → (carefulRun o J n c fuel e (inputArrays l)).isSome = true

/-! ### Proof -/

theorem reps_shape {s : List Nat} : ∀ {f g : List Nat → Option (Scal F)} {v w : D F}, Reps s f v → Reps s g w →
    Val.shape v = Val.shape w := by
  induction s with
  | nil =>
    rintro f g v w ⟨x, rfl, -⟩ ⟨y, rfl, -⟩
    rfl
  | cons n s ih =>
    rintro f g v w ⟨-, vs, rfl, hl, h⟩ ⟨-, ws, rfl, hl', h'⟩
    have h3 : ∀ us : List (D F), us.map (Val.map fun _ => ()) = us.map Val.shape := fun _ => rfl
    rw [Val.shape, Val.shape, Val.map, Val.map, Val.mapList_eq, Val.mapList_eq, h3, h3]
    refine congrArg Val.vec ?_
    refine List.ext_getElem? fun i => ?_
    rw [List.getElem?_map, List.getElem?_map]
    by_cases hi : i < n
    · rw [List.getElem?_eq_getElem (by omega), List.getElem?_eq_getElem (by omega)]
      exact congrArg some (ih (h i _ (List.getElem?_eq_getElem _)) (h' i _ (List.getElem?_eq_getElem _)))
    · rw [List.getElem?_eq_none (by omega), List.getElem?_eq_none (by omega)]

theorem reps_regular {s : List Nat} : ∀ {f : List Nat → Option (Scal F)} {v : D F}, Reps s f v → Val.Regular v := by
  induction s with
  | nil =>
    rintro f v ⟨x, rfl, -⟩
    exact .sc x
  | cons n s ih =>
    rintro f v ⟨-, vs, rfl, -, h⟩
    refine .vec (Val.uniform_iff.2 fun a ha b hb => ?_) fun a ha => ?_
    · obtain ⟨i, hi⟩ := List.getElem?_of_mem ha
      obtain ⟨j, hj⟩ := List.getElem?_of_mem hb
      exact reps_shape (h i a hi) (h j b hj)
    · obtain ⟨i, hi⟩ := List.getElem?_of_mem ha
      exact ih (h i a hi)

theorem passedValues_eq (l : List (Nat × A F)) : passedValues l = yenvOf l := by
  funext s
  cases s with
  | var x => simp only [passedValues, yenvOf, Sym.var.injEq]
  | idx i =>
    simp only [passedValues, yenvOf, Option.map_eq_none_iff]
    rw [List.find?_eq_none]
    intro q _
    simp

theorem arrays_inputsOf : ∀ (xs : List Nat) (as : List (Input F)) (ws : List (D F)), as.length = ws.length →
    (xs.zip as).map (fun q => (q.1, q.2.array)) = (inputsOf xs as ws).map fun q => (q.1, q.2.2.2)
  | [], as, ws, _ => by cases as <;> cases ws <;> simp [inputsOf]
  | x :: xs, [], [], _ => by simp [inputsOf]
  | x :: xs, a :: as, w :: ws, h => by
    simp only [List.zip_cons_cons, List.map_cons, inputsOf, List.cons.injEq, true_and]
    exact arrays_inputsOf xs as ws (by simpa using h)

theorem types_flat (r : Nat) (k : Kind) : noRecordArrays (ndarrayType r k) = true := by
  induction r with
  | zero => rfl
  | succ r ih => cases r <;> exact ih

theorem inputTypes_flat (xs : List Nat) (as : List (Input F)) (ws : List (D F)) :
    ∀ s σ, inputTypes (inputsOf xs as ws) s = some σ → noRecordArrays σ = true := by
  have key : ∀ (xs : List Nat) (as : List (Input F)) (ws : List (D F)), ∀ q ∈ inputsOf xs as ws, noRecordArrays q.2.1 = true := by
    intro xs
    induction xs with
    | nil => intro as ws q hq; cases as <;> cases ws <;> simp [inputsOf] at hq
    | cons x xs ih =>
      intro as ws q hq
      match as, ws with
      | [], _ => simp [inputsOf] at hq
      | _ :: _, [] => simp [inputsOf] at hq
      | a :: as, w :: ws =>
        simp only [inputsOf, List.mem_cons] at hq
        rcases hq with rfl | hq
        · exact types_flat _ _
        · exact ih as ws q hq
  intro s σ h
  cases s with
  | idx i => cases h
  | var x =>
    simp only [inputTypes, ctxOf, List.find?_map, Option.map_map, Option.map_eq_some_iff] at h
    obtain ⟨q, hq, rfl⟩ := h
    exact key _ _ _ q (List.mem_of_find?_eq_some hq)

/-- The environment holds the values of the arguments. -/
theorem regular_inputs {xs : List Nat} {as : List (Input F)} {ws : List (D F)} {vs : List (PVal F)}
    (h : List.Forall₂ (fun (p : Input F × D F) v => Contains p.1 p.2 v) (as.zip ws) vs) : RegularEnv (inputValues (inputsOf xs as ws)) := by
  have key : ∀ (xs : List Nat) (as : List (Input F)) (ws : List (D F)) (vs : List (PVal F)),
      List.Forall₂ (fun (p : Input F × D F) v => Contains p.1 p.2 v) (as.zip ws) vs → ∀ q ∈ inputsOf xs as ws, Val.Regular q.2.2.1 := by
    intro xs
    induction xs with
    | nil => intro as ws vs _ q hq; cases as <;> cases ws <;> simp [inputsOf] at hq
    | cons x xs ih =>
      intro as ws vs h q hq
      match as, ws with
      | [], _ => simp [inputsOf] at hq
      | _ :: _, [] => simp [inputsOf] at hq
      | a :: as, w :: ws =>
        rw [List.zip_cons_cons] at h
        cases h with
        | cons h1 h2 =>
          simp only [inputsOf, List.mem_cons] at hq
          rcases hq with rfl | hq
          · exact reps_regular h1.2.1
          · exact ih as ws _ h2 q hq
  intro s v hv
  cases s with
  | idx i => cases hv
  | var x =>
    obtain ⟨q, hq, rfl⟩ := Option.map_eq_some_iff.1 hv
    exact key xs as ws vs h q (List.mem_of_find?_eq_some hq)

theorem unambiguous_ok {τ : Ty} {l : Layout} (h : unambiguous τ = some l) : l.ok = true := by
  induction τ generalizing l with
  | scalar k => cases h; rfl
  | vector τ ih =>
    obtain ⟨l', h1, rfl⟩ := Option.map_eq_some_iff.1 h
    simpa [Layout.ok] using ih h1
  | pair a b => cases h

theorem values_args (I : Ext F) {env : Env (D F)} : ∀ (as : List (Input F)) (ws : List (D F)) (vs : List (PVal F)) (c : Nat)
    (args : List (Obj F)), as.length = ws.length → List.Forall₂ (fun (p : Input F × D F) v => Contains p.1 p.2 v) (as.zip ws) vs →
    (∀ j w, ws[j]? = some w → env (.var (c + j)) = some w) → argObjs c (as.map Input.type) = some args →
    mapOpt (value I env) args = some vs
  | [], [], vs, c, args, _, h, _, ha => by
    cases h
    simp only [List.map_nil, argObjs, Option.some.injEq] at ha
    subst ha
    rfl
  | a :: as, w :: ws, vs, c, args, hl, h, he, ha => by
    rw [List.zip_cons_cons] at h
    cases h with
    | @cons _ v _ vs h1 h2 =>
      simp only [List.map_cons, argObjs, Option.bind_eq_some_iff, Option.map_eq_some_iff] at ha
      obtain ⟨l, hl', args', ha, rfl⟩ := ha
      have ih := values_args I as ws vs (c + 1) args' (by simpa using hl) h2 (fun j w hj => by
        have := he (j + 1) w (by simpa using hj)
        rwa [show c + 1 + j = c + (j + 1) by omega]) ha
      obtain ⟨l', g1, g2⟩ := h1.2.2
      cases hl'.symm.trans g1
      have hw : run I (var c a.type) env = some w := he 0 w rfl
      simp only [mapOpt, value_unpack I env l (unambiguous_ok hl'), hw, Option.bind_some, g2, ih]

theorem lookup_inputs : ∀ (as : List (Input F)) (ws : List (D F)) (c j : Nat) (w : D F), as.length = ws.length → ws[j]? = some w →
    inputValues (inputsOf (List.range' c as.length) as ws) (.var (c + j)) = some w
  | [], [], _, _, _, _, h => by cases h
  | a :: as, w0 :: ws, c, j, w, hl, h => by
    simp only [List.length_cons, List.range'_succ, inputsOf, inputValues, List.find?_cons]
    cases j with
    | zero => simpa using h
    | succ j =>
      have := lookup_inputs as ws (c + 1) j w (by simpa using hl) (by simpa using h)
      rw [show c + 1 + j = c + (j + 1) by omega] at this
      simpa [inputValues] using this

theorem value_exprOf {I : Ext F} {env : Env (D F)} {o : Obj F} {e : Expr F} {v : PVal F} (he : exprOf o = some e)
    (hv : value I env o = some v) : ∃ w l, run I e env = some w ∧ view l w = some v := by
  cases o with
  | scalar a =>
    cases he
    obtain ⟨w, h1, h2⟩ := Option.bind_eq_some_iff.1 hv
    exact ⟨w, _, h1, h2⟩
  | vec e' sub =>
    cases he
    obtain ⟨w, h1, h2⟩ := Option.bind_eq_some_iff.1 hv
    exact ⟨w, _, h1, h2⟩
  | raw u τ =>
    obtain ⟨l, h1, rfl⟩ := Option.map_eq_some_iff.1 he
    simp only [value, h1, Option.bind_some] at hv
    exact ⟨u, l, by rw [run_node]; rfl, hv⟩
  | struct k fs => cases he

/-- With the table, the same array program is made. -/
theorem cached_array_program (o : Opts F) {n c fuel m : Nat} {p q : Expr F} {y r : YExpr F} {L : List (Expr F)}
    (hq : structOfArrays n c p = some q) (hL : Cacheable (program o) L q) (hy : compileProgram (program o) fuel q = some y)
    (hr : cachedArrayProgram o n c m p = some r) : arrayProgram o n c fuel p = some r := by
  simp only [cachedArrayProgram, hq, Option.bind_some, Option.bind_eq_some_iff] at hr
  obtain ⟨y', h1, h2⟩ := hr
  obtain ⟨k, hk⟩ := (C35_cache_partial _ L q hL y').2 m h1
  have hyy : y = y' := by
    obtain ⟨a, ha, hn⟩ := Option.bind_eq_some_iff.1 hy
    obtain ⟨b, hb, hn'⟩ := Option.bind_eq_some_iff.1 hk
    have h3 := compile_mono (OptsLe.refl _) (le_max_left fuel k) _ _ _ _ ha
    rw [compile_mono (OptsLe.refl _) (le_max_right fuel k) _ _ _ _ hb] at h3
    cases h3
    rw [hn] at hn'
    exact Option.some.inj hn'
  subst hyy
  simp [arrayProgram, hq, hy, h2]

/-- Code staged from a supported program returns arrays that represent its value. -/
theorem run_supported {o : Opts F} {I : Ext F} {J : YExt F} (hJ : Vectorises I J) {copies : Ref → Mem F → Bool} {n fuel : Nat}
    {lib : Lib} {e : Expr F} {c : Nat} {xs : List Nat} {as : List (Input F)} {ws : List (D F)}
    (hs : Supported o I J n fuel lib e c (inputsOf xs as ws)) {code : Lib × Finset Sym × YExpr F}
    (hc : stageWith o n fuel lib (e, c) = some code) {y : YVal F}
    (hy : runWith J copies code ((inputsOf xs as ws).map fun q => (q.1, q.2.2.2)) = some y) {w : D F}
    (hw : run I e (inputValues (inputsOf xs as ws)) = some w) : ∃ as, y = Codegen.pack as ∧ Represents w as := by
  obtain ⟨q, τ, v, y0, L, hq, hset, hL⟩ := hs.compiled
  have hΓ := inputTypes_flat xs as ws
  generalize inputsOf xs as ws = l at *
  simp only [stageWith, Option.bind_eq_some_iff, Option.map_eq_some_iff] at hc
  obtain ⟨r, hr, e', he', rfl⟩ := hc
  have hr' := cached_array_program o hq hL hset.compiled.1 hr
  cases lib with
  | numpy =>
    simp only [runWith, Option.bind_eq_some_iff] at hy
    obtain ⟨u, hu, hy⟩ := hy
    have hnc : cachedNumpyCode o n c fuel e = some (applyInplace e') := by simp [cachedNumpyCode, hr, he']
    obtain ⟨⟨as, h1, h2⟩, -⟩ := C34_numpy_cached_partial o I J hJ (loader copies _ (applyInplace e')) (lawful_loader _ _ _ J) hs.input hΓ
      hq hset hL hnc _ _ _ (consts_loaded copies _ _) (by
        have := passed_loaded (l.map fun q => (q.1, q.2.2.2)) (applyInplace e')
        rwa [passedValues_eq] at this) (hs.inplace rfl _ hnc) hw u (Prod.ext hu rfl)
    rw [h1] at hy
    exact ⟨as, (Option.some.inj hy).symm, h2⟩
  | jax =>
    refine C37_jax_partial o I J hJ hs.input hΓ hq hset hL hw y ?_
    simp only [runWith, passedValues_eq] at hy
    simp only [jaxRun, hr', he', Option.bind_some]
    exact hy
  | torch =>
    obtain ⟨z, hz⟩ := Option.isSome_iff_exists.1 (hs.agree rfl)
    obtain ⟨h1, h2, -⟩ := C37_torch_partial o I J hJ hs.input hΓ hq hset hL hw z hz
    simp only [runWith, passedValues_eq] at hy
    simp only [torchRun, hr', he', Option.bind_some] at h1
    have : z = y := Option.some.inj (h1.symm.trans hy)
    exact this ▸ h2

/-- A call that returns, if the objects that the user's function returned have the value `v`. -/
theorem calls_value (o : Opts F) (I : Ext F) (J : YExt F) (hJ : Vectorises I J) (copies : Ref → Mem F → Bool) (n fuel : Nat)
    (types : Option (List Ty)) (f : List (Obj F) → Py (Obj F)) (c₀ : Nat)
    (hist : List (List (Input F) × Lib)) (k : Nat) (args : List (Input F)) (lib : Lib) (y : YVal F)
    (hk : hist[k]? = some (args, lib))
    (hy : (calls (decorated o J copies n fuel types f) (FState.init c₀) hist).1[k]? = some (.ok y))
    (ws : List (D F)) (vs : List (PVal F)) (v : PVal F)
    (hl : args.length = ws.length) (hv : List.Forall₂ (fun (p : Input F × D F) v => Contains p.1 p.2 v) (args.zip ws) vs)
    (hf : ∀ c objs r c' e, ((args.map Input.type, lib), c) ∈ traces (decorated o J copies n fuel types f) (FState.init c₀) hist →
      argObjs c (args.map Input.type) = some objs → f objs (c + (args.map Input.type).length) = some (r, c') → exprOf r = some e →
      ∀ env, env = inputValues (inputsOf (List.range' c args.length) args ws) → RegularEnv env → mapOpt (value I env) objs = some vs →
      value I env r = some v)
    (hs : ∀ c vars e c', ((args.map Input.type, lib), c) ∈ traces (decorated o J copies n fuel types f) (FState.init c₀) hist →
      withVarargs f (args.map Input.type) c = some ((vars, e), c') → Supported o I J n fuel lib e c' (inputsOf vars args ws)) :
    ∃ as w l, y = Codegen.pack as ∧ Represents w as ∧ view l w = some v := by
  obtain ⟨τs, c, vars, prog, code, h1, h2, h3, h4, h5⟩ := C40_origin _ c₀ hist k args lib y hk hy
  have hτ : τs = args.map Input.type := by
    have hm : ∀ l : List (Input F), (l.mapM fun a => (Except.ok a.type : Except Frontend.Err Ty)) = .ok (l.map Input.type) := by
      intro l
      induction l with
      | nil => rfl
      | cons a l ih => simp [List.mapM_cons, ih, bind, Except.bind, pure, Except.pure]
    simp only [typesFromArgs, decorated, hm, bind, Except.bind] at h1
    cases types with
    | none => simpa using h1.symm
    | some ts =>
      simp only at h1
      split at h1
      · cases h1
      · simpa using h1.symm
  subst hτ
  simp only [decorated] at h3 h4 h5
  split at h3
  · rename_i vars' e c' htr
    cases h3
    have hsup := hs c vars e c' h2 htr
    split at h4
    · rename_i code' hc
      cases h4
      split at h5
      · rename_i y' hrun
        cases h5
        simp only [withVarargs, Option.bind_eq_some_iff, Option.map_eq_some_iff] at htr
        obtain ⟨objs, ho, ⟨r, c''⟩, hfr, e', he', heq⟩ := htr
        simp only [Prod.mk.injEq] at heq
        obtain ⟨⟨rfl, rfl⟩, rfl⟩ := heq
        rw [List.length_map] at *
        have hval := hf c objs r c'' e' h2 ho hfr he' _ rfl (regular_inputs (xs := List.range' c args.length) hv)
          (values_args I args ws vs c objs hl hv (fun j w hj => lookup_inputs args ws c j w hl hj) ho)
        obtain ⟨w, l, hw, hview⟩ := value_exprOf he' hval
        rw [arrays_inputsOf _ _ _ hl] at hrun
        obtain ⟨as, g1, g2⟩ := run_supported hJ hsup hc hrun hw
        exact ⟨as, w, l, g1, g2, hview⟩
      · cases h5
    · cases h4
  · cases h3

/-! ### Property -/

/-- C40: in any history of calls of a decorated function with any of the backends, if the call with the arguments `args`
returns `y`, the user's function computes `g`, and `args` hold the values `vs`, then the arrays `y` represent `g vs`.

What is missing: the program that was traced — by this call or an earlier one with arguments of the same types — must be
supported, see `Supported`; that the call returns. -/
theorem C40_calls_partial (o : Opts F) (I : Ext F) (J : YExt F) (hJ : Vectorises I J) (copies : Ref → Mem F → Bool) (n fuel : Nat)
    (types : Option (List Ty)) (f : List (Obj F) → Py (Obj F)) (g : List (PVal F) → Option (PVal F)) (c₀ : Nat)
    (hist : List (List (Input F) × Lib)) (k : Nat) (args : List (Input F)) (lib : Lib) (y : YVal F)
    (hk : hist[k]? = some (args, lib))
    (hy : (calls (decorated o J copies n fuel types f) (FState.init c₀) hist).1[k]? = some (.ok y))
    (hf : Computes I f (args.map Input.type) g) (ws : List (D F)) (vs : List (PVal F)) (v : PVal F)
    (hl : args.length = ws.length) (hv : List.Forall₂ (fun (p : Input F × D F) v => Contains p.1 p.2 v) (args.zip ws) vs)
    (hg : g vs = some v)
    (hs : ∀ c vars e c', ((args.map Input.type, lib), c) ∈ traces (decorated o J copies n fuel types f) (FState.init c₀) hist →
      withVarargs f (args.map Input.type) c = some ((vars, e), c') → Supported o I J n fuel lib e c' (inputsOf vars args ws)) :
    ∃ as w l, y = Codegen.pack as ∧ Represents w as ∧ view l w = some v :=
  calls_value o I J hJ copies n fuel types f c₀ hist k args lib y hk hy ws vs v hl hv
    (fun c objs r c' _ _ ho hr _ env _ hE hvs => hf c objs r c' env vs v ho hr hE hvs hg) hs

/-! ### Example: `@function def column(m, k): return m[:, k]` -/

namespace C40Example
open Verif.Toy C38Example C39Example

/-- `lambda m, k: m[:, k]` -/
def column (args : List (Obj Int)) : Py (Obj Int) :=
  match args with
  | [m, .scalar k] => getItem [.all, .at k] m
  | _ => fun _ => none

/-- What it means. -/
def columnOf : List (PVal Int) → Option (PVal Int)
  | [m, .sc (.i k)] => pick [none, some k] m
  | _ => none

def matrixTy : Ty := .vector (.vector (.scalar .float))

theorem usable_new (v c : Nat) (τ : Ty) : Usable (fun _ => False) c (var v τ : Expr Int) :=
  { usable_var v τ with
    old := fun i hi => by
      rcases mem_fv.1 hi with ⟨h | ⟨t, ht, _⟩, _⟩
      · cases h
      · cases ht }

/-- The function computes the column. -/
theorem column_computes : Computes noExt column [matrixTy, .scalar .int] columnOf := by
  intro c args o c' env vs v ha hf hE hvs hg
  cases ha
  simp only [mapOpt, Option.bind_eq_some_iff] at hvs
  obtain ⟨m, hm, w1, ⟨k, hk, w2, h2, h1⟩, h0⟩ := hvs
  cases h2
  cases h1
  cases h0
  simp only [columnOf] at hg
  split at hg
  · rename_i m' k' heq
    cases heq
    have hkv : env (.var (c + 1)) = some (.int k') := by
      have hk : (env (.var (c + 1))).bind (view .atom) = some (.sc (.i k')) := hk
      obtain ⟨d, h1, h2⟩ := Option.bind_eq_some_iff.1 hk
      cases d <;> simp [view] at h2
      rw [h1, h2]
    refine C39_slice regular_noExt (B := fun _ => False) (fun _ h => h.elim) rfl ?_ hE ?_ ?_ hf hm (ks := [none, some k']) ?_ hg
    · exact usable_new c _ _
    · exact steady_var _ _ _
    · intro i hi
      simp only [List.mem_cons, List.not_mem_nil, or_false] at hi
      rcases hi with rfl | rfl
      · exact trivial
      · refine ⟨usable_new _ _ _, ?_⟩
        have : run noExt (var (c + 1) (.scalar .int)) (zeroIdx env) = some (.int k') := hkv
        simp [intValue, wrap, this, Val.asInt]
    · have : run noExt (var (c + 1) (.scalar .int)) env = some (.int k') := hkv
      simp [mapOpt, itemValue, intValue, wrap, this, Val.asInt]
  · cases hg

def noYExt : YExt Int := fun _ _ => none

/-- `@function` -/
def columnFunction : Setup (Input Int) Ty Lib (Expr Int × Nat) (Lib × Finset Sym × YExpr Int) (YVal Int) Frontend.Err :=
  decorated defaultOpts noYExt (fun _ _ => true) 20 30 none column

def matrix (rows : List (List Int)) : Input Int :=
  if h : (rows.flatten.map Scal.f).length = rows.length * (rows.headD []).length then
    ⟨.float, ⟨[rows.length, (rows.headD []).length], rows.flatten.map Scal.f, by simpa using h⟩⟩ else ⟨.float, .scalar (.f 0)⟩
def position (k : Int) : Input Int := ⟨.int, .scalar (.i k)⟩

def first : List (Input Int) := [matrix [[1, 2], [3, 4], [5, 6]], position 1]
def second : List (Input Int) := [matrix [[10, 20, 30], [40, 50, 60]], position 2]

/-- `column.numpy(m, 1)`, `column.jax(m, 1)`, `column.numpy(m', 2)`, `column.torch(m', 2)` -/
def history : List (List (Input Int) × Lib) := [(first, .numpy), (first, .jax), (second, .numpy), (second, .torch)]

/-- The third call uses the code of the first. -/
theorem history_traces : traces columnFunction (FState.init 0) history = [(([matrixTy, .scalar .int], .numpy), 0),
    (([matrixTy, .scalar .int], .jax), 3), (([matrixTy, .scalar .int], .torch), 6)] := by decide +kernel

/-- The conditions of the theorem, by evaluation. -/
def supportedB (e : Expr Int) (c : Nat) (l : List (Nat × Ty × D Int × A Int)) : Bool :=
  (Phi.typeOf e).isSome && declB e (inputTypes l) && decide (NoShadow e) &&
  (Midend.occurrences e).all C11Example.noExtAt &&
  decide ((∀ s ∈ binders e, inputTypes l s = none) ∧ (∀ s ∈ binders e, symNum s < c) ∧ ∀ q ∈ l, q.1 < c) &&
  (structOfArrays 20 c e).any (fun q => inputsOk l && lexical q (inputSyms l) && (Phi.typeOf q).isSome &&
    declB q (inputTypes l) && (check defaultOpts noExt false q (fun _ => 0) (inputValues l)).isSome &&
    (compileProgram (evenPairs defaultOpts) 30 q).isSome &&
    decide (Cacheable (program defaultOpts) (reach (program defaultOpts) 20 q) q)) &&
  (cachedNumpyCode defaultOpts 20 c 30 e).all noCompare20 &&
  (carefulRun defaultOpts noYExt 20 c 30 e (inputArrays l)).isSome

theorem supported_of {e : Expr Int} {c : Nat} {l : List (Nat × Ty × D Int × A Int)} {lib : Lib}
    (h : supportedB e c l = true) : Supported defaultOpts noExt noYExt 20 30 lib e c l := by
  simp only [supportedB, Bool.and_eq_true, Option.any_eq_true, decide_eq_true_eq, List.all_eq_true] at h
  obtain ⟨⟨⟨⟨⟨⟨⟨h1, h2⟩, h3⟩, h4⟩, h5, h6, h7⟩, q, hq, ⟨⟨⟨⟨⟨h8, h9⟩, h10⟩, h11⟩, h12⟩, h13⟩, h14⟩, h15⟩, h16⟩ := h
  obtain ⟨τ, hτ⟩ := Option.isSome_iff_exists.1 h10
  obtain ⟨v, hv⟩ := Option.isSome_iff_exists.1 h12
  obtain ⟨y, hy⟩ := Option.isSome_iff_exists.1 h13
  exact {
    input := C11Example.soaInput_of h1 h2 h3 h5 h4 h6 (fun q hq => by
      obtain ⟨q', hq', rfl⟩ := List.mem_map.1 hq
      exact h7 q' hq')
    compiled := ⟨q, τ, v, y, _, hq, .of_inputs l h8 h9 hτ (declB_declared _ _ _ h11) hv hy
      (.standard inferInstance inferInstance inferInstance inferInstance true true same6 new7 rfl), h14⟩
    inplace := fun _ e' he => noCompare20_of (by rw [he] at h15; exact h15)
    agree := fun _ => h16 }

/-- The conditions hold for every call of the history. -/
theorem supported_calls : ∀ c ∈ [0, 3, 6], ((withVarargs column [matrixTy, .scalar .int] c).all fun r =>
    supportedB r.1.2 r.2 (inputsOf r.1.1 first [.vec [floats [1, 2], floats [3, 4], floats [5, 6]], .int 1]) &&
    supportedB r.1.2 r.2 (inputsOf r.1.1 second [.vec [floats [10, 20, 30], floats [40, 50, 60]], .int 2])) = true := by
  decide +kernel

/-- What the calls return. -/
theorem history_results : ((calls columnFunction (FState.init 0) history).1.map fun r => match r with | .ok y => some y | .error _ => none) =
    [some (.arr ⟨[3], [2, 4, 6].map Scal.f, rfl⟩), some (.arr ⟨[3], [2, 4, 6].map Scal.f, rfl⟩),
      some (.arr ⟨[2], [30, 60].map Scal.f, rfl⟩), some (.arr ⟨[2], [30, 60].map Scal.f, rfl⟩)] := by decide +kernel

/-- The theorem applies to the third call, with NumPy, and to the fourth, with PyTorch: both return the column
`[30, 60]` of the second matrix. -/
example (k : Nat) (lib : Lib) (hk : (k = 2 ∧ lib = .numpy) ∨ (k = 3 ∧ lib = .torch)) : ∃ y as w l,
    (calls columnFunction (FState.init 0) history).1[k]? = some (.ok y) ∧ y = Codegen.pack as ∧ Represents w as ∧
      view l w = some (.arr [.sc (.f 30), .sc (.f 60)]) := by
  have hh : history[k]? = some (second, lib) := by rcases hk with ⟨rfl, rfl⟩ | ⟨rfl, rfl⟩ <;> rfl
  have hy : ∃ y, (calls columnFunction (FState.init 0) history).1[k]? = some (.ok y) := by
    have h1 := congrArg (·[k]?) history_results
    simp only [List.getElem?_map] at h1
    rcases hk with ⟨rfl, rfl⟩ | ⟨rfl, rfl⟩
    all_goals
      obtain ⟨r, h2, h3⟩ := Option.map_eq_some_iff.1 h1
      cases r with
      | error => cases h3
      | ok y => exact ⟨y, h2⟩
  obtain ⟨y, hy⟩ := hy
  obtain ⟨as, w, l, h⟩ := C40_calls_partial defaultOpts noExt noYExt (vectorises_none _) (fun _ _ => true) 20 30 none column
    columnOf 0 history k second lib y hh hy column_computes
    [.vec [floats [10, 20, 30], floats [40, 50, 60]], .int 2]
    [.arr [.arr [.sc (.f 10), .sc (.f 20), .sc (.f 30)], .arr [.sc (.f 40), .sc (.f 50), .sc (.f 60)]], .sc (.i 2)]
    (.arr [.sc (.f 30), .sc (.f 60)]) rfl
    (.cons ⟨hasTy_iff.1 (by decide +kernel), repsB_reps (by decide +kernel), by decide +kernel⟩
      (.cons ⟨hasTy_iff.1 (by decide +kernel), repsB_reps (by decide +kernel), by decide +kernel⟩ .nil))
    (by decide +kernel) (by
      intro c vars e c' hc hw
      refine supported_of ?_
      have hc' : c ∈ [0, 3, 6] := by
        have h1 : ((second.map Input.type, lib), c) ∈ traces columnFunction (FState.init 0) history := hc
        rw [history_traces] at h1
        simp only [List.mem_cons, Prod.mk.injEq, List.not_mem_nil, or_false] at h1
        rcases h1 with h | h | h <;> simp [h.2]
      have h1 := supported_calls c hc'
      have hw' : withVarargs column [matrixTy, .scalar .int] c = some ((vars, e), c') := hw
      rw [hw'] at h1
      simp only [Option.all_some, Bool.and_eq_true] at h1
      exact h1.2)
  exact ⟨y, as, w, l, hy, h⟩

end C40Example
end Verif.Props
