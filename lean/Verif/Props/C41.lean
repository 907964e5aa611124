import Verif.Frontend.ScriptAuto
import Verif.Frontend.ScriptTraces
import Verif.Props.C40

/-!
C41 — programs of the user.

A Python function written with the library's operations on numbers, arrays and records (`Script`), decorated with
`@function` or `@typed_function`: tracing it does not raise and makes a well-formed program, and calls of it return
arrays that represent what the function says on nested lists and records. This is C40 without its hypotheses on the
user's function.
-/

set_option linter.unusedSectionVars false

namespace Verif.Props
open Verif.Phi Verif.Term Verif.Midend Verif.Codegen Verif.Frontend Verif.Yarr Verif.Arr Verif.Backend
variable {F : Type} [FloatOps F] [DecidableEq F]

/-! ### Specification -/

/-- A number, or an array of numbers. -/
def isArray : UTy → Bool
  | .sc _ => true
  | .arr t => isArray t
  | .record _ _ => false

/-- The type of an array that is passed. -/
def arrayTy : Nat → Kind → UTy
  | 0, k => .sc k
  | r + 1, k => .arr (arrayTy r k)

def inputTy (a : Input F) : UTy := arrayTy a.array.shape.length a.kind

/-- What remains to be asked of a traced program and inputs: the conditions of C01 and C35 on the program without records,
of C20 for NumPy and of C30 for PyTorch. -/
structure Compiles (o : Opts F) (I : Ext F) (J : YExt F) (n fuel : Nat) (lib : Lib) (e : Expr F) (c : Nat)
    (l : List (Nat × Ty × D F × A F)) : Prop where
  compiled : ∃ q τ v y L, structOfArrays n c e = some q ∧
    Setting o I fuel q (inputSyms l) (inputTypes l) τ (inputValues l) (inputArrays l) v y ∧ Cacheable (program o) L q
  inplace : lib = .numpy → ∀ e', cachedNumpyCode o n c fuel e = some e' → NoInplaceCompare e'
  agree : lib = .torch → (carefulRun o J n c fuel e (inputArrays l)).isSome = true

/-! ### Proof -/

theorem isArray_layout : ∀ {t : UTy}, isArray t = true → unambiguous t.ty = some t.layout
  | .sc _, _ => rfl
  | .arr t, h => by simp only [UTy.ty, unambiguous, isArray_layout (t := t) h, Option.map_some, UTy.layout]
  | .record _ _, h => by cases h

theorem arrayTy_isArray (r : Nat) (k : Kind) : isArray (arrayTy r k) = true := by
  induction r with
  | zero => rfl
  | succ r ih => exact ih

theorem inputTy_ty (a : Input F) : (inputTy a).ty = a.type := by
  have : ∀ r k, (arrayTy r k).ty = ndarrayType r k := by
    intro r k
    induction r with
    | zero => rfl
    | succ r ih => simp [arrayTy, UTy.ty, ndarrayType, ih]
  exact this _ _

theorem inputTys (as : List (Input F)) : (as.map inputTy).map UTy.ty = as.map Input.type := by
  simp [List.map_map, Function.comp_def, inputTy_ty]

/-- The variables that are the arguments. -/
def argCtx (c : Nat) (τs : List Ty) : TCtx
  | .var x => if c ≤ x then τs[x - c]? else none
  | .idx _ => none

theorem argCtx_below (c : Nat) (τs : List Ty) : Below (argCtx c τs) (c + τs.length) := by
  refine ⟨fun s hs => ?_, fun i σ hσ => by cases hσ⟩
  cases s with
  | idx i => exact absurd rfl hs
  | var x =>
    simp only [argCtx] at hs
    split at hs
    · obtain ⟨τ, hτ⟩ := Option.ne_none_iff_exists'.1 hs
      have := (List.getElem?_eq_some_iff.1 hτ).1
      simp only [symNum]
      omega
    · exact absurd rfl hs

theorem argCtx_inputs : ∀ (as : List (Input F)) (ws : List (D F)) (c : Nat), as.length = ws.length →
    inputTypes (inputsOf (List.range' c as.length) as ws) = argCtx c (as.map Input.type)
  | [], [], c, _ => by
    funext s
    cases s <;> simp [inputTypes, inputsOf, ctxOf, argCtx]
  | a :: as, w :: ws, c, h => by
    have ih := argCtx_inputs as ws (c + 1) (by simpa using h)
    funext s
    cases s with
    | idx i => rfl
    | var x =>
      have hx := congrFun ih (.var x)
      simp only [inputTypes, ctxOf, argCtx] at hx
      simp only [List.length_cons, List.range'_succ, inputsOf, inputTypes, List.map_cons, ctxOf, argCtx, List.find?_cons]
      by_cases hc : c = x
      · subst hc; simp
      · rw [decide_eq_false hc]
        simp only [hx]
        by_cases hl : c ≤ x
        · rw [if_pos (show c + 1 ≤ x by omega), if_pos hl, show x - c = (x - (c + 1)) + 1 by omega, List.getElem?_cons_succ]
        · rw [if_neg (show ¬ c + 1 ≤ x by omega), if_neg hl]

theorem args_has {I : Ext F} {Γ : TCtx} {c' : Nat} : ∀ (ts : List UTy) (c : Nat), (∀ t ∈ ts, isArray t = true) →
    (∀ (j : Nat) τ, (ts.map UTy.ty)[j]? = some τ → Γ (.var (c + j)) = some τ) →
    ∃ args, argObjs c (ts.map UTy.ty) = some args ∧ List.Forall₂ (Has I Γ c') ts args ∧
      ∀ lv, List.Forall₂ (fun d (o : Obj F) => o.Comp (IdxIn lv d)) (ts.map fun _ => []) args
  | [], _, _, _ => ⟨[], rfl, .nil, fun _ => .nil⟩
  | t :: ts, c, ha, hΓ => by
    obtain ⟨args, h1, h2, h3⟩ := args_has (I := I) (Γ := Γ) (c' := c') ts (c + 1) (fun t ht => ha t (by simp [ht])) (fun j τ hj => by
      have := hΓ (j + 1) τ (by simpa using hj)
      rwa [show c + 1 + j = c + (j + 1) by omega])
    have hl := isArray_layout (ha t (by simp))
    refine ⟨unpack t.layout (var c t.ty) :: args, by simp only [List.map_cons, argObjs, hl, h1, Option.bind_some, Option.map_some],
      .cons (Sane.unpack (unambiguous_ok hl) (Sane.store (hΓ 0 t.ty rfl))) h2, fun lv => ?_⟩
    exact .cons (IdxIn.unpacked _ IdxIn.var) (h3 lv)

theorem args_ok {ts : List UTy} (ha : ∀ t ∈ ts, isArray t = true) : ∀ t ∈ ts, t.layout.ok = true :=
  fun t ht => unambiguous_ok (isArray_layout (ha t ht))

theorem args_ctx (c : Nat) (τs : List Ty) : ∀ (j : Nat) τ, τs[j]? = some τ → argCtx c τs (.var (c + j)) = some τ := by
  intro j τ h
  simpa [argCtx] using h

theorem fine_extFlat {I : Ext F} {Γ : TCtx} {e : Expr F} (h : Fine false I e Γ) : ExtFlat e := by
  induction h with
  | @node h ts Γ τ ht _ hok _ hch ih =>
    intro fn σ us ho
    cases ho with
    | refl => exact hok.1
    | child hm ho =>
      obtain ⟨k, hk⟩ := List.getElem?_of_mem hm
      exact ih k _ hk fn σ us ho

theorem sane_soaInput {I : Ext F} {Γ : TCtx} {c : Nat} {e : Expr F} {τ : Ty} (h : Frontend.Sane I Γ c e τ) (hΓ : Below Γ c) :
    SoaInput I e Γ c where
  typed := ⟨τ, h.typed⟩
  declared := h.fine.declared
  noShadow := h.noShadow
  binders := h.fine.binders_out
  extFlat := fine_extFlat h.fine
  below := h.below
  ctxBelow := hΓ.lt

theorem exprOf_sane {I : Ext F} {Γ : TCtx} {c : Nat} {t : UTy} {o : Obj F} {e : Expr F} (h : Has I Γ c t o) (he : exprOf o = some e) :
    Frontend.Sane I Γ c e t.ty := by
  cases t with
  | sc k => obtain ⟨a, rfl, ha⟩ := h.scalar; cases he; exact ha
  | arr t => obtain ⟨a, rfl, ha⟩ := h.vec; cases he; exact ha
  | record k fs => obtain ⟨os, rfl, _⟩ := h.struct; cases he

/-! ### Properties -/

/-- C41: the arrays that a typed program makes have the value that the program says. -/
theorem C41_value (I : Ext F) (P : Script F) (ts : List UTy) (t : UTy) (ha : ∀ t ∈ ts, isArray t = true) (ht : typ P ts = some t) :
    Computes I (make P) (ts.map UTy.ty) (Frontend.sem P) := by
  intro c args o c' env vs v h1 h2 _ h4 h5
  obtain ⟨args', g1, g2, -⟩ := args_has (I := I) (Γ := argCtx c (ts.map UTy.ty)) (c' := c + (ts.map UTy.ty).length) ts c ha (args_ctx c _)
  cases g1.symm.trans h1
  exact (correct P ts t args _ _ o c' (args_ok ha) g2 (argCtx_below c _) ht h2).same env vs v h4 h5

/-- C41: tracing a typed program, in which no size of a comprehension depends on an index, does not raise if the program
returns a number or an array. -/
theorem C41_traces (P : Script F) (ts : List UTy) (t : UTy) (ha : ∀ t ∈ ts, isArray t = true) (ht : typ P ts = some t)
    (hd : (deps P 0 (ts.map fun _ => [])).isSome = true) (hr : ∀ k fs, t ≠ .record k fs) (c : Nat) :
    ∃ e c', withVarargs (make P) (ts.map UTy.ty) c = some ((List.range' c ts.length, e), c') ∧ Phi.typeOf e = some t.ty := by
  obtain ⟨x, hx⟩ := Option.isSome_iff_exists.1 hd
  obtain ⟨args, g1, g2, g3⟩ := args_has (F := F) (I := fun _ _ => none) (Γ := argCtx c (ts.map UTy.ty)) (c' := c + (ts.map UTy.ty).length) ts c ha (args_ctx c _)
  obtain ⟨o, c', hm, -⟩ := all_traces (F := F) (I := fun _ _ => none) P ts t args _ _ [] _ x (args_ok ha) g2 (argCtx_below c _) ht (g3 []) hx
  have C := correct P ts t args _ _ o c' (args_ok ha) g2 (argCtx_below c _) ht hm
  have : ∃ e, exprOf o = some e := by
    have h := C.has
    cases t with
    | sc k => obtain ⟨a, rfl, -⟩ := h.scalar; exact ⟨_, rfl⟩
    | arr t => obtain ⟨a, rfl, -⟩ := h.vec; exact ⟨_, rfl⟩
    | record k fs => exact absurd rfl (hr k fs)
  obtain ⟨e, he⟩ := this
  rw [List.length_map] at hm
  exact ⟨e, c', by simp only [withVarargs, g1, hm, Option.bind_some, he, Option.map_some, List.length_map],
    (exprOf_sane C.has he).typed⟩

/-- C41: what tracing a typed program makes is well-formed: it satisfies the conditions of C11 (a type, symbols used with the
types they were made with, no symbol bound twice on a path, new symbols above all others). -/
theorem C41_input (I : Ext F) (P : Script F) (as : List (Input F)) (ws : List (D F)) (hl : as.length = ws.length) (t : UTy)
    (ht : typ P (as.map inputTy) = some t) (c : Nat) (vars : List Nat) (e : Expr F) (c' : Nat)
    (h : withVarargs (make P) (as.map Input.type) c = some ((vars, e), c')) :
    Phi.typeOf e = some t.ty ∧ SoaInput I e (inputTypes (inputsOf vars as ws)) c' := by
  have ha : ∀ t ∈ as.map inputTy, isArray t = true := by
    simp only [List.mem_map]
    rintro t ⟨a, -, rfl⟩
    exact arrayTy_isArray _ _
  simp only [withVarargs, Option.bind_eq_some_iff, Option.map_eq_some_iff, Prod.mk.injEq] at h
  obtain ⟨args, h1, ⟨o, c''⟩, h2, e', h3, ⟨rfl, rfl⟩, rfl⟩ := h
  obtain ⟨args', g1, g2, -⟩ := args_has (I := I) (Γ := argCtx c (as.map Input.type)) (c' := c + (as.map Input.type).length)
    (as.map inputTy) c ha (by rw [inputTys]; exact args_ctx c _)
  rw [inputTys] at g1
  cases g1.symm.trans h1
  have C := correct P _ t args _ _ o c'' (args_ok ha) g2 (argCtx_below c _) ht h2
  have hS := exprOf_sane C.has h3
  refine ⟨hS.typed, ?_⟩
  rw [List.length_map, argCtx_inputs as ws c hl]
  exact sane_soaInput hS ((argCtx_below c _).mono C.grows)

/-- C41: in any history of calls of a decorated program with any of the backends, if the call with the arguments `args`
returns `y`, the program is typed, and `args` hold the values `vs`, then the arrays `y` represent what the program says on
`vs`.

What is missing: the conditions on the compiled program, see `Compiles`; that the call returns. -/
theorem C41_calls_partial (o : Opts F) (I : Ext F) (J : YExt F) (hJ : Vectorises I J) (copies : Ref → Mem F → Bool) (n fuel : Nat)
    (types : Option (List Ty)) (P : Script F) (c₀ : Nat) (hist : List (List (Input F) × Lib)) (k : Nat) (args : List (Input F))
    (lib : Lib) (y : YVal F) (hk : hist[k]? = some (args, lib))
    (hy : (calls (decorated o J copies n fuel types (make P)) (FState.init c₀) hist).1[k]? = some (.ok y))
    (t : UTy) (ht : typ P (args.map inputTy) = some t) (ws : List (D F)) (vs : List (PVal F)) (v : PVal F)
    (hl : args.length = ws.length) (hv : List.Forall₂ (fun (p : Input F × D F) v => Contains p.1 p.2 v) (args.zip ws) vs)
    (hg : Frontend.sem P vs = some v)
    (hs : ∀ c vars e c', ((args.map Input.type, lib), c) ∈ traces (decorated o J copies n fuel types (make P)) (FState.init c₀) hist →
      withVarargs (make P) (args.map Input.type) c = some ((vars, e), c') → Compiles o I J n fuel lib e c' (inputsOf vars args ws)) :
    ∃ as w l, y = Codegen.pack as ∧ Represents w as ∧ view l w = some v := by
  refine C40_calls_partial o I J hJ copies n fuel types (make P) (Frontend.sem P) c₀ hist k args lib y hk hy ?_ ws vs v hl hv hg ?_
  · have := C41_value I P (args.map inputTy) t (by
      simp only [List.mem_map]
      rintro t ⟨a, -, rfl⟩
      exact arrayTy_isArray _ _) ht
    rwa [inputTys] at this
  · intro c vars e c' h1 h2
    have h3 := hs c vars e c' h1 h2
    exact ⟨(C41_input I P args ws hl t ht c vars e c' h2).2, h3.compiled, h3.inplace, h3.agree⟩

/-! ### Example: the position of the smallest element -/

namespace C41Example
open Verif.Toy C40Example

/-- `(a, b)` -/
def tuple (a b : Script Int) : Script Int := .record .positional (.cons "0" a (.cons "1" b .nil))

/-- `(x, i)` if `x < y`, otherwise `(y, j)`, for the pairs `a = (x, i)` and `b = (y, j)` -/
def smallerPair (a b : Script Int) : Script Int :=
  .assign (.bin .lt (.part a 0) (.part b 0))
    (tuple (.choose (.loc 0) (.part (shift a) 0) (.part (shift b) 0)) (.choose (.loc 0) (.part (shift a) 1) (.part (shift b) 1)))
where
  shift : Script Int → Script Int
    | .loc n => .loc (n + 1)
    | P => P

/-- `lambda x: array(lambda i: (x[i], i), size=x.size(0)).reduce((x[0], 0), lambda a, b: ...)[1]` -/
def argmin : Script Int :=
  .part (.reduce (.array (.size (.loc 0) 0) (tuple (.item (.loc 1) (.loc 0)) (.loc 0)))
    (tuple (.item (.loc 0) (.lit (.i 0))) (.lit (.i 0))) (smallerPair (.loc 0) (.loc 1))) 1

def vector (l : List Int) : Input Int := ⟨.float, ⟨[l.length], l.map Scal.f, by simp⟩⟩

theorem argmin_typed : typ argmin [.arr (.sc .float)] = some (.sc .int) := rfl

/-- What it says: the position of the smallest element, the last one of several. -/
example : Frontend.sem argmin [.arr [.sc (.f 5), .sc (.f 2), .sc (.f 7), .sc (.f 2)]] = some (.sc (.i 3)) := by decide +kernel

/-- Tracing it never raises, and makes a program of type integer. -/
example (c : Nat) : ∃ e c', withVarargs (make argmin) [.vector (.scalar .float)] c = some (([c], e), c') ∧ Phi.typeOf e = some (.scalar .int) :=
  C41_traces argmin [.arr (.sc .float)] (.sc .int) (by simp [isArray]) argmin_typed (by decide +kernel) (by simp) c

/-- `array(lambda i: array(lambda j: j, size=i), size=x.size(0))`: the size of a comprehension depends on an index, and
tracing raises (`phi.py:323-333`). -/
def triangle : Script Int := .array (.size (.loc 0) 0) (.array (.loc 0) (.loc 0))

example : (typ triangle [.arr (.sc .float)]).isSome = true ∧ deps triangle 0 [[]] = none ∧
    withVarargs (make triangle) [.vector (.scalar .float)] 0 = none := by decide +kernel

/-- A function that returns a record raises (`functions.py:19`, `ndarray.py:401-407`). -/
example : (typ (.record .positional (.cons "0" (.loc 0) .nil) : Script Int) [.sc .float]).isSome = true ∧
    withVarargs (make (.record .positional (.cons "0" (.loc 0) .nil) : Script Int)) [.scalar .float] 0 = none := by decide +kernel

def reducing : Opts Int :=
  { defaultOpts with
    batch := fun x => x + 100
    same := fun v w => decide (v = w)
    same_eq := fun _ _ h => of_decide_eq_true h }

/-- `@function` -/
def argminFunction : Setup (Input Int) Ty Lib (Expr Int × Nat) (Lib × Finset Sym × YExpr Int) (YVal Int) Frontend.Err :=
  decorated reducing noYExt (fun _ _ => true) 20 30 none (make argmin)

def three : List (Input Int) := [vector [5, 2, 7]]
def two : List (Input Int) := [vector [4, 1]]

/-- `argmin.numpy(x)`, `argmin.numpy(y)`, `argmin.jax(y)` -/
def history : List (List (Input Int) × Lib) := [(three, .numpy), (two, .numpy), (two, .jax)]

theorem history_traces : (traces argminFunction (FState.init 0) history).map Prod.fst = [([.vector (.scalar .float)], .numpy),
    ([.vector (.scalar .float)], .jax)] := by decide +kernel

/-- The conditions of the theorem, by evaluation. -/
def compilesB (e : Expr Int) (c : Nat) (l : List (Nat × Ty × D Int × A Int)) : Bool :=
  (structOfArrays 20 c e).any (fun q => inputsOk l && lexical q (inputSyms l) && (Phi.typeOf q).isSome &&
    declB q (inputTypes l) && (check reducing noExt false q (fun _ => 0) (inputValues l)).isSome &&
    (compileProgram (evenPairs reducing) 30 q).isSome &&
    decide (Cacheable (program reducing) (reach (program reducing) 20 q) q)) &&
  (cachedNumpyCode reducing 20 c 30 e).all noCompare20 &&
  (carefulRun reducing noYExt 20 c 30 e (inputArrays l)).isSome

theorem compiles_of {e : Expr Int} {c : Nat} {l : List (Nat × Ty × D Int × A Int)} {lib : Lib}
    (h : compilesB e c l = true) : Compiles reducing noExt noYExt 20 30 lib e c l := by
  simp only [compilesB, Bool.and_eq_true, Option.any_eq_true, decide_eq_true_eq] at h
  obtain ⟨⟨⟨q, hq, ⟨⟨⟨⟨⟨h8, h9⟩, h10⟩, h11⟩, h12⟩, h13⟩, h14⟩, h15⟩, h16⟩ := h
  obtain ⟨τ, hτ⟩ := Option.isSome_iff_exists.1 h10
  obtain ⟨v, hv⟩ := Option.isSome_iff_exists.1 h12
  obtain ⟨y, hy⟩ := Option.isSome_iff_exists.1 h13
  exact {
    compiled := ⟨q, τ, v, y, _, hq, .of_inputs l h8 h9 hτ (declB_declared _ _ _ h11) hv hy
      (.standard inferInstance inferInstance inferInstance inferInstance true true same6 new7 rfl), h14⟩
    inplace := fun _ e' he => noCompare20_of (by rw [he] at h15; exact h15)
    agree := fun _ => h16 }

theorem compiles_calls : ((traces argminFunction (FState.init 0) history).all fun s =>
    (withVarargs (make argmin) [.vector (.scalar .float)] s.2).all fun r =>
      compilesB r.1.2 r.2 (inputsOf r.1.1 two [floats [4, 1]])) = true := by
  decide +kernel

theorem history_results : ((calls argminFunction (FState.init 0) history).1.map fun r => match r with | .ok y => some y | .error _ => none) =
    [some (.arr (.scalar (.i 1))), some (.arr (.scalar (.i 1))), some (.arr (.scalar (.i 1)))] := by
  decide +kernel

/-- The theorem applies to the second call, with NumPy and the code of the first call, and to the third, with JAX. -/
example (k : Nat) (lib : Lib) (hk : (k = 1 ∧ lib = .numpy) ∨ (k = 2 ∧ lib = .jax)) : ∃ y as w l,
    (calls argminFunction (FState.init 0) history).1[k]? = some (.ok y) ∧ y = Codegen.pack as ∧ Represents w as ∧
      view l w = some (.sc (.i 1)) := by
  have hh : history[k]? = some (two, lib) := by rcases hk with ⟨rfl, rfl⟩ | ⟨rfl, rfl⟩ <;> rfl
  have hy : ∃ y, (calls argminFunction (FState.init 0) history).1[k]? = some (.ok y) := by
    have h1 := congrArg (·[k]?) history_results
    simp only [List.getElem?_map] at h1
    rcases hk with ⟨rfl, rfl⟩ | ⟨rfl, rfl⟩
    all_goals
      obtain ⟨r, h2, h3⟩ := Option.map_eq_some_iff.1 h1
      cases r with
      | error => cases h3
      | ok y => exact ⟨y, h2⟩
  obtain ⟨y, hy⟩ := hy
  obtain ⟨as, w, l, h⟩ := C41_calls_partial reducing noExt noYExt (vectorises_none _) (fun _ _ => true) 20 30 none argmin
    0 history k two lib y hh hy (.sc .int) argmin_typed [floats [4, 1]]
    [.arr [.sc (.f 4), .sc (.f 1)]] (.sc (.i 1)) rfl
    (.cons ⟨hasTy_iff.1 (by decide +kernel), repsB_reps (by decide +kernel), by decide +kernel⟩ .nil)
    (by decide +kernel) (by
      intro c vars e c' hc hw
      refine compiles_of ?_
      have h1 := List.all_eq_true.1 compiles_calls _ hc
      have hw' : withVarargs (make argmin) [.vector (.scalar .float)] c = some ((vars, e), c') := hw
      rw [hw'] at h1
      exact h1)
  exact ⟨y, as, w, l, hy, h⟩

end C41Example

end Verif.Props
