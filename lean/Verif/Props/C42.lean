import Verif.Frontend.ScriptGives
import Verif.Props.C41

/-!
C42 — sizes can be left out.

Programs of the user in which `array` and `fold` are called without sizes: if what the library builds has a value, it is the
value of the program in which every size that was left out is that of an array that is read at the index. So the sizes the
library infers are the sizes the user means. There is a value if all arrays that are read at an index have equal sizes.
-/

set_option linter.unusedSectionVars false

namespace Verif.Props
open Verif.Phi Verif.Term Verif.Midend Verif.Codegen Verif.Frontend Verif.Yarr Verif.Arr Verif.Backend
variable {F : Type} [FloatOps F] [DecidableEq F]

/-! ### Specification -/

/-- The user's function computes nothing but `g` on arguments of types `τs`: applied to arrays that are variables, it returns
an object, whose value — if there is one — is `g` of the values of the variables. -/
def ComputesOnly (I : Ext F) (f : List (Obj F) → Py (Obj F)) (τs : List Ty) (g : List (PVal F) → Option (PVal F)) : Prop :=
  ∀ c args o c' env vs v w, argObjs c τs = some args → f args (c + τs.length) = some (o, c') → RegularEnv env →
    Phi.mapOpt (value I env) args = some vs → g vs = some v → value I env o = some w → w = v

/-! ### Proof -/

mutual
theorem conforms_view : ∀ (l : Layout) {d : D F} {v : PVal F}, Val.Regular d → view l d = some v → Conforms l v
  | .atom, d, v, _, h => by
    cases d <;> simp [view] at h
    subst h
    exact conforms_sc
  | .vec sub, d, v, hr, h => by
    cases d with
    | vec vs =>
      simp only [view, Option.map_eq_some_iff] at h
      obtain ⟨xs, h1, rfl⟩ := h
      cases hr with
      | vec hu hr =>
        have key : ∀ x ∈ xs, ∃ d ∈ vs, view sub d = some x := by
          intro x hx
          obtain ⟨i, hi⟩ := List.getElem?_of_mem hx
          rw [mapOpt_getElem? h1] at hi
          obtain ⟨d, hd, hx⟩ := Option.bind_eq_some_iff.1 hi
          exact ⟨d, List.mem_of_getElem? hd, hx⟩
        simp only [Conforms]
        refine ⟨fun x hx => ?_, fun a ha b hb => ?_⟩
        · obtain ⟨d, hd, h2⟩ := key x hx
          exact conforms_view sub (hr d hd) h2
        · obtain ⟨d, hd, h2⟩ := key a ha
          obtain ⟨d', hd', h3⟩ := key b hb
          exact sameShape_of_view sub h2 h3 (Val.uniform_iff.1 hu d hd d' hd')
    | _ => simp [view] at h
  | .struct k ls, d, v, hr, h => by
    simp only [view, Option.map_eq_some_iff] at h
    obtain ⟨xs, h1, rfl⟩ := h
    simp only [Conforms, true_and]
    exact conforms_viewFields ls hr h1
theorem conforms_viewFields : ∀ (l : LFields) {d : D F} {v : List (String × PVal F)}, Val.Regular d → viewFields l d = some v → ConformsF l v
  | .nil, d, v, _, h => by simp [viewFields] at h
  | .cons n l .nil, d, v, hr, h => by
    simp only [viewFields, Option.map_eq_some_iff] at h
    obtain ⟨x, h1, rfl⟩ := h
    simp only [ConformsF, and_true, true_and]
    exact conforms_view l hr h1
  | .cons n l (.cons m l' rest), d, v, hr, h => by
    cases d with
    | pair a b =>
      simp only [viewFields, Option.bind_eq_some_iff, Option.map_eq_some_iff] at h
      obtain ⟨x, h1, xs, h2, rfl⟩ := h
      cases hr with
      | pair ha hb =>
        rw [ConformsF]
        exact ⟨rfl, conforms_view l ha h1, conforms_viewFields (.cons m l' rest) hb h2⟩
    | _ => simp [viewFields] at h
end

/-- The arguments, as objects. -/
theorem args_agree {I : Ext F} {env : Env (D F)} (hE : RegularEnv env) : ∀ (ts : List UTy) (c : Nat) (args : List (Obj F)) (vs : List (PVal F)),
    (∀ t ∈ ts, isArray t = true) → argObjs c (ts.map UTy.ty) = some args → Phi.mapOpt (value I env) args = some vs →
    List.Forall₂ (Agree I env) args vs ∧ List.Forall₂ (fun t v => Conforms t.layout v) ts vs
  | [], _, args, vs, _, h, hv => by
    cases h
    cases hv
    exact ⟨.nil, .nil⟩
  | t :: ts, c, args, vs, ha, h, hv => by
    have hl := isArray_layout (ha t (by simp))
    simp only [List.map_cons, argObjs, hl, Option.bind_some, Option.map_eq_some_iff] at h
    obtain ⟨args, h, rfl⟩ := h
    simp only [Phi.mapOpt, Option.bind_eq_some_iff] at hv
    obtain ⟨v, hv, vs', hvs, heq⟩ := hv
    cases heq
    obtain ⟨h1, h2⟩ := args_agree hE ts (c + 1) args vs' (fun t ht => ha t (by simp [ht])) h hvs
    rw [value_unpack I env _ (unambiguous_ok hl)] at hv
    obtain ⟨d, hd, hv⟩ := Option.bind_eq_some_iff.1 hv
    have hc : Conforms t.layout v := conforms_view _ (hE (.var c) d hd) hv
    have hA : AgreeE I env t.layout (var c t.ty) v := by
      intro d' hd'
      cases hd.symm.trans hd'
      exact hv
    exact ⟨.cons (agree_unpack _ (unambiguous_ok hl) hc hA (dims_other hA (by simp) (by simp))) h1, .cons hc h2⟩

/-- What a typed program makes agrees with the program with the sizes filled in. -/
theorem traced_agree (I : Ext F) (P : Script F) (ts : List UTy) (t : UTy) (ha : ∀ t ∈ ts, isArray t = true) (ht : typ P ts = some t)
    (hd : (deps P 0 (ts.map fun _ => [])).isSome = true) {c : Nat} {args : List (Obj F)} {o : Obj F} {c' : Nat} {env : Env (D F)}
    {vs : List (PVal F)} {v : PVal F} (h1 : argObjs c (ts.map UTy.ty) = some args) (h2 : make P args (c + (ts.map UTy.ty).length) = some (o, c'))
    (hE : RegularEnv env) (h4 : Phi.mapOpt (value I env) args = some vs) (h5 : Frontend.sem (fill P) vs = some v) : Agree I env o v := by
  obtain ⟨x, hx⟩ := Option.isSome_iff_exists.1 hd
  obtain ⟨args', g1, g2, g3⟩ := args_has (I := I) (Γ := argCtx c (ts.map UTy.ty)) (c' := c + (ts.map UTy.ty).length) ts c ha (args_ctx c _)
  cases g1.symm.trans h1
  obtain ⟨a1, a2⟩ := args_agree hE ts c args vs ha h1 h4
  exact agrees P ts t args _ _ o c' [] _ x ⟨args_ok ha, g2, argCtx_below c _, g3 []⟩ ht h2 hx env vs v a1 a2 h5

theorem agree_defined {I : Ext F} {env : Env (D F)} {o : Obj F} {e : Expr F} {v : PVal F} (h : Agree I env o v) (he : exprOf o = some e)
    (hd : (run I e env).isSome = true) : value I env o = some v := by
  obtain ⟨d, hd⟩ := Option.isSome_iff_exists.1 hd
  cases o with
  | scalar a =>
    cases he
    simp only [Frontend.Agree] at h
    simp only [value, hd, Option.bind_some, h d hd]
  | vec e' sub =>
    cases he
    simp only [Frontend.Agree] at h
    simp only [value, hd, Option.bind_some, h.1 d hd]
  | raw u τ => simp [Frontend.Agree] at h
  | struct k fs => cases he

/-- The arguments have values, and so have the expressions for their sizes. -/
theorem args_given {I : Ext F} {env : Env (D F)} : ∀ (ts : List UTy) (c : Nat) (args : List (Obj F)) (vs : List (PVal F)),
    (∀ t ∈ ts, isArray t = true) → argObjs c (ts.map UTy.ty) = some args → Phi.mapOpt (value I env) args = some vs →
    List.Forall₂ (Given I env) args vs
  | [], _, args, vs, _, h, hv => by
    cases h
    cases hv
    exact .nil
  | t :: ts, c, args, vs, ha, h, hv => by
    have hl := isArray_layout (ha t (by simp))
    simp only [List.map_cons, argObjs, hl, Option.bind_some, Option.map_eq_some_iff] at h
    obtain ⟨args, h, rfl⟩ := h
    simp only [Phi.mapOpt, Option.bind_eq_some_iff] at hv
    obtain ⟨v, hv, vs', hvs, heq⟩ := hv
    cases heq
    exact .cons ⟨hv, measured_unpack _ (measured_other (by simp))⟩ (args_given ts (c + 1) args vs' (fun t ht => ha t (by simp [ht])) h hvs)

/-! ### Properties -/

/-- C42: the arrays that a typed program with sizes left out makes have the value that the program tells, where the size along an
index is the common size of all arrays that are read at it. The hypothesis `hs` says that those arrays do not depend on an
index, and that the index is used in no other way but in scalar operations. -/
theorem C42_value (I : Ext F) (P : Script F) (ts : List UTy) (t : UTy) (ha : ∀ t ∈ ts, isArray t = true) (ht : typ P ts = some t)
    (hd : (deps P 0 (ts.map fun _ => [])).isSome = true) (hs : settled P 0 (ts.map fun _ => []) = true) :
    Computes I (make P) (ts.map UTy.ty) (tells P) := by
  intro c args o c' env vs v h1 h2 hE h4 h5
  obtain ⟨x, hx⟩ := Option.isSome_iff_exists.1 hd
  obtain ⟨args', g1, g2, g3⟩ := args_has (I := I) (Γ := argCtx c (ts.map UTy.ty)) (c' := c + (ts.map UTy.ty).length) ts c ha (args_ctx c _)
  cases g1.symm.trans h1
  exact (gives P ts t args _ _ o c' [] _ x ⟨args_ok ha, g2, argCtx_below c _, g3 []⟩ ht h2 hx hs env vs v (args_given ts c args vs ha h1 h4)
    (args_agree hE ts c args vs ha h1 h4).2 h5).1

/-- C42: what a program with sizes left out tells is what the program with the sizes filled in says. -/
theorem C42_filled (P : Script F) (ts : List UTy) (t : UTy) (ht : typ P ts = some t) (vs : List (PVal F)) (v : PVal F) (hv : tells P vs = some v) :
    Frontend.sem (fill P) vs = some v := tells_fill P ht hv

/-- C42: if the arrays that a typed program with sizes left out makes have a value, it is the value of the program in which
every size that was left out is that of an array that is read at the index. (That tracing does not raise is `C41_traces`.)

What is missing: when there is a value, for which see `C42_value`. There is none where arrays of different sizes are read at an
index: see `C42_sizes_differ`. -/
theorem C42_value_partial (I : Ext F) (P : Script F) (ts : List UTy) (t : UTy) (ha : ∀ t ∈ ts, isArray t = true) (ht : typ P ts = some t)
    (hd : (deps P 0 (ts.map fun _ => [])).isSome = true) : ComputesOnly I (make P) (ts.map UTy.ty) (fun vs => Frontend.sem (fill P) vs) := by
  intro c args o c' env vs v w h1 h2 hE h4 h5 h6
  exact (traced_agree I P ts t ha ht hd h1 h2 hE h4 h5).value h6

/-- C42: in any history of calls of a decorated program with sizes left out, with any of the backends, if the call with the
arguments `args` returns `y`, the program is typed, and `args` hold the values `vs`, then the arrays `y` represent what the
program, with the sizes of the arrays that are read, says on `vs`.

What is missing: the conditions on the compiled program, see `Compiles`; that the traced expression has a value and that the
call returns. -/
theorem C42_calls_partial (o : Opts F) (I : Ext F) (J : YExt F) (hJ : Vectorises I J) (copies : Ref → Mem F → Bool) (n fuel : Nat)
    (types : Option (List Ty)) (P : Script F) (c₀ : Nat) (hist : List (List (Input F) × Lib)) (k : Nat) (args : List (Input F))
    (lib : Lib) (y : YVal F) (hk : hist[k]? = some (args, lib))
    (hy : (calls (decorated o J copies n fuel types (make P)) (FState.init c₀) hist).1[k]? = some (.ok y))
    (t : UTy) (ht : typ P (args.map inputTy) = some t) (hd : (deps P 0 (args.map fun _ => [])).isSome = true)
    (ws : List (D F)) (vs : List (PVal F)) (v : PVal F)
    (hl : args.length = ws.length) (hv : List.Forall₂ (fun (p : Input F × D F) v => Contains p.1 p.2 v) (args.zip ws) vs)
    (hg : Frontend.sem (fill P) vs = some v)
    (hs : ∀ c vars e c', ((args.map Input.type, lib), c) ∈ traces (decorated o J copies n fuel types (make P)) (FState.init c₀) hist →
      withVarargs (make P) (args.map Input.type) c = some ((vars, e), c') → Compiles o I J n fuel lib e c' (inputsOf vars args ws) ∧
        (run I e (inputValues (inputsOf vars args ws))).isSome = true) :
    ∃ as w l, y = Codegen.pack as ∧ Represents w as ∧ view l w = some v := by
  have ha : ∀ t ∈ args.map inputTy, isArray t = true := by
    simp only [List.mem_map]
    rintro t ⟨a, -, rfl⟩
    exact arrayTy_isArray _ _
  refine calls_value o I J hJ copies n fuel types (make P) c₀ hist k args lib y hk hy ws vs v hl hv ?_ ?_
  · rintro c objs r c' e hc ho hr he env rfl hE hvs
    have hw : withVarargs (make P) (args.map Input.type) c = some ((List.range' c args.length, e), c') := by
      simp only [withVarargs, ho, Option.bind_some]
      rw [hr]
      simp only [Option.bind_some, he, Option.map_some, List.length_map]
    refine agree_defined (traced_agree (c := c) (c' := c') I P (args.map inputTy) t ha ht ?_ ?_ ?_ hE hvs hg) he (hs c _ e c' hc hw).2
    · simpa [List.map_map, Function.comp_def] using hd
    · rw [inputTys]; exact ho
    · rw [inputTys]; exact hr
  · intro c vars e c' h1 h2
    have h3 := (hs c vars e c' h1 h2).1
    exact ⟨(C41_input I P args ws hl t ht c vars e c' h2).2, h3.compiled, h3.inplace, h3.agree⟩

/-- C42: in any history of calls of a decorated program with sizes left out, with any of the backends, if the call with the
arguments `args` returns `y`, the program is typed, and `args` hold the values `vs`, then the arrays `y` represent what the
program tells on `vs`, where sizes are those of all arrays that are read.

What is missing: the conditions on the compiled program, see `Compiles`, and that the call returns. -/
theorem C42_calls_tell_partial (o : Opts F) (I : Ext F) (J : YExt F) (hJ : Vectorises I J) (copies : Ref → Mem F → Bool) (n fuel : Nat)
    (types : Option (List Ty)) (P : Script F) (c₀ : Nat) (hist : List (List (Input F) × Lib)) (k : Nat) (args : List (Input F))
    (lib : Lib) (y : YVal F) (hk : hist[k]? = some (args, lib))
    (hy : (calls (decorated o J copies n fuel types (make P)) (FState.init c₀) hist).1[k]? = some (.ok y))
    (t : UTy) (ht : typ P (args.map inputTy) = some t) (hd : (deps P 0 (args.map fun _ => [])).isSome = true)
    (hst : settled P 0 (args.map fun _ => []) = true) (ws : List (D F)) (vs : List (PVal F)) (v : PVal F)
    (hl : args.length = ws.length) (hv : List.Forall₂ (fun (p : Input F × D F) v => Contains p.1 p.2 v) (args.zip ws) vs)
    (hg : tells P vs = some v)
    (hs : ∀ c vars e c', ((args.map Input.type, lib), c) ∈ traces (decorated o J copies n fuel types (make P)) (FState.init c₀) hist →
      withVarargs (make P) (args.map Input.type) c = some ((vars, e), c') → Compiles o I J n fuel lib e c' (inputsOf vars args ws)) :
    ∃ as w l, y = Codegen.pack as ∧ Represents w as ∧ view l w = some v := by
  refine C40_calls_partial o I J hJ copies n fuel types (make P) (tells P) c₀ hist k args lib y hk hy ?_ ws vs v hl hv hg ?_
  · have := C42_value I P (args.map inputTy) t (by
      simp only [List.mem_map]
      rintro t ⟨a, -, rfl⟩
      exact arrayTy_isArray _ _) ht (by simpa [List.map_map, Function.comp_def] using hd) (by simpa [List.map_map, Function.comp_def] using hst)
    rw [inputTys] at this
    exact this
  · intro c vars e c' h1 h2
    have h3 := hs c vars e c' h1 h2
    exact ⟨(C41_input I P args ws hl t ht c vars e c' h2).2, h3.compiled, h3.inplace, h3.agree⟩

/-! ### Examples -/

namespace C42Example
open Verif.Toy C40Example C41Example

/-- `lambda x, y: array(lambda i, j: fold(0.0, lambda k, acc: acc + x[i, k] * y[k, j]))`: the matrix product.
`x[i, k]` is `x[i][k]`. -/
def product : Script Int :=
  .auto 1 (.autoFold (.lit (.f 0)) (.bin .add (.loc 1) (.bin .mul (.item (.item (.loc 4) (.loc 3)) (.loc 0)) (.item (.item (.loc 5) (.loc 0)) (.loc 2)))))

/-- The sizes are `x.size(0)`, `y.size(1)` and `x.size(1)`. -/
example : fill product = .array (.size (.loc 0) 0) (.array (.size (.loc 2) 1) (.fold (.size (.loc 2) 1) (.lit (.f 0))
    (.bin .add (.loc 1) (.bin .mul (.item (.item (.loc 4) (.loc 3)) (.loc 0)) (.item (.item (.loc 5) (.loc 0)) (.loc 2)))))) := rfl

/-- With a comprehension in a comprehension, the sizes are the same. -/
example : fill (.auto 0 (.auto 0 (.autoFold (.lit (.f 0)) (.bin .add (.loc 1) (.bin .mul (.item (.item (.loc 4) (.loc 3)) (.loc 0))
    (.item (.item (.loc 5) (.loc 0)) (.loc 2))))))) = fill product := rfl

theorem product_typed : typ product [.arr (.arr (.sc .float)), .arr (.arr (.sc .float))] = some (.arr (.arr (.sc .float))) := rfl

theorem product_deps : (deps product 0 [[], []]).isSome = true := by decide +kernel

/-- What it says. -/
example : Frontend.sem (fill product) [.arr [.arr [.sc (.f 1), .sc (.f 2), .sc (.f 3)], .arr [.sc (.f 4), .sc (.f 5), .sc (.f 6)]],
    .arr [.arr [.sc (.f 1), .sc (.f 0)], .arr [.sc (.f 0), .sc (.f 1)], .arr [.sc (.f 1), .sc (.f 1)]]] =
    some (.arr [.arr [.sc (.f 4), .sc (.f 5)], .arr [.sc (.f 10), .sc (.f 11)]]) := by decide +kernel

/-- Tracing it never raises. -/
example (c : Nat) : ∃ e c', withVarargs (make product) [matrixTy, matrixTy] c = some (([c, c + 1], e), c') ∧ Phi.typeOf e = some matrixTy :=
  C41_traces product [.arr (.arr (.sc .float)), .arr (.arr (.sc .float))] _ (by simp [isArray]) product_typed product_deps (by simp) c

/-- What it makes computes nothing but the product. -/
example : ComputesOnly noExt (make product) [matrixTy, matrixTy] (fun vs => Frontend.sem (fill product) vs) :=
  C42_value_partial noExt product [.arr (.arr (.sc .float)), .arr (.arr (.sc .float))] _ (by simp [isArray]) product_typed product_deps

/-- At both indices and in the sum, only arguments are read. -/
theorem product_settled : settled product 0 [[], []] = true := by decide +kernel

/-- What it makes computes the product, if the sizes fit. -/
example : Computes noExt (make product) [matrixTy, matrixTy] (tells product) :=
  C42_value noExt product [.arr (.arr (.sc .float)), .arr (.arr (.sc .float))] _ (by simp [isArray]) product_typed product_deps product_settled

example : tells product [.arr [.arr [.sc (.f 1), .sc (.f 2), .sc (.f 3)], .arr [.sc (.f 4), .sc (.f 5), .sc (.f 6)]],
    .arr [.arr [.sc (.f 1), .sc (.f 0)], .arr [.sc (.f 0), .sc (.f 1)], .arr [.sc (.f 1), .sc (.f 1)]]] =
    some (.arr [.arr [.sc (.f 4), .sc (.f 5)], .arr [.sc (.f 10), .sc (.f 11)]]) := by decide +kernel

/-- There is no product of matrices of two columns and three rows. -/
example : tells product [.arr [.arr [.sc (.f 1), .sc (.f 2)]], .arr [.arr [.sc (.f 1)], .arr [.sc (.f 0)], .arr [.sc (.f 1)]]] = none := by
  decide +kernel

/-- There is a value. -/
example : (withVarargs (make product) [matrixTy, matrixTy] 0).any (fun r =>
    decide (run noExt r.1.2 (envOf [(0, .vec [floats [1, 2, 3], floats [4, 5, 6]]), (1, .vec [floats [1, 0], floats [0, 1], floats [1, 1]])]) =
      some (.vec [floats [4, 5], floats [10, 11]]))) = true := by
  decide +kernel

/-- `lambda x, y: fold(0.0, lambda k, acc: acc + x[k] * y[k])` -/
def inner : Script Int := .autoFold (.lit (.f 0)) (.bin .add (.loc 1) (.bin .mul (.item (.loc 2) (.loc 0)) (.item (.loc 3) (.loc 0))))

def vectors (l m : List Int) : List (Nat × Ty × D Int × A Int) := inputsOf [0, 1] [vector l, vector m] [floats l, floats m]

/-- Where arrays of different sizes are read at an index, the program with the size of the first one may have a value, but what
the library makes has none: the sizes are asserted to be equal (`comprehension.py:97-101`). -/
theorem C42_sizes_differ : typ inner [.arr (.sc .float), .arr (.sc .float)] = some (.sc .float) ∧
    (deps inner 0 [[], []]).isSome = true ∧
    Frontend.sem (fill inner) [.arr [.sc (.f 1), .sc (.f 2)], .arr [.sc (.f 3), .sc (.f 4), .sc (.f 5)]] = some (.sc (.f 11)) ∧
    (withVarargs (make inner) [.vector (.scalar .float), .vector (.scalar .float)] 0).any (fun r =>
      decide (run noExt r.1.2 (inputValues (vectors [1, 2] [3, 4, 5])) = none) &&
      decide (run noExt r.1.2 (inputValues (vectors [1, 2] [3, 4])) = some (.sc (.f 11)))) = true := by
  refine ⟨rfl, ?_, ?_, ?_⟩ <;> decide +kernel

/-- Without anything to read at the index, `array(lambda i: i)` raises (`comprehension.py:86-87`). -/
example : typ (.auto 0 (.loc 0) : Script Int) [] = none ∧ withVarargs (make (.auto 0 (.loc 0) : Script Int)) [] 0 = none := by
  refine ⟨rfl, ?_⟩
  decide +kernel

/-- The program
```
points = array(lambda i: Point(x[i], y[i]))
return array(lambda i: norm(points[i]))    # norm = lambda p: p.x * p.x + p.y * p.y
```
In the second comprehension, the size is found through the local variable `p`: it is that of `points`, which is that of `x` and `y`. -/
def norms : Script Int :=
  .assign (.auto 0 (.record (.data 0) (.cons "x" (.item (.loc 1) (.loc 0)) (.cons "y" (.item (.loc 2) (.loc 0)) .nil))))
    (.auto 0 (.assign (.item (.loc 1) (.loc 0)) (.bin .add (.bin .mul (.field (.loc 0) "x") (.field (.loc 0) "x"))
      (.bin .mul (.field (.loc 0) "y") (.field (.loc 0) "y")))))

/-- What it makes computes the squares of the norms. -/
example : Computes noExt (make norms) [.vector (.scalar .float), .vector (.scalar .float)] (tells norms) :=
  C42_value noExt norms [.arr (.sc .float), .arr (.sc .float)] (.arr (.sc .float)) (by simp [isArray]) rfl (by decide +kernel) (by decide +kernel)

example : tells norms [.arr [.sc (.f 1), .sc (.f 2)], .arr [.sc (.f 3), .sc (.f 4)]] = some (.arr [.sc (.f 10), .sc (.f 20)]) := by decide +kernel

/-- `lambda x: array(lambda i: (x[i], i))`: the index is a component of the result. -/
def indexed : Script Int := .auto 0 (.record .positional (.cons "0" (.item (.loc 1) (.loc 0)) (.cons "1" (.loc 0) .nil)))

example : Computes noExt (make indexed) [.vector (.scalar .float)] (tells indexed) :=
  C42_value noExt indexed [.arr (.sc .float)] (.arr (.record .positional (.cons "0" (.sc .float) (.cons "1" (.sc .int) .nil)))) (by simp [isArray]) rfl
    (by decide +kernel) (by decide +kernel)

example : tells indexed [.arr [.sc (.f 5), .sc (.f 7)]] = some (.arr [.record .positional [("0", .sc (.f 5)), ("1", .sc (.i 0))],
    .record .positional [("0", .sc (.f 7)), ("1", .sc (.i 1))]]) := by decide +kernel

/-- `lambda x, y: array(lambda i: x[i] + y[i])` -/
def plus : Script Int := .auto 0 (.bin .add (.item (.loc 1) (.loc 0)) (.item (.loc 2) (.loc 0)))

/-- `@function` -/
def plusFunction : Setup (Input Int) Ty Lib (Expr Int × Nat) (Lib × Finset Sym × YExpr Int) (YVal Int) Frontend.Err :=
  decorated reducing noYExt (fun _ _ => true) 20 30 none (make plus)

def short : List (Input Int) := [vector [1, 2], vector [10, 20]]
def long : List (Input Int) := [vector [1, 2, 3], vector [10, 20, 30]]

/-- `plus.numpy(…)` with arrays of two elements, and `plus.numpy(…)` and `plus.torch(…)` with arrays of three -/
def history : List (List (Input Int) × Lib) := [(short, .numpy), (long, .numpy), (long, .torch)]

theorem compiles_calls : ((traces plusFunction (FState.init 0) history).all fun s =>
    (withVarargs (make plus) [.vector (.scalar .float), .vector (.scalar .float)] s.2).all fun r =>
      compilesB r.1.2 r.2 (inputsOf r.1.1 long [floats [1, 2, 3], floats [10, 20, 30]]) &&
      (run noExt r.1.2 (inputValues (inputsOf r.1.1 long [floats [1, 2, 3], floats [10, 20, 30]]))).isSome) = true := by
  decide +kernel

theorem history_results : ((calls plusFunction (FState.init 0) history).1.map fun r => match r with | .ok y => some y | .error _ => none) =
    [some (.arr ⟨[2], [11, 22].map Scal.f, rfl⟩), some (.arr ⟨[3], [11, 22, 33].map Scal.f, rfl⟩),
      some (.arr ⟨[3], [11, 22, 33].map Scal.f, rfl⟩)] := by
  decide +kernel

/-- The theorems apply to the second call, with NumPy and the code of the first call, and to the third, with PyTorch. -/
example (k : Nat) (lib : Lib) (hk : (k = 1 ∧ lib = .numpy) ∨ (k = 2 ∧ lib = .torch)) : ∃ y as w l,
    (calls plusFunction (FState.init 0) history).1[k]? = some (.ok y) ∧ y = Codegen.pack as ∧ Represents w as ∧
      view l w = some (.arr [.sc (.f 11), .sc (.f 22), .sc (.f 33)]) := by
  have hh : history[k]? = some (long, lib) := by rcases hk with ⟨rfl, rfl⟩ | ⟨rfl, rfl⟩ <;> rfl
  have hy : ∃ y, (calls plusFunction (FState.init 0) history).1[k]? = some (.ok y) := by
    have h1 := congrArg (·[k]?) history_results
    simp only [List.getElem?_map] at h1
    rcases hk with ⟨rfl, rfl⟩ | ⟨rfl, rfl⟩
    all_goals
      obtain ⟨r, h2, h3⟩ := Option.map_eq_some_iff.1 h1
      cases r with
      | error => cases h3
      | ok y => exact ⟨y, h2⟩
  obtain ⟨y, hy⟩ := hy
  have hc : List.Forall₂ (fun (p : Input Int × D Int) v => Contains p.1 p.2 v) (long.zip [floats [1, 2, 3], floats [10, 20, 30]])
      [.arr [.sc (.f 1), .sc (.f 2), .sc (.f 3)], .arr [.sc (.f 10), .sc (.f 20), .sc (.f 30)]] :=
    .cons ⟨hasTy_iff.1 (by decide +kernel), repsB_reps (by decide +kernel), by decide +kernel⟩
      (.cons ⟨hasTy_iff.1 (by decide +kernel), repsB_reps (by decide +kernel), by decide +kernel⟩ .nil)
  have hs : ∀ c vars e c', ((long.map Input.type, lib), c) ∈ traces plusFunction (FState.init 0) history →
      withVarargs (make plus) (long.map Input.type) c = some ((vars, e), c') →
      Compiles reducing noExt noYExt 20 30 lib e c' (inputsOf vars long [floats [1, 2, 3], floats [10, 20, 30]]) ∧
        (run noExt e (inputValues (inputsOf vars long [floats [1, 2, 3], floats [10, 20, 30]]))).isSome = true := by
    intro c vars e c' hc hw
    have h1 := List.all_eq_true.1 compiles_calls _ hc
    have hw' : withVarargs (make plus) [.vector (.scalar .float), .vector (.scalar .float)] c = some ((vars, e), c') := hw
    rw [hw'] at h1
    simp only [Option.all_some, Bool.and_eq_true] at h1
    exact ⟨compiles_of h1.1, h1.2⟩
  have first := C42_calls_partial reducing noExt noYExt (vectorises_none _) (fun _ _ => true) 20 30 none plus
    0 history k long lib y hh hy (.arr (.sc .float)) rfl (by decide +kernel) [floats [1, 2, 3], floats [10, 20, 30]] _
    (.arr [.sc (.f 11), .sc (.f 22), .sc (.f 33)]) rfl hc (by decide +kernel) hs
  obtain ⟨as, w, l, h⟩ := C42_calls_tell_partial reducing noExt noYExt (vectorises_none _) (fun _ _ => true) 20 30 none plus
    0 history k long lib y hh hy (.arr (.sc .float)) rfl (by decide +kernel) (by decide +kernel) [floats [1, 2, 3], floats [10, 20, 30]] _
    (.arr [.sc (.f 11), .sc (.f 22), .sc (.f 33)]) rfl hc (by decide +kernel) fun c vars e c' h1 h2 => (hs c vars e c' h1 h2).1
  exact ⟨y, as, w, l, hy, h⟩

end C42Example

end Verif.Props
