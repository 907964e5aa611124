import Verif.Codegen.Calls
import Verif.Frontend.Extrinsic
import Verif.Props.C01

/-!
# C36: external functions

An external function is a function `g` on arrays. The reference interpreter calls it on the arrays that represent single
values (`onValues`, `naive.py:82-83`). The array backends call it on arrays that also have the axes of the indices the
operands depend on, in front (`onArrays`, `array_backend.py:252-254`), so the function has to treat leading axes as axes
of a batch. `WorksAlong` (`Verif/Codegen/Calls.lean`) says this; it holds for elementwise functions with NumPy's
broadcasting (such as `numpy.logaddexp`) and for functions along the last axis (such as `numpy.sum(axis=-1)`).
-/

namespace Verif.Props
open Verif.Codegen Verif.Phi Verif.Term Verif.Yarr Verif.Arr Verif.Frontend
variable {F : Type} [FloatOps F]

/-- C36: compiled code with calls of external functions computes the value of the program, if the functions work along
leading axes.

Partial: where a function is called, its operands have the same rank (`C36_mixed_ranks_counterexample`) and its result is
not empty and of the declared type; otherwise as C01. -/
theorem C36_external_functions_partial (o : Opts F) (g : Nat → List (A F) → Option (A F)) (hg : ∀ fn, WorksAlong (g fn))
    (fuel : Nat) (p : Expr F) (S : Finset Sym) (Γ : TCtx) (τ : Ty) (env : Env (D F)) (yenv : Env (YVal F)) (v : D F)
    (y : YExpr F) (h : Setting o (fun fn => onValues (g fn)) fuel p S Γ τ env yenv v y) :
    compileProgram (program o) fuel p = some y ∧ run (fun fn => onValues (g fn)) p env = some v ∧
      ∃ as r, Yarr.eval (onArrays g) y yenv = some (Codegen.pack as) ∧ Represents v as ∧
        simplifyArrayCode y = some r ∧ Yarr.eval (onArrays g) r yenv = some (Codegen.pack as) :=
  C01_compiled_meaning_partial o _ _ (vectorises_of g hg) fuel p S Γ τ env yenv v y h

/-- C36: elementwise functions work along leading axes. -/
theorem C36_elementwise {V : Type} (f : List V → Option V) : WorksAlong (NArr.zipAll f) := worksAlong_zipAll f

/-- C36: functions along the last axis work along leading axes. -/
theorem C36_along_last_axis {V : Type} (t : Nat → List Nat) (h : List V → List Nat → Option V) :
    WorksAlong (alongLast t h) := worksAlong_last t h

/-- Does the type contain no pairs? -/
def noPairs : Ty → Bool
  | .scalar _ => true
  | .vector τ => noPairs τ
  | .pair _ _ => false

theorem isSome_unambiguous (σ : Ty) : (unambiguous σ).isSome = noPairs σ := by
  induction σ with
  | scalar => simp [unambiguous, noPairs]
  | vector σ ih => simpa [unambiguous, noPairs] using ih
  | pair => simp [unambiguous, noPairs]

omit [FloatOps F] in
theorem checkOperands_iff {ops : List (Expr F)} {σs : List Ty} :
    checkOperands ops σs = true ↔ ops.map Phi.typeOf = σs.map some ∧ ∀ σ ∈ σs, noPairs σ = true := by
  induction ops generalizing σs with
  | nil => cases σs <;> simp [checkOperands]
  | cons op ops ih =>
    cases σs with
    | nil => simp [checkOperands]
    | cons σ σs =>
      simp only [checkOperands, Bool.and_eq_true, decide_eq_true_eq, ih, List.map_cons, List.cons.injEq,
        List.mem_cons, forall_eq_or_imp]
      constructor
      · rintro ⟨⟨h1, h2⟩, h3, h4⟩
        rw [h2] at h1
        exact ⟨⟨h2, h3⟩, (isSome_unambiguous σ).symm.trans h1, h4⟩
      · rintro ⟨⟨h2, h3⟩, h1, h4⟩
        rw [h2]
        exact ⟨⟨(isSome_unambiguous σ).trans h1, rfl⟩, h3, h4⟩

omit [FloatOps F] in
/-- C36: a call with declared types of operands is accepted exactly if there are as many operands, of exactly these
types, and no type contains pairs; without declared types only the type of the result is checked. -/
theorem C36_signature (fn : Nat) (output : Ty) (ops : List (Expr F)) (e : Expr F) :
    (∀ σs, callExt fn (some σs) output ops = some e ↔
      e = node (.ext fn output) ops ∧ ops.map Phi.typeOf = σs.map some ∧ ∀ σ ∈ output :: σs, noPairs σ = true) ∧
    (callExt fn none output ops = some e ↔ e = node (.ext fn output) ops ∧ noPairs output = true) := by
  have key : (unambiguous output).map (fun _ => node (.ext fn output) ops) = some e ↔
      e = node (.ext fn output) ops ∧ noPairs output = true := by
    rw [← isSome_unambiguous]
    cases unambiguous output <;> simp [eq_comm]
  refine ⟨fun σs => ?_, key⟩
  simp only [callExt, List.mem_cons, forall_eq_or_imp]
  split
  · rename_i h
    rw [checkOperands_iff] at h
    rw [key]
    tauto
  · rename_i h
    rw [checkOperands_iff] at h
    simp only [reduceCtorEq, false_iff]
    tauto

/-! ### Non-vacuity -/

/-- The largerOf one of two integers. -/
def largerOf : List (Scal Int) → Option (Scal Int)
  | [.i a, .i b] => some (.i (max a b))
  | _ => none

/-- An integer. -/
def scalInt : Scal Int → Option Int
  | .i n => some n
  | _ => none

/-- The sum of a row. -/
def total (row : List (Scal Int)) (_ : List Nat) : Option (Scal Int) := (mapOpt scalInt row).map fun l => .i l.sum

/-- `numpy.maximum`, `numpy.sum(axis=-1)` -/
def functions : Nat → List (A Int) → Option (A Int)
  | 0 => NArr.zipAll largerOf
  | _ => alongLast (fun _ => []) total

theorem functions_along : ∀ fn, WorksAlong (functions fn)
  | 0 => C36_elementwise _
  | _ + 1 => C36_along_last_axis _ _

/-- `array(λ i. maximum(sum(m[i]), y[i]))`, where `m` is a matrix and `y` a vector. -/
def sums : Expr Int :=
  vec 2 (dim (xs 1) 0) (node (.ext 0 (.scalar .int))
    [node (.ext 1 (.scalar .int)) [Phi.get (var 0 (.vector (.vector (.scalar .int)))) (at_ 2)], Phi.get (xs 1) (at_ 2)])

def sumsCtx : TCtx := ctxOf [(0, .vector (.vector (.scalar .int))), (1, .vector (.scalar .int))]

/-- The functions are called with these types. -/
def sumsTypes (fn : Nat) (τ : Ty) (σs : List (Option Ty)) : Bool :=
  decide (τ = .scalar .int) && ((decide (fn = 0) && decide (σs = [some (.scalar .int), some (.scalar .int)])) ||
    (decide (fn = 1) && decide (σs = [some (.vector (.scalar .int))])))

theorem onValues_some {V : Type} {g : List (NArr V) → Option (NArr V)} {vs : List (Val V)} {w : Val V}
    (h : onValues g vs = some w) : ∃ as a, mapOpt arrOf vs = some as ∧ g as = some a ∧ valueOf a.shape a.get? = some w := by
  simp only [onValues, Option.bind_eq_some_iff] at h
  obtain ⟨as, h1, a, h2, h3⟩ := h
  exact ⟨as, a, h1, h2, h3⟩

theorem shape_arrOf {V : Type} {v : Val V} {a : NArr V} (h : arrOf v = some a) :
    ∃ n, rankOfVal v = some n ∧ a.shape = valShape n v := by
  simp only [arrOf, Option.bind_eq_some_iff] at h
  obtain ⟨n, h1, h2⟩ := h
  split at h2
  · exact ⟨n, h1, NArr.shape_ofFn? h2⟩
  · cases h2

/-- A result of rank 0 that is an integer has type integer. -/
theorem hasType_result {a : A Int} {w : D Int} {c : Option (Scal Int)} (hs : a.shape = []) (hc : a.get? [] = c)
    (hi : ∀ d, c = some d → ∃ n, d = .i n) (h : valueOf a.shape a.get? = some w) : HasType w (.scalar .int) := by
  rw [hs] at h
  simp only [valueOf, Option.map_eq_some_iff] at h
  obtain ⟨d, h1, rfl⟩ := h
  obtain ⟨n, rfl⟩ := hi d (hc.symm.trans h1)
  exact .sc (.i n)

theorem isScalar {v : D Int} {k : Kind} (h : HasType v (.scalar k)) : ∃ s, v = .sc s := by
  generalize e : Ty.scalar k = τ at h
  cases h with
  | sc s => exact ⟨s, rfl⟩
  | vec _ => cases e
  | pair _ _ => cases e

theorem sumsTypes_ok (fn : Nat) (τ : Ty) (σs : List (Option Ty)) (h : sumsTypes fn τ σs = true) (args : List (D Int))
    (r : D Int) (ha : List.Forall₂ (fun v σ => ∃ τ, σ = some τ ∧ HasType v τ) args σs)
    (hr : onValues (functions fn) args = some r) : HasType r τ := by
  simp only [sumsTypes, Bool.and_eq_true, Bool.or_eq_true, decide_eq_true_eq] at h
  obtain ⟨as, a, h1, h2, h3⟩ := onValues_some hr
  obtain ⟨rfl, ⟨rfl, rfl⟩ | ⟨rfl, rfl⟩⟩ := h
  · rcases ha with _ | ⟨⟨_, e1, t1⟩, _ | ⟨⟨_, e2, t2⟩, _ | _⟩⟩
    cases e1; cases e2
    obtain ⟨x1, rfl⟩ := isScalar t1
    obtain ⟨x2, rfl⟩ := isScalar t2
    simp only [mapOpt, Option.bind_eq_some_iff, Option.some.injEq] at h1
    obtain ⟨b, hb, _, ⟨c, hc, _, rfl, rfl⟩, rfl⟩ := h1
    obtain ⟨n, e1, hb⟩ := shape_arrOf hb
    obtain ⟨m, e2, hc⟩ := shape_arrOf hc
    cases e1; cases e2
    simp only [functions, NArr.zipAll, List.map, Option.bind_eq_some_iff] at h2
    obtain ⟨s, h4, h5⟩ := h2
    rw [hb, hc] at h4
    cases h4
    obtain ⟨h6, h7⟩ := NArr.ofFn?_eq_some.1 h5
    refine hasType_result h6 (h7 [] (by simp)).1 (fun d hd => ?_) h3
    obtain ⟨l, -, hl⟩ := Option.bind_eq_some_iff.1 hd
    unfold largerOf at hl
    split at hl <;> cases hl
    exact ⟨_, rfl⟩
  · rcases ha with _ | ⟨⟨_, e1, t1⟩, _ | _⟩
    cases e1
    rcases t1 with _ | @⟨vs, _, t1⟩
    simp only [mapOpt, Option.bind_eq_some_iff, Option.some.injEq] at h1
    obtain ⟨b, hb, _, rfl, rfl⟩ := h1
    obtain ⟨n, e1, hb⟩ := shape_arrOf hb
    have hs : ∃ k, b.shape = [] ++ [k] := by
      cases vs with
      | nil => cases e1
      | cons v vs =>
        obtain ⟨x, rfl⟩ := isScalar (t1 v (by simp))
        cases e1
        exact ⟨_, hb⟩
    obtain ⟨k, hs⟩ := hs
    obtain ⟨h6, h7⟩ := (alongLast_some hs).1 h2
    refine hasType_result h6 (h7 [] [] (by simp) (by simp)).1 (fun d hd => ?_) h3
    obtain ⟨l, -, hl⟩ := Option.bind_eq_some_iff.1 hd
    simp only [total, Option.map_eq_some_iff] at hl
    obtain ⟨_, -, rfl⟩ := hl
    exact ⟨_, rfl⟩

/-- `m` and `y`: types, values and arrays -/
def sumsInputs : List (Nat × Ty × D Int × A Int) :=
  [(0, .vector (.vector (.scalar .int)), .vec [Toy.ints [1, 2, 3], Toy.ints [4, 5, 6]],
      ⟨[2, 3], [.i 1, .i 2, .i 3, .i 4, .i 5, .i 6], rfl⟩),
    (1, .vector (.scalar .int), Toy.ints [10, 10], vecArr [.i 10, .i 10])]

/-- The example is in the setting of C36. -/
theorem sums_setting : ∃ v y, Setting allReads (fun fn => onValues (functions fn)) 20 sums (inputSyms sumsInputs)
    (inputTypes sumsInputs) (.vector (.scalar .int)) (inputValues sumsInputs) (inputArrays sumsInputs) v y := by
  obtain ⟨y, hy⟩ := Option.isSome_iff_exists.1
    (show (compileProgram (evenPairs allReads) 20 sums).isSome = true by decide +kernel)
  obtain ⟨v, hv⟩ := Option.isSome_iff_exists.1
    (show (check allReads (fun fn => onValues (functions fn)) false sums (fun _ => 0)
      (inputValues sumsInputs)).isSome = true by decide +kernel)
  exact ⟨v, y, .of_inputs sumsInputs (by decide +kernel) (by decide +kernel) (by decide +kernel)
    (declWith_declared _ sumsTypes_ok _ _ (by decide +kernel)) hv hy (.loops fun _ _ _ _ _ => rfl)⟩

example : ∃ y v, compileProgram (program allReads) 20 sums = some y ∧
    run (fun fn => onValues (functions fn)) sums (inputValues sumsInputs) = some v ∧
    ∃ as, Yarr.eval (onArrays functions) y (inputArrays sumsInputs) = some (Codegen.pack as) ∧ Represents v as := by
  obtain ⟨v, y, h⟩ := sums_setting
  obtain ⟨h1, h2, as, _, h3, h4, _⟩ := C36_external_functions_partial _ _ functions_along _ _ _ _ _ _ _ _ _ h
  exact ⟨y, v, h1, h2, as, h3, h4⟩

/-- The value: the sums are 6 and 15. -/
example : run (fun fn => onValues (functions fn)) sums (inputValues sumsInputs) = some (Toy.ints [10, 15]) := by
  decide +kernel

/-- A call with two declared operands, and one of them missing. -/
example : callExt 0 (some [.scalar .int, .scalar .int]) (.scalar .int) [(int 1 : Expr Int), int 2] =
      some (node (.ext 0 (.scalar .int)) [int 1, int 2]) ∧
    callExt 0 (some [.scalar .int, .scalar .int]) (.scalar .int) [(int 1 : Expr Int)] = none ∧
    callExt 0 (some [.vector (.scalar .int)]) (.scalar .int) [(int 1 : Expr Int)] = none := by decide +kernel

/-! ### Where the property fails -/

/-- The sum of two integers. -/
def plus : List (Scal Int) → Option (Scal Int)
  | [.i a, .i b] => some (.i (a + b))
  | _ => none

/-- `array(λ i. add(m[i], y[i]))`, where `add = numpy.add` gets a row and a number. -/
def mixedRanks : Expr Int :=
  vec 2 (dim (xs 1) 0) (node (.ext 0 (.vector (.scalar .int)))
    [Phi.get (var 0 (.vector (.vector (.scalar .int)))) (at_ 2), Phi.get (xs 1) (at_ 2)])

/-- C36 fails for operands of different ranks, even if the function is elementwise: arrays of shapes `(2, 2)` and `(2,)`
are passed (`phi_to_yarr.py:287-292`), and NumPy aligns the last axes, so `m[i][j] + y[j]` is computed instead of
`m[i][j] + y[i]`. The program is well-typed. -/
theorem C36_mixed_ranks_counterexample :
    let g : Nat → List (A Int) → Option (A Int) := fun _ => NArr.zipAll plus
    let env := Toy.envOf [(0, .vec [Toy.ints [1, 2], Toy.ints [3, 4]]), (1, Toy.ints [10, 20])]
    (∀ fn, WorksAlong (g fn)) ∧ Phi.typeOf mixedRanks = some (.vector (.vector (.scalar .int))) ∧
      run (fun fn => onValues (g fn)) mixedRanks env = some (.vec [Toy.ints [11, 12], Toy.ints [23, 24]]) ∧
      ((compileProgram (program allReads) 20 mixedRanks).bind fun y => Yarr.eval (onArrays g) y
        (yenvOf [(0, ⟨[2, 2], [.i 1, .i 2, .i 3, .i 4], rfl⟩), (1, vecArr [.i 10, .i 20])])) =
        some (.arr ⟨[2, 2], [.i 11, .i 22, .i 13, .i 24], rfl⟩) := by
  intro g env
  exact ⟨fun _ => C36_elementwise _, by decide +kernel, by decide +kernel, by decide +kernel⟩

/-- `numpy.flip(a, axis=0)` -/
def flipFirst : List (A Int) → Option (A Int)
  | [a] => NArr.ofFn? a.shape fun ix => a.get? ((a.shape.headD 0 - 1 - ix.headD 0) :: ix.tail)
  | _ => none

/-- `array(λ i. flip(m[i]))` -/
def flipRows : Expr Int :=
  vec 2 (int 2) (node (.ext 0 (.vector (.scalar .int))) [Phi.get (var 0 (.vector (.vector (.scalar .int)))) (at_ 2)])

/-- C36 fails for functions that do not work along leading axes: a flip of the first axis reverses every row in the
reference interpreter, and the order of the rows in compiled code. -/
theorem C36_first_axis_counterexample :
    Phi.typeOf flipRows = some (.vector (.vector (.scalar .int))) ∧
      run (fun _ => onValues flipFirst) flipRows (Toy.envOf [(0, .vec [Toy.ints [1, 2], Toy.ints [3, 4]])]) =
        some (.vec [Toy.ints [2, 1], Toy.ints [4, 3]]) ∧
      ((compileProgram (program allReads) 20 flipRows).bind fun y => Yarr.eval (onArrays fun _ => flipFirst) y
        (yenvOf [(0, ⟨[2, 2], [.i 1, .i 2, .i 3, .i 4], rfl⟩)])) =
        some (.arr ⟨[2, 2], [.i 3, .i 4, .i 1, .i 2], rfl⟩) := by
  refine ⟨by decide +kernel, by decide +kernel, by decide +kernel⟩

end Verif.Props
