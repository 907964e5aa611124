import Verif.Toy
import Verif.Backend.InplacePass

/-!
# C20: in-place execution never alters observable data

`exec` is the execution of array code by the NumPy backend on a memory of buffers shared by views
(`ein/backend/numpy_backend.py:126-178`, `ein/backend/array_backend.py:84-255`); `applyInplace` is the pass
that makes operations write into an operand (`ein/codegen/phi_to_yarr.py:523-558`).
`Yarr.eval` is the meaning of array code without any memory (and without in-place operations).

Specification: `Ref.read`, the array an array object shows; `H[a]?`, the content of a buffer.
-/

namespace Verif.Props
open Verif.Term Verif.Phi Verif.Arr Verif.Yarr Verif.Backend
variable {F : Type} [FloatOps F]

/-- C20, observable data: whatever the program, the buffers and the references to them, whether execution
succeeds or raises, every buffer that existed before has the same content afterwards. Inputs may share
memory, and `B` says arbitrarily where NumPy copies. -/
theorem C20_buffers_unchanged (B : Machine F) (J : YExt F) (hB : B.Lawful J) (e : YExpr F) (H : Mem F)
    (env : Env HVal) (yenv : Env (YVal F)) (hc : ConstsShown B (applyInplace e) H) (he : EnvShows H env yenv)
    (a : Nat) (b : A F) (ha : H[a]? = some b) : (exec B J (applyInplace e) env H).2[a]? = some b :=
  getElem?_prefix (good hB _ (marked_applyInplace e) H env yenv hc he).1.1 ha

/-- C20, in terms of array objects: every array object that could be read before shows the same array
afterwards. This includes the inputs, the constants, and the variables of enclosing programs. -/
theorem C20_arrays_unchanged (B : Machine F) (J : YExt F) (hB : B.Lawful J) (e : YExpr F) (H : Mem F)
    (env : Env HVal) (yenv : Env (YVal F)) (hc : ConstsShown B (applyInplace e) H) (he : EnvShows H env yenv)
    (r : Ref) (x : A F) (hr : r.read H = some x) : r.read (exec B J (applyInplace e) env H).2 = some x :=
  Shows.stable (good hB _ (marked_applyInplace e) H env yenv hc he).1.1 hr

/-- C20, results. Full statement: execution with in-place operations has the result of the program without
them. Proved: if no comparison is executed in place, the result of every execution that does not raise is
the value of the original program, even after the operands were overwritten. What is missing: comparisons
(see `C20_compare_counterexample`), and that execution does not raise, which needs that temporaries are not
broadcast (see `C20_broadcast_counterexample`). -/
theorem C20_same_result_partial (B : Machine F) (J : YExt F) (hB : B.Lawful J) (e : YExpr F) (H H' : Mem F)
    (env : Env HVal) (yenv : Env (YVal F)) (hc : ConstsShown B (applyInplace e) H) (he : EnvShows H env yenv)
    (hn : NoInplaceCompare (applyInplace e)) (v : HVal)
    (hv : exec B J (applyInplace e) env H = (some v, H')) :
    ∃ y, Yarr.eval J e yenv = some y ∧ v.read H' = some y := by
  have h := (good hB _ (marked_applyInplace e) H env yenv hc he).1
  obtain ⟨y, hy, hs⟩ := h.of_some (by rw [hv])
  rw [hv] at hs
  refine ⟨y, ?_, hs⟩
  rw [← eval_applyInplace]
  exact evalI_le J _ hn _ _ hy

/-- C20, results, exactly: the outcome (a value or an exception) is the one of evaluation on unshared values
in which the result of an in-place operation has the dtype of the operand it replaces, and an in-place
operation raises if that operand is broadcast. In particular it does not depend on which arrays share memory
or on where NumPy copies. -/
theorem C20_outcome_pure (B : Machine F) (J : YExt F) (hB : B.Lawful J) (e : YExpr F) (H : Mem F)
    (env : Env HVal) (yenv : Env (YVal F)) (hc : ConstsShown B (applyInplace e) H) (he : EnvShows H env yenv) :
    ((exec B J (applyInplace e) env H).1.bind fun v => v.read (exec B J (applyInplace e) env H).2) =
      evalI J (applyInplace e) yenv := by
  have h := (good hB _ (marked_applyInplace e) H env yenv hc he).1
  cases hv : (exec B J (applyInplace e) env H).1 with
  | none => rw [h.none_left hv]; rfl
  | some v =>
    obtain ⟨y, hy, hs⟩ := h.of_some hv
    rw [hy]; exact hs

/-! ### A concrete execution -/

/-- A reference to a whole buffer. -/
def whole20 (a : Nat) (s : List Nat) : HVal := .arr ⟨a, s, fun ix => ix⟩

/-- The memory: an input and a constant. -/
def mem20 : Mem Int :=
  [⟨[2, 2], [1, 2, 3, 4].map Scal.f, rfl⟩, ⟨[2, 2], [10, 20, 30, 40].map Scal.f, rfl⟩]

/-- The constant. -/
def const20 : YVal Int := .arr ⟨[2, 2], [10, 20, 30, 40].map Scal.f, rfl⟩

/-- The constant is buffer 1; bound values are copied if they are views of buffer 0. -/
def machine20 : Machine Int where
  const _ := whole20 1 [2, 2]
  copies r _ := r.addr == 0
  other _ _ _ := none

/-- Variable 0 is the input, variable 1 a view of its transpose. -/
def env20 : Env HVal := fun s =>
  if s = .var 0 then some (whole20 0 [2, 2])
  else if s = .var 1 then some (.arr ⟨0, [2, 2], fun ix => ix.reverse⟩) else none

/-- The values of these. -/
def yenv20 : Env (YVal Int) := fun s =>
  if s = .var 0 then some (.arr ⟨[2, 2], [1, 2, 3, 4].map Scal.f, rfl⟩)
  else if s = .var 1 then some (.arr ⟨[2, 2], [1, 3, 2, 4].map Scal.f, rfl⟩) else none

/-- `x0` and `x1` -/
def x20 (v : Nat) : YExpr Int := node (.var v [⟨2, .float⟩]) []

/-- `c` -/
def c20 : YExpr Int := node (.const const20 [⟨2, .float⟩]) []

/-- `let y = transpose(x1) in (c - (x0 * y)) + (-y)` -/
def program20 : YExpr Int :=
  node (.letv 2) [node (.transpose [1, 0]) [x20 1],
    node (.elem .add none) [
      node (.elem .subtract none) [c20, node (.elem .multiply none) [x20 0, x20 2]],
      node (.elem .negate none) [x20 2]]]

/-- The program after the pass: two operations are executed in place, one in its second operand. -/
example : applyInplace program20 =
    node (.letv 2) [node (.transpose [1, 0]) [x20 1],
      node (.elem .add (some 0)) [
        node (.elem .subtract (some 1)) [c20, node (.elem .multiply none) [x20 0, x20 2]],
        node (.elem .negate none) [x20 2]]] := by decide +kernel

theorem lawful20 : machine20.Lawful (fun _ _ => none) := by
  intro h vs H ys y v _ _ _ hv; cases hv

/-- All constants of the program are `const20`. -/
def onlyConst20 (e : YExpr Int) : Bool := (Midend.occurrences e).all fun u =>
  match u.head with
  | .const v _ => decide (v = const20)
  | _ => true

theorem consts20_of {e : YExpr Int} (h : onlyConst20 e = true) : ConstsShown machine20 e mem20 := by
  intro v τ ts ho
  have h1 := List.all_eq_true.1 h _ (Midend.mem_occurrences.2 ho)
  rw [of_decide_eq_true (show decide (v = const20) = true from h1)]
  show HVal.read _ _ = _
  decide +kernel

theorem env20_shows : EnvShows mem20 env20 yenv20 := by
  intro s
  unfold env20 yenv20
  split
  · show HVal.read _ _ = _
    decide +kernel
  · split
    · show HVal.read _ _ = _
      decide +kernel
    · trivial

/-- No comparison happens in place. -/
def noCompare20 (e : YExpr Int) : Bool := (Midend.occurrences e).all fun u =>
  match u.head with
  | .elem o (some _) => !compares o
  | _ => true

theorem noCompare20_of {e : YExpr Int} (h : noCompare20 e = true) : NoInplaceCompare e := by
  intro o n ts ho
  have h1 := List.all_eq_true.1 h _ (Midend.mem_occurrences.2 ho)
  simpa [Term.head] using h1

/-- Non-vacuity: all hypotheses of the theorems hold for this program and memory. -/
example : machine20.Lawful (fun _ _ => none) ∧ ConstsShown machine20 (applyInplace program20) mem20 ∧
    EnvShows mem20 env20 yenv20 ∧ NoInplaceCompare (applyInplace program20) :=
  ⟨lawful20, consts20_of (by decide +kernel), env20_shows, noCompare20_of (by decide +kernel)⟩

/-- The run allocates three buffers (the copied binding, the product and the negation), the result is in the
one of the product, and the first two buffers are as before. -/
example :
    let run := exec machine20 (fun _ _ => none) (applyInplace program20) env20 mem20
    (run.1.bind fun v => v.read run.2) = some (.arr ⟨[2, 2], [8, 14, 18, 20].map Scal.f, rfl⟩) ∧
      run.2.length = 5 ∧ run.2.take 2 = mem20 ∧
      (run.2[3]?).map NArr.data = some ([8, 14, 18, 20].map Scal.f) ∧
      Yarr.eval (fun _ _ => none) program20 yenv20 =
        some (.arr ⟨[2, 2], [8, 14, 18, 20].map Scal.f, rfl⟩) := by decide +kernel

/-- In-place marks on operands that are not temporaries do overwrite inputs, so the pass must not set them:
`transpose(x0) + c`, written into the transpose, changes the input. -/
example :
    let run := exec machine20 (fun _ _ => none)
      (node (.elem .add (some 0)) [node (.transpose [1, 0]) [x20 0], c20]) env20 mem20
    (run.2[0]?).map NArr.data = some ([11, 32, 23, 44].map Scal.f) := by decide +kernel

/-! ### Where results differ -/

/-- `(x0 + c) < c`: the comparison is executed in place. -/
def compare20 : YExpr Int := node (.elem .less none) [node (.elem .add none) [x20 0, c20], c20]

/-- Counterexample to the full statement: the comparison of a temporary of floats is written into the
temporary, so the program returns floats 0 and 1 where it should return booleans. -/
theorem C20_compare_counterexample : ∃ (B : Machine Int) (e : YExpr Int) (H : Mem Int) (env : Env HVal)
    (yenv : Env (YVal Int)), B.Lawful (fun _ _ => none) ∧ ConstsShown B (applyInplace e) H ∧
      EnvShows H env yenv ∧ Yarr.typeOf e = some [⟨2, .bool⟩] ∧
      Yarr.eval (fun _ _ => none) e yenv = some (.arr ⟨[2, 2], List.replicate 4 (.b false), rfl⟩) ∧
      ((exec B (fun _ _ => none) (applyInplace e) env H).1.bind fun v =>
        v.read (exec B (fun _ _ => none) (applyInplace e) env H).2) =
          some (.arr ⟨[2, 2], List.replicate 4 (.f 0), rfl⟩) :=
  ⟨machine20, compare20, mem20, env20, yenv20, lawful20, consts20_of (by decide +kernel), env20_shows,
    by decide +kernel, by decide +kernel, by decide +kernel⟩

/-- `(-(x0[:1])) + c`: the first operand has shape (1, 2), the result (2, 2). -/
def broadcast20 : YExpr Int :=
  node (.elem .add none) [node (.elem .negate none) [node (.slice [false, false] [true, false])
    [x20 0, node (.dim 0) [node (.slice [false, false] [true, false])
      [x20 0, node (.elem .subtract none) [node (.dim 0) [x20 0], node (.dim 1) [node (.unsqueeze [1]) [x20 0]]]]]]], c20]

/-- The pass only compares ranks (`phi_to_yarr.py:547-551`): a temporary that is broadcast is written to as
well, and the operation raises although the program has a value. -/
theorem C20_broadcast_counterexample : ∃ (B : Machine Int) (e : YExpr Int) (H : Mem Int) (env : Env HVal)
    (yenv : Env (YVal Int)), B.Lawful (fun _ _ => none) ∧ ConstsShown B (applyInplace e) H ∧
      EnvShows H env yenv ∧ NoInplaceCompare (applyInplace e) ∧
      (Yarr.eval (fun _ _ => none) e yenv).isSome = true ∧
      (exec B (fun _ _ => none) (applyInplace e) env H).1.isNone = true :=
  ⟨machine20, broadcast20, mem20, env20, yenv20, lawful20, consts20_of (by decide +kernel), env20_shows,
    noCompare20_of (by decide +kernel), by decide +kernel, by decide +kernel⟩

end Verif.Props
