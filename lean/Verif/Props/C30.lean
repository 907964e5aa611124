import Verif.Toy
import Verif.Backend.Careful

/-!
# C30: array backends agree on structural primitives

`numpyPrims`, `jaxPrims` and `torchPrims` are the primitives of the backends, `evalP` evaluates array code with
them (`ein/backend/array_backend.py:157-255`), `compileProgram` is the compiler.
-/

namespace Verif.Props
open Verif.Term Verif.Phi Verif.Arr Verif.Yarr Verif.Backend Verif.Codegen Verif.Midend
variable {F : Type}

/-- What the compiler generates: axes are inserted in strictly ascending order, removed one at a time, and
one axis is padded at a time. -/
theorem C30_generated (o : Opts F) (fuel : Nat) (p : Expr F) (e : YExpr F) (h : compileProgram o fuel p = some e)
    (u : YExpr F) (hu : Occurs u e) :
    (∀ axes ts, u = node (.squeeze axes) ts → ∃ k, axes = [k]) ∧
    (∀ axes ts, u = node (.unsqueeze axes) ts → axes.Pairwise (· < ·)) ∧
    (∀ l r ts, u = node (.pad l r) ts → ∃ n p, p < n ∧ l = NArr.putAt n p true false ∧ r = l) := by
  have := allGen_compileProgram h u hu
  refine ⟨?_, ?_, ?_⟩
  · rintro axes ts rfl; exact this
  · rintro axes ts rfl; exact this
  · rintro l r ts rfl
    obtain ⟨n, p, hp, h1, h2⟩ := this
    exact ⟨n, p, hp, h1, h2.trans h1.symm⟩

/-- C30, axis insertion, as the compiler generates it: PyTorch's loop over the axes and NumPy's `expand_dims`
give the same array, or both raise. -/
theorem C30_unsqueeze (axes : List Nat) (h : axes.Pairwise (· < ·)) (a : A F) :
    torchUnsqueeze axes a = NArr.unsqueeze axes a := torchUnsqueeze_eq axes h a

/-- C30, axis removal, as the compiler generates it: what NumPy gives PyTorch gives. -/
theorem C30_squeeze (k : Nat) (a b : A F) (h : NArr.squeeze [k] a = some b) : torchSqueeze [k] a = some b :=
  torchSqueeze_le k a b h

/-- C30, compiled programs. Full statement: the backends give the same result. Proved: if evaluation of the
compiled program succeeds with the reference primitives restricted to gathers of arrays that agree in the
other dimensions, and to padding of the middle dimension of arrays of floats with elements and at most three
dimensions (`carefulPrims`), then the three backends give its result. The counterexamples below show that the
restrictions are needed. -/
theorem C30_backends_agree_partial [FloatOps F] (o : Opts F) (fuel : Nat) (p : Expr F) (e : YExpr F)
    (h : compileProgram o fuel p = some e) (J : YExt F) (env : Env (YVal F)) (v : YVal F)
    (hv : evalP carefulPrims J e env = some v) :
    evalP numpyPrims J e env = some v ∧ evalP jaxPrims J e env = some v ∧ evalP torchPrims J e env = some v :=
  have hg := allGen_compileProgram h
  ⟨evalP_le J e (fun u hu => careful_numpy (hg u hu)) env v hv,
    evalP_le J e (fun u hu => careful_jax (hg u hu)) env v hv,
    evalP_le J e (fun u hu => careful_torch (hg u hu)) env v hv⟩

/-! ### Examples -/

/-- All forms of reads, except that no read is elided. -/
def opts30 : Opts Int := { takes := true, slicePads := true, sliceElision := false, equiv := fun _ _ => false, pairs := fun _ _ => true }

/-- All forms of reads, and reads at an index are elided (all sizes are equivalent in the programs below). -/
def elide30 : Opts Int := { takes := true, slicePads := true, sliceElision := true, equiv := fun _ _ => true, pairs := fun _ _ => true }

/-- `n` nested vectors of floats. -/
def tensor30 (v n : Nat) : Expr Int := var v (ndarrayTy n .float)

/-- A vector of integers. -/
def ints30 (v : Nat) : Expr Int := var v (ndarrayTy 1 .int)

/-- `array(lambda i, j: x[i, j] + y[max(j - 1, 0)])` -/
def sum30 : Expr Int := vec 2 (dim (tensor30 0 2) 0) (vec 3 (dim (tensor30 0 2) 1)
  (op2 .add (Phi.get (Phi.get (tensor30 0 2) (at_ 2)) (at_ 3))
    (Phi.get (tensor30 1 1) (op2 .max (op2 .subtract (at_ 3) (int 1)) (int 0)))))

/-- A 2×3 array and arrays of lengths 3 and 2. -/
def env30 : Env (YVal Int) := fun s =>
  if s = .var 0 then some (.arr ⟨[2, 3], [1, 2, 3, 4, 5, 6].map Scal.f, rfl⟩)
  else if s = .var 1 then some (.arr ⟨[3], [10, 20, 30].map Scal.f, rfl⟩)
  else if s = .var 4 then some (.arr ⟨[2], [1, 0].map Scal.i, rfl⟩)
  else if s = .var 5 then some (.arr ⟨[2, 2, 3], [1, 2, 3, 4, 5, 6, 7, 8, 9, 10, 11, 12].map Scal.f, rfl⟩)
  else none

/-- The result of a program on a backend. -/
def on30 (P : Prims Int) (o : Opts Int) (p : Expr Int) : Option (YVal Int) :=
  (compileProgram o 20 p).bind fun e => evalP P (fun _ _ => none) e env30

/-- Non-vacuity: a program with a padded and an inserted axis. -/
example : on30 carefulPrims opts30 sum30 = some (.arr ⟨[2, 3], [11, 12, 23, 14, 15, 26].map Scal.f, rfl⟩) ∧
    on30 torchPrims opts30 sum30 = some (.arr ⟨[2, 3], [11, 12, 23, 14, 15, 26].map Scal.f, rfl⟩) := by
  decide +kernel

/-- `array(lambda i: x[i, idx[i]])` -/
def pick30 : Expr Int := vec 2 (dim (ints30 4) 0)
  (Phi.get (Phi.get (tensor30 0 2) (at_ 2)) (Phi.get (ints30 4) (at_ 2)))

/-- Non-vacuity: a program with a gather and a removed axis. -/
example : on30 carefulPrims elide30 pick30 = some (.arr ⟨[2], [2, 4].map Scal.f, rfl⟩) := by decide +kernel

/-! ### Where the backends differ -/

/-- `array(lambda i, j: x[max(i - 1, 0), j])` -/
def shift30 : Expr Int := vec 2 (dim (tensor30 0 2) 0) (vec 3 (dim (tensor30 0 2) 1)
  (Phi.get (Phi.get (tensor30 0 2) (op2 .max (op2 .subtract (at_ 2) (int 1)) (int 0))) (at_ 3)))

theorem on30_iff {o : Opts Int} {p : Expr Int} (h : (compileProgram o 20 p).isSome = true) :
    ∃ e, compileProgram o 20 p = some e ∧ ∀ P, on30 P o p = evalP P (fun _ _ => none) e env30 := by
  obtain ⟨e, he⟩ := Option.isSome_iff_exists.1 h
  exact ⟨e, he, fun P => by unfold on30; rw [he]; rfl⟩

/-- PyTorch pads the wrong dimension: for `array(lambda i, j: x[max(i - 1, 0), j])` the result has the shape
(1, 3) instead of (2, 3), and other elements. -/
theorem C30_pad_counterexample : ∃ e, compileProgram opts30 20 shift30 = some e ∧
    evalP numpyPrims (fun _ _ => none) e env30 = some (.arr ⟨[2, 3], [1, 2, 3, 1, 2, 3].map Scal.f, rfl⟩) ∧
    evalP jaxPrims (fun _ _ => none) e env30 = some (.arr ⟨[2, 3], [1, 2, 3, 1, 2, 3].map Scal.f, rfl⟩) ∧
    evalP torchPrims (fun _ _ => none) e env30 = some (.arr ⟨[1, 3], [1, 1, 2].map Scal.f, rfl⟩) := by
  obtain ⟨e, he, h⟩ := on30_iff (o := opts30) (p := shift30) (by decide +kernel)
  exact ⟨e, he, by rw [← h]; decide +kernel, by rw [← h]; decide +kernel, by rw [← h]; decide +kernel⟩

/-- `array(lambda i, j: z[i, idx[i], j])` -/
def rows30 : Expr Int := vec 2 (dim (ints30 4) 0) (vec 3 (dim (tensor30 0 2) 1)
  (Phi.get (Phi.get (Phi.get (tensor30 5 3) (at_ 2)) (Phi.get (ints30 4) (at_ 2))) (at_ 3)))

/-- PyTorch does not broadcast the index array of a gather: for `array(lambda i, j: z[i, idx[i], j])` only the
first column is there. -/
theorem C30_gather_counterexample : ∃ e, compileProgram elide30 20 rows30 = some e ∧
    evalP numpyPrims (fun _ _ => none) e env30 = some (.arr ⟨[2, 3], [4, 5, 6, 7, 8, 9].map Scal.f, rfl⟩) ∧
    evalP jaxPrims (fun _ _ => none) e env30 = some (.arr ⟨[2, 3], [4, 5, 6, 7, 8, 9].map Scal.f, rfl⟩) ∧
    evalP torchPrims (fun _ _ => none) e env30 = some (.arr ⟨[2, 1], [4, 7].map Scal.f, rfl⟩) := by
  obtain ⟨e, he, h⟩ := on30_iff (o := elide30) (p := rows30) (by decide +kernel)
  exact ⟨e, he, by rw [← h]; decide +kernel, by rw [← h]; decide +kernel, by rw [← h]; decide +kernel⟩

/-- `array(lambda i: idx[max(i - 1, 0)])` -/
def late30 : Expr Int := vec 2 (dim (ints30 4) 0)
  (Phi.get (ints30 4) (op2 .max (op2 .subtract (at_ 2) (int 1)) (int 0)))

/-- NumPy's shortcut for padding turns integers into floats, JAX does not. -/
theorem C30_integer_counterexample : ∃ e, compileProgram opts30 20 late30 = some e ∧
    evalP jaxPrims (fun _ _ => none) e env30 = some (.arr ⟨[2], [1, 1].map Scal.i, rfl⟩) ∧
    evalP numpyPrims (fun _ _ => none) e env30 = some (.arr ⟨[2], [1, 1].map Scal.f, rfl⟩) := by
  obtain ⟨e, he, h⟩ := on30_iff (o := opts30) (p := late30) (by decide +kernel)
  exact ⟨e, he, by rw [← h]; decide +kernel, by rw [← h]; decide +kernel⟩

/-! The forms the compiler does not generate: inserting axes in another order, or removing two at once, would
differ. -/

example : torchUnsqueeze [1, 0] (⟨[2], [.i 1, .i 2], rfl⟩ : A Int) = some ⟨[1, 2, 1], [.i 1, .i 2], rfl⟩ ∧
    NArr.unsqueeze [1, 0] (⟨[2], [.i 1, .i 2], rfl⟩ : A Int) = some ⟨[1, 1, 2], [.i 1, .i 2], rfl⟩ := by
  decide +kernel

example : torchSqueeze [0, 1] (⟨[1, 1, 2], [.i 1, .i 2], rfl⟩ : A Int) = some ⟨[1, 2], [.i 1, .i 2], rfl⟩ ∧
    NArr.squeeze [0, 1] (⟨[1, 1, 2], [.i 1, .i 2], rfl⟩ : A Int) = some ⟨[2], [.i 1, .i 2], rfl⟩ := by
  decide +kernel

end Verif.Props
