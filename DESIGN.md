# A Lean 4 model of `jbachurski/ein`

`ein` is a pointful array calculus: users write comprehensions (`array(lambda i: ...)`), folds and
reductions; a *phi* calculus term is built, and is either interpreted (`naive`) or compiled to
axis-oriented array code (*yarr*) run by NumPy / Torch / JAX.  The model follows that pipeline:

    frontend (layouts, operators, size inference, function cache)
      -> phi terms + type checks           Verif/Phi
      -> midend passes                     Verif/Midend  (substitute, inline, outline, SoA, sizes, equiv)
      -> codegen phi -> yarr               Verif/Codegen (Axial, reads, folds, einsum, peephole, in-place)
      -> array backends                    Verif/Backend (NumPy operations, env discipline, reduce tree)

## Conventions

* Every Lean definition that models code cites `file:lines` of `/repo` and says what is simplified.
* Python exceptions are `none` (or a dedicated error value); partial Python functions are `Option`
  valued, never totalised with junk that a theorem could exploit.
* `Symbol` objects are compared by identity in Python; they are natural numbers here, tagged
  `Variable`/`Index`.  `Variable()`/`Index()` (fresh object) is a fresh number drawn from a supply.
* Machine numbers: `int64` is modelled by unbounded `Int`; floating point is an abstract carrier with
  operations, and only the theorems that need them (sum re-association, `/` by reciprocal) assume the
  algebraic laws they use, as explicit hypotheses/type classes.
* NumPy arrays are a shape (`List Nat`) with an element function on in-range multi-indices.
* Property theorems are in `Verif/Props/*.lean`; helper lemmas are elsewhere.  Each property theorem
  has an `example` next to it that meets its hypotheses on a concrete non-trivial case.
* If the code violates a property, the negation is proved on a concrete witness (`*_counterexample`),
  and the theorem that does hold is named `*_partial`.

## Plan per property

| id | model | proof |
|----|-------|-------|
| C01 | phi evaluation on nested values, yarr evaluation on NumPy arrays, `transform` restricted to the record-free fragment | simulation: induction on the term with the invariant "array sliced at an index assignment represents the value at that assignment" |
| C02 | four read lowerings on arrays | each proved equal to the clamped read at every index assignment |
| C03 | integer arithmetic of `pad_slice_get`, NumPy slice and edge pad on lists/axes | case analysis with linear arithmetic; counterexample for user bounds outside the array |
| C04 | `match_clipped_shift` on phi terms | induction on the term, lattice laws of min/max on `Int` |
| C05 | the `while n > 1` loop on lists | strong induction on the length, using associativity only |
| C06 | `match_reduction_by_body`, fold and bulk reduction | induction on the count; counterexamples for accumulator in the element and empty min/max |
| C07 | `Dot` algebra, einsum as sum over assignments | induction on the expression under the guard "every product depends on every counter"; counterexample without it |
| C08 | generic terms, `_apply_insertions`, CSE insertions over any graph with immediate dominators, LICM | semantic invariance by induction, scoping lemma for each insertion; that the assertions hold: the result determines the term it comes from, so nothing but atoms occurs twice |
| C09 | `inline` (with and without memo) on generic terms | induction on the term |
| C10 | `substitute` on generic terms | induction on the term |
| C11 | SoA on phi terms, nested value semantics with type directed unzip | induction on the term |
| C12 | `_dim_of`, `_update_size_classes`, trigger loop | every united pair is semantically equal; closure under the generated equivalence (C13); the triggers of a fold also by induction over its rounds, without the condition that accumulators keep their lengths (`Props/C12Triggers.lean`) |
| C13 | `Equivalence` as association lists / functions | invariant over histories |
| C14 | phi typing and evaluation | induction on the term |
| C15 | `resolve_scalar_signature`, the signature table | exact characterisation (iff) |
| C16 | layouts, pack / project | mutual induction on records |
| C17 | `__pow__` with fuel for Python recursion | strong induction; counterexample for exponent 0 |
| C18 | `Function` as a state machine over call histories | invariant over histories |
| C19 | state-passing evaluators with destructive env | induction; equal to lexical evaluation and env restored |
| C20 | heap model with buffers and views | invariant: only fresh buffers are written |
| C21 | `_infer_sizes` | soundness from C12's dimension lemma |
| C22 | `_alignment`, `_align`, `along` on arrays | permutation lemmas, pointwise characterisation |
| C23 | `Value.__eq__/__hash__`, `Term.__eq__` | case analysis; counterexample for signed zeros |
| C24 | `Scalar` operator methods building phi terms | evaluation of the built term |
| C25 | `Monoid`s in `std.py` | algebra |
| C26 | `Concat` on values and arrays | pointwise |
| C27 | fold loops | induction on the count; counterexample for negative counts in the interpreter |
| C28 | `free_symbols` on generic terms | induction |
| C29 | `cancel_shape_ops`, `cancel_tuple_ops` on yarr terms | induction |
| C30 | Torch axis loops and pad order against NumPy | list induction; counterexamples |
| C31 | yarr typing and evaluation | induction |
| C32 | `primitive_type` | induction on types |
| C33 | `interpret`: the composition of the models of C11, C08, C19 | composition; what a pass asks of its input is proved of the output of the one before, or kept as a hypothesis; counterexample where it fails |
| C34 | NumPy `stage`: the composition of C11, C01, C35, C29, C08, C20 | composition; sharing is proved for the more lenient semantics in which unused bindings may fail (`Midend/Lazy`); that compiled code binds every name once, which sharing asks for, is proved by an invariant of the compiler's table (`Codegen/MemoBuilt`, `CodeScoped`) |
| C35 | the compiler as a sequence of requests, answered with or without the table `transformed` | the code of an expression depends only on what is known about its free symbols (simulation between two contexts); invariant of the table relative to the binders that are open; counterexample where a lowering opens the same binder twice |
| C36 | external functions as functions on arrays, called on single values by the interpreter and on batches by compiled code; `ext` | a law for functions (`WorksAlong`), proved for elementwise functions with broadcasting and for functions along the last axis; it makes calls a case of C01; counterexamples where it does not hold |
| C37 | `stage` of the JAX and PyTorch backends: the composition of C11, C01, C35, C29, C08 and the primitives of C30; `fori_loop`, and the wrapper that passes the free variables only | composition; what JAX computes is at most what the reference computes, and PyTorch computes at least what the restricted primitives of C30 compute; counterexample: a fold the accumulator of which grows |
| C38 | the frontend on Python objects: indexing, `array`, `fold`, `reduce` (`Frontend/Objects`), the functions of the user being any functions on objects; a separate notion of the value of an object (`Frontend/PyValue`) | induction on layouts (packing and unpacking do not change values), on the nest of comprehensions, simulation of loops; counterexample: `fold` with another order of fields |
| C39 | slices, `where` and `assume` of `Frontend/Objects`; the specification is on values (`pick`, `Alike`) | the sizes inferred for comprehensions the library makes (`Frontend/ObjSizes`), then induction on items and on layouts; counterexample: a negative size |
| C40 | decorated functions with their cache (`Frontend/Decorated`), the arrays passed and the constants in NumPy's memory (`Backend/Loaded`), all three backends | every result comes from code traced for the same types and backend (invariant over histories), then C11, C01, C35, C34 and C37 for that code; what the user's function computes is a hypothesis, which C38 and C39 discharge |
| C41 | a deep embedding of the user's programs (`Frontend/Script`): what a program says on nested values (`sem`), what running it with the library builds (`make`), its types (`typ`) and which indices its sizes use (`deps`) | induction on programs with an invariant on objects (`Has`: typed, symbols declared, bound once on a path, below the supply), using C38 for `array`, `fold` and `reduce`; then C40 |
| C42 | programs of C41 in which `array`, with any number of indices, and `fold` get no sizes (`Script.auto`, `Script.autoFold`), with `_infer_sizes`; the specification replaces each missing size by the size of an array that is read at the index, also where the element read goes through a local variable or a component (`reads`, `fill`) | induction on programs: the read survives in the expression that is built, so its size is a candidate (`ScriptKeeps`), candidates do not mention symbols of the comprehension (`ScriptTraces`), and an expression that has a value has the one of the program, with sizes of single-field records seen through (`ScriptConforms`, `ScriptAgree`); a second induction shows that the arrays read at an index are the only candidates (`uses`, `ScriptClean`), and a third that, if they have a common size, the assertions hold and the value is the one the program tells (`tells`, `ScriptSays`, `ScriptGives`) |
| C43 | `fold_sum`, …, `reduce_argmin` of `std.py` as programs of C41 and C42 (`foldMonoid`, `reduceMonoid`, `foldArgminOf`, `reduceArgminOf` in `Frontend/ScriptStd.lean`), with a function of the user as parameter; the specification is the sum over a range, and first positions of least and greatest elements (`IsArgmin`, `IsArgmax`) | the loops of the programs are left folds; a scan from the identity finds the first best element of a total preorder |
| C44 | the programs on matrices of the documentation and of the tests as programs of C41 to C43 (`productScript`, `leastScript`, … in `Props/C44.lean`); the specification is Mathlib's `Matrix` (product, `mulVec`, `vecMulVec`, transposed matrix, trace) | the value a program tells is computed from reads of matrices at positions in range; `Ready.makes` (C43) turns it into the value of what the library makes |
| C45 | the programs of `tests/test_main.py` as programs of C41 to C43 (`sieveScript`, `fibScript`, `powerVectorScript`, … in `Props/C45.lean`); the specification is Mathlib's `Nat.Prime`, `Nat.fib` and `Matrix` (power, `mulVec`, `diag`), and `IsMinPlus` | for loops, the value of the accumulator after each round (`loop_states`): what is known of a number after the divisors less than `k`, the first `k` numbers, the `k`-th power; reads of accumulators are in range or clamped; then `Ready.makes` (C43) |

## What is modelled, file by file

| `/repo/ein` | Lean | left out |
|---|---|---|
| `term.py`, `symbols.py` | `Term.lean`, `Value.lean` (equality and hashing) | `functools.cached_property` caching |
| `value.py` | `Value.lean`, `Val.lean` | NumPy dtypes other than bool / int64 / float64 |
| `phi/phi.py`, `phi/type_system.py` | `Phi/Syntax` (terms, constructors, types), `Phi/Prim` (record types), `Phi/Sem` (reference interpreter `run`), `Phi/Run` (the same with named errors), `Phi/Sound`, `Phi/Regular` (typing) | error message texts |
| `midend/substitution.py` | `Midend/Substitution`, `Midend/SubstStrict` | memoisation |
| `midend/lining.py` | `Midend/{Insertions,Cse,Licm,LicmCoherent,Coherent,Outline,OutlineOk,OutlineHeads,Lazy,InsTree,InsStages,Renames,OutlineTotal,OutlineAtoms,Inline,InlineMemo,Strict}` | the graph algorithm `networkx.immediate_dominators`: any tree of dominators is allowed |
| `midend/equiv.py` | `Midend/Equiv` | |
| `midend/size_classes.py` | `Midend/{SizeClasses,SizeMoment,SizePath}` | |
| `midend/structs.py` | `Midend/Structs*` | memoisation; the input assertion (`48-55`) is a hypothesis |
| `codegen/yarr.py` | `Yarr/{Syntax,Sem,Rank,Strict}` | dtypes of array code (only ranks are typed) |
| `codegen/axial.py` | `Codegen/{Axial,Align,AlignEval,AlongEval,Broadcast,Tuples}` | |
| `codegen/array_indexing.py` | `Codegen/{Clip,PadSlice,Compile,GetEval,MeansGet}` | |
| `codegen/phi_to_yarr.py` | `Codegen/Compile` (`transform`), `Codegen/Memo*` (its memo table), `Codegen/{Built,Scoping,CodeScoped}` (names and scopes in compiled code), `Codegen/{External,Calls}` (external functions), `Codegen/{Plan,Planned}` (which folds become bulk reductions or einsum, and their code, used by `Codegen/Compile`), `Codegen/{Reduction,Chain,Dot,Letters,Einsum,Contract}` (matching and its proofs), `Yarr/Cancel` (peephole), `Backend/InplacePass` (in-place marking) | updates of the size classes during compilation (their answers are a parameter) |
| `backend/naive.py` | `Backend/Naive`, `Backend/Dict` | |
| `backend/array_backend.py` | `Backend/{Dict,Reduce,Staged}`, `Yarr/Sem` | |
| `backend/numpy_backend.py` | `Array/*`, `Backend/{EdgePad,Memory,Inplace,InplaceSim}` | strides; `np.einsum` path choice |
| `backend/torch_backend.py`, `backend/jax_backend.py` | `Backend/{Prims,PrimsLe,Careful}` (structural primitives), `Backend/Jax` (loops, wrapper) | devices, `jit`, tracing |
| `frontend/*.py` | `Frontend/{Scalar,Std,Layout,Functions,InferSizes,Extrinsic,Decorated}`, `Frontend/{Objects,PyValue,ObjLemmas,ObjSizes}` (operations on objects, and their values), `Frontend/Script*` (programs that use them) | conversion of user objects beyond records, scalars and `Vec`s |
| `debug/`, `tools/` | not modelled | |

The interfaces over which the midend passes are proved are inhabited: `Sem` by `Phi.sem` (`Phi/Sem.lean`), `Strict` by
`Phi.strict`, `Phi.busy` (`Phi/Busy.lean`), `Yarr.strict` and `Yarr.busy` (`Yarr/Strict.lean`), so those theorems speak
about real programs.

## What was found

Each of these is a theorem about the model on a concrete program (`*_counterexample`). The source lines are cited
beside it.

| id | finding |
|----|---------|
| C01 | in a comprehension, a pair of which only one component depends on the index is compiled to an array of length 1 for the other component; a structured reduction inside a comprehension fails, or has a result of a wrong shape, if an index of a comprehension comes before the reduced values in its body |
| C03, C30 | slice-and-pad reads turn integer arrays into float arrays on NumPy; user clip bounds outside of the array give a result of the wrong length |
| C05 | for operations that are only associative, the initial value is combined on one particular side |
| C06 | folds that mention the accumulator in the element are compiled to a reduction with an unbound variable; a minimum or maximum over an empty range fails instead of returning the initial value; inside a comprehension, a sum that starts with the accumulator of a loop around it is not compiled (assertion) |
| C07 | in sums of products, summands that do not mention the counter are added once instead of once per iteration; shared summations inside factors are captured; accumulators in elements |
| C08 | a failing loop-invariant expression is hoisted out of a loop with zero iterations, and then fails |
| C08 | `outline` fails its assertion on free symbols if the program has a `Let` that is not used and whose definition has a free symbol (the frontend builds no `Let`) |
| C09, C10 | inlining and substitution capture variables if binders are not unique |
| C11 | the struct-of-arrays pass fails with an assertion on arrays of arrays of records and on programs that return arrays of records |
| C12 | size classes learn from assertions in code that is never executed, and assume that accumulators keep their length: wrong compiled results for both |
| C14 | positions, axes and assertions are not checked to be integers / in range; empty comprehensions lose their element type |
| C15 | the number of operands of an operator is not checked |
| C16 | dict layouts with keys that are method names; `VecLayout.match` ignores the element layout |
| C17 | `x ** 0` recurses for ever |
| C20 | in-place comparisons write truth values into number arrays; equal rank does not exclude broadcasting |
| C21 | sizes are inferred with outer indices set to 0 |
| C23 | `0.0` and `-0.0` are equal with different hashes |
| C25 | `(inf, 0)` is not an identity of the arg-min operation |
| C27 | a negative count raises in the interpreter and returns the initial value on array backends |
| C30 | PyTorch: `pad` pads the wrong dimension, `gather` does not broadcast |
| C31, C14 | nothing relates the type of a variable to the type of what it is bound to |
| C32 | the list of component types forgets the nesting |
| C33 | the interpreter fails with an assertion on a program with a loop inside an array of records: the record rewriting duplicates the loop with the same counter, and an expression common to both copies is moved out of both loops |
| C35 | the compiler's table is keyed by the expression alone, but summations get a new index whenever they are lowered: a summation over a loop that is used both alone and inside another summation is compiled with stale axes, and compilation fails with an assertion |
| C36 | external functions get operands with leading axes: an elementwise function of a row and a number pairs the number of the wrong index, and functions along the first axis work along the index |
| C37 | JAX rejects folds the accumulator of which changes its shape; the other backends compute them |
| C38 | `fold` compares the layout of the initial value with itself: a step that returns an array of records with their fields in another order is accepted, and swaps the fields |
| C39 | `where` on arrays compares their sizes as written: `array(f, size=-1)` is an empty array, but `where` of it and another empty array raises |

## Trusted base

* Lean 4.33.0's kernel. Every theorem listed in `MANIFEST.json` depends on no axioms other than `propext`,
  `Classical.choice` and `Quot.sound`; no `sorry`, no `native_decide`, no `bv_decide`. Concrete witnesses use
  `decide +kernel`, which is evaluation by the kernel.
* The reading of the Python source embodied in the model's definitions (nothing is extracted).
* The modelled meaning of the NumPy / Torch primitives (`Array/Ops`, `Backend/Prims`) and of
  `networkx.immediate_dominators`.
* Assumptions that appear as hypotheses of theorems:
  * unique binders (every `Variable()` and `Index()` of the frontend is a new object);
  * `check` (`Codegen/Checked.lean`) for compiled code: sizes are positive, constants are not ragged, ends of slices
    are inside the array, dropped reads are of the full length (C12), operands of an external function have equal ranks;
  * external functions treat leading axes as axes of a batch (`Vectorises`, C36);
  * `evenPairs`: components of pairs depend on the same indices; in the body of a reduction the axis of the batch is
    the last one, and no loop or concatenation has to be repeated along it (C01);
  * exact arithmetic (`AssocFloat`, `RingFloat`, `ExactFloat`) where sums are re-associated (C06, C07, C17);
  * purity of the user's function (C18).
* Not modelled: `ein/debug` (pretty printing and graphs), JAX tracing/jit, memory layout/strides,
  floating point rounding, integer overflow, Python recursion limits (except where stated), `AssertEq` and `Dim`
  operands in array code (the array backends do not evaluate assertions at all; the reference interpreter does, so
  theorems about compiled code speak about runs in which the assertions hold).
