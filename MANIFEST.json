{
 "claims": [
  {
   "property": "C01",
   "status": "partial",
   "theorems": [
    "Verif.Props.C01_compiled_meaning_partial",
    "Verif.Props.C01_comprehension_parts_partial",
    "Verif.Props.C01_comprehensions_partial",
    "Verif.Props.C01_parts",
    "Verif.Props.C01_reduce_condition_monoid",
    "Verif.Props.C01_pairs_counterexample",
    "Verif.Props.C01_reduce_axes_counterexample",
    "Verif.Props.C01_reduce_shape_counterexample"
   ],
   "note": "The whole compiler (comprehensions, reads with all four lowerings, lets, folds, structured reductions, concatenation, pairs, scalar operations, external functions, and with exact float arithmetic also the lowerings of folds to einsum and to reductions of arrays) against the reference interpreter, by induction over programs. Reductions are executed by the array backend as a balanced tree; the condition that the order of evaluation does not matter holds for monoids (C01_reduce_condition_monoid). Verif/Props/C01Default.lean and C01Reduce.lean have examples. Missing: pairs whose components depend on different indices, and reductions with a body whose last axis is not the one of the batch (the code is wrong in both cases: counterexamples), loops and concatenations that would be repeated along that axis, empty comprehensions, external functions on operands of different ranks (C36), and folds outside of the conditions of C06 and C07 (wrong code there: counterexamples)."
  },
  {
   "property": "C02",
   "status": "partial",
   "theorems": [
    "Verif.Props.C02_interpreter",
    "Verif.Props.C02_compiled_partial",
    "Verif.Props.C02_options_agree_partial"
   ],
   "note": "Interpreter and compiled reads for all option settings; the compiled part has the conditions of C01 (slices with ends outside of the array are wrong, see C03)."
  },
  {
   "property": "C03",
   "status": "partial",
   "theorems": [
    "Verif.Props.C03_slice_and_pad",
    "Verif.Props.C03_numpy_partial",
    "Verif.Props.C03_integer_counterexample",
    "Verif.Props.C03_high_outside_counterexample",
    "Verif.Props.C03_low_outside_counterexample"
   ],
   "note": "C03_slice_and_pad: with an ideal edge pad the emitted slice-and-pad reads the clamped position for every array, axis, size and clip within the array. C03_numpy_partial: the same with the NumPy backend's own padding routine for float arrays. Violations proved: integer arrays become floats, and clip bounds outside the array give a wrong length."
  },
  {
   "property": "C04",
   "status": "proved",
   "theorems": [
    "Verif.Props.C04_value",
    "Verif.Props.C04_parts",
    "Verif.Props.C04_isolated_counterexample"
   ],
   "note": "The recognised form evaluates to the same integer as the index expression, for every environment; shift and bounds mention no index. A closed part may also be swallowed: C04_isolated_counterexample records the one clause of the source comment (the symbol occurs) that does not hold for sub-expressions without symbols."
  },
  {
   "property": "C05",
   "status": "proved",
   "theorems": [
    "Verif.Props.C05_tree_reduce_associative",
    "Verif.Props.C05_tree_reduce_monoid",
    "Verif.Props.C05_init_side_counterexample"
   ],
   "note": "Logarithmic pairwise tree of array_backend.reduce against the sequential loop, all lengths including 0; the counterexample shows that for merely associative operations the tree puts the initial value on one particular side."
  },
  {
   "property": "C06",
   "status": "partial",
   "theorems": [
    "Verif.Props.C06_bulk_reduction_partial",
    "Verif.Props.C06_lowered_code_partial",
    "Verif.Props.C06_lowered_program_partial",
    "Verif.Props.C06_which_folds",
    "Verif.Props.C06_accumulator_counterexample",
    "Verif.Props.C06_empty_minimum_counterexample",
    "Verif.Props.C06_carried_counterexample"
   ],
   "note": "The value of a fold of the recognised form equals the initial value combined with the bulk reduction of its elements, for exact arithmetic; the generated code computes it, inside comprehensions as well. C06_which_folds says which folds are replaced. Missing: the program does not check that the element does not mention the accumulator, minima and maxima over an empty range fail, and the compiler fails if the initial value is a variable whose code has axes (all proved as counterexamples). The reduction kinds of the code are +, min and max; there is none for *. The lowering is part of the compiler of C01."
  },
  {
   "property": "C07",
   "status": "partial",
   "theorems": [
    "Verif.Props.C07_normal_form",
    "Verif.Props.C07_letters",
    "Verif.Props.C07_letters_available",
    "Verif.Props.C07_einsum_code_partial",
    "Verif.Props.C07_einsum_program_partial",
    "Verif.Props.C07_multiplicity_counterexample",
    "Verif.Props.C07_constant_product_counterexample",
    "Verif.Props.C07_capture_counterexample",
    "Verif.Props.C07_accumulator_counterexample"
   ],
   "note": "The rewriting of nested summations to sums of products keeps the value of the loops; the einsum code of such a sum holds the value of the loops for every assignment of the indices in scope, under the conditions Contractible (each counter of a summand is an axis of one of its factors, sizes do not mention counters, no factor binds a counter again, positive sizes). Without them it is false: summands that do not mention the counter are added only once, shared summations inside factors are captured, elements may mention the accumulator. The lowering is part of the compiler of C01."
  },
  {
   "property": "C08",
   "status": "partial",
   "theorems": [
    "Verif.Props.C08_outline_preserves_value_partial",
    "Verif.Props.C08_outline_with_lets_partial",
    "Verif.Props.C08_outline_scope",
    "Verif.Props.C08_outline_returns",
    "Verif.Props.C08_outline_with_lets_returns",
    "Verif.Props.C08_zero_trip_counterexample",
    "Verif.Props.C08_dead_let_counterexample",
    "Verif.Props.C08_outline_array_code_partial",
    "Verif.Props.C08_outline_array_code_scope",
    "Verif.Props.C08_outline_array_code_returns"
   ],
   "note": "Proved for all let-free (and let-containing) programs with unique binders: outlined value = source value; scoping preserved; the pass returns (none of its assertions fails), for programs with lets exactly if no dead let loses a free symbol. Missing: a failing expression hoisted out of a loop with zero iterations makes the outlined program fail (counterexample proved); source success implies outlined success when every executed loop iterates at least once. The same is proved for outlining compiled array code."
  },
  {
   "property": "C09",
   "status": "proved",
   "theorems": [
    "Verif.Props.C09_inline_preserves_value",
    "Verif.Props.C09_inline_value_unique",
    "Verif.Props.C09_inline_lazy",
    "Verif.Props.C09_no_let_left",
    "Verif.Props.C09_no_new_free_symbol",
    "Verif.Props.C09_clash_counterexample"
   ],
   "note": "Including the memo table. The counterexample shows the unique-binder hypothesis is needed."
  },
  {
   "property": "C10",
   "status": "proved",
   "theorems": [
    "Verif.Props.C10_substitute_value",
    "Verif.Props.C10_substitute_absent",
    "Verif.Props.C10_substitute_free",
    "Verif.Props.C10_capture_counterexample"
   ],
   "note": ""
  },
  {
   "property": "C11",
   "status": "partial",
   "theorems": [
    "Verif.Props.C11_partial",
    "Verif.Props.C11_components",
    "Verif.Props.C11_returns",
    "Verif.Props.C11_depth",
    "Verif.Props.C11_nested_counterexample",
    "Verif.Props.C11_result_counterexample",
    "Verif.Props.C11Example.matrix_fails"
   ],
   "note": "Whenever the struct-of-arrays pass returns, type and value are kept, every component equals the original one, and no sub-expression has an array of records in its type. C11_returns characterises exactly when the pass returns; it fails with an assertion on arrays of arrays of records and on programs returning arrays of records, so the full property (all nestings) does not hold."
  },
  {
   "property": "C12",
   "status": "partial",
   "theorems": [
    "Verif.Props.C12_reads_partial",
    "Verif.Props.C12_sizes_partial",
    "Verif.Props.C12_moment_exists",
    "Verif.Props.C12_dead_code_counterexample",
    "Verif.Props.C12_accumulator_counterexample",
    "Verif.Props.C12_triggers_partial"
   ],
   "note": "Proved for every program and every moment of an evaluation in which all code is reached and array accumulators keep their lengths. Both restrictions are needed: the counterexamples show a wrong compiled result from an assertion in a loop with no rounds, and from an accumulator that grows. Without the second restriction: each conclusion the compiler draws about an accumulator is right in every round if the sizes it rests on coincide in every round, except the one about the body in the last round, which is what the second counterexample uses."
  },
  {
   "property": "C13",
   "status": "proved",
   "theorems": [
    "Verif.Props.C13_equiv_iff_connected",
    "Verif.Props.C13_unite_reports_change",
    "Verif.Props.C13_find_is_class",
    "Verif.Props.C13_equiv_iff_connected_normalised"
   ],
   "note": "Union-find of ein/midend/equiv.py for every history of unite/find calls."
  },
  {
   "property": "C14",
   "status": "partial",
   "theorems": [
    "Verif.Props.C14_type_soundness",
    "Verif.Props.C14_same_values",
    "Verif.Props.C14_never_stuck_partial",
    "Verif.Props.C14_position_counterexample",
    "Verif.Props.C14_axis_counterexample",
    "Verif.Props.C14_undeclared_counterexample",
    "Verif.Props.C14_empty_counterexample"
   ],
   "note": "Values have the static type, for every program whose bound variables are annotated with the type of their binder. That evaluation never applies an operation to a value of the wrong form needs integer positions, existing axes and integer assertions, which the constructors do not check (counterexamples)."
  },
  {
   "property": "C15",
   "status": "proved",
   "theorems": [
    "Verif.Props.C15_operator_typing",
    "Verif.Props.C15_result_kind",
    "Verif.Props.C15_no_promotion",
    "Verif.Props.C15_arity_counterexample"
   ],
   "note": "Exact for applications with the operator's number of operands; the number of operands itself is not checked by the code (counterexample)."
  },
  {
   "property": "C16",
   "status": "partial",
   "theorems": [
    "Verif.Props.C16_roundtrip_partial",
    "Verif.Props.C16_dict_key_counterexample",
    "Verif.Props.C16_raw_array_counterexample",
    "Verif.Props.C16_match_vector_counterexample"
   ],
   "note": "Round-trip proved for all nested records of scalars, numbers and Vecs (any width and depth), under the conditions that no dict key is a method name of dict, no component is an unwrapped array, and no record is empty. Those cases are counterexamples in the code. 'Matches exactly' holds in the direction that the packed type matches; VecLayout.match ignores the element layout (counterexample)."
  },
  {
   "property": "C17",
   "status": "partial",
   "theorems": [
    "Verif.Props.C17_power_float_partial",
    "Verif.Props.C17_power_int_partial",
    "Verif.Props.C17_zero_counterexample",
    "Verif.Props.C17_negative_int_rejected"
   ],
   "note": "Proved for every exponent other than 0. Exponent 0 makes the construction recurse for ever (proved as counterexample for every fuel)."
  },
  {
   "property": "C18",
   "status": "proved",
   "theorems": [
    "Verif.Props.C18_transparent",
    "Verif.Props.C18_rejected",
    "Verif.Props.C18_declared",
    "Verif.Props.C18_traced",
    "Verif.Props.C18_once",
    "Verif.Props.C18_stored"
   ],
   "note": "State machine over arbitrary call histories; the tracer, stager and executor are parameters, and transparency assumes that the user's function is pure (the outcome does not depend on which fresh variables it is traced with). A trace that raises is not cached and is repeated by the next call, so 'at most once' counts successful traces."
  },
  {
   "property": "C19",
   "status": "proved",
   "theorems": [
    "Verif.Props.C19_interpreter",
    "Verif.Props.C19_array_backend",
    "Verif.Props.C19_array_backend_returns",
    "Verif.Props.C19_bound_binder_counterexample",
    "Verif.Props.C19_array_bound_binder_counterexample"
   ],
   "note": "Both evaluators are state-passing functions over the caller's dictionary. Binders must be distinct (the property's quantifier) and not bound by the caller; the counterexamples show why. Update in place is C20; here it computes a value like any operator."
  },
  {
   "property": "C20",
   "status": "partial",
   "theorems": [
    "Verif.Props.C20_buffers_unchanged",
    "Verif.Props.C20_arrays_unchanged",
    "Verif.Props.C20_same_result_partial",
    "Verif.Props.C20_outcome_pure",
    "Verif.Props.C20_compare_counterexample",
    "Verif.Props.C20_broadcast_counterexample"
   ],
   "note": "Safety (no input, constant or live variable is modified) is proved in full on a memory model with views. Equality of results is proved for executions that do not raise and without in-place comparisons; in-place comparisons return numbers instead of booleans (counterexample), and equal rank does not exclude broadcasting (counterexample at the level of array code)."
  },
  {
   "property": "C21",
   "status": "partial",
   "theorems": [
    "Verif.Props.C21_direct_reads_partial",
    "Verif.Props.C21_scope",
    "Verif.Props.C21_array_length",
    "Verif.Props.C21_inferred",
    "Verif.Props.C21_fold_scope",
    "Verif.Props.C21_fold_count",
    "Verif.Props.C21_ragged_counterexample"
   ],
   "note": "Proved for every body and every environment, for arrays whose length does not depend on an outer index (or with outer indices at 0). The counterexample shows that the restriction is needed: sizes are inferred for outer index 0."
  },
  {
   "property": "C22",
   "status": "proved",
   "theorems": [
    "Verif.Props.C22_aligned",
    "Verif.Props.C22_alignment",
    "Verif.Props.C22_elementwise",
    "Verif.Props.C22_along",
    "Verif.Props.C22_along_total",
    "Verif.Props.C22_permutations",
    "Verif.Props.C22_pair"
   ],
   "note": "For every operand, axis order, target order, leftpad mode and set of repeats: aligning succeeds and reading the aligned operand (with NumPy broadcasting) at any assignment gives the operand's element; elementwise operations on aligned operands; turning an index into an axis; all permutations used are permutations; pairs of tuples of arrays."
  },
  {
   "property": "C23",
   "status": "partial",
   "theorems": [
    "Verif.Props.C23_value_equivalence",
    "Verif.Props.C23_term_equivalence",
    "Verif.Props.C23_term_hash",
    "Verif.Props.C23_term_same",
    "Verif.Props.C23_term_like",
    "Verif.Props.C23_value_hash_partial",
    "Verif.Props.C23_value_hash_counterexample",
    "Verif.Props.C23_pair_identity_counterexample"
   ],
   "note": "Equality of values and of expressions is an equivalence; equal expressions have equal hashes and are the same expression (bit by bit if hashes do not collide, up to signed zeros/NaN payloads otherwise). For values equal => equal hash fails for 0.0 and -0.0 (counterexample); proved without negative zeros and unusual NaNs."
  },
  {
   "property": "C24",
   "status": "proved",
   "theorems": [
    "Verif.Props.C24_binary",
    "Verif.Props.C24_binary_defined",
    "Verif.Props.C24_unary",
    "Verif.Props.C24_minmax",
    "Verif.Props.C24_where",
    "Verif.Props.C24_abs",
    "Verif.Props.C24_stdMin_int",
    "Verif.Props.C24_stdMax_int"
   ],
   "note": ""
  },
  {
   "property": "C25",
   "status": "partial",
   "theorems": [
    "Verif.Props.C25_sum",
    "Verif.Props.C25_min",
    "Verif.Props.C25_max",
    "Verif.Props.C25_reduce_min",
    "Verif.Props.C25_argmin_monoid_partial",
    "Verif.Props.C25_argmin_identity_counterexample",
    "Verif.Props.C25_reduce_argmin",
    "Verif.Props.C25_fold_argmin"
   ],
   "note": "sum/min/max are monoids; argmin's (+inf, 0) is not an identity against +inf at another position (counterexample), but is on all other elements."
  },
  {
   "property": "C26",
   "status": "partial",
   "theorems": [
    "Verif.Props.C26_interpreter",
    "Verif.Props.C26_variadic",
    "Verif.Props.C26_compiled_partial"
   ],
   "note": "Interpreter for all inputs; compiled code under the conditions of C01 (non-empty arrays)."
  },
  {
   "property": "C27",
   "status": "partial",
   "theorems": [
    "Verif.Props.C27_interpreter_partial",
    "Verif.Props.C27_array_backend",
    "Verif.Props.C27_no_iteration",
    "Verif.Props.C27_negative_count_counterexample"
   ],
   "note": "Holds on array backends for every count; on the interpreter for counts >= 0: a negative count raises (counterexample)."
  },
  {
   "property": "C28",
   "status": "proved",
   "theorems": [
    "Verif.Props.C28_value_depends_on_free_symbols",
    "Verif.Props.C28_other_bindings_irrelevant",
    "Verif.Props.C28_passes_introduce_no_free_symbol",
    "Verif.Props.C28_unscoped_counterexample"
   ],
   "note": ""
  },
  {
   "property": "C29",
   "status": "proved",
   "theorems": [
    "Verif.Props.C29_simplification_preserves_value",
    "Verif.Props.C29_no_noop_left"
   ],
   "note": "cancel_shape_ops followed by cancel_tuple_ops, for all typed array code."
  },
  {
   "property": "C30",
   "status": "partial",
   "theorems": [
    "Verif.Props.C30_generated",
    "Verif.Props.C30_unsqueeze",
    "Verif.Props.C30_squeeze",
    "Verif.Props.C30_backends_agree_partial",
    "Verif.Props.C30_pad_counterexample",
    "Verif.Props.C30_gather_counterexample",
    "Verif.Props.C30_integer_counterexample"
   ],
   "note": "Axis insertion and removal agree for everything the compiler generates. Padding and gather differ on PyTorch (wrong dimension padded; index array not broadcast), and NumPy's padding turns integers into floats: compiled counterexamples. Agreement of whole compiled programs is proved when evaluation stays within the restricted primitives."
  },
  {
   "property": "C31",
   "status": "proved",
   "theorems": [
    "Verif.Props.C31_value_has_claimed_rank",
    "Verif.Props.C31_single_array",
    "Verif.Props.C31_undeclared_counterexample"
   ],
   "note": "Ranks (not dtypes), for all array code and inputs; hypothesis: variables are used with the type of their binder, which the code's own checks do not enforce (counterexample shown)."
  },
  {
   "property": "C32",
   "status": "partial",
   "theorems": [
    "Verif.Props.C32_decompose",
    "Verif.Props.C32_recompose",
    "Verif.Props.C32_projection",
    "Verif.Props.C32_roundtrip_partial",
    "Verif.Props.C32_nesting_counterexample"
   ],
   "note": "The list of component types loses the nesting of records (counterexample); round trip proved for right-nested records."
  },
  {
   "property": "C33",
   "status": "partial",
   "theorems": [
    "Verif.Props.C33_interpret_partial",
    "Verif.Props.C33_reaches_evaluation",
    "Verif.Props.C33_interpret_counterexample"
   ],
   "note": "Whenever the record rewriting returns a program that still binds every symbol once, the outlined program exists, and any result is the value of the program as written, with the caller's dictionary restored. The condition fails for a program with a loop inside an array of records: the interpreter raises an assertion error (counterexample), although the program has a value."
  },
  {
   "property": "C34",
   "status": "partial",
   "theorems": [
    "Verif.Props.C34_numpy_partial",
    "Verif.Props.C34_code_exists",
    "Verif.Props.C34_code_well_scoped",
    "Verif.Props.C34_numpy_cached_partial",
    "Verif.Props.C34_cached_code_exists"
   ],
   "note": "End to end for the NumPy backend: records, compilation with its table (einsum and reductions included), simplification, sharing, in-place marking, execution in memory. That compiled code is well scoped is proved from the program. Missing: the conditions of C01, C35 and C20 are hypotheses (checked in the example); execution without error is assumed."
  },
  {
   "property": "C35",
   "status": "partial",
   "theorems": [
    "Verif.Props.C35_cache_partial",
    "Verif.Props.C35_loops_partial",
    "Verif.Props.C35_meaning_partial",
    "Verif.Props.C35_stale_counterexample"
   ],
   "note": "proved for programs in which no two different binders met by the compiler bind the same name; false in general: the table is keyed by the expression alone, and summations are lowered with a new index each time"
  },
  {
   "property": "C36",
   "status": "partial",
   "theorems": [
    "Verif.Props.C36_external_functions_partial",
    "Verif.Props.C36_elementwise",
    "Verif.Props.C36_along_last_axis",
    "Verif.Props.C36_signature",
    "Verif.Props.C36_mixed_ranks_counterexample",
    "Verif.Props.C36_first_axis_counterexample"
   ],
   "note": "Calls of functions that treat leading axes as axes of a batch compute the pointwise result; elementwise functions and functions along the last axis are such functions. Missing: operands of different ranks (wrong code: counterexample), and what C01 is missing."
  },
  {
   "property": "C37",
   "status": "partial",
   "theorems": [
    "Verif.Props.C37_jax_partial",
    "Verif.Props.C37_torch_partial",
    "Verif.Props.C37Example.C37_jax_returns_counterexample"
   ],
   "note": "JAX: whatever it returns is right. PyTorch: if the code evaluates with the primitives on which the backends agree (C30), it returns, and the result is right. Missing: the conditions of C01 and C35 on the program without records; JAX need not return (counterexample)."
  },
  {
   "property": "C38",
   "status": "partial",
   "theorems": [
    "Verif.Props.C38_index",
    "Verif.Props.C38_array",
    "Verif.Props.C38_fold_partial",
    "Verif.Props.C38_reduce",
    "Verif.Props.C38Example.C38_fold_counterexample"
   ],
   "note": "Reads, comprehensions, folds and reductions on arrays of records of any layout. Objects are records with distinct names that are not methods of dict, without empty records, and arrays are wrapped in Vec (C16). Folds: the body must be laid out like the initial value, which the code does not check (counterexample: fields of records in an array are swapped). Reductions are those of the reference interpreter; other orders are C05."
  },
  {
   "property": "C39",
   "status": "partial",
   "theorems": [
    "Verif.Props.C39_slice",
    "Verif.Props.C39_slice_defined",
    "Verif.Props.C39_where",
    "Verif.Props.C39_where_defined",
    "Verif.Props.C39_assume",
    "Verif.Props.C39Example.C39_where_counterexample"
   ],
   "note": "Slices, where and assume on arrays of records and records of arrays, of any depth, from the objects to their values. Partial: where compares inferred sizes, so sizes must not be negative (counterexample: size=-1); sizes the library infers must not depend on the indices in scope (Steady), which C21's rule on sizes checks only for free symbols; arguments that are complete expressions bind symbols of their own. Values are those of the reference interpreter on defined inputs; reads of empty arrays have no value."
  },
  {
   "property": "C40",
   "status": "partial",
   "theorems": [
    "Verif.Props.C40_origin",
    "Verif.Props.C40_calls_partial"
   ],
   "note": "C40_origin in full: every result of every history is from code traced for the same types and the same backend. C40_calls_partial: with the conditions of C11, C01 and C35 on each traced program, of C20 (no in-place comparisons) for NumPy and of C30 for PyTorch; arrays are not empty, and results are arrays or pairs of arrays."
  },
  {
   "property": "C41",
   "status": "partial",
   "theorems": [
    "Verif.Props.C41_value",
    "Verif.Props.C41_traces",
    "Verif.Props.C41_input",
    "Verif.Props.C41_calls_partial"
   ],
   "note": "Programs of the user as Python expressions (Script): numbers, arrays, records, local variables, comprehensions, folds and reductions with sizes given. C41_value, C41_traces and C41_input are complete: a typed program means what it says, tracing does not raise, and the program traced satisfies the conditions of the passes. C41_calls_partial composes them with C40 for every history of calls and every backend; missing there: the conditions of C01, C35, C20 and C30 on the compiled program (Compiles), and that the call returns. C41_value is about programs with all sizes given; for sizes that are left out, C41_traces and C41_input hold too, and the value is C42."
  },
  {
   "property": "C42",
   "status": "partial",
   "theorems": [
    "Verif.Props.C42_value",
    "Verif.Props.C42_filled",
    "Verif.Props.C42_value_partial",
    "Verif.Props.C42_calls_tell_partial",
    "Verif.Props.C42_calls_partial",
    "Verif.Props.C42Example.C42_sizes_differ",
    "Verif.Props.C41_traces"
   ],
   "note": "Sizes left out of array and fold are those of the arrays read at the index: proved for all typed programs of C41 with such comprehensions, of any number of indices, and folds, by induction. If those arrays do not depend on an index, have equal positive sizes, and the index is used in no other way but in scalar operations and as a component of the result, the value exists and is what the program tells (C42_value); without these conditions it is right if there is one (C42_value_partial; arrays of different sizes read at one index have none: C42_sizes_differ). Partial: the array read at the index, or the record it is a component of, must be a local variable outside the comprehension (what is read may go through local variables and components); for calls, the conditions on the compiled program and that the call returns."
  },
  {
   "property": "C43",
   "status": "partial",
   "theorems": [
    "Verif.Props.C43_fold_sum_value",
    "Verif.Props.C43_reduce_sum_value",
    "Verif.Props.C43_fold_order_value",
    "Verif.Props.C43_reduce_order_value",
    "Verif.Props.C43_empty_value",
    "Verif.Props.C43_fold_sum",
    "Verif.Props.C43_reduce_sum",
    "Verif.Props.C43_fold_min",
    "Verif.Props.C43_fold_max",
    "Verif.Props.C43_reduce_min",
    "Verif.Props.C43_reduce_max",
    "Verif.Props.C43_fold_argmin",
    "Verif.Props.C43_reduce_argmin"
   ],
   "note": "For every function of the user and every number of rounds, with the count given or left out: sums (exact arithmetic), minima and maxima (numbers other than NaN; the infinite identity for no rounds), first positions of minima. C43_fold_sum and so on say what the programs tell; the theorems ending in _value say, with conditions on the function of the user only (it is typed, and reads arguments at the index if the count is left out), that the library does not raise and that the object it returns holds this value. Partial: calls with the backends are C42_calls_tell_partial, with its conditions."
  },
  {
   "property": "C44",
   "status": "partial",
   "theorems": [
    "Verif.Props.C44_product",
    "Verif.Props.C44_apply",
    "Verif.Props.C44_outer",
    "Verif.Props.C44_transpose",
    "Verif.Props.C44_trace",
    "Verif.Props.C44_mask",
    "Verif.Props.C44_factorial",
    "Verif.Props.C44_least"
   ],
   "note": "For matrices and vectors of all sizes (positive where a size is inferred), in exact arithmetic: the library does not raise, and the object it returns holds the product, transposed matrix, trace and so on of Mathlib. The least element is for numbers other than NaN. Partial: the value is that of the object in the reference semantics; calls with the backends are C42_calls_tell_partial, with its conditions. Integers are unbounded."
  },
  {
   "property": "C45",
   "status": "partial",
   "theorems": [
    "Verif.Props.C45_trial_division",
    "Verif.Props.C45_sieve",
    "Verif.Props.C45_fibonacci",
    "Verif.Props.C45_gauss",
    "Verif.Props.C45_power",
    "Verif.Props.C45_min_plus",
    "Verif.Props.C45_span",
    "Verif.Props.C45_diagonal",
    "Verif.Props.C45_sums",
    "Verif.Props.C45_symmetric",
    "Verif.Props.C45_smooth"
   ],
   "note": "For all sizes (positive where a size is inferred): the library does not raise, and the object it returns holds the result. Power, sums, symmetric sums, smoothing and the diagonal are in exact arithmetic; the minimum-plus product and the greatest minus the least are for numbers other than NaN. Partial: the value is that of the object in the reference semantics; calls with the backends are C42_calls_tell_partial, with its conditions. Integers are unbounded. Matrices the tests wrap as constants are arguments here."
  }
 ]
}