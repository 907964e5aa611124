{"id": "C01", "title": "Compiled array programs compute the pointwise meaning", "statement": "If `array(...)` / `fold(...)` / indexing expressions are evaluated with the NumPy backend, every element of the result equals the value obtained by evaluating the defining scalar expression separately at that element's indices (with out-of-range reads clamped), i.e. the calculus-to-array-code compiler preserves meaning whenever it produces a program.", "quantifier": "all calculus programs of the modelled fragment (arbitrary nesting of comprehensions, reads, concatenations, lets, folds, scalar operators), all input arrays and all positive sizes", "why_tests_cant": "the compiler has four different lowerings of a read, axis permutation and broadcasting whose interaction grows without bound with nesting depth; tests sample a handful of kernels", "anchors": ["ein/codegen/phi_to_yarr.py:transform", "ein/codegen/axial.py:Axial", "ein/codegen/array_indexing.py:transform_get", "ein/backend/numpy_backend.py:stage", "ein/backend/naive.py:_interpret"]}
{"id": "C02", "title": "Out-of-range reads are clamped the same way by every way of reading", "statement": "`a[e]` returns element min(max(e,0),size-1) of a non-empty `a` for every integer value of e, whether the read is executed by the interpreter, by a one-shot take, by an aligned gather, or by slicing and padding; no read ever returns an element outside the array or raises an index error.", "quantifier": "all non-empty arrays, all integer index values and all combinations of index-carrying target/position expressions", "why_tests_cant": "the position is a run-time value of unbounded range, and each lowering is chosen by syntactic context", "anchors": ["ein/codegen/array_indexing.py:transform_get", "ein/codegen/array_indexing.py:general_get", "ein/backend/naive.py:_interpret", "ein/backend/numpy_backend.py:stage_in_array"]}
{"id": "C03", "title": "Slice-and-pad lowering of shifted reads is exact", "statement": "For a comprehension of size n reading `a[min(max(i+s,lo),hi)]` with lo,hi inside a's bounds, slicing a and edge-padding the slice gives exactly the n elements that n separate clamped reads would give, for every shift s (including shifts completely off either end).", "quantifier": "all non-empty arrays, sizes n>=1, integers s, 0<=lo,hi<=len-1", "why_tests_cant": "off-by-one errors in the four computed bounds show only for particular combinations of shift/size/length, an infinite family", "anchors": ["ein/codegen/array_indexing.py:pad_slice_get", "ein/backend/numpy_backend.py:fast_edge_pad"]}
{"id": "C04", "title": "Recognition of clipped shifts never changes the position read", "statement": "When a position expression is recognised as `clip(i+shift, low, high)` (through any nesting of +, -, min, max with index-free expressions), that form has the same integer value as the original expression for every value of the index and of all variables; recognition also never picks an index that the read array itself depends on.", "quantifier": "all scalar expressions, all environments", "why_tests_cant": "expressions nest arbitrarily and the min/max rewriting rules interact", "anchors": ["ein/codegen/array_indexing.py:match_clipped_shift", "ein/codegen/array_indexing.py:_clip_shift_add", "ein/codegen/array_indexing.py:_clip_shift_min", "ein/codegen/array_indexing.py:_clip_shift_max", "ein/codegen/array_indexing.py:match_index_clipped_shift"]}
{"id": "C05", "title": "reduce is independent of the evaluation tree", "statement": "`reduce` over a vector with a monoid (associative operation, two-sided identity) returns x0 . x1 . ... . x(n-1) in left-to-right order, the same as the sequential interpreter, although array backends combine adjacent pairs in a logarithmic tree; for n=0 it returns the identity, and for merely associative operations the initial value is combined exactly once.", "quantifier": "all monoids (also non-commutative ones), all lengths n including 0 and non powers of two", "why_tests_cant": "the odd/even carry logic depends on the binary expansion of n; order errors are invisible with commutative test operations", "anchors": ["ein/backend/array_backend.py:reduce", "ein/backend/naive.py:_interpret", "ein/frontend/ndarray.py:Vec.reduce"]}
{"id": "C06", "title": "Folds turned into bulk reductions keep their sequential meaning", "statement": "A `fold` whose body adds / multiplies / takes min / max of the accumulator and an element expression and which is executed as one bulk reduction returns the same value as executing the fold step by step, provided + and * are treated as exact (commutative, associative) and the element expression does not mention the accumulator.", "quantifier": "all counts, all element functions, all initial values", "why_tests_cant": "the recogniser works on syntax; a body such as acc + acc*x[i] or an empty range is easily missed by tests", "anchors": ["ein/codegen/phi_to_yarr.py:match_reduction", "ein/codegen/phi_to_yarr.py:match_reduction_by_body", "ein/codegen/phi_to_yarr.py:transform"]}
{"id": "C07", "title": "Sum-of-products (einsum) lowering equals the nested sums", "statement": "A (nested) summation fold over products of array reads that is executed with einsum has the value of the nested loops that define it.", "quantifier": "all sum/product expression trees accepted by the lowering, all counts and operand arrays", "why_tests_cant": "the normal form distributes sums over products for arbitrarily nested expressions; multiplicity errors occur only when some product lacks some counter", "anchors": ["ein/codegen/phi_to_yarr.py:Dot", "ein/codegen/phi_to_yarr.py:match_summation", "ein/codegen/phi_to_yarr.py:to_einsum_subs"]}
{"id": "C08", "title": "Sharing and hoisting do not change results", "statement": "Automatic sharing of repeated subexpressions and moving loop-invariant expressions out of loops (performed before every evaluation) never change the value of a program, and never move an expression out of the scope of the indices, counters or accumulators it uses.", "quantifier": "all closed terms with distinct binders, all environments, any sharing pattern and loop nesting", "why_tests_cant": "the transformation depends on the dominator structure of the whole expression graph", "anchors": ["ein/midend/lining.py:outline", "ein/midend/lining.py:_apply_insertions", "ein/midend/lining.py:_bind_common_subexpressions", "ein/midend/lining.py:_loop_invariant_code_motion"]}
{"id": "C09", "title": "Inlining of let bindings preserves meaning", "statement": "Replacing let-bound variables by their definitions (all of them, or only plain renamings) gives a program with the same value in every environment, with no let left in the former case.", "quantifier": "all terms with distinct binders, all environments", "why_tests_cant": "nested lets and binders under loops can be combined without bound; capture bugs need specific name coincidences", "anchors": ["ein/midend/lining.py:inline", "ein/midend/lining.py:_let"]}
{"id": "C10", "title": "Substitution has its semantic meaning", "statement": "Substituting expressions for symbols in a program yields a program whose value is that of the original in the environment where those symbols are bound to the expressions' values, and symbols not free in the program are ignored.", "quantifier": "all terms, substitutions with distinct binders, environments", "why_tests_cant": "needs all binder/substitution interactions", "anchors": ["ein/midend/substitution.py:substitute", "ein/term.py:Term"]}
{"id": "C11", "title": "Arrays of records behave like records of arrays", "statement": "The automatic struct-of-arrays rewriting of arrays of tuples/dicts/dataclasses (for comprehension, read, size, concatenation, fold) preserves every observable component: each projected component of the rewritten program's value equals the corresponding component of the original, and no array of records is left in the result type.", "quantifier": "all programs with arbitrarily nested records and arrays", "why_tests_cant": "record nesting and array rank are unbounded", "anchors": ["ein/midend/structs.py:struct_of_arrays_transform", "ein/midend/structs.py:_soa_transform_type"]}
{"id": "C12", "title": "Size equality reasoning is sound", "statement": "Whenever the compiler concludes that a comprehension index ranges over exactly an array's dimension (and drops the bounds handling of the read), or that two sizes coincide, the two sizes are indeed equal in every evaluation that passes the program's size assertions.", "quantifier": "all programs, all inputs", "why_tests_cant": "an unsound conclusion is visible only with inputs of particular shapes", "anchors": ["ein/midend/size_classes.py:find_size_classes", "ein/midend/size_classes.py:_update_size_classes", "ein/midend/size_classes.py:_dim_of"]}
{"id": "C13", "title": "Equivalence classes are exactly the generated equivalence", "statement": "After any sequence of unite operations two items are reported equivalent iff they are connected by a chain of united pairs; unite reports a change iff the items were not equivalent before; the reported class of an item is exactly the set of its equivalents.", "quantifier": "all item types, all finite histories of operations", "why_tests_cant": "histories are unbounded; parent pointers are kept at depth one by relabelling the smaller class", "anchors": ["ein/midend/equiv.py:Equivalence"]}
{"id": "C14", "title": "Well-typed programs compute values of their type", "statement": "If a program passes the constructor type checks and its variables hold values of their declared types, then evaluating it either raises one of the documented run-time failures or returns a value of exactly the program's static type (kind, rank and record structure).", "quantifier": "all programs, all well-typed inputs", "why_tests_cant": "type preservation ranges over all expressions", "anchors": ["ein/phi/phi.py:Expr.type", "ein/phi/type_system.py", "ein/backend/naive.py:_interpret"]}
{"id": "C15", "title": "Scalar operator typing is exact and never promotes", "statement": "A scalar operator application is accepted iff all operands are scalars whose kinds match the operator's signature (bool/int/float never mix implicitly), the result kind is the one the operator really produces, and otherwise the application is rejected with a type error.", "quantifier": "all operators and all operand type tuples (scalars, vectors, records)", "why_tests_cant": "operand types are an infinite set", "anchors": ["ein/phi/type_system.py:resolve_scalar_signature", "ein/phi/type_system.py:UFUNC_SIGNATURES", "ein/phi/phi.py:AbstractScalarOperator"]}
{"id": "C16", "title": "Record layouts round-trip", "statement": "Packing any nested tuple/dict/dataclass of values into the calculus' binary pairs and unpacking it with the layout returns every component unchanged and in place, for every shape of record; the layout matches exactly the types produced by packing.", "quantifier": "all nested record shapes (any width and depth)", "why_tests_cant": "shapes are an infinite family; off-by-one projections only show at particular widths", "anchors": ["ein/frontend/layout.py:build_layout", "ein/frontend/layout.py:fold_layout", "ein/frontend/ndarray.py:_project_tuple", "ein/frontend/ndarray.py:_layout_struct_to_expr", "ein/frontend/ndarray.py:_to_array"]}
{"id": "C17", "title": "Integer powers by squaring", "statement": "`x ** k` for a constant integer k builds an expression whose value is x multiplied by itself k times (and the power of the reciprocal for negative k); construction terminates for every k.", "quantifier": "all integers k, all values of x in a field", "why_tests_cant": "all exponents", "anchors": ["ein/frontend/ndarray.py:Scalar.__pow__"]}
{"id": "C18", "title": "Decorated functions are cached transparently", "statement": "Calling a decorated function any number of times, with any interleaving of argument types and backends, returns for each call what tracing and evaluating the function afresh for that call's argument types would return; the function is traced at most once per (types, backend), and a call rejected for its types leaves no trace.", "quantifier": "all call histories", "why_tests_cant": "histories are unbounded", "anchors": ["ein/frontend/functions.py:Function", "ein/frontend/functions.py:with_varargs"]}
{"id": "C19", "title": "Evaluation leaves the variable environment as it found it", "statement": "When evaluation returns normally, the environment dictionary passed by the caller contains exactly the bindings it had before, although lets and loops bind and unbind variables in it destructively; results equal those of lexically scoped evaluation.", "quantifier": "all programs with distinct binders, all environments", "why_tests_cant": "requires all nestings of binders", "anchors": ["ein/backend/array_backend.py:ArrayBackend.stage", "ein/backend/array_backend.py:fold", "ein/backend/naive.py:_interpret"]}
{"id": "C20", "title": "In-place execution never alters observable data", "statement": "Executing element-wise operations in place on temporaries never modifies an input array, a constant or the value of a variable that is still in use, and gives the same result as out-of-place execution.", "quantifier": "all array programs, all heaps/aliasing patterns of the inputs", "why_tests_cant": "aliasing bugs depend on which views share memory, which tests rarely inspect", "anchors": ["ein/codegen/phi_to_yarr.py:apply_inplace_on_temporaries", "ein/backend/numpy_backend.py:stage_in_array"]}
{"id": "C21", "title": "Inferred comprehension sizes are in range for every direct use", "statement": "If no size is given, the size inferred for a comprehension index equals, in every evaluation passing its assertion, the length along that axis of every array the index is directly used on whose length can be computed outside the comprehension; so none of those direct reads is clamped.", "quantifier": "all comprehension bodies, all input shapes", "why_tests_cant": "bodies and shapes are unbounded", "anchors": ["ein/frontend/comprehension.py:_infer_sizes", "ein/midend/size_classes.py:_dim_of"]}
{"id": "C22", "title": "Arrays are combined by index, not by position", "statement": "Aligning operands that depend on different sets of indices (in any order) pairs up equal indices and broadcasts along the missing ones: each aligned operand still yields, at every assignment of the indices, exactly the element the operand had there; axis permutations used are genuine permutations.", "quantifier": "all axis lists (any rank, any order, any overlap), all arrays", "why_tests_cant": "the number of axis orders is factorial in the rank", "anchors": ["ein/codegen/axial.py:_align", "ein/codegen/axial.py:_alignment", "ein/codegen/axial.py:Axial.along", "ein/codegen/axial.py:Axial.cons"]}
{"id": "C23", "title": "Equality and hashing of expressions is coherent", "statement": "Equality of values/expressions used for sharing is an equivalence relation, never identifies two expressions with different meaning, and equal objects have equal hashes.", "quantifier": "all values and expressions", "why_tests_cant": "ranges over all data including signed zeros, NaN and large arrays", "anchors": ["ein/value.py:Value.__eq__", "ein/value.py:Value.__hash__", "ein/term.py:Term.__eq__"]}
{"id": "C24", "title": "Overloaded operators mean what they say", "statement": "Python operators on scalars (+,-,*,/,%,comparisons, abs, min, max, where, and their reflected forms) build expressions whose value is the mathematical operation on the operands, in the right operand order.", "quantifier": "all operand values", "why_tests_cant": "all values of the operands", "anchors": ["ein/frontend/ndarray.py:Scalar"]}
{"id": "C25", "title": "Provided monoids are monoids", "statement": "The sum, min, max and argmin reductions offered by the library use associative operations with the stated identity on their domain, so that reduce/fold agree on them; arg-min returns the smallest value and, on ties, a position determined by order.", "quantifier": "all element values", "why_tests_cant": "all triples of values", "anchors": ["ein/frontend/std.py:Monoid", "ein/frontend/std.py"]}
{"id": "C26", "title": "Concatenation", "statement": "Concatenating two vectors gives a vector of length m+n whose first m elements are those of the first and whose remaining are those of the second, for any rank of elements and also when either argument depends on surrounding indices.", "quantifier": "all vectors and surrounding indices", "why_tests_cant": "all sizes", "anchors": ["ein/phi/phi.py:Concat", "ein/codegen/phi_to_yarr.py:transform", "ein/frontend/std.py:concat"]}
{"id": "C27", "title": "Counted folds iterate exactly", "statement": "A fold with count n applies its body for counters 0,1,...,n-1 in order, feeding each result to the next step, and returns the initial value when n<=0, on the interpreter and on array backends alike.", "quantifier": "all counts, bodies and initial values", "why_tests_cant": "all counts", "anchors": ["ein/backend/array_backend.py:fold", "ein/backend/naive.py:_interpret", "ein/frontend/comprehension.py:fold"]}
{"id": "C28", "title": "Values depend only on free variables", "statement": "The value of a program depends only on the values of the variables reported as free; binding or changing any other variable has no effect, and no rewriting pass introduces a new free variable.", "quantifier": "all programs and pairs of environments", "why_tests_cant": "all programs", "anchors": ["ein/term.py:Term.free_symbols", "ein/midend/lining.py:outline"]}
{"id": "C29", "title": "Peephole simplification of array code is meaning preserving", "statement": "Removing no-op axis permutations, empty axis insertions/removals and projections from freshly built tuples yields array code that has the same value in every environment in which the original has one; no no-op axis operation is left anywhere in the program.", "quantifier": "all array programs", "why_tests_cant": "all program shapes", "anchors": ["ein/codegen/phi_to_yarr.py:cancel_shape_ops", "ein/codegen/phi_to_yarr.py:cancel_tuple_ops"]}
{"id": "C30", "title": "Array backends agree on structural primitives", "statement": "The axis insertion, axis removal, padding and gather primitives mean the same on the NumPy, JAX and PyTorch backends for all arguments the compiler generates.", "quantifier": "all ranks, axis sets and pad widths generated by the compiler", "why_tests_cant": "ranks and axis sets are unbounded", "anchors": ["ein/backend/torch_backend.py", "ein/backend/numpy_backend.py", "ein/backend/jax_backend.py"]}
{"id": "C31", "title": "Array code has the type it claims", "statement": "For generated array code that passes its type checks, evaluation yields arrays with exactly the rank claimed by the static type (needed because later code positions axes by that rank).", "quantifier": "all array programs, all inputs of the declared ranks", "why_tests_cant": "all programs", "anchors": ["ein/codegen/yarr.py:Expr.type", "ein/phi/type_system.py:PrimitiveArrayType"]}
{"id": "C32", "title": "Shape-record types are decomposed consistently", "statement": "A record type is decomposed into the ordered list of its component array types and recomposed from it without loss; projecting first/second of a record corresponds to the prefix/suffix of that list.", "quantifier": "all types", "why_tests_cant": "types are an infinite family", "anchors": ["ein/phi/type_system.py:PrimitiveType", "ein/phi/type_system.py:Type.primitive_type", "ein/codegen/axial.py:tuple_maybe_singleton"]}
{"id": "C33", "title": "The interpreter computes the program it is given", "statement": "Interpreting a program returns the value that the program has by its definition (array elements by index, folds by iteration), although the interpreter first rewrites arrays of records and shares and hoists subexpressions; and the caller's environment is left as it was.", "quantifier": "all programs, all environments", "why_tests_cant": "the rewriting passes interact (duplicated loops, shared expressions, hoisting) in ways that only appear for particular program shapes", "anchors": ["ein/backend/naive.py:interpret", "ein/midend/structs.py:struct_of_arrays_transform", "ein/midend/lining.py:outline"]}
{"id": "C34", "title": "The NumPy backend computes the program it is given", "statement": "Executing a program on the NumPy backend returns arrays that hold the value that the program has by its definition, and changes no array that existed before the call, through all of: the record rewriting, compilation, einsum and reductions, simplification, sharing, in-place execution.", "quantifier": "all programs, all inputs, all memory layouts of the inputs", "why_tests_cant": "composition of seven passes over all programs; aliasing of inputs", "anchors": ["ein/backend/numpy_backend.py:stage", "ein/backend/array_backend.py:stage", "ein/codegen/phi_to_yarr.py:transform", "ein/codegen/phi_to_yarr.py:apply_inplace_on_temporaries"]}
{"id": "C35", "title": "The cache of the compiler is not visible", "statement": "Compiling a program with the compiler's cache of already compiled expressions gives exactly the code that compiling without the cache gives; in particular a program that can be compiled does not fail to compile because one of its values is used twice.", "quantifier": "all programs, including those in which values are shared, and all orders in which their parts are compiled", "why_tests_cant": "whether a cached entry is stale depends on the history of the compilation and on how summations nest; only particular combinations of sharing and lowering show it", "anchors": ["ein/codegen/phi_to_yarr.py:transform (transformed, go)", "ein/codegen/phi_to_yarr.py:match_reduction", "ein/codegen/phi_to_yarr.py:Dot"]}
{"id": "C36", "title": "External functions are applied pointwise", "statement": "Calling an external function (ext) inside a comprehension computes, on array backends, for every index what the function returns for the operands at that index, whenever the function treats leading axes as axes of a batch, as elementwise functions and functions along the last axis do; and a call with a declared signature is accepted exactly if the operands have the declared types.", "quantifier": "all programs, all external functions with that property, all inputs", "why_tests_cant": "the function gets arrays of other ranks than the user's types say, depending on the indices each operand mentions; tests see particular functions on particular combinations", "anchors": ["ein/frontend/ndarray.py:ext", "ein/codegen/phi_to_yarr.py:transform (Extrinsic)", "ein/backend/naive.py:_interpret (Extrinsic)", "ein/backend/array_backend.py:stage (Extrinsic)"]}
{"id": "C37", "title": "The JAX and PyTorch backends compute the meaning of the program", "statement": "Whatever the JAX backend returns for a program and its inputs represents the value of the program as written; and if the structural operations of the compiled code are within what the backends agree on (C30), the PyTorch backend returns arrays that represent this value, and JAX returns the same arrays if it returns.", "quantifier": "all programs and inputs, all iterations of all loops", "why_tests_cant": "each backend executes code produced by a chain of passes (records, compilation, simplification, sharing) with its own library functions and its own loops; tests run a few programs and shapes", "anchors": ["ein/backend/jax_backend.py:stage", "ein/backend/jax_backend.py:stage_in_array", "ein/backend/jax_backend.py:JaxBackend.fold", "ein/backend/torch_backend.py:stage", "ein/backend/torch_backend.py:stage_in_array", "ein/backend/array_backend.py:AbstractArrayBackend.stage"]}
{"id": "C38", "title": "Operations on arrays of records act on the records", "statement": "For arrays whose elements are records (tuples, dicts, dataclasses, nested in any way, with arrays as fields), x[i, j] is the record at the clamped indices; array(f) has at every index the record f returns for it; fold(init, step, count) is init after count steps; and x.reduce(init, f) combines the records of x from the left. The packing of records into pairs and the objects made of projections that the user's functions are called with cannot be observed.", "quantifier": "all record layouts, all functions of the user that build expressions, all inputs and sizes", "why_tests_cant": "layouts nest without bound and the user's functions are arbitrary; an error in the order or number of projections only shows for particular shapes of records", "anchors": ["ein/frontend/ndarray.py:Vec.__getitem__", "ein/frontend/ndarray.py:Vec.reduce", "ein/frontend/ndarray.py:_to_array", "ein/frontend/ndarray.py:_layout_struct_to_expr", "ein/frontend/comprehension.py:array", "ein/frontend/comprehension.py:fold"]}
{"id": "C39", "title": "Slices, where and assume on arrays and records", "statement": "x[i, :, j] for any mixture of indices and ':' is the slice of the array x with the indices clamped to the bounds, whatever the elements of x are; where(c, a, b) on arrays, records, arrays of records and records of arrays of equal shape is the whole of a or the whole of b; x.assume(y) is x wherever y has a value. The library accepts every slice with no more items than dimensions, and every where with two operands of one layout.", "quantifier": "all dimensions, layouts and shapes, all operands and conditions, also inside comprehensions", "why_tests_cant": "the library expands these into comprehensions with inferred sizes; dimensions and layouts nest without bound, and the sizes inferred depend on the whole expression", "anchors": ["ein/frontend/ndarray.py:Vec.__getitem__", "ein/frontend/ndarray.py:Vec.assume", "ein/frontend/ndarray.py:Scalar.where", "ein/frontend/std.py:where", "ein/frontend/comprehension.py:_infer_sizes"]}
{"id": "C40", "title": "Calls of decorated functions", "statement": "Whatever the history of calls of a function decorated with @function, with arrays of any shapes and any of the backends, each call that returns gives the array of what the function computes on the arrays passed in this call; code that is reused from an earlier call was traced and staged for the same types and the same backend.", "quantifier": "all functions of the user, all finite histories of calls, all backends, arrays and memory behaviours of NumPy", "why_tests_cant": "code is cached per types and backend and run again on other arrays, after any history; the path from the Python function to the result passes through tracing, the passes, code generation, in-place updates and the cache of the compiler", "anchors": ["ein/frontend/functions.py:Function", "ein/frontend/functions.py:with_varargs", "ein/backend/__init__.py:STAGE_BACKENDS", "ein/backend/numpy_backend.py:stage", "ein/backend/jax_backend.py:stage", "ein/backend/torch_backend.py:stage"]}
{"id": "C41", "title": "Programs mean what they say", "statement": "Any program written with numbers, arrays, tuples, dicts and dataclasses, indexing, sizes, array(...), fold(...), reduce(...), concat and where, whose types fit together, can be traced without an exception unless the size of a comprehension depends on an index; the expression made has the type of the program and binds no symbol twice; and its value is what the program says when it is read as a program on nested lists and records. Calls of the decorated program return arrays with this value, after any history of calls.", "quantifier": "all programs (by induction on their structure), all arguments, all states of the supply of symbols, all histories of calls, all backends", "why_tests_cant": "tracing runs the user's functions once on symbols and records one expression; that this one expression stands for all executions, for every nesting of functions passed to array, fold and reduce, and that new symbols never capture each other, cannot be sampled", "anchors": ["ein/frontend/comprehension.py:array", "ein/frontend/comprehension.py:fold", "ein/frontend/ndarray.py:Vec", "ein/frontend/ndarray.py:Scalar", "ein/frontend/layout.py:build_layout", "ein/frontend/functions.py:with_varargs", "ein/phi/phi.py:Vec"]}
{"id": "C42", "title": "Sizes can be left out", "statement": "If array(...) with one or more indices, or fold(...), is called without sizes, and the function passed to it reads, for each index, an array from outside at the index (as x[i], x[j][i] or p.a[i], possibly assigned to a local variable), then tracing does not raise, and the result, if there is one, is the same as if the sizes of those axes of those arrays had been given. There is a result if all arrays read at an index have the same size along it, which is not zero, and the index is used in no other way but to read them, in scalar operations, and as a component of the result. This holds for any nesting of such comprehensions and folds, for any number of indices, for arrays of records and for components of records, and for calls of decorated functions after any history.", "quantifier": "all programs (by induction on their structure) with any number of sizes left out, all arguments, all states of the supply of symbols, all histories of calls, all backends", "why_tests_cant": "sizes are inferred from the expression that the user's function happens to build, with indices replaced by zero and symbols of the comprehension excluded; whether the inferred size is the intended one depends on every operation between the read and the result", "anchors": ["ein/frontend/comprehension.py:_infer_sizes", "ein/frontend/comprehension.py:array", "ein/frontend/comprehension.py:fold", "ein/midend/size_classes.py:_dim_of"]}
{"id": "C43", "title": "Sums, minima, maxima and positions of minima of the standard library", "statement": "fold_sum(f, count) and reduce_sum(f, count) are the sum of f(0), ..., f(count - 1) in exact arithmetic. fold_min and reduce_min are the least, and fold_max and reduce_max the greatest of these values, and the infinite identity if there are none. fold_argmin and reduce_argmin are the first position of a least value, and 0 if there are none. If the count is left out, it is the common size of the arrays that f reads at the index.", "quantifier": "all functions f of the user that compute a number from the index (as programs), all counts, all arrays, all values other than NaN", "why_tests_cant": "the function, the count and the values are arbitrary, including ties, infinite values and empty ranges; the library combines identities, operators on records and inferred sizes", "anchors": ["ein/frontend/std.py:Monoid", "ein/frontend/std.py:fold_sum", "ein/frontend/std.py:fold_min", "ein/frontend/std.py:fold_max", "ein/frontend/std.py:fold_argmin", "ein/frontend/std.py:reduce_sum", "ein/frontend/std.py:reduce_min", "ein/frontend/std.py:reduce_max", "ein/frontend/std.py:reduce_argmin"]}
{"id": "C44", "title": "Programs on matrices", "statement": "The programs with which a user computes with matrices compute what they are written for: array(lambda i, j: fold_sum(lambda k: x[i, k] * y[k, j])) is the matrix product, array(lambda i: reduce_sum(lambda k: x[i, k] * y[k])) the product of a matrix and a vector, array(lambda i, j: u[i] * v[j]) the outer product, array(lambda i, j: x[j, i]) the transposed matrix, fold_sum(lambda i: x[i, i]) the trace, array(lambda i, j: where(i <= j, 1.0, 0.0), size=(m, n)) the triangular mask, fold(1, lambda i, acc: acc * (i + 1), count=n) the factorial of n; and the reduction of records of values and positions in the documentation gives the least value and its last position.", "quantifier": "all matrices and vectors of all positive sizes, all m, n, all values other than NaN", "why_tests_cant": "tests run these programs on a few small matrices; sizes are inferred from the reads, and the values must be right for all sizes", "anchors": ["README.md", "ein/frontend/comprehension.py:array", "ein/frontend/comprehension.py:fold", "ein/frontend/std.py:fold_sum", "ein/frontend/std.py:reduce_sum", "ein/frontend/std.py:where", "ein/frontend/ndarray.py:Vec.reduce"]}
{"id": "C45", "title": "The programs of the tests for all sizes", "statement": "The programs of the library's tests compute what the tests compare them with: trial division and the sieve give, at each position less than n, whether it is a prime number; the fold that fills an array gives the first n numbers of Fibonacci; the fold over array(lambda i: i, size=n) gives n(n-1)/2; the fold over a matrix and a vector gives the 2n-th power of the matrix times the vector; fold with minimum gives the minimum-plus product of matrices; fold_max minus fold_min of the products of elements is the greatest minus the least product; array(lambda i: a[i, i]) is the diagonal; nested sums are the sums of rows, of columns and of all elements; three symmetric sums of a matrix are four times the matrix plus its transpose; and smoothing gives the means of neighbours and keeps both ends.", "quantifier": "all integers n (also negative ones, which count as zero), all matrices and vectors of all positive sizes, all values (other than NaN for minima and maxima)", "why_tests_cant": "the tests run each program for one n or one random matrix; loops whose accumulators are arrays or tuples of arrays, sizes inferred from accumulators and clamped reads must be right in every round and for every size", "anchors": ["tests/test_main.py:test_trial_division_primes", "tests/test_main.py:test_sieve_primes", "tests/test_main.py:test_fibonacci_fold", "tests/test_main.py:test_matrix_power_times_vector", "tests/test_main.py:test_min_plus_matrix_multiplication", "ein/frontend/comprehension.py:array", "ein/frontend/comprehension.py:fold", "ein/frontend/std.py:fold_sum"]}
