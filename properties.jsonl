{"id": "C01", "title": "Optimized schedule computes the same values as the reference schedule", "statement": "run_solution() leaves in every var exactly the values that the scalar reference evaluation (run_ref_solution: all points of step t, stage by stage, before step t+1) leaves there: whatever tiling and whatever interleaving of the concurrently executed blocks is used, the result is the same as long as every point-update is executed exactly once and any two point-updates of which one may read or overwrite what the other writes keep their reference order.", "quantifier": "every initial contents of the vars, every pointwise update function reading within a bounded neighbourhood, every number of steps and stages, every execution order of the updates (all thread interleavings)", "why_tests_cant": "The number of interleavings and tilings is unbounded; a test runs one schedule on one input.", "anchors": ["src/kernel/lib/context.cpp: StencilContext::run_solution, run_ref, calc_mega_block, calc_block, calc_micro_block", "include/aux/yk_solution_api.hpp: run_solution"]}
{"id": "C02", "title": "Wave-front (multi-step mega-block) tiling covers every point once per step and stage", "statement": "When run_solution() executes several steps per mega-block, then for each step and stage the shifted and clipped mega-blocks that are evaluated partition the rank's domain (plus the wave-front extension needed on sides with a neighbour rank, shrinking with each shift): every point of it is evaluated in exactly one mega-block and no point outside it is evaluated.", "quantifier": "every domain box, mega-block size, wave-front angle, number of steps and stages, extension width and dimension count", "why_tests_cant": "A gap or overlap at one particular combination of remainder sizes and shifts shows up only for that combination.", "anchors": ["src/kernel/lib/context.cpp: run_solution, shift_mega_block", "src/kernel/lib/setup.cpp: update_var_info"]}
{"id": "C03", "title": "Wave-front tiling never reads a value that has not been computed yet", "statement": "With a wave-front angle at least as large as the stencil radius, in the mega-block order used by run_solution() each point-update is executed after all point-updates (of earlier stages/steps) whose results it reads and after all updates that read the value it overwrites.", "quantifier": "every domain size, mega-block size, stencil radius not exceeding the angle, number of wave-front steps and stages", "why_tests_cant": "Order violations only corrupt data for particular alignments of tile boundaries and stencil radius.", "anchors": ["src/kernel/lib/context.cpp: run_solution, calc_mega_block, shift_mega_block", "src/kernel/lib/setup.cpp: update_var_info"]}
{"id": "C04", "title": "Temporal blocking covers every point once per step and stage", "statement": "With temporal blocking enabled (multi-step blocks), for each step and stage the trapezoids and bridges evaluated in all phases, shapes and blocks partition the mega-block: each of its points is evaluated exactly once, at each step and stage.", "quantifier": "every mega-block extent, block size (including remainder blocks), temporal-block angle, number of shifts, and number of domain dimensions", "why_tests_cant": "The shapes depend on phase, dimension subset, shift number, and first/last block status; only a proof covers all combinations.", "anchors": ["src/kernel/lib/context.cpp: calc_mega_block, calc_block, shift_micro_block", "src/common/combo.cpp: n_choose_k_set", "src/kernel/lib/setup.cpp: update_tb_info"]}
{"id": "C05", "title": "Temporal blocking never reads a value that has not been computed yet", "statement": "In the phase order used for temporal blocks, each point-update is executed strictly after (same block earlier shift, or an earlier phase) every update whose result it reads, so that blocks of one phase may run concurrently.", "quantifier": "every mega-block extent, block size, angle at least the stencil radius, number of temporal-block steps that the settings code accepts", "why_tests_cant": "Races between concurrently executed blocks are timing-dependent and size-dependent.", "anchors": ["src/kernel/lib/context.cpp: shift_micro_block", "src/kernel/lib/setup.cpp: update_tb_info"]}
{"id": "C06", "title": "Micro-blocks partition each block at every step and stage", "statement": "At each shift, the shifted micro-blocks of a block partition the part of the block to be evaluated: each point of the block's shape is evaluated in exactly one micro-block.", "quantifier": "every block shape, micro-block size, angle, number of shifts", "why_tests_cant": "Unbounded combinations of sizes and shifts.", "anchors": ["src/kernel/lib/context.cpp: calc_micro_block, shift_micro_block"]}
{"id": "C07", "title": "Vectorized evaluation writes exactly the requested points", "statement": "When a sub-block that is not aligned to the vector fold is evaluated with full vectors plus masked peel and remainder vectors, each point inside the sub-block is written exactly once and no point outside it is written.", "quantifier": "every sub-block begin/end (also negative), every fold length in each dimension, every number of domain dimensions", "why_tests_cant": "Boundary errors occur for particular residues of begin and end modulo the fold in each dimension.", "anchors": ["src/kernel/lib/stencil_calc.hpp: calc_nano_block_opt", "src/common/combo.cpp: n_choose_k_set"]}
{"id": "C08", "title": "Interior/exterior split for MPI overlap evaluates every point once", "statement": "When communication is overlapped with computation, the union of the per-dimension left and right exterior sections evaluated before sending and the interior evaluated while messages are in flight is exactly the set of points evaluated without overlap, each exactly once.", "quantifier": "every rank-domain box, every interior box, wave-front shift amounts, number of domain dimensions", "why_tests_cant": "Depends on unbounded sizes and shifts per dimension.", "anchors": ["src/kernel/lib/context.cpp: run_solution, shift_mega_block", "src/kernel/lib/context.hpp: does_exterior_exist", "src/kernel/lib/alloc.cpp: alloc_mpi_data"]}
{"id": "C09", "title": "run_solution evaluates every requested step exactly once, in order", "statement": "run_solution(first, last) evaluates every step index from first to last inclusive exactly once, in increasing order for a forward solution (last >= first) and in decreasing order for a reverse-time solution, whatever number of steps is processed per mega-block, and evaluates no other step.", "quantifier": "every first and last step index (also negative), every number of steps per mega-block, both directions", "why_tests_cant": "Unbounded step ranges and strides; the remainder step group is special-cased.", "anchors": ["src/kernel/lib/context.cpp: run_solution, calc_mega_block, calc_micro_block"]}
{"id": "C10", "title": "Conditional sub-domains are covered exactly by the bounding boxes found for them", "statement": "For an equation with an IF_DOMAIN condition, the set of rectangles over which the kernel evaluates it contains every point of the rank domain satisfying the condition in exactly one rectangle, contains no point that fails the condition, and the reported number of points is exact.", "quantifier": "every condition (arbitrary predicate on points), every domain box, every number of dimensions and scanning threads", "why_tests_cant": "Conditions are arbitrary predicates; the scanning algorithm shrinks boxes greedily and merges slices.", "anchors": ["src/kernel/lib/setup.cpp: StencilPartBase::find_bounding_boxes", "src/kernel/lib/context.hpp: BoundingBox"]}
{"id": "C11", "title": "Thread binding gives each slab to exactly one thread", "statement": "With thread binding enabled, each nano-block of a micro-block is evaluated by exactly one of the bound threads.", "quantifier": "every nano-block start (also negative), slab width and number of threads", "why_tests_cant": "Negative start indices and all thread counts must be covered.", "anchors": ["src/kernel/lib/stencil_calc.cpp: StencilPartBase::calc_micro_block"]}
{"id": "C12", "title": "Generated scan loops visit every sub-range exactly once", "statement": "The loop code produced by the loop generator visits sub-ranges that lie inside [begin, end) in every dimension, are pairwise disjoint and together cover all of it, for plain nested loops, for OpenMP-flattened loops, and for serpentine, square-wave and tiled traversal, with and without alignment of the inner boundaries.", "quantifier": "every begin, end, stride, alignment, alignment offset, tile size, number of dimensions and assignment of iterations to threads", "why_tests_cant": "The ranges are run-time values; alignment and remainder handling must be right for all of them.", "anchors": ["utils/bin/gen_loops.pl: addIndexVars1, addIndexVars2, addIndexVars3, beginLoop", "src/kernel/lib/indices.hpp: ScanIndices"]}
{"id": "C13", "title": "Generated layouts are bijections onto the allocation", "statement": "For each permutation of dimensions, the generated layout function maps the points of an allocation one-to-one onto the offsets 0 .. size-1 and the generated inverse returns the original point.", "quantifier": "every rank, permutation and vector of positive sizes", "why_tests_cant": "Infinitely many sizes.", "anchors": ["utils/bin/gen_layouts.pl", "src/kernel/lib/generic_var.hpp: get_index"]}
{"id": "C14", "title": "Different elements never share storage", "statement": "Two API index tuples that are valid for a var and differ (with step indices compared modulo the step allocation) refer to different storage locations, and every valid tuple refers to a location inside the var's allocated storage, for vector-folded and scalar storage alike.", "quantifier": "every combination of domain size, padding, halo, fold, rank offset, misc first index, step allocation, and index tuple", "why_tests_cant": "Address arithmetic must be injective for all geometries.", "anchors": ["src/kernel/lib/yk_var.hpp: YkElemVarCore::get_elem_index, YkVecVarCore::get_elem_index", "src/kernel/lib/yk_var.cpp: YkVarBase::resize"]}
{"id": "C15", "title": "get_element returns what was last set", "statement": "After any sequence of set_element, add_to_element and set_all_elements_same calls, get_element at a valid index returns the value implied by the sequence: the last value set there plus the amounts added since, unaffected by writes to other elements.", "quantifier": "every sequence of calls and every index", "why_tests_cant": "Histories are unbounded.", "anchors": ["src/kernel/lib/yk_var_apis.cpp: get_element, set_element, add_to_element, set_all_elements_same", "include/aux/yk_var_api.hpp"]}
{"id": "C16", "title": "Index validity check agrees with element access", "statement": "are_indices_local(i) is true if and only if storage is allocated and get_element(i) does not throw; and it is true exactly for the indices between get_first_local_index(dim) and get_last_local_index(dim) in each dimension (any step index when step wrapping is enabled).", "quantifier": "every var geometry and index tuple", "why_tests_cant": "All index values and geometries.", "anchors": ["src/kernel/lib/yk_var.cpp: check_indices", "src/kernel/lib/yk_var_apis.cpp: are_indices_local, get_element"]}
{"id": "C17", "title": "The valid step range follows the last write", "statement": "The valid step indices are always exactly as many consecutive integers as the step allocation; writing a step outside the range moves it by the least amount that includes the step; after that the step written is readable, and the values of the steps that stay in the range are preserved.", "quantifier": "every history of writes at arbitrary step indices via the APIs that set values and via run_solution", "why_tests_cant": "Histories are unbounded; step indices may be negative or jump.", "anchors": ["src/kernel/lib/yk_var.cpp: update_valid_step, set_dirty, set_dirty_in_slice", "src/kernel/lib/yk_var.hpp: _wrap_step", "include/aux/yk_var_api.hpp"]}
{"id": "C18", "title": "Slice set/get round trip", "statement": "set_elements_in_slice(buf, first, last) followed by get_elements_in_slice over the same slice returns the same buffer; elements outside the slice are unchanged; the number of elements reported equals the number of points in the slice; and element k of the buffer belongs to the k-th point of the slice in row-major order.", "quantifier": "every var geometry and slice within bounds, every buffer", "why_tests_cant": "Slices and buffers of unbounded size.", "anchors": ["src/kernel/lib/yk_var.hpp: _visit_elements_in_slice, set_elements_in_slice, get_elements_in_slice"]}
{"id": "C19", "title": "Vector-based slice copy equals element-wise copy between ranks", "statement": "Copying a vector-aligned slice out with the vector copy and in again with the vector copy transfers every element of the slice to the same index, i.e. it has the same effect as the element-wise copies.", "quantifier": "every aligned slice, fold and geometry", "why_tests_cant": "Unbounded sizes; the vector path uses a different traversal order from the element path.", "anchors": ["src/kernel/lib/yk_var.hpp: _copy_vecs_in_slice"]}
{"id": "C20", "title": "Reductions return the mathematical result over the slice", "statement": "reduce_elements_in_slice returns for each requested operation the sum, sum of squares, product, maximum and minimum of the elements of the slice.", "quantifier": "every slice contents and every set of requested operations, and every way of splitting the work among threads", "why_tests_cant": "Contents are unbounded; wrong initial values only matter for particular data (for instance all-negative data).", "anchors": ["src/kernel/lib/yk_var.hpp: red_res, reduce_elements_in_slice", "include/aux/yk_var_api.hpp: yk_reduction_result"]}
{"id": "C21", "title": "Allocation always leaves room for halos, extensions and requested padding", "statement": "After any sequence of size, halo and padding settings, each domain dimension of a var has left and right padding at least as large as its halo plus wave-front extension and as the requested minimum, its allocation is a whole number of vectors starting at a vector boundary, and once storage exists no such call changes the allocation silently (it either keeps it or throws).", "quantifier": "every sequence of setting calls and every value", "why_tests_cant": "Sequences and values are unbounded.", "anchors": ["src/kernel/lib/yk_var.cpp: resize", "src/kernel/lib/yk_var_apis.cpp: set_*"]}
{"id": "C22", "title": "Comparison of two vars counts exactly the differing domain points", "statement": "Comparing a var with a reference of the same geometry returns the number of domain points (over all step and misc indices) whose values differ by more than the tolerance; zero if and only if none differ.", "quantifier": "every geometry and contents", "why_tests_cant": "Unbounded contents.", "anchors": ["src/kernel/lib/yk_var.cpp: compare"]}
{"id": "C23", "title": "Halo exchange delivers current neighbour values before they are read", "statement": "Before a rank evaluates a step that reads a halo point of a var, the halo point holds the owner's current value; i.e. whenever a rank's flag says that neighbours' data is up to date, its halo copy equals the owner's data, along every history of writes and exchanges.", "quantifier": "every history of set/run/exchange operations by all ranks in any interleaving between exchanges, every number of ranks and steps", "why_tests_cant": "Distributed histories are unbounded.", "anchors": ["src/kernel/lib/halo.cpp: exchange_halos", "src/kernel/lib/yk_var.cpp: is_dirty, set_dirty, set_dirty_all"]}
{"id": "C24", "title": "Shared-memory halo buffers are never overwritten before being read nor read twice", "statement": "With shared-memory halo exchange, under every interleaving of the sender's and receiver's operations, the k-th message unpacked is the k-th message packed: no message is lost, duplicated or torn, and the two sides never wait for each other forever.", "quantifier": "all interleavings and all numbers of messages", "why_tests_cant": "Interleavings are unbounded.", "anchors": ["src/kernel/lib/utils.hpp: SimpleLock", "src/kernel/lib/halo.cpp: exchange_halos"]}
{"id": "C25", "title": "Host/device coherency never loses a modification", "statement": "In an offload build, the data seen by an API call on the host or by a kernel on the device is always the most recent modification, under every sequence of host modifications, device modifications and copies accepted without an exception; at no time are both copies modified independently.", "quantifier": "every sequence of operations", "why_tests_cant": "Sequences are unbounded.", "anchors": ["src/kernel/lib/offload.hpp: Coherency", "src/kernel/lib/yk_var.cpp: copy_data_to_device, copy_data_from_device"]}
{"id": "C26", "title": "new_var rejects malformed dimension lists", "statement": "new_var and new_fixed_size_var throw if a dimension name occurs twice, if the step dimension is not first or if the number of sizes does not match, and otherwise create a var with exactly the given dimensions.", "quantifier": "every list of dimension names and sizes", "why_tests_cant": "Unbounded lists.", "anchors": ["src/kernel/lib/new_var.cpp"]}
{"id": "C27", "title": "Ranks tile the global domain", "statement": "If prepare_solution() succeeds on all ranks, the rank domains [first_rank_domain_index, last_rank_domain_index] are pairwise disjoint and their union is exactly [0, overall_domain_size) in each dimension, and all ranks agree on the overall size.", "quantifier": "every number of ranks, every global or local size setting, fold lengths, dimension count", "why_tests_cant": "Unbounded sizes and rank counts.", "anchors": ["src/kernel/lib/setup.cpp: setup_rank", "src/common/tuple.cpp: get_compact_factors"]}
{"id": "C28", "title": "Neighbour relation between ranks is symmetric and unambiguous", "statement": "If rank A regards rank B as its neighbour at offset d, then B regards A as its neighbour at offset -d, and no two different ranks occupy the same neighbour slot.", "quantifier": "every rank grid", "why_tests_cant": "Unbounded rank grids.", "anchors": ["src/kernel/lib/setup.cpp: setup_rank", "src/kernel/lib/settings.cpp: MPIInfo"]}
{"id": "C29", "title": "Send and receive halo regions match", "statement": "For each ordered pair of neighbour ranks and each var, the region rank A sends to B is the same set of overall indices, in the same order, as the region B receives from A; regions sent lie in the sender's domain (plus outermost padding) and regions received lie outside the receiver's domain and inside its allocation.", "quantifier": "every rank grid, halo size, wave-front extension and fold", "why_tests_cant": "Unbounded geometry combinations.", "anchors": ["src/kernel/lib/alloc.cpp: alloc_mpi_data"]}
{"id": "C30", "title": "Vars and buffers get disjoint storage", "statement": "The storage areas given to different vars, different MPI buffers and different (thread, slot) scratch areas never overlap and lie inside the allocations made for them.", "quantifier": "every list of var sizes and assignment to allocation kinds", "why_tests_cant": "Unbounded lists.", "anchors": ["src/kernel/lib/alloc.cpp: alloc_var_data, alloc_scratch_data"]}
{"id": "C31", "title": "Block-size settings are normalized to a consistent nest", "statement": "After prepare_solution(), the mega-block, block, micro-block, nano-block and pico-block sizes are positive, each is no larger than the enclosing one in every dimension, and (when rounding up does not exceed the enclosing size) is a multiple of the vector fold.", "quantifier": "every requested size (zero, negative or too large) in every dimension", "why_tests_cant": "Unbounded inputs.", "anchors": ["src/kernel/lib/settings.cpp: find_num_subsets, adjust_settings"]}
{"id": "C32", "title": "Requested thread counts are never exceeded", "statement": "The number of outer threads times the number of inner threads used for computation is at least 1 and never exceeds max(1, max_threads), for every setting of outer and inner threads.", "quantifier": "every integer setting", "why_tests_cant": "Unbounded integers (also negative or zero).", "anchors": ["src/kernel/lib/settings.cpp: get_num_comp_threads"]}
{"id": "C33", "title": "Automatic rank factorization is a valid rank grid", "statement": "The automatic choice of numbers of ranks per dimension has the same dimensions as the request, its product is the number of MPI ranks, and it keeps the user-specified factors whenever that is possible.", "quantifier": "every number of ranks, number of dimensions and partial specification", "why_tests_cant": "Unbounded rank counts.", "anchors": ["src/common/tuple.cpp: get_compact_factors", "src/kernel/lib/setup.cpp: setup_rank"]}
{"id": "C34", "title": "Floor division and modulus laws", "statement": "The flooring division helpers satisfy a = b*q + r with 0 <= r < b, q = floor(a/b), and the rounding helpers return the nearest multiples below and above, for negative a as well.", "quantifier": "every integer a and positive integer b", "why_tests_cant": "Infinitely many inputs.", "anchors": ["src/common/idiv.hpp"]}
{"id": "C35", "title": "Work is divided evenly and completely", "statement": "Dividing n items among p parts gives parts that are contiguous, disjoint, cover all n items, and differ in size by at most one.", "quantifier": "every n and p >= 1", "why_tests_cant": "Infinitely many inputs.", "anchors": ["src/common/common_utils.hpp: div_equally_size_n, div_equally_cumu_size_n"]}
{"id": "C36", "title": "Parallel-for covers its range exactly once", "statement": "A parallel loop over [begin, end) with a stride calls its body on disjoint sub-ranges whose union is [begin, end), with each sub-range starting a whole number of strides after begin, whatever the number of threads.", "quantifier": "every begin, end, stride and number of outer and inner threads", "why_tests_cant": "Unbounded inputs.", "anchors": ["src/common/common_utils.hpp: yask_parallel_for"]}
{"id": "C37", "title": "Tuple layout is a bijection", "statement": "For a tuple of positive sizes, the linear offset of a point is in 0 .. product-1, distinct points have distinct offsets, and converting offset to point and back are inverse to each other, for both inner-dimension conventions.", "quantifier": "every number of dimensions and sizes", "why_tests_cant": "Infinitely many sizes.", "anchors": ["src/common/tuple.cpp: layout, unlayout", "src/kernel/lib/indices.hpp: unlayout"]}
{"id": "C38", "title": "Visiting all points of a tuple visits each once, in layout order", "statement": "visit_all_points calls the visitor for each point once with its linear index, in increasing index order; the parallel version calls it exactly once per point for any number of threads; and an empty space has no visits.", "quantifier": "every size vector and number of threads", "why_tests_cant": "Unbounded sizes and thread counts.", "anchors": ["src/common/tuple.hpp: visit_all_points, visit_all_points_in_parallel, next_index", "src/kernel/lib/indices.hpp"]}
{"id": "C39", "title": "Tuple comparison is a strict total order consistent with equality", "statement": "Tuple <, <=, >, >=, == are mutually consistent and < is a strict total order, so tuples can be used as map keys.", "quantifier": "all pairs and triples of tuples", "why_tests_cant": "Infinitely many tuples.", "anchors": ["src/common/tuple.hpp: operator<, operator=="]}
{"id": "C40", "title": "Finite-difference coefficients are exact on polynomials", "statement": "The coefficients returned by the center, forward, backward and arbitrary FD-coefficient APIs give the exact derivative at the evaluation point for every polynomial of degree less than the number of points (in exact arithmetic), for any distinct sample points.", "quantifier": "every derivative order, every number of distinct points, every polynomial of low enough degree", "why_tests_cant": "Infinitely many point sets and orders.", "anchors": ["src/contrib/coefficients/fd_coeff.cpp", "src/common/fd_coeff2.cpp"]}
{"id": "C41", "title": "Dimension-combination enumeration is complete", "statement": "Enumerating r = 0 .. C(n,k)-1 yields every k-element subset of n dimensions exactly once, and the count is the binomial coefficient.", "quantifier": "every n and k in the supported range", "why_tests_cant": "Stated for all n, not a sample.", "anchors": ["src/common/combo.cpp: n_choose_k, n_choose_k_set"]}
{"id": "C42", "title": "Ordered-set container keeps insertion order and uniqueness", "statement": "The compiler's insertion-ordered set behaves as an ordered set under every sequence of insert, erase and lookup operations: no duplicates, order of first insertion, erase removes exactly the given item.", "quantifier": "every sequence of operations", "why_tests_cant": "Sequences are unbounded.", "anchors": ["src/common/common_utils.hpp: vector_set"]}
{"id": "C43", "title": "Command-line strings are split into the arguments the user wrote", "statement": "Splitting an option string undoes quoting: arguments joined with whitespace (quoted where needed) are recovered unchanged, unbalanced quotes are rejected, and arguments not recognised are returned in order.", "quantifier": "every list of argument strings without both kinds of quotes", "why_tests_cant": "Infinitely many strings.", "anchors": ["src/common/common_utils.cpp: set_args, quote_whitespace, parse_args"]}
{"id": "C44", "title": "Dependency analysis finds all and only the transitive dependencies", "statement": "The dependency relation the compiler derives between equations is exactly the transitive closure of the direct dependencies, and a set of equations is rejected as circular exactly when some equation depends on itself.", "quantifier": "every finite dependency graph", "why_tests_cant": "Infinitely many graphs.", "anchors": ["src/compiler/lib/Eqs.hpp: Deps, DepGroup"]}
{"id": "C45", "title": "Equations, parts and stages are evaluated in dependency order", "statement": "The order in which the compiler emits parts and stages is a permutation of them in which nothing precedes anything it depends on.", "quantifier": "every acyclic dependency relation and initial order", "why_tests_cant": "Infinitely many graphs; the sort is a swap-based algorithm.", "anchors": ["src/compiler/lib/Eqs.hpp: DepGroup::topo_sort", "src/compiler/lib/Eqs.cpp: make_parts, make_stages"]}
{"id": "C46", "title": "Halo sizes cover every access, also through scratch vars", "statement": "For each var, the left and right halo computed by the compiler cover every point read when the non-scratch equations are evaluated on the domain, including points read indirectly to compute scratch values needed at offset points.", "quantifier": "every set of equations with arbitrary offsets and every acyclic chain of scratch vars", "why_tests_cant": "Infinitely many stencils.", "anchors": ["src/compiler/lib/Eqs.cpp: Parts::calc_halos", "src/compiler/lib/Var.cpp: update_halo"]}
{"id": "C47", "title": "The step allocation is sufficient", "statement": "The number of step slots the compiler allocates for a var is enough that in the reference execution no equation reads a value that has been overwritten by a later step; and if the stencil author sets the step allocation explicitly, that size is used.", "quantifier": "every set of step offsets read and written in every stage, every step index", "why_tests_cant": "Wrong reuse of a slot only shows for particular combinations of offsets and stages.", "anchors": ["src/compiler/lib/Var.cpp: get_step_dim_info", "src/compiler/lib/VarPoint.cpp: make_step_arg_str"]}
{"id": "C48", "title": "Scratch vars sharing memory are never live at the same time", "statement": "Two scratch vars assigned to the same memory are never needed at the same time: each value read from a scratch var is the value most recently computed for it in the current micro-block.", "quantifier": "every set of scratch vars with arbitrary first and last uses, every execution order of parts produced by the compiler", "why_tests_cant": "Infinitely many stencils.", "anchors": ["src/compiler/lib/Eqs.cpp: calc_lifespans", "src/kernel/lib/stencil_calc.cpp: calc_micro_block", "src/compiler/lib/YaskKernel.cpp"]}
{"id": "C49", "title": "Illegal time dependencies are rejected", "statement": "An equation that reads a value at a step not yet computed (step offset beyond the one being written, in the direction of stepping) is rejected with an exception, for forward and reverse stepping.", "quantifier": "every equation and step offset", "why_tests_cant": "Infinitely many offsets and equations.", "anchors": ["src/compiler/lib/Eqs.cpp: analyze_eqs"]}
{"id": "C50", "title": "Expression optimizations preserve the value", "statement": "Common-subexpression elimination, flattening and reordering of commutative operations never change the value of an expression (in exact arithmetic).", "quantifier": "every expression tree and every assignment of values to var points", "why_tests_cant": "Infinitely many expressions.", "anchors": ["src/compiler/lib/ExprUtils.cpp: CombineVisitor, CseVisitor", "src/compiler/lib/Expr.cpp: is_same", "src/compiler/lib/Vec.cpp: ExprReorderVisitor"]}
{"id": "C51", "title": "Recognised index offsets are correct", "statement": "If an index expression is accepted as a constant offset from a dimension, its value is that dimension's index plus the offset, for every index value.", "quantifier": "every index expression and index value", "why_tests_cant": "Infinitely many expressions.", "anchors": ["src/compiler/lib/Expr.cpp: is_offset_from", "src/compiler/lib/VarPoint.cpp"]}
{"id": "C52", "title": "Unaligned vector reads are assembled from the right elements", "statement": "For a vectorized read at arbitrary constant offsets, element k of the assembled vector is the element of the aligned vector blocks which holds the value at (offset + k-th fold point).", "quantifier": "every offset vector, every fold in every number of dimensions", "why_tests_cant": "Infinitely many offsets and folds.", "anchors": ["src/compiler/lib/Vec.cpp: VecInfoVisitor::visit"]}
{"id": "C53", "title": "Non-strict slice operations affect exactly the part of the slice in range", "statement": "set_elements_in_slice_same (and reduce_elements_in_slice) with strict_indices = false affect (or reduce) exactly those elements of the slice that are within the local range of the var, and report their number.", "quantifier": "every var geometry and every slice, inside, overlapping or outside the range", "why_tests_cant": "Slices of unbounded size and position relative to the range.", "anchors": ["src/kernel/lib/yk_var.hpp: set_elements_in_slice_same, _visit_elements_in_slice", "src/kernel/lib/yk_var.cpp: check_indices, set_dirty_in_slice", "include/aux/yk_var_api.hpp: set_elements_in_slice_same"]}
{"id": "C54", "title": "Disabling the dependency checker leaves only the user's dependencies", "statement": "With set_dependency_checker_enabled(false) the compiler uses exactly the dependencies added by add_flow_dependency() (and what follows from them), and rejects a solution for a dependency only if these are circular.", "quantifier": "every set of equations, every set of added dependencies", "why_tests_cant": "Infinitely many stencils and dependency graphs.", "anchors": ["src/compiler/lib/Eqs.cpp: analyze_eqs", "src/compiler/lib/Solution.hpp: add_flow_dependency", "include/yask_compiler_api.hpp: set_dependency_checker_enabled, add_flow_dependency"]}
{"id": "C55", "title": "Scratch computations stay within the halos", "statement": "While the scratch values needed for a block are computed, every point written is within the halo of the scratch var written, and every point read is within the halo of the var read.", "quantifier": "every set of equations with arbitrary offsets, conditions and chains of scratch vars", "why_tests_cant": "Infinitely many stencils; an access just outside a halo usually hits padding and goes unnoticed.", "anchors": ["src/compiler/lib/Eqs.cpp: Stages::calc_halos", "src/kernel/lib/setup.cpp: find_scratch_write_halos", "src/kernel/lib/stencil_calc.cpp: adjust_scratch_span"]}
{"id": "C56", "title": "Halos are exchanged with every rank that owns needed data", "statement": "If an equation needs, directly or through scratch vars, a value that belongs to a neighbour rank (face, edge or corner neighbour), the halo of that var is exchanged with this neighbour.", "quantifier": "every set of equations with arbitrary offsets and chains of scratch vars, every rank arrangement", "why_tests_cant": "Infinitely many stencils; missing corner data shows only with ranks in several dims.", "anchors": ["src/compiler/lib/Var.cpp: update_halo", "src/compiler/lib/Eqs.cpp: Stages::calc_halos", "src/kernel/lib/alloc.cpp: alloc_mpi_data"]}
{"id": "C57", "title": "Explicit rank locations are used", "statement": "If set_rank_index() (or -ri) was called on all ranks with indices that are within the grid of ranks and different on all ranks, the ranks are placed at those indices by prepare_solution(); if it was not called, every rank gets a different location and all locations of the grid are taken.", "quantifier": "every rank grid and every assignment of locations to ranks", "why_tests_cant": "The number of grids and assignments is unbounded, and multi-rank tests use the default assignment.", "anchors": ["src/kernel/lib/setup.cpp: setup_rank", "src/kernel/lib/settings.hpp: KernelSettings::find_loc", "include/aux/yk_solution_api.hpp: set_rank_index"]}
{"id": "C58", "title": "Requested numbers of ranks are kept or rejected", "statement": "If set_num_ranks() (or -nr) was called with non-zero values in some dimensions, prepare_solution() uses a grid of ranks with exactly those values if one exists for the actual number of MPI ranks, and throws otherwise.", "quantifier": "every number of MPI ranks, number of dimensions and request", "why_tests_cant": "Unbounded numbers; tests run with few ranks and valid requests.", "anchors": ["src/kernel/lib/setup.cpp: setup_rank", "src/common/tuple.cpp: get_compact_factors", "include/aux/yk_solution_api.hpp: set_num_ranks"]}
{"id": "C59", "title": "The auto-tuner ends and keeps the fastest sizes it tried", "statement": "run_auto_tuner_now() always returns, whatever the times it measures. While it runs, all block sizes remain legal and no size is tried twice for a target; when the search for a target ends, the sizes requested for that target are those of the fastest trial, requests for other targets are untouched, and the last ones are in use at the end.", "quantifier": "every rank size, fold, list of targets, radius, thread count and every sequence of measured times", "why_tests_cant": "Timing results are not reproducible and their sequences are unbounded.", "anchors": ["src/kernel/lib/auto_tuner.cpp: AutoTuner::eval, next_target, apply_best, adjust_settings, StencilContext::run_auto_tuner_now", "src/kernel/lib/auto_tuner.hpp: AutoTuner", "include/aux/yk_solution_api.hpp: run_auto_tuner_now"]}
{"id": "C60", "title": "A run computes the values that the stencil equations define", "statement": "After run_solution(first, last), every stored element of every var has the value defined by the stencil equations: at each step, where an equation applies, the new value of its left-hand side is the value of its right-hand side for the values of the steps it refers to; where no equation applies, the element keeps what was stored there. This holds from the equations given to the compiler to the elements on every rank.", "quantifier": "every solution the compiler accepts, every initial contents, number of steps, tiling, rank grid, thread interleaving and message timing", "why_tests_cant": "Stencils, sizes, schedules and numbers of steps are unbounded; tests compare the optimised run with the generated reference code, not with the equations.", "anchors": ["src/compiler/lib/Eqs.cpp: analyze_eqs, make_parts, make_stages, calc_halos", "src/compiler/lib/Var.cpp: get_step_dim_info", "src/kernel/lib/context.cpp: run_solution", "src/kernel/lib/yk_var.hpp: _wrap_step"]}
{"id": "C61", "title": "Generated code computes the equations", "statement": "The C++ code that the compiler writes for a set of equations is accepted by a C++ compiler and, when run, stores to each left-hand side the value that the user's expression has (up to the arithmetic of the real type), whatever common subexpressions are shared, and whatever limits on expression sizes are set.", "quantifier": "every set of equations, every sharing of subexpressions, every -max-expr-size and -min-expr-size, every contents of vars", "why_tests_cant": "Expressions are unbounded; the generated code is only compiled for the stencils in the library.", "anchors": ["src/compiler/lib/Print.cpp: PrintVisitorTopDown, PrintVisitorBottomUp", "src/compiler/lib/Cpp.cpp: format_real, read_from_point, write_to_point", "include/aux/yc_node_api.hpp: new_equation_node"]}
{"id": "C62", "title": "Constants keep their values in generated code", "statement": "A constant in an equation has the same value in the generated code.", "quantifier": "every constant of type double", "why_tests_cant": "2^64 constants; tests use a few short ones.", "anchors": ["src/compiler/lib/Cpp.cpp: CppPrintHelper::format_real", "include/aux/yc_node_api.hpp: new_const_number_node"]}
{"id": "C63", "title": "The generated inner loop accesses the elements that the equations name", "statement": "In each iteration of the inner loop of the generated code, each lane of an aligned vector read is the element of the var with the indices that the point in the equation means at that place (step plus offset, domain index plus offset, misc constant), and a vector write goes to those elements. This holds with and without pointers, many pointers, offsets, interleaved misc dims and fixed strides, and with buffers of any minimum length; a buffered value is one that the element had during the loop.", "quantifier": "every folded var, layout, size, pad and offset; every set of points; every start and number of iterations; every setting of -use-ptrs, -use-many-ptrs, -use-offsets, -inner-misc, -min-buffer-len", "why_tests_cant": "Combinations of settings, layouts and offsets are unbounded, and an address that is wrong in a later iteration or for one layout only is not seen by running a few stencils.", "anchors": ["src/compiler/lib/Cpp.cpp: print_strides, print_var_base_ptr, print_inner_loop_prefix, get_point_stats, print_buffer_code, print_end_inner_loop, get_var_base_ptr_offset, get_inner_loop_ptr_offset, print_aligned_vec_read, print_aligned_vec_write", "src/compiler/lib/VarPoint.cpp: make_norm_arg_str, make_step_arg_str", "src/kernel/lib/yk_var.hpp: get_vec_ptr_norm"]}
{"id": "C64", "title": "Unaligned loads do not change the results", "statement": "With -allow-unaligned-loads, each lane of an unaligned vector read is the element that the point in the equation means, as without this option.", "quantifier": "every var, point and iteration for which the compiler accepts the option", "why_tests_cant": "Offsets, layouts and sizes are unbounded.", "anchors": ["src/compiler/lib/Cpp.cpp: print_unaligned_vec_read, make_point_call_vec", "src/compiler/lib/Settings.cpp: set_dims", "src/kernel/lib/yk_var.hpp: get_elem_ptr"]}
{"id": "C65", "title": "A run accesses only allocated elements", "statement": "While run_solution() evaluates the equations on the extended domain of a rank, by whole vectors, every element that is read or written, including those of lanes outside of the area to be computed, is within the allocation of its var, whatever sizes, pads, halos, folds, wave-front sizes, rank locations and domain conditions are set before prepare_solution().", "quantifier": "every var, stencil, rank size and offset, pad setting, wave-front size, part condition, micro-block, vector and lane", "why_tests_cant": "Accesses out of bounds happen at particular remainders of sizes and folds and are often not visible in the results; the settings are unbounded.", "anchors": ["src/kernel/lib/setup.cpp: update_var_info", "src/kernel/lib/yk_var.cpp: resize", "src/kernel/lib/stencil_calc.hpp: calc_micro_block, calc_nano_block", "src/compiler/lib/Eqs.cpp: calc_halos", "src/kernel/lib/setup.cpp: find_bounding_boxes"]}
{"id": "C66", "title": "Identical storage layout means same offsets", "statement": "is_storage_layout_identical() returns true if and only if the two vars have the same dims in the same order, the same vector folding, allocation sizes, domain sizes and pads. If it returns true, the storages have the same size and any given element index refers to an element at the same offset in both.", "quantifier": "every pair of vars of a solution, all sizes, pads, folds, offsets, and all indices", "why_tests_cant": "Pairs of configurations and indices are unbounded, and a wrong offset only moves data.", "anchors": ["src/kernel/lib/yk_var_apis.cpp: is_storage_layout_identical", "include/aux/yk_var_api.hpp: is_storage_layout_identical, get_raw_storage_buffer"]}
{"id": "C67", "title": "Fused vars are one var", "statement": "After a.fuse_vars(b), a is another reference to b: any later API call on either gives the same results and has the same effects, and the solution's equations on a work on the data of b. The call throws if dims or fold lengths of a and b differ; and a fixed-size b that does not fit the solution is rejected by the time prepare_solution() is called.", "quantifier": "every pair of vars, every sequence of later calls", "why_tests_cant": "Call sequences and configurations are unbounded; errors appear only as wrong or lost data.", "anchors": ["src/kernel/lib/yk_var_apis.cpp: fuse_vars", "src/kernel/lib/soln_apis.cpp: fuse_vars, prepare_solution", "src/kernel/lib/setup.cpp: update_var_info", "include/aux/yk_var_api.hpp: fuse_vars"]}
{"id": "C68", "title": "Scratch vars have storage for everything that is evaluated in them", "statement": "In every run of a solution with scratch vars, for every micro-block on which its equations are evaluated, each thread's copy of a scratch var is moved to this micro-block so that every element that is written by the equations of the scratch var, and every element that is read by other equations, including those in the unused lanes of partial vectors, is in the storage of the scratch var.", "quantifier": "all block and micro-block sizes, numbers of steps per block, bounding boxes, halos, write halos, folds and schedules of threads", "why_tests_cant": "A scratch var is allocated once for the largest micro-block; whether a larger or a misaligned micro-block can occur depends on sizes, shifts and steps, and an access outside of the storage is silent.", "anchors": ["src/kernel/lib/alloc.cpp: alloc_scratch_data", "src/kernel/lib/setup.cpp: update_scratch_var_info", "src/kernel/lib/stencil_calc.cpp: adjust_scratch_span", "src/kernel/lib/context.cpp: calc_block, calc_micro_block"]}
{"id": "C69", "title": "Scratch vars stand for their equations", "statement": "A solution with scratch vars computes the same values as the solution in which every scratch var is replaced by the right-hand sides of its equations: run_solution() leaves the same values in all other vars, whatever the scratch vars contain before, whichever thread evaluates which micro-block, and however micro-blocks of different threads overlap in time; and so does the reference evaluation.", "quantifier": "every stencil with scratch vars (also scratch vars that read scratch vars and scratch vars with several conditional equations), every legal tiling, number of steps, initial contents and interleaving of threads", "why_tests_cant": "Scratch values are recomputed per micro-block in an area that depends on sizes, shifts and halos, and contents that remain from another micro-block are silent errors.", "anchors": ["src/kernel/lib/context.cpp: calc_micro_block, run_ref", "src/kernel/lib/stencil_calc.cpp: StencilPartBase::calc_micro_block, adjust_scratch_span", "src/kernel/lib/stencil_calc.hpp: get_reqd_parts", "include/aux/yc_solution_api.hpp: new_scratch_var"]}
{"id": "C70", "title": "Statistics report what was run", "statement": "get_stats() returns, for the calls of run_solution() since the statistics were last cleared (by get_stats(), clear_stats(), prepare_solution() or the end of auto-tuning by call), the number of steps that were run, and the number of elements written and of floating-point operations that were done in them on all ranks; its number of elements is the size of the overall domain.", "quantifier": "every history of API calls, all sizes, numbers and placements of ranks, domain and step conditions, wave-front and block sizes, and all schedules of threads", "why_tests_cant": "The numbers are computed from bounding boxes, not by counting; whether they agree with the evaluations of a run depends on conditions, extensions and the history of calls.", "anchors": ["src/kernel/lib/context.cpp: init_work_stats, run_solution", "src/kernel/lib/soln_apis.cpp: get_stats, clear_stats", "src/kernel/lib/stencil_calc.cpp: init_work_stats", "include/yask_kernel_api.hpp: yk_stats"]}
{"id": "C71", "title": "Only prepared solutions are run", "statement": "run_solution() and run_auto_tuner_now() evaluate a solution only if the latest call that prepared, changed or ended it was a prepare_solution() that returned; then all storage exists, halos are exchanged and the settings are those that were prepared. Otherwise the call throws an exception.", "quantifier": "every history of API calls, including calls of prepare_solution() that throw", "why_tests_cant": "Call histories are unbounded and failures happen at many points; using stale settings or released storage may go unnoticed.", "anchors": ["src/kernel/lib/context.hpp: is_prepared, set_prepared", "src/kernel/lib/context.cpp: run_solution", "src/kernel/lib/soln_apis.cpp: prepare_solution, end_solution, apply_command_line_options, SET_SOLN_API", "src/kernel/lib/setup.cpp: find_bounding_boxes"]}
{"id": "C72", "title": "Solutions can be prepared again", "statement": "Calling prepare_solution() again without any change succeeds and leaves numbers, indices, sizes, offsets and neighbours of all ranks as they are. After a change of the overall-domain size or the rank-domain sizes, it has the same outcome as for a new solution with these sizes, the unspecified ones being computed.", "quantifier": "every number of ranks and dims, all requested sizes and numbers of ranks for the first call, all new sizes", "why_tests_cant": "Sizes and numbers of ranks are unbounded, and what the first call computed may conflict with what is requested later.", "anchors": ["src/kernel/lib/setup.cpp: setup_rank", "src/kernel/lib/soln_apis.cpp: SET_SOLN_API, prepare_solution", "include/aux/yk_solution_api.hpp: set_rank_domain_size, set_overall_domain_size", "src/common/tuple.cpp: get_compact_factors"]}
{"id": "C73", "title": "Vector folds cover the SIMD length and keep requests", "statement": "The stencil compiler chooses a positive vector length for each domain dim such that the product is the SIMD length of the target, whatever lengths are requested by the fold option. Requests with this product are used as they are; otherwise requests are kept if they can be completed to such a vector. No request makes the compiler fail.", "quantifier": "every number of domain dims, every requested length per dim, SIMD length, inner-loop dim, and targets with and without efficient folding", "why_tests_cant": "Requests, dims and targets combine without bound; tests use the default folds of a few targets.", "anchors": ["src/compiler/lib/Settings.cpp: Dimensions::set_dims", "src/common/tuple.cpp: get_compact_factors", "include/yask_compiler_api.hpp: set_fold_len"]}
{"id": "C74", "title": "Dims of a solution and their order in memory", "statement": "The compiler accepts the vars of a solution exactly if they have one common step dim, no scratch var has it, there is a domain dim, and no name is used for dims of different kinds. The domain dims are those of the settings followed by others in order of first use. In memory every dim occurs once, with the domain dims in this order, misc dims outermost or innermost as requested, and, without folding, the last domain dim innermost.", "quantifier": "every list of vars and dims, explicit step and domain dims, and all layout options", "why_tests_cant": "The vars and dims of solutions are unbounded lists; a wrong order changes every address of the generated code.", "anchors": ["src/compiler/lib/Settings.cpp: Dimensions::set_dims", "src/compiler/lib/Settings.hpp: Dimensions", "src/common/tuple.cpp: add_dim_back, add_dim_at, remove_dim"]}
{"id": "C75", "title": "Accepted equations have the required form and keep their meaning", "statement": "If the compiler accepts the equations of a solution, then every equation writes its var at the current index of every domain dim of the solution, at fixed indices in misc dims, and, unless it is a scratch var, at the step one ahead of or one behind the current one, the same for all equations; every read is at a fixed distance from the current step and domain indices and at fixed misc indices; and these are the distances the compiler works with. Equations written in this form with plain sums of an index and an integer are accepted.", "quantifier": "every list of equations, vars, dims and index expressions (any nesting of operators, functions and var points), and every folding", "why_tests_cant": "Index expressions are unbounded trees and the analysis rewrites them; a wrong distance compiles and gives wrong results silently.", "anchors": ["src/compiler/lib/VarPoint.cpp: VarPoint::VarPoint, set_arg_offset, set_arg_const", "src/compiler/lib/Eqs.cpp: Eqs::analyze_eqs, SetVecVisitor", "src/compiler/lib/Var.cpp: Var::set_dim_counts"]}
{"id": "C76", "title": "Command-line options give settings the values written", "statement": "A successful apply_command_line_options() gives every setting the last value written for it and leaves the others alone; a size option without a dim sets the size in all domain dims; integers are accepted exactly if they are written as in C and fit; words that are not options are returned in order. A call that throws changes nothing.", "quantifier": "every command line, every set of dim names, all earlier settings, builds with and without MPI", "why_tests_cant": "Names of options are made from the names of the dims of the solution, and the strings are unbounded.", "anchors": ["src/kernel/lib/soln_apis.cpp: apply_command_line_options", "src/kernel/lib/settings.cpp: add_options, _add_domain_option, mult_idx_option", "src/common/common_utils.cpp: check_arg, _idx_val, parse_args", "include/yask_common_api.hpp: add_option"]}
{"id": "C77", "title": "Vars have storage for every misc index in the equations", "statement": "In a dim that is neither the step dim nor a domain dim, the vars of a solution are constructed with storage from the least to the greatest index that the equations and conditions use, and whatever is done with them afterwards, each index in the equations stays in the range of the storage.", "quantifier": "every list of accepted equations and conditions, every order in which they are analyzed, every history of calls that change a var", "why_tests_cant": "Indices and histories of calls are unbounded; the generated code does not check indices, so an error reads or overwrites other memory.", "anchors": ["src/compiler/lib/Var.cpp: update_const_indices", "src/compiler/lib/Eqs.cpp: update_var_stats, PointVisitor", "src/compiler/lib/YaskKernel.cpp: print_data", "src/kernel/lib/yk_var_apis.cpp: set_alloc_size, _set_alloc_size, _set_local_offset"]}
{"id": "C78", "title": "Exchanged data belong to the same step", "statement": "When halos are exchanged, each rank receives, for each of its valid steps, the values that the owners of the points have for this same step.", "quantifier": "every number of ranks and of stored steps, every history of API calls, runs, exchanges and evaluations, every contents", "why_tests_cant": "Each rank packs and unpacks in the order of its own valid steps, which depend on the whole history of calls; a difference shows only for certain numbers of steps on several ranks.", "anchors": ["src/kernel/lib/halo.cpp: exchange_halos", "src/kernel/lib/yk_var.cpp: update_valid_step, set_dirty_in_slice", "src/kernel/lib/yk_var.hpp: init_valid_steps, set_all_elements_same", "src/kernel/lib/auto_tuner.cpp: run_auto_tuner_now"]}
{"id": "C79", "title": "The utility yask_kernel ends on all ranks and reports the truth", "statement": "However the ranks are scheduled and whatever times they measure, the utility never blocks, all ranks make the same warm-up runs and the requested number of trials of the same number of steps; with -validate, a rank reports PASSED and exits without error iff its results after these steps from the initial data equal those of the reference run, whatever tuning, warm-up and earlier trials did; the statistics printed are what they are said to be.", "quantifier": "every number of ranks, every schedule of them, all options, all measured times, all effects of runs on the data", "why_tests_cant": "A deadlock or a validation of left-over data shows only for certain timings on several ranks; timings cannot be enumerated.", "anchors": ["src/kernel/yask_main.cpp: main, MySettings::parse, init_vars", "src/kernel/lib/utils.cpp: sum_over_ranks, assert_equality_over_ranks"]}
{"id": "C80", "title": "The generated vector inner loop evaluates the equations in every lane", "statement": "For every fold, instruction set and option of the code generator: after the inner loop of a part has run, each element of a var that an equation sets at a point of the loop has the value of the right-hand side of that equation on the elements it refers to, as they were before the loop; and no other element of any var has changed, in particular none at points that are masked out.", "quantifier": "all equations, folds, instruction sets, code-generation options, var shapes and offsets, numbers of iterations, write masks and contents of vars", "why_tests_cant": "The result depends on the combination of shuffles, pointer offsets, buffers kept over iterations, shared subexpressions and masks; a mistake in one of them shows only for certain folds, offsets and masks.", "anchors": ["src/compiler/lib/YaskKernel.cpp: print_kernel (calc_vectors)", "src/compiler/lib/Cpp.cpp: read_from_point, print_aligned_vec_read, print_aligned_vec_write, print_end_inner_loop", "src/kernel/lib/realv.hpp: real_vec_t, store_to_masked"]}
{"id": "C81", "title": "Blocks of any size and shape are evaluated by the vector code as by a point-by-point evaluation", "statement": "When a nano-block or micro-block is evaluated, for every begin and end (multiples of the vector length or not), fold, pico-block size, path of the loops, thread binding and order in which the threads execute the runs of the inner loop: each equation has afterwards been evaluated once at each point of the block at which its condition holds, with the values from before the block, and no other element of any var has changed.", "quantifier": "all block bounds, folds, layouts of folds, block and pico-block sizes, loop paths, bindings and orders of threads, bounding boxes, parts, vars and contents of vars", "why_tests_cant": "The vectors at the borders of a block are evaluated by masked loops whose masks and offsets depend on the block, the fold and the place of the rank; an error shows only for certain remainders and its effect is on points outside of the block.", "anchors": ["src/kernel/lib/stencil_calc.hpp: calc_nano_block, calc_nano_block_opt", "src/kernel/lib/stencil_calc.cpp: calc_micro_block", "src/compiler/lib/YaskKernel.cpp: print_kernel (calc_vectors)"]}
{"id": "C82", "title": "Expressions built with the API have the value that their operators say", "statement": "After any sequence of calls of the node factory, the overloaded operators and functions, every expression is finite and its value is the operator applied to the values of its operands; null pointers are left out as documented; conditions and equations hold the values of what they were made from; constants made from integers have the value of the integer or fail; set_value and add_operand change the expression they are called on, and only expressions that refer to it.", "quantifier": "all sequences of calls, all constants, integers, conditions and interpretations of vars, indices and functions", "why_tests_cant": "Expressions are shared or copied depending on the operator, operands of nested sums and products are merged, and nodes can be changed after other nodes refer to them; a wrong copy or alias shows only for certain later calls.", "anchors": ["src/compiler/lib/Expr.cpp: yc_node_factory", "src/compiler/lib/Expr.hpp: ConstExpr, UnaryExpr, BinaryExpr, CommutativeExpr::merge_expr, append_op, FuncExpr", "src/compiler/lib/VarPoint.hpp: EqualsExpr", "include/aux/yc_node_api.hpp"]}
{"id": "C83", "title": "A run of the generated code leaves what the equations say", "statement": "For all tile sizes, wave-fronts, loop paths, numbers of threads and orders in which the threads run the generated inner loops, run_solution is defined and leaves in the storage of the vars what evaluating the equations leaves, with one element read or written at a time, one step, part, point and equation after the other; so the storage afterwards depends neither on the settings nor on the schedule.", "quantifier": "all solutions with legal generated code, settings, first and last steps, initial storages and schedules", "why_tests_cant": "The result is the composition of the tiling of time and space, the bounding boxes, nano-blocks with full and partial vectors, and vector code with its own buffers and step slots; tests compare some sizes and schedules with the reference.", "anchors": ["src/kernel/lib/context.cpp: run_solution, calc_mega_block, calc_block, calc_micro_block, run_ref", "src/kernel/lib/stencil_calc.cpp: calc_micro_block", "src/kernel/lib/stencil_calc.hpp: calc_nano_block", "src/compiler/lib/YaskKernel.cpp: print_data (generated stage classes)", "src/compiler/lib/Cpp.cpp"]}
{"id": "C84", "title": "The generated code computes the values the equations define, in the storage of the vars", "statement": "If, before run_solution, reading each stored element of each var gives the value that a history of the stencil equations has there, then after run_solution from the first to the last step with the generated vector code, reading each stored element gives the value of the history at the steps stored at the end of the run, also for vars with misc dims and for elements outside the domain; and for every initial storage there is such a history.", "quantifier": "all legal solutions, stages the compiler may make, step allocations that are enough, settings, first and last steps, initial storages and schedules", "why_tests_cant": "A test compares the end of one run with a reference run of the same kernel, so an error in the generated equations, step slots or addressing that both share is not seen, nor are other sizes, steps and schedules.", "anchors": ["src/kernel/lib/context.cpp: run_solution", "src/kernel/lib/stencil_calc.hpp", "src/kernel/lib/yk_var.hpp: read_elem, write_elem", "src/compiler/lib/Cpp.cpp", "src/compiler/lib/Eqs.cpp", "src/compiler/lib/YaskKernel.cpp"]}
{"id": "C85", "title": "Sub-domain and step conditions in the generated code select exactly the points and steps they name", "statement": "The function generated for the sub-domain condition of an equation is accepted by the C++ compiler, is defined, and returns true at a point of the overall problem if and only if the condition the user built holds there; the same for the step condition at each step; and the function generated for the step that is written returns that step. Conditions can use indices, the first and last index of the overall problem, constants, arithmetic, remainders, comparisons, negation, conjunction, disjunction and (step conditions) values of vars.", "quantifier": "all conditions, all problem sizes, all points and steps, all constants", "why_tests_cant": "A test evaluates a few conditions at the points of a few sizes; wrong signs of remainders, truncated quotients, lost digits and merged operators show only for particular conditions and points.", "anchors": ["src/compiler/lib/YaskKernel.cpp: is_in_valid_domain, is_in_valid_step, get_output_step_index", "src/compiler/lib/Print.cpp: PrintVisitorTopDown", "src/compiler/lib/Print.hpp: add_const_expr", "src/compiler/lib/Expr.cpp: make_str", "src/compiler/lib/Expr.hpp: IndexExpr, ModExpr, DivExpr", "src/kernel/lib/yask_stencil.hpp: FIRST_INDEX, LAST_INDEX", "include/aux/yc_node_api.hpp: set_cond, set_step_cond"]}
{"id": "C86", "title": "On several ranks, the generated code leaves in the storage of the vars the values that the stencil equations define", "statement": "After prepare_solution() on any number of ranks, if get_element() on every rank gives the values of the stored steps at the points of the rank (and in halos not marked as changed), then after run_solution() with the generated code on all ranks get_element() on every rank gives the values that the equations define for the overall problem, at the points of the rank and at all halo points that it receives from its neighbours; no rank accesses memory outside its storage, and the order of inner loops in the threads and the tile sizes and overlap settings of each rank make no difference.", "quantifier": "all solutions, all numbers and arrangements of ranks, all rank sizes, all contents of the storage, all tile sizes on each rank, all orders of inner loops in the threads, all numbers of steps", "why_tests_cant": "A test compares one number of ranks with one rank for a few problem sizes; wrong offsets in one of the storages, in a buffer, or in a slot show only for particular sizes, halos, ranks and steps.", "anchors": ["src/kernel/lib/context.cpp: run_solution, exchange_halos, calc_mega_block", "src/kernel/lib/halo.cpp: exchange_halos", "src/kernel/lib/yk_var.hpp: get_elements_in_slice_void, set_elements_in_slice_void, get_vecs_in_slice, set_vecs_in_slice", "src/kernel/lib/yk_var.cpp: set_dirty", "src/kernel/lib/stencil_calc.cpp: calc_micro_block, calc_nano_block", "src/compiler/lib/YaskKernel.cpp: calc_loop_of_clusters"]}
{"id": "C87", "title": "Running the generated code gives the values that the equations written in the source define", "statement": "If the compiler accepts a list of equations (a var, its index expressions, the operands with their index expressions, the conditions and the function of the operands), and no element is set twice in a step, then there are values of all elements at all steps for which every equation holds with its index expressions evaluated in the ordinary way; and after prepare_solution() and run_solution() on any number of ranks, get_element() with these indices gives these values for every stored step, at every point of the rank and at every halo point it receives.", "quantifier": "all lists of equations, all index expressions, all misc indices, all step directions, all ranks, sizes and numbers of steps", "why_tests_cant": "A test runs a few stencils; an index expression that is taken apart wrongly (sign, dim, misc index, step) gives a valid program that reads another element, for particular forms of the expression only.", "anchors": ["src/compiler/lib/Eqs.cpp: analyze_eqs", "src/compiler/lib/VarPoint.cpp: make_logical_var_str, is_same_logical_var", "src/compiler/lib/VarPoint.hpp: get_arg_offsets, get_arg_consts", "src/compiler/lib/YaskKernel.cpp: print_context", "src/kernel/lib/context.cpp: run_solution", "src/kernel/lib/yk_var_apis.cpp: get_element"]}
{"id": "C88", "title": "The vars and the code that the compiler generates for the expressions of the source compute their values", "statement": "Let the compiler accept the equations of a solution, written as expressions of the accessed elements. Let the generated code contain, for each equation, an expression that has the value of the source expression, and let the vars be made with the sizes, halos and step slots that the compiler prints, which users of the solution do not make smaller. Then every run_solution() after prepare_solution() on any number of ranks ends without an access outside storage, and get_element() then gives the values that the expressions of the source define, at every point of each rank and at every halo point it receives.", "quantifier": "all lists of equations and expressions, all orders in which the compiler iterates over its sets, all misc indices, all ranks, sizes and numbers of steps", "why_tests_cant": "Halo, misc-index range, number of slots and code are computed by separate parts of the compiler from the same accesses; a size that is too small by one for one form of access corrupts a neighboring element only for particular stencils and rank layouts.", "anchors": ["src/compiler/lib/Eqs.cpp: analyze_eqs, calc_halos", "src/compiler/lib/YaskKernel.cpp: print_context", "src/compiler/lib/Var.cpp: update_halo, update_const_indices", "src/kernel/lib/setup.cpp: prepare_solution", "src/kernel/lib/context.cpp: run_solution", "src/kernel/lib/yk_var_apis.cpp: get_element"]}
{"id": "C89", "title": "output_solution() gives the same result however often it has been called before", "statement": "A solution may be output several times, for several targets. After any number of successful calls of output_solution() for any targets, the next call uses the dims, inner-loop dim, fold, layout, step direction and stages, or fails, as it would as the only call: they are determined by what the user has defined and by the target alone. The halos, distances and written steps it prints for the vars are those of the only call.", "quantifier": "all solutions, all sequences of targets, all orders in which the compiler iterates over its sets", "why_tests_cant": "Analysis results are kept in the solution, its settings, equations and vars, and are there again in the next call; whether they are seen depends on the sequence of calls and on the solution. Tests call the function once for a few targets.", "anchors": ["src/compiler/lib/Solution.cpp: output_solution, analyze_solution", "src/compiler/lib/Settings.cpp: set_dims", "src/compiler/lib/Eqs.cpp: analyze_eqs, make_parts, calc_halos", "src/compiler/lib/Eqs.hpp: Deps, DepGroup", "src/compiler/lib/Var.cpp: update_halo, is_halo_same"]}
{"id": "C90", "title": "The sizes of a var depend on the last values that were set, not on the history of the calls", "statement": "For any two sequences of calls that set sizes, halos, minimum and extra padding of a var, if for each dim each of these settings gets the same value last, the var reports the same sizes, halos, padding and allocated sizes; a call is refused only because of the values that are then in force, and a call that is refused changes nothing.", "quantifier": "all vars, all sequences of calls of the size, halo and padding functions, including calls that throw", "why_tests_cant": "Each call recomputes the sizes of all dims from what is stored, with rounding to vector lengths and additions for some dims; that no trace of earlier values or earlier failures stays is a statement about all pairs of sequences.", "anchors": ["src/kernel/lib/yk_var_apis.cpp: SET_VAR_API", "src/kernel/lib/yk_var.cpp: YkVarBase::resize", "src/kernel/lib/yk_var.hpp: init_valid_steps"]}
{"id": "C91", "title": "Registered functions are called once each, in the order registered, at the documented places", "statement": "Functions registered with call_before_prepare_solution(), call_after_prepare_solution(), call_before_run_solution() and call_after_run_solution() are called in the order registered, each once per call of prepare_solution() or run_solution(), at its beginning or end, with the steps passed to run_solution(); whatever the functions do themselves, including calls of prepare_solution() and run_solution() and registering functions; if a call fails, an initial part of this happens.", "quantifier": "all sequences of registrations and calls, all behaviours of the registered functions, nested to any depth", "why_tests_cant": "The functions are arbitrary code that may call the same API again while the lists are being visited; tests use a few functions that do not.", "anchors": ["src/kernel/lib/soln_apis.cpp: call_hooks, call_2idx_hooks, prepare_solution", "src/kernel/lib/context.cpp: run_solution", "src/kernel/lib/auto_tuner.cpp: run_auto_tuner_now", "src/kernel/lib/context.hpp: call_before_prepare_solution"]}
{"id": "C92", "title": "Halo exchange by messages delivers to each rank what its neighbours packed in the same exchange", "statement": "When halos are exchanged by MPI messages, with or without overlapping computation: whenever MPI takes and delivers the data, whenever progress is tested, and however the ranks interleave, each rank unpacks in each exchange, for each var exchanged and each neighbour with data for it, exactly once what this neighbour packed for it in this same exchange; no buffer is changed or reused while a message uses it; no rank waits forever.", "quantifier": "all numbers of ranks, neighbours, vars and exchanges, all interleavings of ranks, MPI and progress tests, all messages, all initial contents of buffers", "why_tests_cant": "Message timing is not under the control of a test, and tags are reused for other vars in later exchanges, so a wrong match shows only if one rank is ahead of another in the right way.", "anchors": ["src/kernel/lib/halo.cpp: exchange_halos, adv_halo_exchange", "src/kernel/lib/settings.hpp: MPIData, MPIBuf"]}
{"id": "C93", "title": "The fold lengths requested are the last ones written", "statement": "The length requested for a dim of the vector fold is the last one written for it, in the compiler option -fold or by set_fold_len(), since the last clear_folding(); is_folding_set() tells whether there is any; -fold accepts exactly lists of dim=integer separated by commas and otherwise throws, and an option that throws changes nothing.", "quantifier": "all sequences of options and calls, all arguments of -fold, all names and values", "why_tests_cant": "There are unboundedly many arguments and histories; a test covers a few well-formed ones.", "anchors": ["src/compiler/lib/Settings.cpp: IntTupleOption::check_arg", "src/compiler/lib/Solution.cpp: set_fold_len", "src/compiler/lib/Solution.hpp: is_folding_set, clear_folding", "src/common/tuple.cpp: add_dim_back", "src/common/common_utils.cpp: string_list_option::check_arg"]}
{"id": "C94", "title": "Values read once before the loops are those that the equations name at every point", "statement": "Where the generated code reads an element only once for a block of points, the equation names the same element at each of these points; where it advances a pointer with the inner loop, the element named advances in the inner-loop dim by as much and in no other dim. This holds for all index expressions, also with functions, divisions and elements of other vars in them.", "quantifier": "all index expressions of any nesting, all numbers and orders of dims, all choices of the inner-loop dim, all points, all contents of vars", "why_tests_cant": "A read that is moved out of a loop wrongly gives right values as long as the index expression happens to be constant over the blocks tested.", "anchors": ["src/compiler/lib/Eqs.cpp: FindIndicesVisitor, SetLoopVisitor, analyze_loop", "src/compiler/lib/Cpp.cpp: CppPreLoopPrintDataVisitor, print_inner_loop_prefix", "src/compiler/lib/Visitor.hpp: ExprVisitor"]}
{"id": "C95", "title": "Setting all elements leaves nothing of what was there before", "statement": "set_all_elements_same() gives every index in the allocation the value, and set_all_elements_in_seq() gives it the seed times a whole number between 1 and 31 times the vector length; what is set depends only on the seed and the sizes of the var, not on earlier contents, threads or schedule. The initialisation of a solution uses the seed times 1, 2, 3, ... for its vars, so that two solutions whose vars have the same sizes, as in the validation of yask_kernel, start with the same values.", "quantifier": "all vars that calls can make, all seeds and values, all earlier contents, all numbers of threads, all orders of the writes, all numbers of vars", "why_tests_cant": "An element that a parallel loop misses, or a dependence on old contents, shows only for some sizes, threads and schedules.", "anchors": ["src/kernel/lib/generic_var.cpp: set_elems_same, set_elems_in_seq", "src/kernel/lib/yk_var.hpp: set_all_elements_same, set_all_elements_in_seq", "src/kernel/lib/setup.cpp: init_values", "src/kernel/lib/context.hpp: init_diff", "src/kernel/yask_main.cpp: init_vars"]}
{"id": "C96", "title": "Var points name the elements asked for", "statement": "A point made by new_relative_var_point() names, at each point where an equation is evaluated, the element whose index in each dim is the index there plus the offset given; one made by new_var_point() names the element given by the values of the index expressions; writing out the offsets makes the same point, with the same offsets known to the analyses. new_relative_var_point() throws exactly if the number of offsets is wrong or the var has a misc dim.", "quantifier": "all vars with any number and kinds of dims, all offsets, all index expressions, all points", "why_tests_cant": "Index expressions are unboundedly many; a wrong rewriting of one shows only in equations that use it, at points where the values differ.", "anchors": ["src/compiler/lib/Var.cpp: new_var_point, new_relative_var_point", "src/compiler/lib/VarPoint.cpp: VarPoint, set_arg_offset, set_arg_const", "src/compiler/lib/Expr.cpp: is_offset_from"]}
{"id": "C97", "title": "The functions that report sizes of a var agree with each other", "statement": "A function that reports a size or index of a var throws, given the name of a dim, exactly if the var has no such dim or its kind is not one the function is meant for; otherwise it returns the same as the function with the position of the dim. The function with suffix _vec returns these values for exactly the dims of the kinds meant, in the order of the dims. For each dim, size = last index - first index + 1, halo = distance of the indices with and without halo, and pad = halo + extra pad; the functions for the step dim and misc dims return the same as those for the local indices.", "quantifier": "all vars with any number, kinds, names and order of dims, all functions, all names; for the relations all vars that calls can make", "why_tests_cant": "The selection of dims by masks and the positions in the result differ for each combination of kinds and order of dims; the relations must hold after every sequence of calls.", "anchors": ["src/kernel/lib/yk_var_apis.cpp: GET_VAR_API, GET_VAR_API2", "src/kernel/lib/settings.cpp: check_dim_type", "src/kernel/lib/yk_var.cpp: YkVarBase, get_dim_posn"]}
{"id": "C98", "title": "Runs exchange halos as requested", "statement": "Each call of run_solution() outside of run_auto_tuner_now() exchanges halos as the last option -exchange_halos or -no-exchange_halos says, and exchanges them if none was given. Runs made by run_auto_tuner_now() exchange none.", "quantifier": "all sequences of calls, all calls made by functions registered for runs, to any depth, all exceptions, caught anywhere", "why_tests_cant": "The switch is shared by tuning and runs; whether it is put back depends on where exceptions occur and on nesting, and a run without exchange reports no error but leaves wrong values.", "anchors": ["src/kernel/lib/auto_tuner.cpp: run_auto_tuner_now", "src/kernel/lib/halo.cpp: exchange_halos", "src/kernel/lib/soln_apis.cpp: apply_command_line_options"]}
{"id": "C99", "title": "The registry has the stencil solutions that exist", "statement": "Looking up a name in the registry of stencil solutions gives the object created with this name if it exists, and nothing otherwise; no two objects with the same name exist; creating an object throws exactly if one with this name exists.", "quantifier": "all sequences of creating and deleting objects, with any names, including constructors that throw", "why_tests_cant": "What is found depends on the whole history of objects; using an object that has been deleted may appear to work.", "anchors": ["src/compiler/lib/Solution.cpp: yc_solution_base, get_registry", "include/aux/yc_solution_api.hpp: ~yc_solution_base", "src/compiler/compiler_main.cpp: main"]}
{"id": "C100", "title": "Options of the stencil compiler override what a stencil sets", "statement": "The output of the stencil compiler is made with the settings that define() of the stencil named on the command line leaves, except that every option given on the command line has the value given last there; define() itself runs with the options given already in effect, and with the radius given.", "quantifier": "all command lines, all registered stencils and everything their define() may do to the settings", "why_tests_cant": "The settings depend on the whole command line and on the code of a user's stencil; tests try few of their combinations.", "anchors": ["src/compiler/compiler_main.cpp: MySettings::parse, main", "src/compiler/lib/Solution.cpp: apply_command_line_options", "src/compiler/lib/Settings.cpp: CompilerSettings::add_options"]}
{"id": "C101", "title": "Prefetch distances are the last ones requested", "statement": "get_prefetch_dist() returns the distance last requested for a cache level, by a call of set_prefetch_dist() that did not throw or by a command-line option, or 0; set_prefetch_dist() throws exactly for illegal levels or distances and then changes nothing; the inner loops made prefetch to a cache exactly if its distance is positive, by that many iterations ahead of the furthest read.", "quantifier": "all sequences of calls and options, with any levels and distances", "why_tests_cant": "The distance depends on the whole history of calls, options and refused calls.", "anchors": ["src/compiler/lib/Solution.cpp: get_prefetch_dist, set_prefetch_dist", "src/compiler/lib/Settings.cpp: l1-prefetch-dist, l2-prefetch-dist", "src/compiler/lib/Cpp.cpp: print_prefetches"]}
