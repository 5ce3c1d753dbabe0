# Formal model of intel/yask in Lean 4

This document states, for each property in `properties.jsonl`, what is modelled
and how it is proved, states the trusted base, and lists where the code disagrees
with the property. The plan was written before the proofs; the whole is kept up to
date as the model grows.

## Layout

* `lean/Verif/Common/*`   – `src/common` (integer division, work division, tuples,
  combinations, ordered set, FD coefficients, argument splitting, parallel-for).
* `lean/Verif/Loops/*`    – loops produced by `utils/bin/gen_loops.pl` and layouts
  produced by `utils/bin/gen_layouts.pl`.
* `lean/Verif/Var/*`      – kernel variables (`yk_var.*`): addressing, step window,
  sizing, slices, element API, reductions, comparison, vector slice copies.
* `lean/Verif/Kernel/*`   – bounding boxes, nano-blocks and vector masks, coherency.
* `lean/Verif/Setup/*`    – ranks, block sizes, threads, `new_var`, storage, auto-tuner.
* `lean/Verif/Sched/*`    – time loop, wave-front and temporal tiling, interior /
  exterior split, schedule equivalence.
* `lean/Verif/Mpi/*`      – halo regions, dirty flags, shared-memory lock, and runs on
  several ranks (`NetModel`: the run; `PrepModel`: neighbours, buffers and interiors
  as `prepare_solution()` makes them).
* `lean/Verif/Compiler/*` – dependency analysis, ordering, halos, step allocation,
  scratch memory, expression rewriting, vector reads, printing of equations.
* `lean/Verif/Spec/*`     – small specifications: the vocabulary of the theorem
  statements, independent of the model's helper functions.
* `lean/Verif/Props/*`    – the property theorems, `Yask.Cnn_…`, each with `example`s
  showing that concrete non-trivial cases meet the hypotheses.

Files named `…Model` hold the definitions, each with a citation of the file and
lines modelled and of simplifications; `…Lemmas` hold helper lemmas.

Suffixes of theorem names: `_partial` – some part of the English property is missing
(said in the doc comment and below); `_wrong`, `_fails…`, `_undefined`, `_differs`,
`_race`, … – a theorem that the code *violates* the property, with a concrete witness.

## Modelling conventions

* `idx_t` (64-bit signed) is modelled by `Int` without overflow, unless said otherwise
  (`int` arithmetic of the combination functions and of index constants is checked:
  C41, C51). C++ `/` and `%` are `Int.tdiv` and `Int.tmod`.
* Results are `Outcome α` = `ok` | `throws` (an exception) | `undefined` (out-of-range
  memory access, null pointer, division by zero, exhausted fuel, failed assertion where
  assertions are compiled in). So undefined behaviour is never a default value, and a
  theorem that a call gives `ok` includes that it does not crash.
* Floating-point values are an arbitrary type (for data that is only moved or combined
  by an arbitrary stencil function) or elements of a field / linearly ordered field (for
  data on which arithmetic is done). No rounding is modelled.
* Parallel loops are modelled by all interleavings of the traces of their iterations;
  the shared-memory lock by all interleavings of its atomic operations (sequentially
  consistent).
* A run on several ranks proceeds in rounds of messages; all messages of a round are
  received before the next computation that needs them (`MPI_Waitall`), computation of
  the interior may overlap with them.

## Trusted base

* Lean 4.33.0's kernel and the statements of the theorems with the specifications.
* Axioms: only `propext`, `Classical.choice`, `Quot.sound`; the list per theorem is at
  the end. No own axioms, no `sorry`, no `native_decide`, no `bv_decide`. Concrete
  witnesses are checked with `decide` / `decide +kernel` (kernel reduction).
* The correspondence of the model with the C++/Perl source was established by reading;
  each definition cites its source lines. Lines cited per file are listed below.

### Not modelled

* 64-bit overflow, floating-point rounding, NaN, denormals.
* The MPI library, the OpenMP runtime, the memory allocator, SYCL/OpenMP offload
  runtimes (offloading appears only in the coherency flags, C25), file and console
  output, timing (the auto-tuner sees arbitrary measurements).
* Parsing of stencil definitions (C++ operator overloading that builds the expression
  trees), the text of the generated C++ code except where listed (vector reads, C52, C63;
  expressions, C50, C61, C62; conditions, C85), prefetching, makefiles, Python
  bindings, the utilities for log processing.
* `run_solution` on several ranks: written vars without all domain dims.

### Source lines cited by the model

| source file | lines | cited | ranges |
|---|---|---|---|
| `include/aux/yc_node_api.hpp` | 1133 | 17% | 309-313 497-604 734-783 1043-1082 |
| `include/aux/yc_solution_api.hpp` | 251 | 0% | 98 |
| `include/aux/yk_var_api.hpp` | 1493 | 1% | 965-977 1350-1361 |
| `include/yask_common_api.hpp` | 682 | 48% | 334-665 |
| `src/common/combo.cpp` | 112 | 65% | 36-64 69-112 |
| `src/common/combo.hpp` | 62 | 17% | 45-55 |
| `src/common/common_utils.cpp` | 642 | 49% | 158-176 318-615 |
| `src/common/common_utils.hpp` | 526 | 50% | 89-91 122-130 144-154 159-165 171-172 199-343 356-446 |
| `src/common/fd_coeff2.cpp` | 75 | 53% | 36-75 |
| `src/common/idiv.hpp` | 91 | 37% | 52-85 |
| `src/common/tuple.cpp` | 451 | 71% | 44-150 154-166 171-280 353-446 |
| `src/common/tuple.hpp` | 779 | 29% | 224-282 430-438 466-483 489-492 498-531 626-651 664-691 698-750 |
| `src/compiler/compiler_main.cpp` | 234 | 82% | 42-234 |
| `src/compiler/lib/Cpp.cpp` | 1295 | 93% | 39-53 57-79 86-1157 1162-1207 1219-1237 1252-1260 1265-1266 1270-1292 |
| `src/compiler/lib/Cpp.hpp` | 426 | 0% | 209-211 |
| `src/compiler/lib/CppIntrin.cpp` | 455 | 93% | 31-455 |
| `src/compiler/lib/CppIntrin.hpp` | 216 | 23% | 116-165 |
| `src/compiler/lib/Eqs.cpp` | 2033 | 78% | 86-328 364-735 746-779 904-1213 1277-1280 1355-1571 1614-2031 |
| `src/compiler/lib/Eqs.hpp` | 882 | 52% | 46-511 |
| `src/compiler/lib/Expr.cpp` | 697 | 86% | 43-480 523-690 |
| `src/compiler/lib/Expr.hpp` | 788 | 76% | 187-786 |
| `src/compiler/lib/ExprUtils.cpp` | 154 | 53% | 33-115 |
| `src/compiler/lib/ExprUtils.hpp` | 335 | 62% | 60-134 200-335 |
| `src/compiler/lib/Print.cpp` | 728 | 59% | 35-470 |
| `src/compiler/lib/Print.hpp` | 512 | 6% | 80-97 132-147 |
| `src/compiler/lib/Settings.cpp` | 623 | 90% | 47-353 362-415 420-622 |
| `src/compiler/lib/Settings.hpp` | 129 | 32% | 45-66 79-82 97-112 |
| `src/compiler/lib/Solution.cpp` | 280 | 62% | 65-112 127-157 163-185 204-277 |
| `src/compiler/lib/Solution.hpp` | 293 | 6% | 206-224 |
| `src/compiler/lib/Var.cpp` | 505 | 78% | 37-97 134-176 200-266 271-357 361-499 |
| `src/compiler/lib/Var.hpp` | 460 | 16% | 45-87 189-217 289-291 |
| `src/compiler/lib/VarPoint.cpp` | 350 | 61% | 36-90 121-148 157-189 209-306 |
| `src/compiler/lib/VarPoint.hpp` | 317 | 33% | 42-60 104 151-156 219-299 |
| `src/compiler/lib/Vec.cpp` | 245 | 69% | 34-204 |
| `src/compiler/lib/Vec.hpp` | 290 | 10% | 37-54 120-130 |
| `src/compiler/lib/Visitor.hpp` | 123 | 44% | 46-100 |
| `src/compiler/lib/YaskKernel.cpp` | 1183 | 37% | 33-61 170-215 471-484 500-525 543-560 590-722 747-866 882-886 1010-1058 |
| `src/contrib/coefficients/fd_coeff.cpp` | 102 | 49% | 54-103 |
| `src/kernel/lib/alloc.cpp` | 1189 | 76% | 270-452 456-1029 1036-1187 |
| `src/kernel/lib/alloc.hpp` | 200 | 6% | 185-197 |
| `src/kernel/lib/auto_tuner.cpp` | 588 | 90% | 34-507 527-585 |
| `src/kernel/lib/auto_tuner.hpp` | 143 | 81% | 30-145 |
| `src/kernel/lib/context.cpp` | 1606 | 89% | 46-815 858-1003 1014-1174 1181-1355 1366-1520 1549-1578 |
| `src/kernel/lib/context.hpp` | 846 | 35% | 46 112-134 145-283 329 370-375 474-490 545-548 630-636 642-667 761-776 785-844 |
| `src/kernel/lib/generic_var.cpp` | 206 | 50% | 32-39 77-95 99-110 135-199 |
| `src/kernel/lib/generic_var.hpp` | 441 | 7% | 170-172 260-264 413-438 |
| `src/kernel/lib/halo.cpp` | 576 | 86% | 78-574 |
| `src/kernel/lib/indices.hpp` | 830 | 29% | 212-214 297-355 399-428 432-489 628-680 768-809 |
| `src/kernel/lib/new_var.cpp` | 161 | 79% | 32-159 |
| `src/kernel/lib/offload.hpp` | 533 | 24% | 236-241 404-530 |
| `src/kernel/lib/realv.hpp` | 1008 | 55% | 246-430 470-524 655-960 979-994 |
| `src/kernel/lib/settings.cpp` | 1139 | 65% | 33-56 99-113 153-165 175-520 690-762 766-1014 1062-1085 |
| `src/kernel/lib/settings.hpp` | 758 | 36% | 190-196 221-300 321-326 418-423 440-593 600-620 624-625 |
| `src/kernel/lib/setup.cpp` | 1583 | 71% | 169-524 611-612 663-1040 1090-1147 1184-1228 1235-1500 1509-1510 1556 1560-1582 |
| `src/kernel/lib/soln_apis.cpp` | 583 | 85% | 48-313 349-583 |
| `src/kernel/lib/stencil_calc.cpp` | 600 | 94% | 35-598 |
| `src/kernel/lib/stencil_calc.hpp` | 936 | 48% | 64-94 126-146 444-845 899 |
| `src/kernel/lib/utils.cpp` | 95 | 41% | 57-95 |
| `src/kernel/lib/utils.hpp` | 140 | 67% | 42-135 |
| `src/kernel/lib/yask.hpp` | 279 | 1% | 170-172 |
| `src/kernel/lib/yask_stencil.hpp` | 82 | 2% | 64-65 |
| `src/kernel/lib/yk_var.cpp` | 673 | 72% | 34-58 69-94 122-166 206-384 401-479 484-590 644-669 |
| `src/kernel/lib/yk_var.hpp` | 2632 | 42% | 87-150 171-232 253-258 262-268 302 316-358 377-411 425-430 434-440 444-470 479-490 567-580 594-618 635-637 735-743 798-806 814-817 851-853 1054-1068 1081-1358 1364-1449 1489-1525 1537-1551 1696-1752 1774-1781 1785-1806 1889-2122 2298-2310 2616-2623 |
| `src/kernel/lib/yk_var_apis.cpp` | 459 | 83% | 35-101 137-291 300-460 |
| `src/kernel/yask_main.cpp` | 665 | 65% | 51-66 209-212 251-665 |
| `utils/bin/gen_layouts.pl` | 231 | 29% | 66-103 147-150 168-193 |
| `utils/bin/gen_loops.pl` | 1315 | 49% | 57-64 206-236 282-329 382-387 392 405 444-541 545-745 912-1170 |

## Disagreements between the code and the properties

Each is a theorem with a concrete witness unless marked (noted).

* **C01, C05** Temporal blocking with a remainder block shorter than
  `2 * angle * shifts` in a dim with a single mega-block evaluates points before their
  inputs and gives other values than the reference (`C05_short_remainder_race`,
  `C01_short_remainder_differs`).
* **C07** A fold of 64 points makes an empty write mask (`1 << 64`).
* **C12** Loops with `begin > end`; the `manual` modifier divides by zero.
* **C16, C21** A setting call that throws (`set_alloc_size`, halo sizes) has already
  stored the new value; afterwards element checks and padding are wrong.
* **C17** `set_element` at a new step does not move the window of valid steps, contrary to
  the documentation.
* **C18** A slice with more steps than are stored wraps onto itself.
* **C19** `set_first_misc_index` does not update the offsets used by vector copies.
* **C20** The maximum starts from `DBL_MIN` (the smallest positive number); the sum of
  squares adds to the sum; the minimum is only kept if the sum is requested.
* **C23** A call on one rank that writes halo points makes the copies of ranks differ.
* **C25** `set_all_elements_same` fails an assertion on the device copy; `run_ref` ignores
  the coherency flags.
* **C26** A dim named twice is accepted; a failed call leaves new misc dims behind.
* **C28** A second `prepare_solution()` with another arrangement of ranks keeps stale
  neighbours.
* **C29** Ranks that begin at an index that is not a multiple of the fold length: regions
  overlap and old values can be delivered (`C29_misaligned_wrong`).
* **C30** Fused vars are given the wrong chunk of memory; scratch vars in one slot with
  different halos overlap the next thread's scratch memory when wave-fronts are used.
* **C31** Sizes that were limited by a small domain stay limited after a second
  `prepare_solution()`.
* **C33** With one rank the factorisation is an empty tuple.
* **C36** The nested branch of `yask_parallel_for` ignores `begin`.
* **C38** The visitor of tuples is called once on an empty space.
* **C40** Too few points: reads outside the work array.
* **C41** `n_choose_k` overflows `int`; sets of more than 8 elements overrun an array.
* **C42** `vector_set::erase` does not repair the position map.
* **C43** Re-quoting of arguments that contain quotes.
* **C45** Acyclic equations can be rejected by the grouping into stages and by user
  dependences.
* **C47** Step allocation: ranges per stage, write-back and explicit allocations.
* **C48, C55** Scratch vars updated in two parts; slots reused with two non-scratch parts.
* **C49** Reverse stepping and reads of scratch equations are not checked.
* **C50** `is_same` confuses negation with subtraction, so CSE can merge different
  expressions or make a cycle.
* **C53** Non-strict slices entirely out of range set an element outside the slice; new
  steps move the window without being initialised.
* **C54** Disabling the dependency checker does not disable the rejection of its findings.
* **C56** Corner neighbours are missed for reads through scratch vars.
* **C57, C58** Explicit rank indices are ignored; impossible numbers of ranks are silently
  replaced, or a null pointer is read.
* **C59** The tuner changes mega-block sizes after the wave-front angles were computed.
* **C85** In conditions, `%` of a negative number truncates although the expression (and its value if it is constant) is floored; `/` of
  indices truncates; `-(-x)` is `--x`, which decrements the index, and `-(-5)` is not accepted; constants of sub-domain conditions are
  printed with 6 digits (`x <= 2.9999999` includes 3); constants outside the range of `int` are undefined; `%` by a constant that
  is not an integer is not accepted (`C85_wrong`).
* **C87** The check that an equation does not read a later step than it sets is only made for forward steps: `u(t-1,x) EQUALS u(t-2,x)`
  is accepted for backward steps and reads a step that has not been computed (`C87_late_read_accepted`; see also C49).
* **C89** What an output keeps in the solution is seen later. The inner-loop dim found is stored over the user's setting (`Settings.cpp:134-152`); the step dim and step direction are never reset (`Settings.cpp:53-58`), so after an output without equations, equations that step backward are rejected. The test of `-no-bundle-scratch` (`Eqs.cpp:1056-1065`) compares halos that are computed only later (`Solution.cpp:127-157`), so the option has no effect on the first output, and may have one on later outputs. If a scratch var is written in two parts, `calc_halos` passes its halo to the inputs of the first part before the second part increases it: the halos of the inputs are too small after the first output, and grow with the second.
* **C90** The setting functions store the value before `resize()` checks it (`yk_var_apis.cpp:79-101`): after a refused negative halo, every later call for any dim of the var is refused until the halo is set again. In a var with storage `resize()` keeps the larger of old and new padding (`yk_var.cpp:302-305`), so a fixed-size dim can be reduced within a vector, but the old size is then refused.
* **C91** The loops over registered functions visit the vectors themselves (`soln_apis.cpp:119`, `129`), so a function that registers another one for the same place invalidates the iterators. `run_auto_tuner_now()` calls `run_solution()` (`auto_tuner.cpp:561`) and thereby the functions registered for runs. `run_solution()` calls them before it checks that the solution is prepared (`context.cpp:227`, `265`).
* **C93** `-fold x=4294967300` requests length 4, since the value of `strtol` is converted to `int` unchecked; `-fold x=4,y` throws, and x stays 4.
* **C96** `new_var("B", {x, x})` is accepted, but `new_relative_var_point({1, 2})` in it is `B(x + 2, x)`, and `B(x + 1, x + 2)` becomes `B(x + 2, x + 2)`: offsets are found by the name of the dim.
* **C97** `new_var("v", {"x", "x"})` of the kernel is accepted (the set `seen_dims` stays empty); its second dim can then not be reached by name, so `get_alloc_size_vec()` and `get_alloc_size("x")` disagree.
* **C98** `run_auto_tuner_now()` sets `do_halo_exchange` to false and back (`auto_tuner.cpp:543-575`) without a guard. If a run in between throws and the program goes on, all later runs on several ranks compute with old halos.
* **C99** The destructor of `yc_solution_base` leaves the pointer in the registry: after `delete`, or if the constructor of a derived class throws, a lookup gives a dangling pointer, and the name cannot be used again.
* **C100** The program parses its own options first and leaves the rest to the library, so the value of a library option that reads like an option of the program is taken away from it. With `-p`, `-target` is required on the command line even for a stencil whose `define()` sets the target.
* **C101** `-l1-prefetch-dist` and `-l2-prefetch-dist` accept negative distances, which `set_prefetch_dist()` refuses; `get_prefetch_dist()` then returns them.
* **C61** `-(-x)` is written as `--x`; operators on integer constants are computed in `int`
  (`1/2` is 0, and can overflow); `%` of real values is not valid C++.
* **C62** Constants are written with 16 digits (17 are needed); the conversion to `int` is
  undefined for large constants.
* **C64** `-allow-unaligned-loads`: the compiler stops at `assert(var_map)`; without asserts
  the address is computed from vector numbers instead of element indices.
* **C66** Layouts are called identical although first indices differ.
* **C67** `fuse_vars`: the test of dims is made for the wrong kind of var; halos of the solution
  are lost, too small fixed-size vars accepted; freed data is used if called after
  `prepare_solution()`.
* **C68** Storage of scratch vars: if the steps of a block shift micro-blocks by more than the
  domain size, a micro-block is larger than the storage (the extension uses the angles of
  temporal blocks only); partial vectors at misaligned micro-blocks read beyond the storage.
* **C69** A scratch var that is read at a point where none of its equations applies: `run_ref` sets
  all scratch vars to zero first (`context.cpp:164-174`), `run_solution` does so only with
  `-init_scratch_vars` (off by default), so that its result depends on what the thread computed before
  (`C69_undefined_element_wrong`). The compiler accepts such solutions.
* **C70** `get_stats` multiplies the work of one step with all conditions true by the number of
  steps: equations with a step condition are counted in steps in which they are not evaluated, although
  the comment (`context.cpp:586-592`) claims to account for them (`C70_step_conditions_counted`), and with
  wave-fronts on several ranks the whole extension of a rank is counted in every step although it
  shrinks from step to step (`C70_extensions_counted`).
* **C71** The flag that `run_solution` tests is set in the middle of `prepare_solution` and cleared by
  some setters only. After `end_solution`, or after an allocation failure in `prepare_solution`, a run
  is not rejected and accesses null pointers (`C71_after_end_undefined`, `C71_failed_alloc_undefined`);
  after `apply_command_line_options`, or if a later `prepare_solution` throws, it uses settings that were
  not prepared (`C71_options_wrong`, `C71_failed_prepare_wrong`).
* **C72** After `prepare_solution`, setting a new overall-domain size alone makes the next
  `prepare_solution` throw, because the rank-domain size computed by the first call counts as specified
  (`C72_overall_size_only` for every number of ranks, `C72_no_mpi`); setting the rank-domain size to zero as
  well gives the outcome of a new solution (`C72_resized`).
* **C73** Without efficient folding all of the vector is put in the last but one domain dim. If the inner
  loop is in that dim (`-inner-loop-dim`), its own length of one replaces the vector and the compiler stops
  with "(internal fault)" whatever is requested (`C73_inner_loop_wrong`). With efficient folding, a request
  that needs the inner-loop dim to complete the vector is dropped (`C73_completable_wrong`).
* **C74** Nothing rejects a name that is a domain dim of one var and a misc dim of another
  (`C74_kinds_wrong`).
* **C75** A var may name a dim twice. `set_arg_offset` then always changes the first of the two args, so
  `v(x+1, x+2)` becomes `v(x+2, x+2)` without a message (`C75_repeated_dim_wrong`).
* **C76** `apply_command_line_options` parses into the settings in use first and into the requested settings
  afterwards, so a call that throws leaves them different (`C76_failed_call_wrong`); `string_list_option` clears its value
  before checking the new one (`C76_failed_list_wrong`); `int_option` truncates (`C76_int_wraps_wrong`); a dim called
  `lock_threads` makes two options with the same name, of which one is dropped without a message (`C76_clash_wrong`).
* **C77** `set_alloc_size` on a misc dim of a var of a solution accepts a size smaller than the indices in the equations
  need, and the generated code then reads beyond the storage (`C77_shrunk_wrong`); `max - min + 1` of the misc indices is
  computed as `int` and may overflow (`C77_range_overflow_wrong`).
* **C78** `exchange_halos` packs and unpacks in the order of the valid steps of each rank.  `run_auto_tuner_now` runs a
  number of steps that differs from rank to rank, and `set_all_elements_same` does not reset the valid steps, so the first
  exchange after tuning can put the data of one step into the halo of another (`C78_after_tuning_wrong`).  In
  `yask_kernel` this happens with `-no-warmup`; a warmup or a run of as many steps as are stored puts it right
  (`C78_run_aligns`).
* **C79** `yask_kernel` checks that `-num_trials`, `-trial_steps` and `-validate` agree on all ranks but not `-warmup`,
  `-auto_tune` or the sign of `-trial_time`: if they differ the ranks wait for each other for ever (`C79_warmup_wrong`).
  The calibrated number of steps is stored in an `int` (`C79_many_steps_wrong`).  With an even number of trials the
  output says that the 50th-percentile trial is chosen with the nearest-rank method, but it is the one after it
  (`C79_mid_even_wrong`).  With two trials the standard deviation is printed as 0 (`C79_two_trials_wrong`).
* **C80** If the storage of a step is reused (step allocation smaller than the steps the equations refer to), an equation that
  reads the old step gets the result of an earlier equation of the same part (`C80_overwritten_wrong`; when the compiler
  chooses such an allocation is the subject of C47).
* **C81** If an equation of a part reads, at another point, an element the same part sets, the result depends on how the block
  is divided into vectors and on their order (`C81_other_point_wrong`; C40/C75 say when the compiler rejects such equations).
* **C82** Sums, products and functions copy their operands, but differences, quotients, moduli, negations and equations refer to
  them; so after `set_value` on a constant `c`, `a - c` has the new value and `a + c` the old one (`C82_shared_wrong`). An integer operand
  above 2^53 is rounded silently, but `new_const_number_node` fails for it, or converts 2^63 to `idx_t`, which is undefined
  (`C82_operand_wrong`).
* (noted) `int_option` truncates a 64-bit value to `int` (`common_utils.cpp:429`); the
  constructor of the auto-tuner passes an inverted flag to `clear()`; the lock of a
  shared-memory buffer is only aligned to `real_t`; the default nano-block size of a 1-D
  solution is read from the temporal size.

## Plan per property

| id | model | proof method |
|----|-------|--------------|
| C01 | tasks (shift, point) reading within a radius, memory as function; any execution order; several ranks with message rounds, buffers and flags | trace-equivalence: a permutation that keeps the order of conflicting tasks yields the same memory (induction on the list); ranks: invariant that own points and received halos agree with a global memory |
| C02 | `shift_mega_block` as function on 1-D ranges, per dimension; mega-block loop | interval partition lemma: chunks shifted by a common amount and clipped partition the clipped range; product over dimensions |
| C03 | same, plus ordering of mega-blocks | case analysis on tile index of reader and writer; linear arithmetic |
| C04 | `shift_micro_block` shape computation per dimension and phase mask | each dimension: trapezoid/bridge parts partition; product over dimensions with subsets; n_choose_k_set bijectivity |
| C05 | same | dependency lemma with block-size hypothesis; negation witness for small remainder blocks |
| C06 | micro-block part of `shift_micro_block` | interval partition |
| C07 | `calc_nano_block_opt` ranges and masks | per-dimension classification of points as left/full/right; product over dimensions |
| C08 | overlap branch of `shift_mega_block` | per-point classification: first dimension outside interior |
| C09 | time loops of `run_solution`, `calc_mega_block`, `calc_micro_block` | list equality with the sequence of steps |
| C10 | `find_bounding_boxes` scan over arbitrary predicate | invariant of the scan (found rectangles disjoint, inside predicate, all earlier points covered) |
| C11 | thread selection expression | floor-mod range |
| C12 | index arithmetic of generated loops | bijection of index space, interval partition |
| C13 | generated layout / unlayout for a permutation | mixed-radix bijection |
| C14 | element address for scalar and folded storage | composition of injective maps |
| C15 | var state with storage function; API calls as state transitions | refinement to an abstract map by induction on the history |
| C16 | `check_indices`, `are_indices_local`, `get_element` | case analysis |
| C17 | step window transitions | invariant by induction over histories; negation for `set_element` |
| C18 | slice visiting | list induction; round trip |
| C19 | vector slice copy | as C18 on vectors |
| C20 | reduction accumulators | fold lemma; negations for the wrong cases |
| C21 | `resize` | arithmetic; state-machine invariant |
| C22 | `compare` | counting |
| C23 | ranks with dirty flags; writes, exchanges | invariant by induction over histories |
| C24 | lock counters and two processes | invariant over all interleavings; progress |
| C25 | coherency state machine with ghost versions | invariant |
| C26 | `new_var` checks | negation for duplicates; partial theorem |
| C27 | `setup_rank` sizes/offsets, all ranks together | sums; interval partition |
| C28 | neighbour table | arithmetic on rank indices |
| C29 | send / receive boxes | arithmetic per dimension |
| C30 | offset assignment | prefix sums |
| C31 | `find_num_subsets`, `adjust_settings` | arithmetic |
| C32 | `get_num_comp_threads` | arithmetic |
| C33 | `get_compact_factors` | loop invariant; negation for one rank |
| C34 | `idiv.hpp` | arithmetic |
| C35 | `div_equally_*` | arithmetic |
| C36 | `yask_parallel_for` | interval partition; negation for nested mode with nonzero begin |
| C37 | tuple layout/unlayout | mixed radix |
| C38 | odometer | induction |
| C39 | tuple comparison | lexicographic order |
| C40 | Fornberg recurrence in the flat buffer over a field | refinement of the buffer to a table; exactness by the recurrence of Lagrange basis polynomials |
| C41 | `n_choose_k`, `n_choose_k_set` | combinatorial number system, induction |
| C42 | `vector_set` | invariant; negation for erase followed by erase |
| C43 | tokenizer | list induction |
| C44 | DFS closure | invariant of DFS with visited set |
| C45 | `topo_sort`, making of parts and stages | invariant of the swap loop; induction over the grouping |
| C46 | halo propagation | induction along scratch chains |
| C47 | `get_step_dim_info` | arithmetic on step windows; negations |
| C48 | slot assignment and execution order | invariant; negation for shared parts |
| C49 | step-offset check | case analysis; negation for reverse stepping |
| C50 | expression trees with evaluation in a commutative ring | structural induction |
| C51 | index expressions | structural induction |
| C52 | vector element mapping | mixed radix, floor division |
| C53 | clipping of slices, then C18/C20 | case analysis per dimension |
| C54 | the analysis with the checker switched off | case analysis; negation |
| C55 | write halos of scratch vars along chains | induction along chains; negation |
| C56 | `l1_norm` of reads | counting of nonzero offsets; negation |
| C57 | placement of ranks | bijection; negation for all inputs |
| C58 | numbers of ranks | from C33; negations |
| C59 | the search over sizes as a state machine driven by arbitrary measurements | measure for termination; invariant: the best rate is the largest seen |
| C60 | the solution as a system of equations; composition of the compiler and kernel models; with scratch vars: required scratch parts and write halos as passed to the kernel | C45, C46, C47, C56 and C01 composed; with scratch vars also C69, by substitution of scratch equations in the solution |
| C61 | printing of expressions to text with temporaries; a lexer, parser and evaluator for the C++ used | invariant on variables, states and texts by structural induction; negations |
| C62 | `format_real` | rounding to 16 digits; negations |
| C63 | values of the pointers, strides and buffers of the generated inner loop, iteration by iteration | layouts are linear; invariant of pointers and buffers by induction on iterations |
| C64 | address printed for an unaligned load | negation; consecutive elements from linearity |
| C65 | `update_var_info` on any vars; vectors run by the micro-block loops | composition: sizes and pads (C14), rectangles (C10), vectors meeting the area, halos (C46, C55) |
| C66 | `is_storage_layout_identical`, addresses of C14 | lists compared entry by entry; address depends on sizes and slots only |
| C67 | handles and vars as pointers and objects, core pointers of the kernels, `fuse_vars` | induction on calls; negations |
| C68 | `alloc_scratch_data` (sizes), `update_scratch_var_info`, `adjust_scratch_span`, the micro-blocks of a run as traces | invariants of the schedule (width, alignment) over all traces; negations |
| C69 | `calc_micro_block` with required scratch parts (order, areas, done-set), `run_ref` with scratch vars | substitution theorem on traces (values in scratch storage satisfy the scratch equations from closure, freshness and no intervening writes), which hold for every trace of the schedule, on one rank and, pass by pass, on several ranks (`Mpi/ScrNetModel`); negation for undefined elements |
| C70 | `init_work_stats`, counters of steps, `get_stats`/`clear_stats` and their callers | invariant over call histories; counting of evaluations in traces of `run_solution` per point, part and step, sums over boxes of parts (C10) and ranks (C27); negations |
| C71 | the prepared flag, storage and buffers as changed by the API calls, with points of failure of `prepare_solution` | invariant over call histories; negations |
| C72 | settings that `setup_rank` leaves for the next call, setters of sizes | algebraic: `setup_rank` is idempotent and depends on earlier calls only through neighbours; negation for all inputs |
| C73 | `Dimensions::set_dims`: fold lengths from requests, SIMD length and inner-loop dim | algebraic, using C33 for the factors; negations, one for all inputs |
| C74 | `Dimensions::set_dims`: dims of vars and settings, layout order | induction over the vars; characterisation of the order; negation |
| C75 | the constructor of `VarPoint` and the checks of each equation in `Eqs::analyze_eqs` | invariant of the loop over the args; values of index expressions from C51; completeness for plain equations; negation |
| C76 | the kinds of options with the settings they change, `strtoll`, the table made by `add_options` for any dims, `apply_command_line_options` | induction over the words of a line; no two options of the table share a word; refinement of `strtoll` to a grammar of integers; negations |
| C77 | `update_const_indices`, `update_var_stats`, the size-setting calls of the generated constructor, run on the model of vars (C21) | least and greatest element by induction over the points; an invariant of each misc dim under all setting calls; negations |
| C78 | `exchange_halos` by steps: each rank with its own valid steps, `update_valid_step`, messages as lists | refinement of the model by slots (C23) while valid steps agree; exact description of the exchange otherwise; negations |
| C79 | `main` of `yask_kernel` as a tree of library calls per rank, and a job of ranks that step in any order | diamond property of the steps, so one execution to the end shows all executions; negations |
| C80 | the loop body of `calc_vectors` as a whole: statements of C61 on vectors, points read as in C52/C63 (element by element for vars that are not folded), masked stores, buffers and pointers at the end of each iteration | simulation of each lane by the scalar statements of C61; invariant: vectors in memory and buffers have the initial value of each element not yet written |
| C81 | calls of the inner loops from `calc_nano_block_opt` with their masks, with the rank offsets removed from the indices as in the pointers of C63; evaluation with the loops of C80 | the runs write the points of C07 (refinement); fold over the runs with the frame of C80; any permutation of the runs |
| C82 | a heap of nodes with the calls of the node factory, the operators, `set_value`, `add_operand` and the conditions of equations; copies by the copy constructors | refinement to a specification with values only; invariant over all calls: nodes of copies are reachable only through the copies, so later changes cannot affect them |
| C83 | `run_solution` with the generated inner loops of each part as actions (`runSolutionWith` of C01 with the runs of C81), executed on the storage of the vars | the traces expand to traces of C01 point by point; each run of an inner loop has the effect of the evaluations of its points; evaluations that do not conflict commute, so each trace has the effect of the reference, which is written with `read_elem` and `write_elem` |
| C84 | the equations of C60 and the generated code of C83; vars of the equations are slices of vars of the kernel at fixed misc indices | the storage simulates the memory of C60: one evaluation changes the element that the equation sets and no other slot, because addresses are injective (C02); then C60's history theorem and C83 |
| C85 | the text of the functions generated for sub-domain conditions, step conditions and output steps; a lexer, parser (all precedences of the operators used) and evaluator for C++ conditions on integers, with types, overflow, truncation, short circuits and `--x` | structural induction: each printed operand is parsed as one operand that changes no variable and has the value and type of the number; negations with witnesses; intervals and periods without hypotheses on the form |
| C86 | the run of C01 on the storages of the vars of the ranks: each rank runs the inner loops of the generated code (C80, C83) in its parts of the pass, in any order, and exchanges copy the elements in the buffers from the storage of one rank to that of another, by the storage addresses of C02 | simulation: the storage of each rank represents a memory of points (as in C84), so that each step of the ranks is a step of C01; then C01 and C60 |
| C87 | equations with index expressions; the values of an expression are those of C61's semantics of expressions; the points of the analysis are those of C75 (offsets, constants); a var with misc dims is one analyzed var for each combination of misc indices; one var of the kernel for each var of the source | the checks of C75 give each access exactly one element; elements of analyzed points and of the source correspond one to one; the history of C60 pulled back to the elements of the source; then C86 |
| C88 | expressions of accesses; the code of each part has, for each equation, the access that is set and an expression of the same value; the vars are made with the sizes printed by the compiler (C82, C83) and halos of the analysis (C46), where the slices of a var with misc dims count as one var | the halos of merged vars are at least those of each slice; misc indices are in the range of C82; then C87 |
| C89 | the state that an output keeps: step dim, inner-loop dim, step direction, dependences of logical vars and equations, halos; an output as a function of it, composed of the models of C73 and C74 (dims, fold, layout), C75 (checks), C44, C45 and C54 (dependences, parts, stages) and C46 (halos) that start with what is kept | invariant over sequences of outputs: what is kept is what the analysis finds again; declaring a known dependence only resets a flag, computing the closure again and sorting again change nothing |
| C90 | the model of the setting calls and of `resize` of C16 and C21, with all calls of a sequence made, also after one that has thrown | invariant over sequences of calls: the settings are the last values, and the sizes are those that follow from the settings unless one is negative |
| C91 | the lists of registered functions, the loops over them, and the calls of these loops in prepare_solution(), run_solution() and run_auto_tuner_now() as an inductive relation; functions make any sequence of API calls and may throw | induction on executions: lists only grow; events of nested calls are deeper, so the events of the call itself are those of its own loops |
| C92 | the four phases of exchange_halos() with requests, statuses, buffers and tags, the progress tests of adv_halo_exchange(), and MPI as concurrent steps that take data from send buffers and write them to receive buffers | inductive invariant relating the number of a message in its tag to the exchange; deadlock freedom from the rank that is least advanced; counting of steps |
| C93 | IntTupleOption::check_arg() on strings, with strtol, set_fold_len(), clear_folding(), is_folding_set() and add_dim_back() | induction over the history of requests and the strings of an option; round trip of splitting and joining at commas |
| C94 | FindIndicesVisitor, SetLoopVisitor and the loads of CppPreLoopPrintDataVisitor, for index expressions with points nested in them | structural induction on expressions and nesting: values depend only on the indices mentioned; induction over the args |
| C95 | set_elems_same(), set_elems_in_seq() with the parallel loop and any order of its writes, init_values() | exact cover of the loop (C36); induction over the writes in any order; addresses of readable indices are in the storage (C13) |
| C96 | new_var_point(), new_relative_var_point() on the model of the constructor of VarPoint (C75) | induction over the dims; values of offsets and constants from C51 |
| C97 | the macros GET_VAR_API, GET_VAR_API2, check_dim_type(), get_dim_posn() and the masks of the constructor | bits of the masks by induction over the names; loop invariant for the result of the _vec functions; relations from the invariant of C13 |
| C98 | do_halo_exchange in run_auto_tuner_now(), run_solution() with registered functions, and the option | big-step executions with events, nesting and exceptions; induction over executions |
| C99 | the constructor of yc_solution_base with its static map, the empty destructor, the search by yask_compiler | invariant over histories of creating and deleting objects |
| C100 | MySettings::parse and main of the stencil compiler, with the options of the library | command lines as lists of options (C43), parsed three times; idempotence of parsing |
| C101 | get_prefetch_dist, set_prefetch_dist, the two options, the loop over cache levels of print_prefetches | induction over histories of calls |

## Status and theorems per property

| id | property | status | theorems | remarks |
|----|----------|--------|----------|---------|
| C01 | Optimized schedule computes the same values as the reference schedule | partial | `C01_ranks_given_regions_partial`, `C01_ranks_executions_exist`, `C01_ranks_partial`, `C01_order_independence`, `C01_run_equals_reference_partial`, `C01_deterministic_partial`, `C01_tuning_irrelevant_partial`, `C01_executions_exist`, `C01_short_remainder_differs` | Order independence for every stencil is proved in full. run_solution = run_ref is proved for every legal setting and every interleaving on one rank (C01_partial) and on any number of ranks with halo exchange, wave-front extensions and overlap of computation and communication (C01_ranks_partial, from the placement of ranks, pads and buffers that prepare_solution() makes). Excluded: temporal blocking with a short remainder block, where it is false (C01_short_remainder_differs), ranks that begin at an index that is not a multiple of the fold length, where the regions exchanged are wrong (C29_misaligned_wrong). On several ranks written vars have all domain dims; the compiler rejects others (C75_meaning_partial). |
| C02 | Wave-front (multi-step mega-block) tiling covers every point once per step and stage | proved | `C02_wavefront_coverage`, `C02_single_rank`, `C02_contains_rank` | Stated for whole traces of one wave-front: the evaluations are exactly the required ones, once each. |
| C03 | Wave-front tiling never reads a value that has not been computed yet | proved | `C03_wavefront_order`, `C03_wavefront_positions`, `C03_extension_suffices` | Includes that the wave-front extensions contain what later shifts read (C03_extension_suffices). |
| C04 | Temporal blocking covers every point once per step and stage | proved | `C04_temporal_coverage` | Including short remainder blocks. |
| C05 | Temporal blocking never reads a value that has not been computed yet | partial | `C05_temporal_order_partial`, `C05_short_remainder_race` | Proved when no dimension with a single mega-block ends in a remainder block shorter than 2*angle*shifts; without that the code is wrong: C05_short_remainder_race gives a legal configuration and an execution that violates the order. |
| C06 | Micro-blocks partition each block at every step and stage | proved | `C06_micro_partition` |  |
| C07 | Vectorized evaluation writes exactly the requested points | partial | `C07_conditional_part_partial`, `C07_nano_block_partial`, `C07_fold_64_wrong`, `C07_micro_block_partial` | Proved for nano-blocks and whole micro-blocks with any residues, folds of at most 63 points in total and at most 8 dimensions (limits of the mask building and of the combination functions). Finding: a fold of 64 points writes outside the block. |
| C08 | Interior/exterior split for MPI overlap evaluates every point once | proved | `C08_overlap_same_points` |  |
| C09 | run_solution evaluates every requested step exactly once, in order | partial | `C09_steps_exactly_once`, `C09_steps_in_order_partial` | Each requested step exactly once, no other step: proved in full. The order at each point is proved except for the short-remainder configurations of C05. |
| C10 | Conditional sub-domains are covered exactly by the bounding boxes found for them | proved | `C10_rectangles_exact`, `C10_num_points_exact`, `C10_overall_box_least`, `C10_unconditional` | Every condition, every overall box (at least one dimension), every positive number of scanning threads: the search terminates, rectangles cover exactly, number of points exact, overall box least. idx_t unbounded. |
| C11 | Thread binding gives each slab to exactly one thread | proved | `C11_thread_binding`, `C11_one_thread` | Proved for every slab width, thread count, alignment and position. |
| C12 | Generated scan loops visit every sub-range exactly once | proved | `C12_loops_cover`, `C12_indices_once`, `C12_piece_bounds`, `C12_increasing_order`, `C12_inverted_region_runs`, `C12_manual_threads`, `C12_manual_empty_undefined` | All modifiers (nested, flattened, tiled, serpentine, square_wave, manual), any number of dimensions and loops. Hypotheses: positive stride/alignment/tile size and begin <= end per dimension; C12_inverted_region_runs shows the flattened loops do run for doubly inverted regions, C12_manual_empty_undefined that manual loops divide by zero on empty inner dimensions. |
| C13 | Generated layouts are bijections onto the allocation | proved | `C13_layout_value`, `C13_unlayout_layout`, `C13_layout_unlayout`, `C13_unit_stride` |  |
| C14 | Different elements never share storage | proved | `C14_address_in_storage`, `C14_addresses_distinct`, `C14_elements_fill_storage` | Every reachable var geometry: any number and kinds of dimensions, folds, layouts, pads, offsets. |
| C15 | get_element returns what was last set | proved | `C15_get_returns_last_set`, `C15_set_reports`, `C15_without_storage`, `C15_add_reports` |  |
| C16 | Index validity check agrees with element access | partial | `C16_local_iff_in_range`, `C16_get_iff_local`, `C16_fails_after_throwing_call` | Proved for every var on which no setting call threw. A throwing set_alloc_size leaves the new size recorded, after which the claim is false (C16_fails_after_throwing_call). |
| C17 | The valid step range follows the last write | partial | `C17_window_size`, `C17_moves_least`, `C17_slice_moves_window`, `C17_history`, `C17_fails_for_set_element` | Proved for the writes of the solution (kernel steps), any history. set_element at a new step does not move the window, contrary to the documentation (C17_fails_for_set_element). |
| C18 | Slice set/get round trip | partial | `C18_set_then_get`, `C18_get_slice`, `C18_positions`, `C18_refused`, `C18_fails_for_more_steps_than_stored` | Proved for every slice, buffer, thread count and order of accesses, if the slice has at most as many steps as are stored (automatic unless step indices are wrapped); false beyond (C18_fails_for_more_steps_than_stored). |
| C19 | Vector-based slice copy equals element-wise copy between ranks | partial | `C19_vec_copy`, `C19_fails_after_set_first_misc_index` | Proved for every pair of vars of the same folding (any sizes, offsets, pads, layouts), every non-empty slice of whole vectors, every number of threads and order of copies. False after set_first_misc_index, which does not update the offset used by the vector copies (C19_fails_after_set_first_misc_index). |
| C20 | Reductions return the mathematical result over the slice | partial | `C20_sum_product`, `C20_min_partial`, `C20_max_partial`, `C20_max_wrong`, `C20_sum_squares_wrong`, `C20_min_wrong`, `C20_fails` | Exact arithmetic. Sum, product and element count proved in full; the minimum if the sum is requested too; the maximum if some value is at least DBL_MIN. The code is wrong otherwise: C20_max_wrong, C20_sum_squares_wrong, C20_min_wrong, C20_fails. Thread numbers below the number of threads are a hypothesis (a call from inside a parallel region can violate it). |
| C21 | Allocation always leaves room for halos, extensions and requested padding | partial | `C21_call_effect`, `C21_room_for_padding`, `C21_no_other_padding`, `C21_storage_kept`, `C21_fails_after_throwing_call` | Proved for every var on which no setting call threw. A throwing halo call leaves the halo larger than the padding (C21_fails_after_throwing_call). |
| C22 | Comparison of two vars counts exactly the differing domain points | proved | `C22_no_reference`, `C22_count_of_mismatches`, `C22_zero_iff_equal`, `C22_tolerance` | Reference of the same geometry, non-empty dimensions, no local offset in domain dimensions (as for every var of a solution that is not scratch). Messages not modelled; tolerance in exact arithmetic. |
| C23 | Halo exchange delivers current neighbour values before they are read | partial | `C23_clean_halo_is_current`, `C23_after_exchange`, `C23_fails_for_halo_write`, `C23_flag_exists` | Any number of ranks, slots and points, any history of API writes, runs and (overlapped) exchanges. Hypothesis: a call of a single rank writes only points that this rank owns; false otherwise (C23_fails_for_halo_write). That both sides use the same region is C29. |
| C24 | Shared-memory halo buffers are never overwritten before being read nor read twice | proved | `C24_messages_in_order`, `C24_no_deadlock`, `C24_finishes`, `C24_all_delivered` | Any number of ranks and channels, all interleavings of the atomic operations of the lock, any number of messages; sequentially consistent memory. |
| C25 | Host/device coherency never loses a modification | partial | `C25_reads_latest`, `C25_some_copy_current`, `C25_accepted_events`, `C25_lost_update_refused`, `C25_set_all_fails_with_assertions`, `C25_fails_after_reference_run` | Every sequence of API accesses, runs, packs and unpacks in a build without assertions and without run_ref. With assertions set_all_elements_same aborts (C25_set_all_fails_with_assertions); after run_ref the device data is stale (C25_fails_after_reference_run). |
| C26 | new_var rejects malformed dimension lists | partial | `C26_accepted`, `C26_rejected_partial`, `C26_history`, `C26_duplicate_accepted`, `C26_duplicate_wrong`, `C26_failed_call_leaves_dims` | All rejections but one, the accepted lists, and any history of calls. A dim named twice is accepted: C26_duplicate_accepted (for every such list), C26_duplicate_wrong. A failing call can add misc dims: C26_failed_call_leaves_dims. |
| C27 | Ranks tile the global domain | proved | `C27_tiles`, `C27_requests_kept`, `C27_automatic`, `C27_not_empty`, `C27_no_mpi` | setup_rank (MPI build) run by all ranks together plus the minimum-size check of update_var_info: whenever it succeeds, every overall point is in exactly one rank domain, ranks contain no other points, all agree on the overall size; requested sizes are kept; with only global sizes it succeeds with the documented split. |
| C28 | Neighbour relation between ranks is symmetric and unambiguous | partial | `C28_neighbor_iff_partial`, `C28_symmetric_partial`, `C28_unambiguous_partial`, `C28_second_prepare_wrong` | For the first prepare_solution(): table entries mean exactly 'indices differ by this offset', symmetric, one place per offset. False for a second prepare_solution() with another arrangement (C28_second_prepare_wrong): the tables keep stale neighbours. |
| C29 | Send and receive halo regions match | partial | `C29_match`, `C29_allocated`, `C29_received_outside`, `C29_sent_partial`, `C29_covered`, `C29_disjoint_partial`, `C29_vectors_partial`, `C29_aligned`, `C29_misaligned_wrong` | Proved for all settings accepted by prepare_solution(): matching regions and copy modes on both sides, everything inside the allocation, nothing received into the own domain, the whole halo covered. That only own points are sent, that regions do not overlap and that vector copies use whole vectors is proved if every rank begins at a multiple of the fold length, which holds if all ranks but the last in a dim have such sizes (C29_aligned; always with automatic sizes). Otherwise false: C29_misaligned_wrong. |
| C30 | Vars and buffers get disjoint storage | partial | `C30_vars_partial`, `C30_fused_vars_overflow`, `C30_scratch_partial`, `C30_scratch_sizes`, `C30_scratch_overlap`, `C30_buffers`, `C30_shared_buffer` | Proved for all lists of vars (bundled allocation, or no fused vars), for all scratch vars whose slot's first var is the largest (always so without wave-fronts, C30_scratch_sizes) and for all lists of MPI buffers, including shared-memory buffers. Two disagreements with the code: after fuse_vars without bundled allocation, a var can be given memory allocated for another (C30_fused_vars_overflow); with wave-fronts or temporal blocks, scratch vars sharing a slot but with different halos overlap the next thread's scratch memory (C30_scratch_overlap). |
| C31 | Block-size settings are normalized to a consistent nest | proved | `C31_nest`, `C31_fits`, `C31_steps`, `C31_legal`, `C31_stable`, `C31_second_prepare_wrong` | For every requested size: positive, nested, least whole number of vectors or the enclosing size; step counts; stable under a second adjustment; gives the legality condition used by C01-C08. C31_second_prepare_wrong: sizes limited by a small rank domain stay limited after the domain is enlarged and prepared again. CPU build, idx_t unbounded. |
| C32 | Requested thread counts are never exceeded | proved | `C32_threads`, `C32_requests_kept`, `C32_binding_dim` | For all integer settings; requests that fit are used as given. |
| C33 | Automatic rank factorization is a valid rank grid | partial | `C33_keeps_request`, `C33_valid_grid_partial`, `C33_one_rank_empty` | Proved for more than one rank: user-given factors are kept and the result multiplies to the number of ranks. With one rank the function returns an empty tuple (C33_one_rank_empty). |
| C34 | Floor division and modulus laws | proved | `C34_idiv_flr`, `C34_div_mod`, `C34_round_down`, `C34_round_up`, `C34_macros_nonneg`, `C34_macro_round_down_negative` | Floor division, rounding and modulo for all integers; the macros ROUND_UP/ROUND_DOWN/CEIL_DIV are proved for nonnegative operands (their documented domain) and the behaviour on negatives is shown by C34_macro_round_down_negative. |
| C35 | Work is divided evenly and completely | proved | `C35_parts_cover`, `C35_parts_even`, `C35_all_sizes` |  |
| C36 | Parallel-for covers its range exactly once | partial | `C36_parallel_for_partial`, `C36_parallel_for_chunks`, `C36_parallel_for_nested_begin_ignored` | Holds for begin=0 or without nested parallelism (every call in the code base has begin=0). In the nested branch the code ignores begin: C36_parallel_for_nested_begin_ignored proves the violation. |
| C37 | Tuple layout is a bijection | proved | `C37_layout_value`, `C37_unlayout_layout`, `C37_layout_unlayout`, `C37_layout_injective`, `C37_layout_nonstrict` |  |
| C38 | Visiting all points of a tuple visits each once, in layout order | partial | `C38_visit_indices`, `C38_visit_indices_empty`, `C38_visit_tuple_partial`, `C38_visit_tuple_empty_space_visited`, `C38_points_complete`, `C38_points_in_layout_order`, `C38_visit_parallel` | Indices version (used by the kernel) proved in full, sequential and parallel. Tuple version proved for nonempty spaces; it calls the visitor once on an empty space (C38_visit_tuple_empty_space_visited). |
| C39 | Tuple comparison is a strict total order consistent with equality | proved | `C39_eq_iff`, `C39_lt_iff`, `C39_strict_total_order`, `C39_derived` |  |
| C40 | Finite-difference coefficients are exact on polynomials | partial | `C40_arbitrary_exact_partial`, `C40_center_exact_partial`, `C40_forward_exact_partial`, `C40_backward_exact_partial`, `C40_too_few_points_undefined`, `C40_bad_arguments_throw` | Exactness over every field, for distinct points and more points than the derivative order (all four APIs). With fewer points the code reads outside its work array: C40_too_few_points_undefined. Floating-point rounding is not modelled. |
| C41 | Dimension-combination enumeration is complete | partial | `C41_choose`, `C41_set_members`, `C41_set_bijection`, `C41_set_array_overflow`, `C41_choose_overflow` | choose(n,k) proved for n <= 29 (int overflow beyond: C41_choose_overflow), subset enumeration for k <= 8 (a fixed-size array is overrun beyond: C41_set_array_overflow). YASK calls it with n = number of domain dimensions. |
| C42 | Ordered-set container keeps insertion order and uniqueness | partial | `C42_ordered_set_partial`, `C42_first_erase_correct_partial`, `C42_second_erase_wrong`, `C42_add_remove_two_undefined` | Proved for every operation sequence in which erased items are the last or absent, and for the first erase of any item. The position map is not repaired after an erase: C42_second_erase_wrong, C42_add_remove_two_undefined. |
| C43 | Command-line strings are split into the arguments the user wrote | partial | `C43_split_iff`, `C43_unbalanced_rejected`, `C43_requote_roundtrip_partial`, `C43_requote_apostrophe`, `C43_requote_double_quotes`, `C43_requote_empty_lost`, `C43_options_applied`, `C43_bad_value_throws` | Splitting is proved equivalent to a grammar, option handling is proved for every well-formed command line. Re-quoting unused arguments is proved for arguments without quotes; quote_whitespace picks the wrong kind of quotes otherwise (C43_requote_apostrophe, C43_requote_double_quotes). |
| C44 | Dependency analysis finds all and only the transitive dependencies | proved | `C44_closure`, `C44_rejects_exactly_cycles`, `C44_total`, `C44_equations` | Any history of add/record/clear/close operations, and the analysis of the equations of a solution (clashes, reads, user dependences); iteration order of the sets arbitrary. |
| C45 | Equations, parts and stages are evaluated in dependency order | partial | `C45_topo_sort`, `C45_topo_sort_circular`, `C45_stages`, `C45_total`, `C45_accepts_partial`, `C45_valid_equations_rejected`, `C45_user_dependences_rejected` | Ordering: proved for topo_sort and for the whole division of the equations into parts and stages, for every accepted solution and every iteration order. Acceptance of every acyclic solution: proved up to the parts without user dependences; the grouping into stages and user dependences can reject acyclic solutions (C45_valid_equations_rejected, C45_user_dependences_rejected). |
| C46 | Halo sizes cover every access, also through scratch vars | proved | `C46_needed`, `C46_compiled` | Every set of stages as established by C44 and C45 (Staged), any offsets and chains of scratch vars; for legal equations with scratch vars, from the output of the compiler model alone (C46_compiled). Vars in conditions are not modelled (domain conditions use indices only). |
| C47 | The step allocation is sufficient | partial | `C47_alloc_partial`, `C47_stages_wrong`, `C47_writeback_wrong`, `C47_explicit_wrong` | Both directions, any number of stages, any offsets, if each stage that reads the var also accesses the written offset (and only the writing equation reads the oldest step), or precedes all writers and also accesses offset 0. False otherwise (C47_stages_wrong, C47_writeback_wrong); explicit allocations are ignored (C47_explicit_wrong). |
| C48 | Scratch vars sharing memory are never live at the same time | partial | `C48_slots_partial`, `C48_values_partial`, `C48_one_part_partial`, `C48_reuse_wrong` | Slot assignment never throws and never gives one slot to vars whose stage ranges overlap (any sizes, any order of vars); a sequence of parts in stage order reads exactly the values of the named vars for every value type, function and initial memory. False for micro-blocks with several non-scratch parts in a stage: C48_reuse_wrong shows T3 overwriting T1's shared memory before T5 reads T1. Missing: that case. |
| C49 | Illegal time dependencies are rejected | partial | `C49_forward_partial`, `C49_rejects_partial`, `C49_direction_partial`, `C49_accepts`, `C49_reverse_wrong`, `C49_scratch_wrong` | Forward stepping, non-scratch equations: proved, and legal solutions are accepted in both directions. False for reverse stepping (C49_reverse_wrong) and for the reads of scratch equations (C49_scratch_wrong). |
| C50 | Expression optimizations preserve the value | partial | `C50_combine`, `C50_new_add_node`, `C50_new_multiply_node`, `C50_reorder`, `C50_same_partial`, `C50_cse_partial`, `C50_same_wrong`, `C50_cse_wrong`, `C50_cse_cycle` | Flattening, merging by the node factory and reordering: proved for every expression over any commutative ring and any interpretation. Equality test and CSE: proved for equations without negation or without subtraction; with both the property is false (C50_same_wrong, C50_cse_wrong, C50_cse_cycle). Exact arithmetic, i.e. no floating-point rounding. |
| C51 | Recognised index offsets are correct | proved | `C51_offset`, `C51_const`, `C51_normal_form` | For every index expression and every value of the indices; int overflow and out-of-range conversion are the outcome undefined. |
| C52 | Unaligned vector reads are assembled from the right elements | proved | `C52_elements`, `C52_assembled`, `C52_blocks`, `C52_align_avx` | Every fold, offset, printer (plain C++, AVX/AVX2, AVX-512), list of available blocks and set of control variables already defined; also that only blocks read before are used, and that the AVX and AVX2 forms of real_vec_align equal the generic one. That the intrinsics behave as documented is assumed. |
| C53 | Non-strict slice operations affect exactly the part of the slice in range | partial | `C53_nonstrict_reduces_part_in_range_partial`, `C53_nonstrict_sets_part_in_range_partial`, `C53_fails_outside`, `C53_fails_for_new_steps` | Proved if at least one element of the slice is in range and its steps are valid, for setting and for reductions. Otherwise an element outside the slice is set (C53_fails_outside) or the valid steps move without being written (C53_fails_for_new_steps). |
| C54 | Disabling the dependency checker leaves only the user's dependencies | partial | `C54_only_user_dependences_partial`, `C54_disabled_checker_rejects` | The dependences used are exactly those of the user. But the analysis of the vars is not switched off: C54_disabled_checker_rejects. |
| C55 | Scratch computations stay within the halos | partial | `C55_scratch_parts_partial`, `C55_two_parts_wrong` | Proved if no scratch var is updated in two parts (i.e. under two conditions); false otherwise (C55_two_parts_wrong). |
| C56 | Halos are exchanged with every rank that owns needed data | partial | `C56_direct_partial`, `C56_scratch_partial`, `C56_wavefront_partial`, `C56_corner_wrong` | Proved for direct reads, and for reads through scratch vars if the rank is on one side in all dims or one read on the way has offsets in all those dims; and for all reads with wave-fronts. Otherwise false (C56_corner_wrong). |
| C57 | Explicit rank locations are used | partial | `C57_unique_partial`, `C57_explicit_ignored`, `C57_explicit_wrong` | Automatic placement is a bijection between ranks and grid locations. Explicit indices are never used: C57_explicit_ignored (for all inputs) and C57_explicit_wrong (concrete). |
| C58 | Requested numbers of ranks are kept or rejected | partial | `C58_kept_partial`, `C58_ignored_wrong`, `C58_one_rank_undefined` | A request that can be completed to a grid is kept. A request that cannot is silently replaced (C58_ignored_wrong), or, with one rank, leads to a null-pointer read (C58_one_rank_undefined). |
| C59 | The auto-tuner ends and keeps the fastest sizes it tried | partial | `C59_ends`, `C59_sizes_legal`, `C59_step`, `C59_done_stays`, `C59_mega_stale_angles` | Termination with an explicit bound, legality of all sizes tried, and that the fastest trial wins, for every sequence of positive measurements; rates are rationals instead of double. The sizes are legal, but with mega-blocks as target the run with them is not: C59_mega_stale_angles. |
| C60 | A run computes the values that the stencil equations define | partial | `C60_scratch_ranks_partial`, `C60_scratch_values_exist`, `C60_scratch_reference`, `C60_scratch_arranged_partial`, `C60_scratch_stages`, `C60_scratch_slots`, `C60_scratch_run_partial`, `C60_values_exist`, `C60_stages`, `C60_slots`, `C60_reference`, `C60_run_partial`, `C60_ranks_partial` | Proved end to end for solutions without misc dims, with domain conditions on indices and step conditions on the step index: dependency analysis, parts, stages (C44, C45), halos and exchange distance (C46, C56), step slots (C47) and the run (C01); with or without scratch vars on any number of ranks; with scratch vars (C60_scratch_...) from the compiler's parts, stages, required scratch parts and write halos through the evaluation of scratch parts in micro-blocks (C69). That values satisfying the equations exist for every initial memory is proved, too (C60_values_exist, C60_scratch_values_exist). Taken as given: that at most one equation of a var applies at a point (the compiler checks only clashing conditions), that some equation applies where a scratch value is used (C69_undefined_element_wrong), that scratch vars and what their equations read have all domain dims, that ranks from which values are read through scratch vars are among those that are exchanged with (always so if values lie on one side in all dims; not in general, C56_corner_wrong), that no value is overwritten before it is read (C47 says when, and that it is not always so), and what C01 excludes. |
| C61 | Generated code computes the equations | partial | `C61_partial`, `C61_wrong` | Proved for all sets of equations that set different points and read none of them, all sharing of nodes, all size limits, and arbitrary real arithmetic, down to the tokens of the C++ text. The property is false for negated negations and negative constants (printed as --), for operators on integer constants (computed in int arithmetic: 1/2 = 0, overflow) and for % of real values (C61_wrong). Loads of points are one statement here. |
| C62 | Constants keep their values in generated code | partial | `C62_int_partial`, `C62_real_partial`, `C62_inexact`, `C62_large` | Integers in the range of int are exact, other constants in that range have a relative error of at most 1/(2*10^15). Not exact in general: C62_inexact; undefined for constants outside the range of int: C62_large. |
| C63 | The generated inner loop accesses the elements that the equations name | proved | `C63_read`, `C63_age`, `C63_write` | For folded vars with the inner-loop dim, simple offsets in domain dims and constants in misc dims, at any pointer, offset and buffer settings. Scalar and partially folded reads, prefetches and the text of the expressions are not part of it (see C61 for the text of equations). |
| C64 | Unaligned loads do not change the results | partial | `C64_consecutive_partial`, `C64_wrong` | False: the option makes the compiler stop at an assertion, or, if it was built without assertions, generate addresses from vector numbers instead of element indices (C64_wrong). Proved: what the option relies on, i.e. that elements along the only folded dim are consecutive in memory if this dim is last in the layout. |
| C65 | A run accesses only allocated elements | partial | `C65_vectors`, `C65_prepared`, `C65_in_storage`, `C65_part_in_storage`, `C65_equation_in_storage`, `C65_scratch_equation_in_storage_partial` | Proved for the vars of the solution that are not scratch vars: the vectors on which the code of a part runs, the allocation that prepare_solution() makes for them, and the accesses of equations and of scratch equations (if each scratch var is updated in one part) at halos computed by the compiler. Taken as given: indices in misc dims are in range. Missing: the storage of scratch vars, see C68; vars added with fuse_vars(), see C67. |
| C66 | Identical storage layout means same offsets | partial | `C66_layout_iff`, `C66_same_offset_partial`, `C66_same_index_partial`, `C66_wrong` | The documented conditions are exactly what is tested, and then elements equally far from the first indices are at the same offset. The claim for equal indices is false if first indices differ (C66_wrong: first misc index; also rank offsets of fixed-size vars), which is not tested. |
| C67 | Fused vars are one var | partial | `C67_same_var`, `C67_data`, `C67_rejects_partial`, `C67_incompatible_accepted`, `C67_incompatible_wrong`, `C67_halo_lost`, `C67_fixed_size_wrong`, `C67_before_prepare`, `C67_after_prepare_undefined` | For every sequence of API calls the two references are interchangeable, and other vars are untouched. The rejection of different dims or folds is done for vars made by new_var() only, not for those of the solution: C67_incompatible_accepted. Fusing a var of the solution with one made by new_var() loses its halos and its share in the wave-front angle: C67_halo_lost; too small fixed-size vars are accepted: C67_fixed_size_wrong; fusing after prepare_solution() leaves the kernels with freed core data: C67_after_prepare_undefined. |
| C68 | Scratch vars have storage for everything that is evaluated in them | partial | `C68_micro_block_width`, `C68_moves`, `C68_written`, `C68_touched`, `C68_writes_partial`, `C68_scratch_reads_partial`, `C68_reads_partial`, `C68_long_shift_wrong`, `C68_misaligned_wrong` | The size of micro-blocks is bounded by the setting and the temporal-block extension if the total shift in a block is not more than the domain size; then all written elements are in the storage, for every trace of a run. Unused lanes are in the storage if there are no temporal blocks and areas begin on vectors. Both conditions are needed: C68_long_shift_wrong (written elements outside of the storage), C68_misaligned_wrong (unused lanes are read outside of the storage). Taken as given: each scratch var is updated in one part (see C55), misc and step indices are in range. |
| C69 | Scratch vars stand for their equations | partial | `C69_ranks_substitution_partial`, `C69_ranks_equal_reference_partial`, `C69_ranks_executions_exist`, `C69_substitution_partial`, `C69_reference`, `C69_run_equals_reference_partial`, `C69_executions_exist`, `C69_undefined_element_wrong` | Proved for every trace of a run on one rank or on any number of ranks, also with wave-fronts and temporal blocks, and for run_ref, under the conditions that each needed scratch element is defined by exactly one required scratch part within its write halos, and that scratch parts are listed after those whose scratch vars they read; C60_scratch_run_partial and C60_scratch_ranks_partial derive these conditions from the compiler model for legal equations. Elements that no equation defines: C69_undefined_element_wrong (run_ref reads zero there, run_solution what happens to be in the storage). Missing: what C01 misses; the storage of scratch vars (C68). |
| C70 | Statistics report what was run | partial | `C70_steps`, `C70_elements`, `C70_work_partial`, `C70_work_at_most_partial`, `C70_step_conditions_counted`, `C70_extensions_counted` | Steps and elements for every history of calls. Elements written and floating-point operations equal what every execution did, evaluation by evaluation, if there are no scratch vars, no step conditions and no wave-front extensions; with step conditions and extensions they are an upper bound. The equality is false with step conditions (C70_step_conditions_counted) and with wave-fronts on several ranks (C70_extensions_counted). Scratch vars are counted without halos and repetitions (TODO in the code), not covered. Elapsed times and rates are not modelled. |
| C71 | Only prepared solutions are run | partial | `C71_ready_runs`, `C71_never_prepared`, `C71_sizes_changed`, `C71_tracked_partial`, `C71_after_end_undefined`, `C71_failed_prepare_wrong`, `C71_failed_alloc_undefined`, `C71_options_wrong` | Proved for every history that a ready solution runs on what was prepared, that a run throws if the solution was never prepared and after every change of sizes; and readiness is tracked exactly if end_solution() and apply_command_line_options() are not used after preparing and no call of prepare_solution() throws. False otherwise: C71_after_end_undefined, C71_failed_prepare_wrong, C71_failed_alloc_undefined, C71_options_wrong. |
| C72 | Solutions can be prepared again | partial | `C72_unchanged`, `C72_resized`, `C72_overall_size_only`, `C72_no_mpi` | Proved: preparing again without changes changes nothing; with both kinds of sizes specified anew (zero for unspecified) the outcome is that of a new solution. False if only the overall size is set anew: the next call always throws, because the rank size computed by the first call is kept as if it was specified (C72_overall_size_only, C72_no_mpi). Changing the numbers of ranks: C28_second_prepare_wrong. Block sizes: C31. |
| C73 | Vector folds cover the SIMD length and keep requests | partial | `C73_covers`, `C73_accepted_partial`, `C73_inner_loop_wrong`, `C73_exact_request`, `C73_requests_kept_partial`, `C73_completable_wrong` | Proved: accepted settings always give a vector with the SIMD length; exact requests are used; with efficient folding nothing is rejected and requests that can be completed outside the inner-loop dim are kept. False: without efficient folding, an inner loop in the last but one dim is always rejected as an internal fault unless the request is exact (C73_inner_loop_wrong); a request that can be completed only in the inner-loop dim is discarded (C73_completable_wrong). |
| C74 | Dims of a solution and their order in memory | partial | `C74_accepted`, `C74_dims`, `C74_layout`, `C74_memory_domain_order`, `C74_kinds_wrong` | Proved: the exact condition of acceptance, the dims and their order, and the order in memory, for names that are not used for two kinds of dims. False: a name used for a domain dim of one var and a misc dim of another is accepted (C74_kinds_wrong). |
| C75 | Accepted equations have the required form and keep their meaning | partial | `C75_meaning_partial`, `C75_accepts`, `C75_repeated_dim_wrong` | Proved for all vars whose dims have different names, by the value of the index expressions in every interpretation. False for a var that names a dim twice, which nothing in the compiler rejects: v(x+1, x+2) becomes v(x+2, x+2) (C75_repeated_dim_wrong). That domain conditions use only domain indices and step conditions no domain indices is not checked by the code and not claimed. |
| C76 | Command-line options give settings the values written | partial | `C76_number_iff`, `C76_applied`, `C76_shortcut`, `C76_bad_number_partial`, `C76_failed_call_wrong`, `C76_failed_list_wrong`, `C76_int_wraps_wrong`, `C76_clash_wrong` | Proved for every well-formed line and all names of dims except three that clash with other options (C76_clash_wrong). False for calls that throw: the settings in use are changed, the requested ones are not (C76_failed_call_wrong, C76_bad_number_partial), and a list is cleared (C76_failed_list_wrong). False for options of type int with large values, which are reduced modulo 2^32 (C76_int_wraps_wrong). The value of strtod is a parameter. |
| C77 | Vars have storage for every misc index in the equations | partial | `C77_misc_in_storage_partial`, `C77_condition_in_storage_partial`, `C77_tight`, `C77_no_misc_offset`, `C77_reachable`, `C77_constructs`, `C77_shrunk_wrong`, `C77_range_overflow_wrong` | Proved if sizes of misc dims are not made smaller than at construction, and for constant indices in conditions. False otherwise: set_alloc_size() accepts smaller sizes (C77_shrunk_wrong). The number of indices may overflow in the compiler (C77_range_overflow_wrong). Indices in conditions that are not constants are not covered. Calls that throw are left out (see C21). |
| C78 | Exchanged data belong to the same step | partial | `C78_valid_steps`, `C78_steps_agree`, `C78_after_exchange_partial`, `C78_by_position`, `C78_right_iff`, `C78_run_aligns`, `C78_after_tuning_wrong`, `C78_after_slice_wrong` | Proved as long as no rank moves the valid steps of a var alone: then the exchange by steps of the code is the exchange by slots of C23. C78_by_position says exactly what is exchanged otherwise, C78_right_iff when this is right. False after run_auto_tuner_now(), which runs a different number of steps in each rank, if the data are then set with set_all_elements_same() (C78_after_tuning_wrong), and after a slice of a new step is set in one rank only (C78_after_slice_wrong). |
| C79 | The utility yask_kernel ends on all ranks and reports the truth | partial | `C79_ends_partial`, `C79_no_deadlock_partial`, `C79_disagree`, `C79_trials`, `C79_validates`, `C79_validates_time`, `C79_warmup_wrong`, `C79_many_steps_wrong`, `C79_best`, `C79_mid`, `C79_mid_odd_partial`, `C79_mid_even_wrong`, `C79_variance`, `C79_two_trials_wrong`, `C79_max`, `C79_min_partial`, `C79_min_zero_wrong` | Proved for all schedules and times if the ranks have the same -warmup, -auto_tune, block size in the step dim, and sign of -trial_time, which are not checked. False otherwise (C79_warmup_wrong: deadlock). The number of steps is kept in an int (C79_many_steps_wrong). The trial said to be the 50th percentile by the nearest-rank method is the next one for even numbers of trials (C79_mid_even_wrong), the standard deviation of two trials is printed as 0 (C79_two_trials_wrong), and a throughput of 0 is lost (C79_min_zero_wrong). What runs do to data is a parameter. |
| C80 | The generated vector inner loop evaluates the equations in every lane | partial | `C80_lanes_partial`, `C80_overwritten_wrong` | Proved for all folds, printers, options, masks, vars and iteration counts if no equation reads an element that has been set before it is read (in-place updates are allowed); without that it is false (C80_overwritten_wrong). Vars that are not folded are read element by element (example in Props/InnerLoopElem.lean). Missing: points with other args than offsets in domain dims, equations that set vars that are not folded (refused by the compiler), early loads, unaligned loads, and the restrictions of C61. |
| C81 | Blocks of any size and shape are evaluated by the vector code as by a point-by-point evaluation | partial | `C81_nano_block_partial`, `C81_micro_block_partial`, `C81_other_point_wrong` | Composition of C07 and C80: proved for all bounds, folds, paths and orders of the runs if different equations and points of the block set different elements and no element that is set is read at another point or by a later equation (in-place updates are allowed); without that it is false (C81_other_point_wrong). Missing: what is missing in C80; the runs of the inner loop are taken as atomic, so threads within a run are not interleaved. |
| C82 | Expressions built with the API have the value that their operators say | partial | `C82_defined`, `C82_step_partial`, `C82_program_partial`, `C82_vars`, `C82_sub`, `C82_div`, `C82_mod`, `C82_neg`, `C82_equation`, `C82_add`, `C82_mul`, `C82_func`, `C82_clone`, `C82_set_value`, `C82_add_operand`, `C82_others`, `C82_const_idx`, `C82_operand_partial`, `C82_well_formed_partial`, `C82_rhs`, `C82_shared_wrong`, `C82_operand_wrong` | Refinement for all call sequences: each building call agrees with a specification in terms of values in every reachable state (values, failures and undefined outcomes), differences, quotients, moduli, negations and equations follow later changes of their operands, sums, products, functions and copies do not, set_value and add_operand have the stated effects, and the equations meet the hypotheses of C50 unless add_operand is used. False in part: integer operands above 2^53 are rounded silently (C82_operand_wrong), and the same constant changed later counts in a difference but not in a sum (C82_shared_wrong). Missing: calls that return parts of nodes, index expressions inside var points, clone_ast of conditions and equations. |
| C83 | A run of the generated code leaves what the equations say | partial | `C83_refines_partial`, `C83_run_partial`, `C83_threads_partial`, `C83_settings_partial`, `C83_slots` | Composition of C01, C10, C80 and C81 down to the storage of the vars: on any rank each schedule of the generated inner loops is defined and has the effect of a trace of C01 evaluated with read_elem and write_elem (C83_refines_partial), all schedules of a rank leave the same storage (C83_threads_partial), on one rank it is that of the reference (C83_run_partial), and settings do not matter (C83_settings_partial). Each var uses the slot of the step that it has itself (C83_slots). False in part: with temporal tiles and a short remainder (C05_short_remainder_race), and if what is set at a point is read at another in the same stage (C81_other_point_wrong). Missing: scratch vars, interleaving within a run of the inner loop, halo exchanges between the ranks, and the limits of C80. |
| C84 | The generated code computes the values the equations define, in the storage of the vars | partial | `C84_values_exist`, `C84_independent`, `C84_history_partial`, `C84_compiled_partial` | Joins C60 (the equations and their history) with C83 (the storage): on one rank, with the stages of the compiler and enough slots, every schedule of the generated code takes a storage that holds the stored steps of a history to one that holds those at the end of the run (C84_history_partial, C84_compiled_partial), the equations of legal solutions meet what C83 asks (C84_independent), and every storage is the start of a history (C84_values_exist). Vars with misc dims are covered, as one var per combination of misc indices. Missing: scratch vars, several ranks, and the limits of C80 and C83. |
| C85 | Sub-domain and step conditions in the generated code select exactly the points and steps they name | partial | `C85_partial`, `C85_step_partial`, `C85_none`, `C85_interval`, `C85_period`, `C85_output`, `C85_wrong` | Proved for all conditions of any depth that have none of the cases excluded by Cd.Plain at the point (C85_partial, C85_step_partial), and without such a hypothesis for intervals relative to the first and last index (C85_interval), periodic steps (C85_period), output steps (C85_output) and equations without conditions (C85_none). The property is false in general (C85_wrong): remainders of negative numbers, quotients of integers, two adjacent minus signs, digits of constants of sub-domain conditions, constants that are not in the range of int. Missing: functions of numbers in conditions, and a right operand of && or \|\| that is only plain where the left operand does not decide. |
| C86 | On several ranks, the generated code leaves in the storage of the vars the values that the stencil equations define | partial | `C86_in_storage`, `C86_ranks_partial`, `C86_executions_exist` | Proved for any number of ranks, tile sizes and orders of the inner loops in the threads (C86_ranks_partial), there are executions (C86_executions_exist), and all elements that are accessed exist (C86_in_storage; the misc indices are assumed to be in the storage, see C77). Missing: scratch vars, what C80 and C83 miss in the generated code, and what C01 misses: ranks that do not begin at multiples of the vector lengths, and temporal blocks that are too short. |
| C87 | Running the generated code gives the values that the equations written in the source define | partial | `C87_elements`, `C87_legal`, `C87_values`, `C87_values_exist`, `C87_ranks_partial`, `C87_late_read_accepted` | Proved from the index expressions of the source (each access is to one element, C87_elements; accepted equations are legal for the analysis, C87_legal; the values of the source are those of the analyzed equations, C87_values, and exist, C87_values_exist) to the elements in storage on every rank (C87_ranks_partial). Missing: scratch vars and what C86 misses. For solutions that step backward, equations that read a step not yet computed are accepted by the compiler (C87_late_read_accepted) and are excluded by a hypothesis. |
| C88 | The vars and the code that the compiler generates for the expressions of the source compute their values | partial | `C88_made`, `C88_ranks_partial`, `C88_values_exist` | Proved: what C87 assumes of the code and the vars of the kernel follows from how they are made (C88_made), so the run gives the values of the source expressions (C88_ranks_partial), and such values exist (C88_values_exist). Missing: scratch vars and what C86 misses. That enough step slots are stored is a hypothesis: the compiler's number is not always enough (C47, C60_slots). |
| C89 | output_solution() gives the same result however often it has been called before | partial | `C89_first`, `C89_again_partial`, `C89_halos_partial`, `C89_bundle_false`, `C89_inner_false`, `C89_dir_false`, `C89_deps_false`, `C89_halos_false` | Proved: after any number of successful outputs for any targets, the next output gives, for its target, what the user's input alone defines (C89_again_partial; C89_first for the first output), if scratch vars may be bundled; without scratch vars, the halos, distances and written steps are those of the first output (C89_halos_partial). Missing: outputs after one that has failed. False in general: with -no-bundle-scratch the stages may change (C89_bundle_false), halos may grow if a scratch var is written in two parts (C89_halos_false); if the solution is changed between outputs, the inner-loop dim (C89_inner_false), step direction (C89_dir_false) and dependences (C89_deps_false) of the earlier output stay. |
| C90 | The sizes of a var depend on the last values that were set, not on the history of the calls | partial | `C90_last`, `C90_sizes_partial`, `C90_meta_partial`, `C90_throws`, `C90_refused_stays`, `C90_storage_false` | Proved for vars without storage, any sequences, also with calls that throw: settings have their last values (C90_last), sizes, padding and all other meta-data except offsets are determined by them (C90_sizes_partial, C90_meta_partial), and a call throws exactly if the setting does not exist or a halo or padding is then negative (C90_throws). False: a refused negative value stays and makes later legal calls fail (C90_refused_stays); with storage, padding never shrinks, so a size that was reduced cannot be set again (C90_storage_false). |
| C91 | Registered functions are called once each, in the order registered, at the documented places | partial | `C91_registered`, `C91_kept`, `C91_answered`, `C91_prepare`, `C91_run`, `C91_prepare_part`, `C91_run_part`, `C91_defined_partial`, `C91_register_undefined`, `C91_tuner_calls`, `C91_refused_run_calls` | Proved for all behaviours of the functions, nested to any depth: order of registration (C91_registered, C91_kept), what prepare_solution() and run_solution() do when they return (C91_prepare, C91_run) or fail (C91_prepare_part, C91_run_part); defined if no function registers functions (C91_defined_partial). False: a function that registers another one for the same place makes the call undefined (C91_register_undefined); the auto-tuner calls the functions with steps that were passed to no run_solution() call of the user (C91_tuner_calls); a run refused because the solution is not prepared has already called the functions (C91_refused_run_calls). |
| C92 | Halo exchange by messages delivers to each rank what its neighbours packed in the same exchange | proved | `C92_received`, `C92_no_deadlock`, `C92_finishes`, `C92_all_received`, `C92_as_together`, `C92_same_result` | Safety (C92_received), absence of deadlock (C92_no_deadlock), a bound on the steps (C92_finishes) and complete delivery at the end (C92_all_received), for all interleavings of ranks, MPI and progress tests; with data that each rank computes from what it has received, the result is that of ranks that go through the exchanges together (C92_as_together, C92_same_result). MPI is modelled by its standard: messages with the same source, destination and tag do not overtake each other. Premises: the ranks exchange the same vars (C23, C78) and both ends have buffers of the same size (C29). |
| C93 | The fold lengths requested are the last ones written | partial | `C93_last`, `C93_is_set`, `C93_accepted`, `C93_wraps`, `C93_not_all_or_nothing` | Proved for all histories with values that fit int, with the exact language accepted by -fold. False as stated in two ways: a value outside int is accepted and another value is requested (C93_wraps), and an option that throws keeps the lengths before the string at fault (C93_not_all_or_nothing). How the requests determine the fold is C73. |
| C94 | Values read once before the loops are those that the equations name at every point | proved | `C94_kinds`, `C94_invariant`, `C94_dependent`, `C94_offset`, `C94_read`, `C94_loaded_once` | For all args of any nesting: an access is found invariant exactly if no domain index is mentioned in it (C94_kinds, C94_loaded_once), and then names the same element at all points (C94_invariant, C94_read); C94_dependent and C94_offset are the kinds used for the inner loop. Premises: args have no CodeExpr, which only the compiler makes, after the analysis; the elements read before the loops do not change during them. |
| C95 | Setting all elements leaves nothing of what was there before | proved | `C95_same`, `C95_same_effect`, `C95_seq`, `C95_bounds`, `C95_determined`, `C95_without_storage`, `C95_seeds`, `C95_init`, `C95_reference`, `C95_pad_changes_values` | For all vars with storage, all schedules of the writes. The values have the operations of any type with a multiplication (C95_seq, C95_determined), so rounding is covered there; the bounds and the seeds as multiples are for exact arithmetic (C95_bounds, C95_seeds, C95_reference). Sizes include the padding: with other padding the same indices get other values (C95_pad_changes_values). The loops on an offload device are not modelled. |
| C96 | Var points name the elements asked for | partial | `C96_throws`, `C96_undefined`, `C96_relative`, `C96_written`, `C96_point`, `C96_repeated_dim` | Proved for all vars whose dims have different names, in exact arithmetic. False if a dim is given twice, which new_var() accepts: the offsets are all put in the first of the two (C96_repeated_dim). The least int as an offset is undefined behaviour in the code (C96_undefined). |
| C97 | The functions that report sizes of a var agree with each other | partial | `C97_by_name_partial`, `C97_by_name_throws`, `C97_vec_partial`, `C97_relations`, `C97_steps`, `C97_repeated_dim` | Proved for all vars whose dims have different names; throwing, the values by position and the relations also for others. False if a dim is given twice, which new_var() accepts although it means to check for it (C97_repeated_dim). Masks are natural numbers in the model, so the shift is defined for any number of dims; in the code it is for up to 63. A position that is out of range is undefined in the model, as in the code. |
| C98 | Runs exchange halos as requested | partial | `C98_requested_partial`, `C98_option_repairs`, `C98_tuning`, `C98_tuner_throws` | Proved for all executions in which run_auto_tuner_now() does not throw after it has begun. False otherwise: the exchange stays switched off, and later runs leave values computed from old halos without a message (C98_tuner_throws); preparing the solution again does not help, giving the option again does (C98_option_repairs). |
| C99 | The registry has the stencil solutions that exist | partial | `C99_found`, `C99_unique`, `C99_not_found_partial`, `C99_refused`, `C99_deleted`, `C99_unfinished` | Objects that exist are found, and nothing else is returned, for all histories. That nothing is found, and nothing refused, for names of no object is proved for programs that delete no objects and whose constructors do not throw, such as yask_compiler; it is false for others, because objects are never taken out of the registry (C99_deleted, C99_unfinished). |
| C100 | Options of the stencil compiler override what a stencil sets | partial | `C100_overrides_partial`, `C100_accepted`, `C100_target_needed`, `C100_help`, `C100_extraneous`, `C100_stencil_needed`, `C100_known`, `C100_fold`, `C100_value_taken` | Proved for all command lines whose values for library options have no quotes and do not read like options of the program; for these it is false (C100_value_taken, and C43). -fold, whose value is changed instead of replaced, is treated apart from the other options (C100_fold). Not included: the second names -h and -fus. |
| C101 | Prefetch distances are the last ones requested | proved | `C101_get`, `C101_set_throws`, `C101_set_throws_unchanged`, `C101_prefetches`, `C101_negative_option` | Of print_prefetches, only which prefetches are made and how far ahead, not the text of the pointers. Negative distances are refused by the call but not by the options (C101_negative_option). |

## Axioms per theorem

* **none** (15 theorems): `C25_fails_after_reference_run`, `C25_lost_update_refused`, `C25_set_all_fails_with_assertions`, `C31_second_prepare_wrong`, `C34_macro_round_down_negative`, `C41_choose_overflow`, `C47_explicit_wrong`, `C71_after_end_undefined`, `C71_failed_alloc_undefined`, `C71_failed_prepare_wrong`, `C71_options_wrong`, `C91_defined_partial`, `C91_refused_run_calls`, `C91_tuner_calls`, `C95_without_storage`
* **propext** (36 theorems): `C01_executions_exist`, `C02_single_rank`, `C101_negative_option`, `C101_set_throws_unchanged`, `C12_inverted_region_runs`, `C15_without_storage`, `C26_duplicate_wrong`, `C26_failed_call_leaves_dims`, `C28_second_prepare_wrong`, `C29_misaligned_wrong`, `C33_one_rank_empty`, `C38_visit_tuple_empty_space_visited`, `C41_set_array_overflow`, `C42_second_erase_wrong`, `C43_bad_value_throws`, `C43_requote_empty_lost`, `C50_new_add_node`, `C50_new_multiply_node`, `C57_explicit_wrong`, `C58_ignored_wrong`, `C58_one_rank_undefined`, `C67_data`, `C67_fixed_size_wrong`, `C67_halo_lost`, `C67_incompatible_accepted`, `C67_incompatible_wrong`, `C74_kinds_wrong`, `C77_reachable`, `C78_after_slice_wrong`, `C78_after_tuning_wrong`, `C91_kept`, `C91_register_undefined`, `C91_registered`, `C97_repeated_dim`, `C98_tuner_throws`, `C98_tuning`
* **Quot.sound, propext** (52 theorems): `C05_short_remainder_race`, `C07_fold_64_wrong`, `C101_prefetches`, `C10_unconditional`, `C12_manual_empty_undefined`, `C23_fails_for_halo_write`, `C25_accepted_events`, `C25_reads_latest`, `C25_some_copy_current`, `C27_no_mpi`, `C30_buffers`, `C30_fused_vars_overflow`, `C30_scratch_overlap`, `C30_scratch_sizes`, `C30_shared_buffer`, `C30_vars_partial`, `C36_parallel_for_nested_begin_ignored`, `C37_layout_nonstrict`, `C37_layout_value`, `C40_bad_arguments_throw`, `C40_too_few_points_undefined`, `C43_options_applied`, `C44_closure`, `C44_rejects_exactly_cycles`, `C44_total`, `C47_stages_wrong`, `C47_writeback_wrong`, `C50_cse_cycle`, `C52_align_avx`, `C52_blocks`, `C55_two_parts_wrong`, `C56_corner_wrong`, `C56_wavefront_partial`, `C57_explicit_ignored`, `C59_mega_stale_angles`, `C67_after_prepare_undefined`, `C71_never_prepared`, `C71_ready_runs`, `C71_sizes_changed`, `C73_completable_wrong`, `C73_exact_request`, `C89_halos_false`, `C91_answered`, `C95_seeds`, `C98_option_repairs`, `C98_requested_partial`, `C99_deleted`, `C99_found`, `C99_not_found_partial`, `C99_refused`, `C99_unfinished`, `C99_unique`
* **Classical.choice, Quot.sound, propext** (428 theorems): `C01_deterministic_partial`, `C01_order_independence`, `C01_ranks_executions_exist`, `C01_ranks_given_regions_partial`, `C01_ranks_partial`, `C01_run_equals_reference_partial`, `C01_short_remainder_differs`, `C01_tuning_irrelevant_partial`, `C02_contains_rank`, `C02_wavefront_coverage`, `C03_extension_suffices`, `C03_wavefront_order`, `C03_wavefront_positions`, `C04_temporal_coverage`, `C05_temporal_order_partial`, `C06_micro_partition`, `C07_conditional_part_partial`, `C07_micro_block_partial`, `C07_nano_block_partial`, `C08_overlap_same_points`, `C09_steps_exactly_once`, `C09_steps_in_order_partial`, `C100_accepted`, `C100_extraneous`, `C100_fold`, `C100_help`, `C100_known`, `C100_overrides_partial`, `C100_stencil_needed`, `C100_target_needed`, `C100_value_taken`, `C101_get`, `C101_set_throws`, `C10_num_points_exact`, `C10_overall_box_least`, `C10_rectangles_exact`, `C11_one_thread`, `C11_thread_binding`, `C12_increasing_order`, `C12_indices_once`, `C12_loops_cover`, `C12_manual_threads`, `C12_piece_bounds`, `C13_layout_unlayout`, `C13_layout_value`, `C13_unit_stride`, `C13_unlayout_layout`, `C14_address_in_storage`, `C14_addresses_distinct`, `C14_elements_fill_storage`, `C15_add_reports`, `C15_get_returns_last_set`, `C15_set_reports`, `C16_fails_after_throwing_call`, `C16_get_iff_local`, `C16_local_iff_in_range`, `C17_fails_for_set_element`, `C17_history`, `C17_moves_least`, `C17_slice_moves_window`, `C17_window_size`, `C18_fails_for_more_steps_than_stored`, `C18_get_slice`, `C18_positions`, `C18_refused`, `C18_set_then_get`, `C19_fails_after_set_first_misc_index`, `C19_vec_copy`, `C20_fails`, `C20_max_partial`, `C20_max_wrong`, `C20_min_partial`, `C20_min_wrong`, `C20_sum_product`, `C20_sum_squares_wrong`, `C21_call_effect`, `C21_fails_after_throwing_call`, `C21_no_other_padding`, `C21_room_for_padding`, `C21_storage_kept`, `C22_count_of_mismatches`, `C22_no_reference`, `C22_tolerance`, `C22_zero_iff_equal`, `C23_after_exchange`, `C23_clean_halo_is_current`, `C23_flag_exists`, `C24_all_delivered`, `C24_finishes`, `C24_messages_in_order`, `C24_no_deadlock`, `C26_accepted`, `C26_duplicate_accepted`, `C26_history`, `C26_rejected_partial`, `C27_automatic`, `C27_not_empty`, `C27_requests_kept`, `C27_tiles`, `C28_neighbor_iff_partial`, `C28_symmetric_partial`, `C28_unambiguous_partial`, `C29_aligned`, `C29_allocated`, `C29_covered`, `C29_disjoint_partial`, `C29_match`, `C29_received_outside`, `C29_sent_partial`, `C29_vectors_partial`, `C30_scratch_partial`, `C31_fits`, `C31_legal`, `C31_nest`, `C31_stable`, `C31_steps`, `C32_binding_dim`, `C32_requests_kept`, `C32_threads`, `C33_keeps_request`, `C33_valid_grid_partial`, `C34_div_mod`, `C34_idiv_flr`, `C34_macros_nonneg`, `C34_round_down`, `C34_round_up`, `C35_all_sizes`, `C35_parts_cover`, `C35_parts_even`, `C36_parallel_for_chunks`, `C36_parallel_for_partial`, `C37_layout_injective`, `C37_layout_unlayout`, `C37_unlayout_layout`, `C38_points_complete`, `C38_points_in_layout_order`, `C38_visit_indices`, `C38_visit_indices_empty`, `C38_visit_parallel`, `C38_visit_tuple_partial`, `C39_derived`, `C39_eq_iff`, `C39_lt_iff`, `C39_strict_total_order`, `C40_arbitrary_exact_partial`, `C40_backward_exact_partial`, `C40_center_exact_partial`, `C40_forward_exact_partial`, `C41_choose`, `C41_set_bijection`, `C41_set_members`, `C42_add_remove_two_undefined`, `C42_first_erase_correct_partial`, `C42_ordered_set_partial`, `C43_requote_apostrophe`, `C43_requote_double_quotes`, `C43_requote_roundtrip_partial`, `C43_split_iff`, `C43_unbalanced_rejected`, `C44_equations`, `C45_accepts_partial`, `C45_stages`, `C45_topo_sort`, `C45_topo_sort_circular`, `C45_total`, `C45_user_dependences_rejected`, `C45_valid_equations_rejected`, `C46_compiled`, `C46_needed`, `C47_alloc_partial`, `C48_one_part_partial`, `C48_reuse_wrong`, `C48_slots_partial`, `C48_values_partial`, `C49_accepts`, `C49_direction_partial`, `C49_forward_partial`, `C49_rejects_partial`, `C49_reverse_wrong`, `C49_scratch_wrong`, `C50_combine`, `C50_cse_partial`, `C50_cse_wrong`, `C50_reorder`, `C50_same_partial`, `C50_same_wrong`, `C51_const`, `C51_normal_form`, `C51_offset`, `C52_assembled`, `C52_elements`, `C53_fails_for_new_steps`, `C53_fails_outside`, `C53_nonstrict_reduces_part_in_range_partial`, `C53_nonstrict_sets_part_in_range_partial`, `C54_disabled_checker_rejects`, `C54_only_user_dependences_partial`, `C55_scratch_parts_partial`, `C56_direct_partial`, `C56_scratch_partial`, `C57_unique_partial`, `C58_kept_partial`, `C59_done_stays`, `C59_ends`, `C59_sizes_legal`, `C59_step`, `C60_ranks_partial`, `C60_reference`, `C60_run_partial`, `C60_scratch_arranged_partial`, `C60_scratch_ranks_partial`, `C60_scratch_reference`, `C60_scratch_run_partial`, `C60_scratch_slots`, `C60_scratch_stages`, `C60_scratch_values_exist`, `C60_slots`, `C60_stages`, `C60_values_exist`, `C61_partial`, `C61_wrong`, `C62_inexact`, `C62_int_partial`, `C62_large`, `C62_real_partial`, `C63_age`, `C63_read`, `C63_write`, `C64_consecutive_partial`, `C64_wrong`, `C65_equation_in_storage`, `C65_in_storage`, `C65_part_in_storage`, `C65_prepared`, `C65_scratch_equation_in_storage_partial`, `C65_vectors`, `C66_layout_iff`, `C66_same_index_partial`, `C66_same_offset_partial`, `C66_wrong`, `C67_before_prepare`, `C67_rejects_partial`, `C67_same_var`, `C68_long_shift_wrong`, `C68_micro_block_width`, `C68_misaligned_wrong`, `C68_moves`, `C68_reads_partial`, `C68_scratch_reads_partial`, `C68_touched`, `C68_writes_partial`, `C68_written`, `C69_executions_exist`, `C69_ranks_equal_reference_partial`, `C69_ranks_executions_exist`, `C69_ranks_substitution_partial`, `C69_reference`, `C69_run_equals_reference_partial`, `C69_substitution_partial`, `C69_undefined_element_wrong`, `C70_elements`, `C70_extensions_counted`, `C70_step_conditions_counted`, `C70_steps`, `C70_work_at_most_partial`, `C70_work_partial`, `C71_tracked_partial`, `C72_no_mpi`, `C72_overall_size_only`, `C72_resized`, `C72_unchanged`, `C73_accepted_partial`, `C73_covers`, `C73_inner_loop_wrong`, `C73_requests_kept_partial`, `C74_accepted`, `C74_dims`, `C74_layout`, `C74_memory_domain_order`, `C75_accepts`, `C75_meaning_partial`, `C75_repeated_dim_wrong`, `C76_applied`, `C76_bad_number_partial`, `C76_clash_wrong`, `C76_failed_call_wrong`, `C76_failed_list_wrong`, `C76_int_wraps_wrong`, `C76_number_iff`, `C76_shortcut`, `C77_condition_in_storage_partial`, `C77_constructs`, `C77_misc_in_storage_partial`, `C77_no_misc_offset`, `C77_range_overflow_wrong`, `C77_shrunk_wrong`, `C77_tight`, `C78_after_exchange_partial`, `C78_by_position`, `C78_right_iff`, `C78_run_aligns`, `C78_steps_agree`, `C78_valid_steps`, `C79_best`, `C79_disagree`, `C79_ends_partial`, `C79_many_steps_wrong`, `C79_max`, `C79_mid`, `C79_mid_even_wrong`, `C79_mid_odd_partial`, `C79_min_partial`, `C79_min_zero_wrong`, `C79_no_deadlock_partial`, `C79_trials`, `C79_two_trials_wrong`, `C79_validates`, `C79_validates_time`, `C79_variance`, `C79_warmup_wrong`, `C80_lanes_partial`, `C80_overwritten_wrong`, `C81_micro_block_partial`, `C81_nano_block_partial`, `C81_other_point_wrong`, `C82_add`, `C82_add_operand`, `C82_clone`, `C82_const_idx`, `C82_defined`, `C82_div`, `C82_equation`, `C82_func`, `C82_mod`, `C82_mul`, `C82_neg`, `C82_operand_partial`, `C82_operand_wrong`, `C82_others`, `C82_program_partial`, `C82_rhs`, `C82_set_value`, `C82_shared_wrong`, `C82_step_partial`, `C82_sub`, `C82_vars`, `C82_well_formed_partial`, `C83_refines_partial`, `C83_run_partial`, `C83_settings_partial`, `C83_slots`, `C83_threads_partial`, `C84_compiled_partial`, `C84_history_partial`, `C84_independent`, `C84_values_exist`, `C85_interval`, `C85_none`, `C85_output`, `C85_partial`, `C85_period`, `C85_step_partial`, `C85_wrong`, `C86_executions_exist`, `C86_in_storage`, `C86_ranks_partial`, `C87_elements`, `C87_late_read_accepted`, `C87_legal`, `C87_ranks_partial`, `C87_values`, `C87_values_exist`, `C88_made`, `C88_ranks_partial`, `C88_values_exist`, `C89_again_partial`, `C89_bundle_false`, `C89_deps_false`, `C89_dir_false`, `C89_first`, `C89_halos_partial`, `C89_inner_false`, `C90_last`, `C90_meta_partial`, `C90_refused_stays`, `C90_sizes_partial`, `C90_storage_false`, `C90_throws`, `C91_prepare`, `C91_prepare_part`, `C91_run`, `C91_run_part`, `C92_all_received`, `C92_as_together`, `C92_finishes`, `C92_no_deadlock`, `C92_received`, `C92_same_result`, `C93_accepted`, `C93_is_set`, `C93_last`, `C93_not_all_or_nothing`, `C93_wraps`, `C94_dependent`, `C94_invariant`, `C94_kinds`, `C94_loaded_once`, `C94_offset`, `C94_read`, `C95_bounds`, `C95_determined`, `C95_init`, `C95_pad_changes_values`, `C95_reference`, `C95_same`, `C95_same_effect`, `C95_seq`, `C96_point`, `C96_relative`, `C96_repeated_dim`, `C96_throws`, `C96_undefined`, `C96_written`, `C97_by_name_partial`, `C97_by_name_throws`, `C97_relations`, `C97_steps`, `C97_vec_partial`
