# A Lean 4 model of FFTW 3 and what is proved about it

Source: `/repo` (FFTW/fftw3, pinned commit). Everything below `lean/Verif/` is Lean 4.33 + selected Mathlib modules.

## Layout

* `Verif/Spec/*`   small independent specifications (the DFT sum, RFC 1321, row-major order, ...)
* `Verif/Model/*`  the code, function by function; each definition cites `/repo` file:lines
* `Verif/Proofs/*` helper lemmas
* `Verif/Props/*`  the property theorems, each with a non-vacuity `example`

## Trusted base

* Lean's kernel. Axioms: at most `propext`, `Classical.choice`, `Quot.sound` (audited by `vcheck`). No axiom
  of our own, no compiled evaluation (`native_decide`, `bv_decide`).
* The reading of the C code into the model: the code is not run here. Every definition cites the lines it models.
* Modelling conventions
  - **Exact arithmetic.** `R` (float/double) is modelled by `ℝ`; rounding is out of scope. Memory is a
    function from addresses to `ℝ`, one address per `R`; a pointer is a block number and an offset, and each
    `malloc`ed buffer is a block of its own (different allocations never overlap).
  - **INT** is modelled by unbounded `Int`/`Nat`, except in the properties that are about overflow, where
    the model uses *checked* arithmetic in `Option Int` (`none` = signed overflow = undefined behaviour).
  - `unsigned`/`md5uint` are `BitVec w`.
  - Loops are structural or well-founded recursion, so termination of the modelled loops is itself proved;
    the planner's mutual recursion uses fuel (any fuel), and its partial-correctness theorems hold for all fuel.
  - Codelets are generated by the OCaml program genfft, which is in the repository. The complex codelets (notw, twiddle,
    twidsq) and the real ones (r2cf, r2cb, with `-dft-II`/`-dft-III`) are modelled *as generated*: `Model/Genfft`, `Model/GenfftCodelets`, `Model/GenfftReal` model the generator's algorithm, and C47
    proves that what it generates is a DFT. Not modelled: algebraic simplification and scheduling (algsimp.ml, schedule.ml),
    taken to preserve the value of the expressions, to drop stores of the constant 0 in real codelets, and to schedule
    loads before stores where a codelet runs in place; and the C compiler.
  - Heap, `malloc` failure, OS time, floating-point rounding, SIMD alignment and MPI transport are not modelled
    (time and cost measurements are oracles, i.e. universally quantified).
  - Tests in solvers that only say whether the solver is *worth* trying (cost heuristics, `NO_UGLYP` and the like) are the
    arbitrary predicate `taste`; tests needed for correctness are modelled as they are.

### What is modelled and what is not

| part of /repo | modelled | not modelled |
|---|---|---|
| kernel/ | primes.c, trig.c, twiddle.c, tensor*.c, md5*.c, print.c, scan.c, planner.c, hash.c, pickdim.c, cpy1d.c, cpy2d*.c, tile2d.c, transpose.c, buffered.c, rader.c, ct.c, kalloc.c, extract-reim.c, minmax.c, iabs.c, stride.c, problem.c/plan.c (reference counts) | alloc.c (debug allocator), timer.c, cycle.h, awake.c, debug.c, ops.c, opcount bookkeeping, align.c, assert.c messages, cpy with alignment |
| dft/ | problem.c, solve.c, nop, generic, rader, bluestein, rank-geq2, vrank-geq1, indirect, indirect-transpose, buffered, ct.c, dftw-generic, dftw-genericbuf, dftw-direct, dftw-directsq, direct, scalar codelets | dft/simd, zero.c |
| rdft/ | problem.c, problem2.c, solve*.c, nop, rank0, generic, rank-geq2, vrank-geq1, indirect, vrank3-transpose, dht-r2hc, dht-rader, rdft-dht, dft-r2hc, nop2, rank0-rdft2, vrank-geq1-rdft2, rank-geq2-rdft2, rdft2-rdft, buffered, buffered2, direct-r2c.c, direct2.c, hc2hc.c, hc2hc-generic.c, hc2hc-direct.c, ct-hc2c.c, ct-hc2c-direct.c, direct-r2r.c, r2cf/r2cb/hf/hb/hc2cf/hc2cb/hc2cfdft/hc2cbdft/r2r scalar codelets, rdft2-strides.c, rdft2-inplace-strides.c | simd |
| reodft/ | redft00e-r2hc-pad, rodft00e-r2hc-pad, reodft00e-splitradix, reodft010e-r2hc, reodft11e-radix2, reodft11e-r2hc-odd | the three files disabled in conf.c |
| api/ | all planner entry points for dft, r2r, r2c, c2r (basic, advanced, guru, guru64, split), execute*, mapflags.c, apiplan.c, mktensor-*.c, rdft2-pad.c, wisdom import/export to/from string and stream, configure (as lists), f77api.c and f77funcs.h (planning, execution and wisdom) | Fortran wrappers for printing and costs, the Fortran 2003 module, paths of files, flops.c, plan printing (print-plan, version), forget/cleanup beyond the planner tables |
| threads/ | threads.c spawn_loop arithmetic, the user-defined backend and the worker pool; the five threaded solvers dft-vrank-geq1.c, rdft-vrank-geq1.c, vrank-geq1-rdft2.c, ct.c, hc2hc.c; the registration in conf.c and api.c | openmp.c as a runtime; the hand-over from the pool (C31) to the solvers is by `spawn`, which runs each thread's part as a whole in an arbitrary order (finer interleavings: `C55_any_interleaving`) |
| mpi/ | block.c, choose-radix.c, transpose-{pairwise,alltoall,recurse}.c, transpose-problem.c, dtensor.c (canonical), rearrange.c, dft-problem.c, dft-{serial,rank-geq2,rank-geq2-transposed,rank1-bigvec,rank1}.c, rdft-problem.c, rdft-{serial,rank-geq2,rank-geq2-transposed,rank1-bigvec}.c, api.c (plan_many_transpose, complex DFT and real-to-real parts, the hooks of the planner), any-true.c, wisdom-api.c; kernel/planner.c and api/apiplan.c once more for many processes at a time | rdft2 (r2c, c2r) solvers, MPI itself (Sendrecv, Alltoall(v), Comm_split, Allreduce have their standard meaning); planning with a time limit (finding 28; there is a theorem that it may fail); `int` overflow of message counts |
| genfft/ | fft.ml, complex.ml, number.ml/util.ml (as arithmetic), gen_notw.ml, gen_twiddle.ml, gen_twidsq.ml, gen_r2cf.ml, gen_r2cb.ml, gen_hc2hc.ml, gen_hc2c.ml, gen_hc2cdft.ml, gen_r2r.ml, trig.ml, twiddle.ml | algsimp, schedule, C printing, SIMD |
| libbench2, tests, tools, doc | | not modelled |

## Per property: model and proof plan

| id | modelled code | how |
|----|---------------|-----|
| C01 | dft solvers ct, rank-geq2, vrank-geq1, indirect, indirect-transpose, buffered, generic, rader, bluestein, direct (codelets as hypothesis), nop; planner mkplan | `Mem := Int → ℝ`; contract "computes DFT of problem"; each solver's `apply` meets the contract if its child plans do; planner theorem by induction on fuel over the solver interaction tree |
| C02 | same | footprint clause of the contract |
| C03 | same + flag propagation through planner | contract clause guarded by NO_DESTROY_INPUT |
| C04 | planner.c mkplan with arbitrary table contents | the planner theorem quantifies over every table state |
| C05 | `apply` takes pointers | contract quantifies over pointers |
| C06 | api swap of re/im for sign +1 | corollary of C01 + root-of-unity orthogonality |
| C07 | tensor7.c, dimcmp | DFT is invariant under permutation / dropping n=1; compress_contiguous preserves the multiset of offset pairs |
| C08 | tensor7.c inplace_locations, problem.c | soundness of the check: it implies equal location sets |
| C09 | primes.c is_prime/first_divisor/next_prime/factors_into* | exact, with the overflow bound as precondition |
| C10 | primes.c safe_mulmod/MULMOD | checked arithmetic returns `some (x*y % p)` |
| C11 | primes.c find_generator, get_prime_factors | order argument in `ZMod p`; product of 16 distinct primes > 2^63 |
| C12 | primes.c isqrt, modulo, choose_radix, ct_uglyp; mpi/choose-radix.c | loop invariants |
| C13 | trig.c real_cexp | real trigonometry |
| C14 | trig.c sqrtn triggen | angle addition, shift/mask arithmetic |
| C15 | twiddle.c mktwiddle/twiddle_destroy | invariant over histories |
| C16 | planner.c hash table | refinement to list-of-entries spec |
| C17 | planner.c hgrow/rehash/hinsert0 | invariant |
| C18 | planner.c forget | |
| C19 | planner.c exprt/imprt + print.c/scan.c | round trip at character level: print/scan combinators, loop invariant; hypotheses: registry names as in the code (printable, no parentheses, at most 64 characters, distinct), facts `Exportable` (registered solver and time-limit class 0, or "no plan") and `Consistent`. Files: `Model/FileScan` (api/import-wisdom-from-file.c with its 256-byte buffer, import-system-wisdom.c; paths are opaque) |
| C20 | planner.c imprt; `Model/FileScan` | all inputs; the failure path restores the table (finding 30 about `fclose`) |
| C21 | planner.c imprt, slookup, signature_of_configuration | inversion of the scanner into a grammar (`Spec/ScanFormat`, `Spec/WisdomFile`); the signature is RFC 1321's MD5 of an injectively coded configuration |
| C22 | export-wisdom-to-string.c, mkprinter-str.c, mkprinter-file.c | |
| C23 | print.c, scan.c | |
| C24 | md5.c | equals an independently written RFC 1321 |
| C25 | mapflags.c | bitwise over all `BitVec` flag words |
| C26 | mapflags.c timelimit_to_flags | real-valued |
| C27 | apiplan.c copy/destroy | history invariant |
| C28 | planner.c mkplan WISDOM_ONLY | |
| C29 | planner.c mkplan/search | |
| C30 | threads.c spawn_loop blocks; `Model/SpawnCallback`: the same with a user-defined backend (`fftw_threads_set_callback`, also in openmp.c) | arithmetic; the array of jobs against the list of blocks, calls in any order |
| C31 | threads.c worker pool | transition system, all interleavings; semaphores and mutex atomic, sequentially consistent memory; nested spawn_loop calls, cleanup |
| C32 | cpy1d/cpy2d/cpy2d-pair/tile2d/transpose.c | |
| C33 | rdft/vrank3-transpose.c (gcd, cut, toms513) | cycle-following permutation; `memmove`/`memcpy` are snapshot copies, buffers are fresh blocks, sizes without overflow |
| C34 | rdft/generic.c, rdft-dht.c, dht-r2hc.c, dht-rader.c | contract per solver; halfcomplex identities in `ℂ` |
| C35 | the six registered reodft solvers | contract per solver; loops by `Fill` (each loop stores a known function of the old contents) |
| C36 | documented sums; C53 | orthogonality of the trigonometric kernels; corollary of C53 |
| C37 | mpi/block.c | |
| C38 | mpi/transpose-pairwise.c | |
| C39 | api/mktensor-rowmajor.c, rdft2-pad.c | |
| C40 | dft/buffered.c, rdft/buffered.c, rdft/buffered2.c, kernel/buffered.c | |
| C41 | kernel/kalloc.c our_malloc | |
| C42 | dft/ct.c + dftw-*, rdft/hc2hc.c, hc2hc-generic.c, hc2hc-direct.c, ct-hc2c.c, ct-hc2c-direct.c | `TwOK`, `HcOK`, `Hc2cOK`: contract of a twiddle step; Hermitian symmetry of the columns |
| C43 | dft/rader.c | |
| C44 | dft/bluestein.c | |
| C45 | dft/generic.c | |
| C46 | kernel/scan.c mygets; `Model/FileScan`: the file buffer | invariant of the buffer, for all ways `fread` may cut the file |
| C47 | genfft/fft.ml, gen_notw.ml, gen_twiddle.ml, gen_twidsq.ml, gen_r2cf.ml, gen_r2cb.ml, gen_hc2hc.ml, gen_hc2c.ml, gen_hc2cdft.ml, gen_r2r.ml, trig.ml, twiddle.ml | every algorithm the generator may choose, for any parameters (`Magic`), for all sizes |
| C48 | planner.c search0/search | |
| C49 | mpi/transpose-pairwise.c transpose_chunks (I == O), schedule choice | lock-step execution invariant, then every interleaving simulates it |
| C50 | dft and rdft vrank-geq1, rank-geq2, indirect, indirect-transpose, nop | contract |
| C51 | rdft/dft-r2hc.c | contract |
| C52 | dft/direct.c, dftw-direct.c, dftw-directsq.c, rdft/direct-r2c.c, rdft/direct2.c, rdft/hc2hc-direct.c, rdft/ct-hc2c-direct.c, rdft/direct-r2r.c | contract relative to codelet contracts (discharged by C47) |
| C53 | api/plan-*r2r*, map-r2r-kind.c, execute-r2r.c | `real_api`: planner soundness + contract |
| C54 | api/plan-*dft-r2c*, plan-*dft-c2r*, execute-*-r2c.c, execute-*-c2r.c, rdft/problem2.c, rdft2 solvers | `rdft2_api`: planner soundness + the contract `HOK` ("half" of a complex transform); Hermitian symmetry in several dimensions |
| C55 | the five threaded solvers | soundness for every permutation chosen by a scheduler; race freedom of the blocks; generic theorem that race-free interleavings equal sequential runs |
| C56 | transpose-{pairwise,alltoall,recurse}.c, mkproblem_transpose, plan_many_transpose | distributed memories; soundness contract for MPI plans; solvers proved sound given sound children (serial children by C04, MPI children by induction on the depth); layout lemmas for the local copies before and after the exchange |
| C57 | mkproblem_dft, all five MPI DFT solvers, choose_radix, rearrange.c | same contract as C56; layouts as functions from indices to (process, position); six-step identity; each solver proved sound given sound children; result restated with complex exponentials of either sign |
| C58 | mpi/api.c: default_sz, local_size_guru, local_size_many(_transposed), local_size_many_1d, plan_guru_dft, plan_many_dft, plan_dft; mpi/block.c num_blocks_total, block_coords, is_block1d | the user's picture of a distributed array (`Holds`: each process has a box of the array, row-major) is shown to be the planner's layout of C57; what local_size returns is shown to be enough for every solver; exchange of input and output; inversion of the multi-dimensional DFT by orthogonality |
| C59 | `Model/MpiPlanner`: kernel/planner.c, kernel/timer.c and api/apiplan.c run by all processes of a communicator, each with its own state, tables, clock and serial planner; mpi/api.c hooks | every branch that decides which collective operations follow is evaluated on all processes and yields `desync` if they differ; an invariant (same flags, threads, wisdom state or bogus, no timeout) shows that this never happens, and the plan is one of those of C57 (`MPlans`) |
| C60 | `Model/MpiWisdom`: mpi/wisdom-api.c on top of the model of export and import (`Model/Wisdom`, C19–C22); processes in lock step (the control flow depends on rank and size only), the tree of even/odd groups by recursion on communicators | induction over the tree: each message is an export followed by an import (`export_import'`, round trip through a C string); `Cov` (a fact at least as good) is transitive among facts that do not conflict, and `learn` preserves it; soundness needs no such assumption |
| C61 | `Model/F77`: the planning and execution wrappers of api/f77funcs.h and `reverse_n`, `make_dims`, `ints2kinds`, on top of the C interface (C01, C05, C53, C54); `Spec/F77`: column-major arrays, everything in Fortran's order of dimensions | a batch and its reversal (`Rev`, `RRev`): positions (row-major order of reversed lists is column-major order), sums over boxes, twiddles, Hermitian extension and products of one-dimensional transforms do not depend on the order of dimensions; wisdom (`Props/F77Wisdom`) by C19, C20, C46 |
| C62 | `Model/MpiRdft`: mpi/rdft-problem.c and the four rdft solvers, with the planner of C57/C59 (`MPlans`) and the interface `planGuruR2r`, `planManyR2r`, `planR2r` (`Props/MpiRdftApi`: with the layouts `local_size_many` and `_many_transposed` report) | `ROK` contract of a plan (`docNd`: product of the one-dimensional transforms of the kinds); a dimension-wise split of the product (first dimension × rest), the layout lemmas of C57/C58 through a `shadow` problem with the same geometry and pairs of reals for complex numbers; `C62_roundtrip` (`Props/MpiRdftInv`) from C36 |
| C63 | `Model/Planner`: a counter `runs` of the measurements (`measure_execution_time`, the only thing in planning that touches the user's arrays), kernel/planner.c, api/apiplan.c, mapflags.c; all registered serial and threaded solvers | invariant of the planner: either ESTIMATE is in force or only wisdom may be used (or it is bogus), and under it nothing is measured; by induction on the recursion of the planner and on the programs of the solvers.  Needs solvers that do not drop ESTIMATE for their children: checked for all registered ones (`C63_standard_dft_solvers`, `C63_standard_rdft_solvers`, `C63_threads_*`).  The counter is not kept in the MPI planner model |

### Registered solvers

`Props/Registered` lists `dft_conf_standard` (table and all scalar codelets) completely; `Props/RegisteredRdft` lists
`rdft_conf_standard` (table and all scalar codelets) and `reodft_conf_standard` completely; `Props/Threads` adds the solvers of threads/.  Each solver in the lists is proved sound, so theorems with the hypothesis "all registered solvers
are sound" apply to any environment with these solvers.

### Promises of the user (hypotheses of the API theorems)

* C01-C06: strides not negative (finding 1); distinct output elements at distinct places, distinct input elements too if the input may be
  destroyed; input and output equal or not overlapping.  The basic interface needs only the last.
* C53: as above, strides may be negative; REDFT00 sizes at least 2; an in-place DCT or DST must not be combined with a transposition (finding 12).
* C54: strides not negative; in place: every complex row begins where its real row begins, and different rows do not overlap (the library only
  checks strides, so e.g. split arrays with imaginary parts interleaved between rows would be accepted and computed wrong); the
  even and odd real elements are in one allocated object, and so are the real and imaginary parts (`Kosher2`: the library forms `r1 - r0` and
  `ci - cr`, which C defines only within one object).
* C58: sizes greater than 1 (findings 20, 21, 26); default blocks in one dimension (finding 23); otherwise blocks smaller than the distributed dimension
  unless there is one process (findings 22, 27); scrambled on one side only: room for max(r, m) tuples (finding 22c); in- and output arrays of a process
  equal or not overlapping, the same way on every process.
* Empty problems (`howmany` 0) are planned by `nop` and do nothing.

## Modelling choices worth knowing

* **Planner** (`Model/Planner`): the registered solvers are *interaction trees* (`Mk`): a solver inspects the problem and
  the flags and asks the planner for child plans.  Costs, time, hooks are oracles of the environment.  `mkplan` has fuel;
  all safety theorems hold for every fuel.
* **Plans** (`Plan`) are state transformers on memory, with the pointers passed at execution.  A plan is `Sound` for a
  problem if for all pointers with the same in-place/re-im distances it computes the sum, keeps everything outside the
  output (and, if allowed, input) locations, and keeps the input if input destruction is forbidden.
* **Wisdom**: the hash table is modelled slot by slot; facts are abstracted in `Spec/Wisdom`.

## Findings (behaviour of the code that the proofs brought out)

1. `rdft/dft-r2hc.c` flips dimensions with negative input stride, which makes `I != O` for in-place problems having a
   dimension with `is < 0 < os`; out-of-place rank-0 copies then become applicable on overlapping data.  The theorems
   require non-negative strides (`Kosher`) for this reason.
2. `isqrt(INT_MAX)`, `first_divisor` of primes above 3037000499², `getlong`, `putint(INT_MIN)` and `spawn_loop` with
   `loopmax > 2^30` overflow; `power_mod(_, 0, 1)` is 1.
3. MD5 counts only 32 bits of length, so it is RFC 1321 only for messages shorter than 2^29 bytes.
4. `import_wisdom_from_filename` returns 0 if `fclose` fails although the wisdom was imported (so C20 is about the
   stream and string readers).
5. An import consults the temporary table too, so it may drop a fact although no saved fact answers it.
6. Flag numbers out of range in a wisdom file abort the process (`CK`) instead of making the import fail.
7. In `import_wisdom_from_string` byte 0xFF reads as end of input (signed `char`).
8. Blessing is never inherited from the wisdom table by `mkplan` (`fill_slot` never stores BLESSING).
9. Debug-mode assertions in `htab_insert` and `mkplan` can fail with contradictory imported wisdom; the release build
   stays correct (C04).
10. `mkapiplan` dereferences a NULL plan if re-creating the plan fails, which needs inconsistent wisdom and an expired
    time limit.
11. `really_pickdim(0, ...)` on a rank-0 tensor would read out of bounds; all callers avoid it.
12. In-place DCTs and DSTs that also transpose (`istride != ostride` arranged as a transposition) are accepted by `mkproblem_rdft` (the location
    sets agree) but computed wrong by reodft010e and others: `C35_inplace_transposed_wrong`.  In-place split-radix is practically unsolvable except RODFT00 with n0 = 3.
13. `rdft2-rdft.c` `min_nbuf` has a special case for "contiguous" in-place batches whose real and complex distances differ.  It processes the batch forward
    in chunks, so for r2c with `ovs > ivs` it overwrites rows not yet read (n = 4, howmany = 257, idist = 8, odist = 5 complex: with 256
    buffers, row 205's output overwrites row 256's input).  Such a call violates the promise of C54.  The test compares a doubled stride, so it never fires for
    truly contiguous arrays.
14. `dftw-direct.c`'s buffered variant calls the codelet in place in the buffer without asking the codelet's `okp`; harmless for all generated codelets.
15. genfft's scheduler orders only load and store of the *same* index (dag.ml:53-60); in-place safety of codelets therefore needs is = os, which `okp` forces.
16. `apiplan` reference counts are `int`s/`size_t`s: copying a plan 2^64 times wraps (`C27_bound_is_sharp`).
17. In bluestein.c the loop `while (ksq > n2)` can leave `ksq = n2`, only for k² ≡ 0 (mod 2n), where the twiddle is the same.
18. The comment in `kill_workforce` (threads.c) that workers enqueue themselves is inaccurate: the master does; the `sem_destroy` race on the termination
    semaphore is not modelled.
19. `find_generator`/`npad` computations of dht-rader.c overflow for sizes near INT_MAX; the model gives up there.
20. `mpi/dft-serial.c:93` writes `sz->dims[rnk - 1]` with `rnk = 0` when all dimensions are 1 (for example `fftw_mpi_plan_dft_1d(1, ...)`): a store before the array (model: parameter `ub`; C57 requires a non-trivial dimension).
21. `XM(mkproblem_dft)` drops dimensions of size 1 before `TRANSPOSED_IN`/`TRANSPOSED_OUT` are interpreted, so for sizes like 5 × 1 × 7 the flags exchange other dimensions than documented.
22. `XM(local_size_guru)` can be too small: (a) all data on one process and `FFTW_EXHAUSTIVE` (`NO_SLOW` unset), e.g. 1 × 5 × 7 on 6 processes: dft-rank-geq2 with dft-rank1-bigvec distributes the data over processes that allocated one element; (b) guru interface, default blocks, dimensions {1, 1, 5, 7} on 6 processes: `is_block1d` fails because the third dimension is the distributed one, 7 elements are allocated and 10 needed, even with `FFTW_ESTIMATE`; (c) `SCRAMBLED_OUT`, n = 22 on 4 processes: r = 11, m = 2, processes 2 and 3 have no rows and 6 elements, but dft-rank1.c plans (and with `FFTW_MEASURE` runs) the transform of a row of 11 elements on them.  `MDftP.Ok` states the room that is needed.
23. One-dimensional transforms with user-chosen blocks: `local_size_guru` reports the `choose_radix` layout and ignores the blocks, while a block that makes the data local on one process gets a serial plan.
24. `mpi/dft-rank1.c` `applicable`: the `NO_UGLY` condition is always true (it needs `ddft_first` and `ddft_last` at once).
25. The hash of transposition problems (mpi/transpose-problem.c) omits the flags, and `dft-rank1-bigvec.c` prints rearrangement names in an order that differs from the enumeration (both harmless).
26. Documented call `fftw_mpi_plan_dft_2d(12, 1, ...)` on 5 processes: dimensions of size 1 are dropped, the problem has rank 1, and only dft-rank1.c applies; its output comes in blocks of `rblock * m = 4`, while `fftw_mpi_local_size_2d` told the user blocks of 3 (C58 asks for sizes greater than 1).
27. `XM(local_size_guru)`: `is_block1d` is false when all data is on one process on one side only (e.g. output block n0, input distributed), so that the space for the intermediate result of dft-rank-geq2 is not included: n0 = 3, block 1, 3 processes, 4 further elements: 6 needed, 4 allocated (C58: `LayoutOk` asks for blocks smaller than the dimension unless there is one process).
28. Time limits and MPI (`fftw_set_timelimit`, kernel/planner.c:493-518 with kernel/timer.c:115-134): `timeout_p` contains a collective operation (the hook in `elapsed_since`), but whether a process calls it depends on what happened to it alone: (a) `need_timeout_check` is set by a serial measurement, which a process with wisdom for its part skips; (b) a process whose serial planning runs out of time has `timed_out` set and skips the collective operation in later checks.  So processes may wait for each other in different operations.  C59 has the hypothesis that there is no time limit; `exTog_timelimit` is a run in which only one process gives up the search.
29. One-dimensional distributed r2r transforms (`fftw_mpi_plan_guru_r2r` and `_many_` accept rank 1, and rdft-rank1-bigvec.c drops the test `vn >= n_pes` of its dft counterpart): with `howmany < n_pes` the intermediate transposed array may need more room than `fftw_mpi_local_size_*` says.  The manual says that 1d r2r transforms are not parallelised; C62's user theorem is for rank ≥ 2, its solver and planner theorems are for every rank (with the room as a hypothesis).  `plan_guru_r2r` also leaks the array of kinds when it refuses the block sizes (api.c:668-677).
30. `fftw_import_wisdom_from_filename` (api/import-wisdom-from-file.c:73-81) returns 0 if `fclose` fails, although the wisdom has been imported (`C20_fclose`); "returns 0, hence nothing changed" (C20) holds for it only if closing succeeds.
