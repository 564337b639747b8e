{"id": "C01", "title": "Every complex-DFT plan computes the DFT", "statement": "If planning a complex DFT succeeds, executing the plan stores in the output array exactly the (multi-dimensional, batched, strided) discrete Fourier transform of the input array, in exact arithmetic, whichever algorithms the planner picked.", "quantifier": "every rank, size, stride, batch shape, in-place or out-of-place layout, every sequence of planner decisions, every memory content", "why_tests_cant": "there are infinitely many sizes/strides and exponentially many plan trees; a test runs one tree on one size", "anchors": ["dft/ct.c:mkplan,apply_dit,apply_dif", "dft/rank-geq2.c", "dft/vrank-geq1.c", "dft/indirect.c", "dft/buffered.c", "dft/direct.c", "dft/rader.c", "dft/bluestein.c", "dft/generic.c", "dft/problem.c:mkproblem_dft"]}
{"id": "C02", "title": "Execution writes only inside the user's arrays", "statement": "Executing a DFT plan changes no memory location other than the output elements described by the problem and, when input destruction is allowed, the input elements.", "quantifier": "every plan the planner can produce and every memory", "why_tests_cant": "an out-of-bounds write for one stride/size combination is invisible unless that combination is run under a checker", "anchors": ["dft/*.c apply functions", "rdft/*.c apply functions"]}
{"id": "C03", "title": "PRESERVE_INPUT is honoured by every plan", "statement": "A plan made with FFTW_PRESERVE_INPUT (the default except for c2r) for an out-of-place problem leaves the input array unchanged when executed.", "quantifier": "every problem and every planner decision, including plans rebuilt from wisdom", "why_tests_cant": "depends on a flag being propagated through every recursive planner call", "anchors": ["dft/ct.c:applicable0", "dft/indirect.c:applicable0", "dft/buffered.c:mkplan", "kernel/planner.c:search,mkplan"]}
{"id": "C04", "title": "Wisdom cannot make results wrong", "statement": "Whatever wisdom is loaded - stale, inconsistent, or keyed by a colliding signature - any plan the planner returns is still a correct plan for the requested problem.", "quantifier": "every content of the wisdom tables and every problem", "why_tests_cant": "requires all possible wisdom files", "anchors": ["kernel/planner.c:mkplan,invoke_solver,hlookup", "api/apiplan.c:mkplan"]}
{"id": "C05", "title": "New-array execution is correct", "statement": "fftw_execute_dft / execute_split_dft with a plan on other arrays of the same in-place/out-of-place kind transforms those arrays correctly.", "quantifier": "every plan and every admissible array pair", "why_tests_cant": "all pointer pairs cannot be enumerated", "anchors": ["api/execute-dft.c", "api/execute-split-dft.c", "dft/vrank-geq1.c:apply"]}
{"id": "C06", "title": "Backward plans compute the conjugate transform and invert up to scaling", "statement": "A plan with sign +1 computes the DFT with the conjugate kernel, and backward after forward multiplies by the logical size.", "quantifier": "every size, every input", "why_tests_cant": "all inputs", "anchors": ["kernel/extract-reim.c", "api/execute-dft.c", "api/plan-many-dft.c"]}
{"id": "C07", "title": "Canonicalising dimensions never changes the transform", "statement": "Dropping length-1 dimensions, re-sorting dimensions and merging contiguous batch dimensions describes exactly the same set of transforms.", "quantifier": "every tensor of any finite rank with any strides", "why_tests_cant": "all shapes and strides", "anchors": ["kernel/tensor7.c:tensor_compress,tensor_compress_contiguous", "kernel/tensor5.c"]}
{"id": "C08", "title": "In-place problems are accepted only when input and output locations coincide", "statement": "A problem with equal input and output pointers is planned only if the set of input locations equals the set of output locations; otherwise the planner returns NULL.", "quantifier": "every tensor pair", "why_tests_cant": "all stride combinations", "anchors": ["kernel/tensor7.c:tensor_inplace_locations", "dft/problem.c:mkproblem_dft"]}
{"id": "C09", "title": "Primality and factor queries are exact", "statement": "The size classification used to select prime-size algorithms is right: a size is treated as prime iff it is prime, the smallest factor found is the least prime factor, and the next-prime search returns the least prime not below its argument.", "quantifier": "every non-negative size (up to the machine-integer limit stated)", "why_tests_cant": "all sizes", "anchors": ["kernel/primes.c:first_divisor,is_prime,next_prime,factors_into"]}
{"id": "C10", "title": "Modular multiplication is exact and never overflows", "statement": "The modular products used for prime-size transforms equal x*y mod p and no intermediate value leaves the machine integer range.", "quantifier": "all 0<=x,y<p<=INT_MAX (64-bit)", "why_tests_cant": "2^190 operand triples", "anchors": ["kernel/primes.c:safe_mulmod,power_mod", "kernel/ifftw.h:MULMOD"]}
{"id": "C11", "title": "The generator search returns a primitive root", "statement": "For every prime size the generator used to permute the data generates the whole multiplicative group, the search terminates, and its factor scratch array is never overrun.", "quantifier": "every prime (array bound: every prime below 2^63)", "why_tests_cant": "all primes", "anchors": ["kernel/primes.c:find_generator,get_prime_factors"]}
{"id": "C12", "title": "Radix selection", "statement": "Integer square root is exact; the radix chosen for a size always divides it, and the square-root rule returns q exactly when n = r*q^2.", "quantifier": "all sizes and requested radices", "why_tests_cant": "all sizes", "anchors": ["kernel/primes.c:isqrt,choose_radix,modulo"]}
{"id": "C13", "title": "Twiddle factors are the exact roots of unity after octant reduction", "statement": "For every m with |m|<n the twiddle computation evaluates sine and cosine only on [0, pi/4] and returns cos and sin of 2 pi m/n.", "quantifier": "all n>0 and -n<m<=n", "why_tests_cant": "all (m,n)", "anchors": ["kernel/trig.c:real_cexp"]}
{"id": "C14", "title": "Square-root-size twiddle tables equal direct evaluation", "statement": "The two-level table returns the same root of unity as direct evaluation and never indexes outside its tables.", "quantifier": "all n>0, all -n<=m<n", "why_tests_cant": "all (m,n)", "anchors": ["kernel/trig.c:choose_twshft,cexpl_sqrtn_table,rotate_sqrtn_table,mktriggen"]}
{"id": "C15", "title": "Shared twiddle tables stay valid while in use", "statement": "Along any history of waking and sleeping plans, each awake plan holds a live table whose contents are those its program asks for, and a table is freed exactly when its last user sleeps.", "quantifier": "all histories of plan creation, execution and destruction", "why_tests_cant": "all interleavings of plan lifetimes", "anchors": ["kernel/twiddle.c:mktwiddle,twiddle_destroy,lookup,compute", "kernel/rader.c"]}
{"id": "C16", "title": "Wisdom storage behaves as an abstract set with subsumption", "statement": "After any history of insertions, the wisdom table returns an entry for a problem signature and flags iff a stored entry subsumes it, among those the least patient-demanding, and an insertion removes exactly the entries it subsumes.", "quantifier": "all operation histories and signatures", "why_tests_cant": "hash collisions and growth depend on history", "anchors": ["kernel/planner.c:htab_lookup,htab_insert,hinsert0,rehash,hgrow"]}
{"id": "C17", "title": "The wisdom table is never full and probing terminates", "statement": "The table always keeps a non-live slot, its size is prime, and every probe loop visits each slot at most once and finds a free slot when one is needed.", "quantifier": "all operation histories", "why_tests_cant": "all histories", "anchors": ["kernel/planner.c:hgrow,minsz,nextsz,addmod,h1,h2"]}
{"id": "C18", "title": "forget_wisdom forgets everything and only wisdom", "statement": "After fftw_forget_wisdom no lookup succeeds and export writes no entries; discarding temporary knowledge after planning keeps all saved wisdom.", "quantifier": "all states", "why_tests_cant": "all histories", "anchors": ["kernel/planner.c:forget", "api/forget-wisdom.c", "api/apiplan.c:mkapiplan"]}
{"id": "C19", "title": "Wisdom export/import round trip", "statement": "Importing exported wisdom into an identically configured, wisdom-free library succeeds, also through a C string or a file read in pieces of any size; afterwards every wisdom lookup succeeds iff it did in the exporting library, and finds one of the exporting library's facts that answers the question and that no other of its answering facts beats. If no fact makes another superfluous, the facts are exactly the same. (Among incomparable best answers the choice depends on the probe order and may differ.)", "quantifier": "all wisdom tables", "why_tests_cant": "all table contents", "anchors": ["kernel/planner.c:exprt,imprt", "kernel/print.c", "kernel/scan.c", "api/import-wisdom-from-file.c", "api/export-wisdom-to-file.c"]}
{"id": "C20", "title": "A failed import changes nothing", "statement": "If fftw_import_wisdom* returns 0, saved wisdom is exactly what it was before the call, whatever the input bytes (for import_wisdom_from_filename: unless closing the file fails).", "quantifier": "all byte streams and all states", "why_tests_cant": "all malformed inputs", "anchors": ["kernel/planner.c:imprt", "api/import-wisdom-from-file.c", "api/import-system-wisdom.c"]}
{"id": "C21", "title": "Import refuses wisdom of another configuration", "statement": "Import succeeds only if the stream's header names this version and its signature equals this library's configuration signature; entries naming unknown solvers make it fail.", "quantifier": "all byte streams", "why_tests_cant": "all inputs", "anchors": ["kernel/planner.c:imprt,slookup,signature_of_configuration"]}
{"id": "C22", "title": "export_wisdom_to_string never overruns its buffer", "statement": "The string returned contains exactly the exported characters and a terminating NUL within the allocated size; export to a file writes the same characters despite its 256-byte buffering.", "quantifier": "all wisdom tables", "why_tests_cant": "length depends on contents", "anchors": ["api/export-wisdom-to-string.c", "api/mkprinter-str.c", "api/mkprinter-file.c"]}
{"id": "C23", "title": "Numbers survive printing and scanning", "statement": "Every unsigned value printed in decimal or hex and every int printed in decimal is read back as the same value, and the scanner stops exactly after it.", "quantifier": "all machine integers", "why_tests_cant": "2^64 values", "anchors": ["kernel/print.c:putint,putulong", "kernel/scan.c:getlong"]}
{"id": "C24", "title": "Problem signatures are MD5 digests", "statement": "The signature of any byte sequence is its RFC 1321 MD5 digest, for any machine word width of at least 32 bits.", "quantifier": "all byte sequences shorter than 2^29 bytes", "why_tests_cant": "all messages", "anchors": ["kernel/md5.c", "kernel/md5-1.c"]}
{"id": "C25", "title": "API flags always map to a consistent planner state", "statement": "For any 32-bit flag word, the derived lower flag set is contained in the upper one, no bits are lost, and (PRESERVE,DESTROY)/(EXHAUSTIVE,PATIENT,ESTIMATE) obey the documented truth tables.", "quantifier": "all 2^32 flag words", "why_tests_cant": "2^32 combinations of interacting rules", "anchors": ["api/mapflags.c:mapflags,map_flags"]}
{"id": "C26", "title": "The time-limit encoding is monotone and in range", "statement": "A smaller time limit never maps to less impatience, and the code always fits its bit field.", "quantifier": "all real time limits", "why_tests_cant": "a continuum of values", "anchors": ["api/mapflags.c:timelimit_to_flags"]}
{"id": "C27", "title": "Plans live until their last reference is destroyed", "statement": "Along any history of copy_plan and destroy_plan that destroys each handle at most once, a plan's resources are released exactly once, when the last handle is destroyed.", "quantifier": "all histories", "why_tests_cant": "all histories", "anchors": ["api/apiplan.c:copy_plan,destroy_plan"]}
{"id": "C28", "title": "WISDOM_ONLY never searches", "statement": "With FFTW_WISDOM_ONLY a plan is returned only if wisdom for the problem is present, otherwise NULL, and NULL is answered without evaluating any alternative; the planner in wisdom-only mode never evaluates alternatives (only the second pass, which re-creates a plan that was found, may search, and only if the stored wisdom contradicts itself).", "quantifier": "all problems, all wisdom", "why_tests_cant": "all states", "anchors": ["api/apiplan.c:mkapiplan", "kernel/planner.c:mkplan"]}
{"id": "C29", "title": "Planning leaves planner settings unchanged", "statement": "Whatever happens during planning, the planner's flags and thread count seen by the next sub-plan are those before the call (only the time-limit code, irrelevant when estimating, is zeroed when estimating).", "quantifier": "all solvers and recursion patterns", "why_tests_cant": "all recursion trees", "anchors": ["kernel/planner.c:invoke_solver,mkplan_f_d"]}
{"id": "C30", "title": "Thread work partition is exact", "statement": "Splitting a loop over threads executes every iteration exactly once, with non-empty blocks and no more threads than requested. So it does with a parallel loop installed by fftw_threads_set_callback that calls work(jobdata + elsize*i) once for each i below njobs, in any order.", "quantifier": "all loop lengths and thread counts; all orders in which the user's loop calls the jobs", "why_tests_cant": "all pairs", "anchors": ["threads/threads.c:spawn_loop", "threads/openmp.c:spawn_loop", "doc/threads.texi"]}
{"id": "C31", "title": "The thread pool loses no work", "statement": "In every interleaving of master and workers, spawn_loop returns only after every block has run exactly once, and workers return to the idle pool.", "quantifier": "all interleavings", "why_tests_cant": "schedules cannot be enumerated", "anchors": ["threads/threads.c:worker,spawn_loop,get_worker,put_worker"]}
{"id": "C32", "title": "Copies and square transposes are exact", "statement": "Rank-2 copies (plain, tiled, buffered-tiled, pairwise) copy every element to its place; in-place square transposition transposes; tiling visits each element exactly once.", "quantifier": "all extents, strides and tile sizes", "why_tests_cant": "all shapes", "anchors": ["kernel/cpy1d.c", "kernel/cpy2d.c", "kernel/cpy2d-pair.c", "kernel/tile2d.c", "kernel/transpose.c"]}
{"id": "C33", "title": "In-place rectangular transposition is exact", "statement": "Non-square in-place transposition leaves the transposed matrix, for each of its three algorithms.", "quantifier": "all extents and tuple lengths", "why_tests_cant": "all shapes", "anchors": ["rdft/vrank3-transpose.c"]}
{"id": "C34", "title": "Real transforms agree with the complex DFT", "statement": "r2hc and r2c output is the half-complex form of the DFT of the real input and hc2r/c2r inverts it up to n.", "quantifier": "all sizes and inputs", "why_tests_cant": "all sizes", "anchors": ["rdft/generic.c", "rdft/hc2hc-generic.c", "rdft/rdft2-rdft.c", "rdft/dht-r2hc.c", "rdft/rdft-dht.c"]}
{"id": "C35", "title": "Trigonometric transforms compute their definitions", "statement": "Each REDFT/RODFT plan built on a real DFT computes its documented sum.", "quantifier": "all sizes and inputs", "why_tests_cant": "all sizes", "anchors": ["reodft/*.c"]}
{"id": "C36", "title": "The unnormalised r2r inverses", "statement": "Each r2r kind composed with its documented inverse kind is multiplication by the documented logical size.", "quantifier": "all sizes and inputs", "why_tests_cant": "all sizes", "anchors": ["reodft/*.c", "doc: r2r kinds", "api/map-r2r-kind.c"]}
{"id": "C37", "title": "MPI block distribution is a partition", "statement": "Block distribution assigns each index of a distributed dimension to exactly one process, with no process's block exceeding the block size.", "quantifier": "all sizes, block sizes and process counts", "why_tests_cant": "all triples", "anchors": ["mpi/block.c"]}
{"id": "C38", "title": "MPI pairwise exchange schedules agree", "statement": "At every step of the exchange schedule, partners agree on each other and each ordered pair of processes meets exactly once, also after the reordering applied for in-place safety.", "quantifier": "all process counts", "why_tests_cant": "all process counts", "anchors": ["mpi/transpose-pairwise.c:fill1_comm_sched,sort1_comm_sched"]}
{"id": "C39", "title": "Row-major and padded layouts", "statement": "The basic and advanced interfaces address element (i0,...,ik) at the documented row-major offset, with in-place real-data padding 2*(n/2+1).", "quantifier": "all ranks, extents and embeddings", "why_tests_cant": "all shapes", "anchors": ["api/mktensor-rowmajor.c", "api/rdft2-pad.c", "api/mktensor-iodims.h", "api/plan-many-dft.c"]}
{"id": "C40", "title": "Batch buffering covers every transform within its buffer", "statement": "The buffered algorithm processes every transform of the batch exactly once, and its buffer holds every row it stores.", "quantifier": "all sizes and batch lengths", "why_tests_cant": "all pairs", "anchors": ["kernel/buffered.c", "dft/buffered.c"]}
{"id": "C41", "title": "fftw_malloc alignment", "statement": "The portable allocator returns a correctly aligned block inside the raw allocation, large enough, with the original pointer recoverable for free.", "quantifier": "all sizes and raw addresses", "why_tests_cant": "all addresses", "anchors": ["kernel/kalloc.c:our_malloc,our_free"]}
{"id": "C42", "title": "The Cooley-Tukey identity at memory level", "statement": "Twiddle step followed or preceded by the strided sub-transforms computes the composite-size DFT, decimation in time and in frequency, for any factorisation; the same for real transforms on halfcomplex arrays and between real and half-complex-spectrum arrays, in both directions.", "quantifier": "all n=r*m, strides, batch", "why_tests_cant": "all factorisations", "anchors": ["dft/ct.c", "dft/dftw-generic.c", "dft/dftw-genericbuf.c", "dft/dftw-direct.c", "rdft/hc2hc.c", "rdft/hc2hc-generic.c", "rdft/hc2hc-direct.c", "rdft/ct-hc2c.c", "rdft/ct-hc2c-direct.c"]}
{"id": "C43", "title": "Rader's algorithm is exact for every prime size", "statement": "Permute, convolve with the omega table and un-permute gives the DFT of every prime size.", "quantifier": "all primes and inputs", "why_tests_cant": "all primes", "anchors": ["dft/rader.c:mkomega,apply"]}
{"id": "C44", "title": "Bluestein's algorithm is exact for every size", "statement": "Chirp multiplication and padded cyclic convolution gives the DFT of the requested size; the padded size is large enough and 2-3-5-smooth.", "quantifier": "all sizes and inputs", "why_tests_cant": "all sizes", "anchors": ["dft/bluestein.c"]}
{"id": "C45", "title": "The generic odd-size algorithm is exact", "statement": "The O(n^2) odd-size algorithm computes the DFT.", "quantifier": "all odd sizes and inputs", "why_tests_cant": "all sizes", "anchors": ["dft/generic.c"]}
{"id": "C46", "title": "Scanning wisdom never overruns the name buffer", "statement": "Whatever the input, reading a solver name stores at most its limit plus a NUL; reading a file never leaves the 256-byte buffer and delivers exactly the bytes of the file, then EOF, however fread splits it.", "quantifier": "all byte streams", "why_tests_cant": "all inputs", "anchors": ["kernel/scan.c:mygets", "kernel/planner.c:imprt", "api/import-wisdom-from-file.c:getchr_file"]}
{"id": "C47", "title": "The code generator's transforms are DFTs", "statement": "The algorithm trees the codelet generator emits (direct, Cooley-Tukey, split-radix, Rader, prime-factor) denote the DFT, and the functions it prints around them (complex codelets with and without twiddle factors, real-to-halfcomplex and halfcomplex-to-real codelets and their half-sample-shifted versions, cosine, sine and Hartley transforms) read and write exactly the places their contract says.", "quantifier": "all sizes and inputs", "why_tests_cant": "all sizes", "anchors": ["genfft/fft.ml", "genfft/gen_notw.ml", "genfft/gen_twiddle.ml", "genfft/gen_twidsq.ml", "genfft/gen_r2cf.ml", "genfft/gen_r2cb.ml", "genfft/twiddle.ml", "genfft/gen_hc2hc.ml", "genfft/gen_r2r.ml", "genfft/trig.ml", "genfft/gen_hc2c.ml", "genfft/gen_hc2cdft.ml"]}
{"id": "C48", "title": "The planner prunes correctly", "statement": "Among the applicable candidate plans it evaluated, the planner keeps one of minimal cost, and a failed search means every applicable solver at least as impatient as the limit failed.", "quantifier": "all solver lists, costs and time-outs", "why_tests_cant": "all cost assignments", "anchors": ["kernel/planner.c:search0,search"]}
{"id": "C49", "title": "In-place MPI exchange delivers every block", "statement": "When fftw_mpi_plan_many_transpose (and every MPI transform that transposes globally) exchanges blocks pairwise in place, following the schedule and using one block-sized bounce buffer per rank, then for every number of ranks and every block contents, every interleaving of the ranks' steps terminates without deadlock and leaves on each rank exactly the block addressed to it by every other rank: no block is overwritten before it was sent.", "quantifier": "every number of processes, every schedule-conforming interleaving of ranks, every block content", "why_tests_cant": "interleavings of ranks are not enumerable by a test; a wrong buffer order only corrupts data for particular relative speeds", "anchors": ["mpi/transpose-pairwise.c:transpose_chunks", "mpi/transpose-pairwise.c:fill1_comm_sched", "mpi/transpose-pairwise.c:mkplan"]}
{"id": "C50", "title": "Splitting a problem into smaller ones is exact", "statement": "Plans that loop over a batch dimension, split a multi-dimensional transform into lower-dimensional ones, copy or transpose before or after an in-place transform, or do nothing, compute the requested transform whenever their child plans do, and preserve the input when asked to.", "quantifier": "every rank, size, stride, batch, in-place or out-of-place layout, every memory, every correct child plan", "why_tests_cant": "the layouts and child plans are unbounded", "anchors": ["dft/vrank-geq1.c", "dft/rank-geq2.c", "dft/indirect.c", "dft/indirect-transpose.c", "dft/nop.c", "rdft/vrank-geq1.c", "rdft/rank-geq2.c", "rdft/indirect.c", "rdft/nop.c"]}
{"id": "C51", "title": "Complex DFTs from real transforms are exact", "statement": "A complex DFT executed as half-complex transforms of its real and imaginary parts followed by a combining pass yields the DFT, in place and out of place.", "quantifier": "every size, stride and input", "why_tests_cant": "all sizes and inputs", "anchors": ["rdft/dft-r2hc.c"]}
{"id": "C52", "title": "Solvers that run codelets are exact given correct codelets", "statement": "Whenever every codelet computes its fixed-size transform for the strides it declares itself applicable to, the plans that run codelets directly, through a buffer, with twiddle factors, or with a square transposition compute the DFT of the problem for any batch, stride and layout.", "quantifier": "every codelet meeting its contract, every problem, every batch size", "why_tests_cant": "all problems and layouts", "anchors": ["dft/direct.c", "dft/dftw-direct.c", "dft/dftw-directsq.c", "dft/ct.c", "rdft/direct-r2c.c", "rdft/direct2.c", "rdft/hc2hc-direct.c", "rdft/direct-r2r.c", "rdft/ct-hc2c-direct.c"]}
{"id": "C53", "title": "The r2r interface computes separable products of the documented transforms", "statement": "A plan returned by fftw_plan_r2r (any rank), fftw_plan_many_r2r or fftw_plan_guru(64)_r2r, executed with fftw_execute or fftw_execute_r2r, stores at the output places (computed from strides, distances and embeddings as documented) the multi-dimensional transform obtained by applying the documented one-dimensional transform of the given kind along each dimension, for every combination of kinds, sizes, strides and batches, and changes nothing else (nor the input, when it is to be preserved).", "quantifier": "all ranks, sizes, kinds, strides, batch layouts, flags, wisdom states, planner choices, memory contents and later arrays of the same shape", "why_tests_cant": "kinds, layouts and planner choices combine without bound; a wrong rare combination (in-place, strided, mixed kinds) escapes samples", "anchors": ["api/plan-many-r2r.c:plan_many_r2r", "api/plan-r2r.c:plan_r2r", "api/plan-guru-r2r.h:XGURU(r2r)", "api/map-r2r-kind.c:map_r2r_kind", "api/execute-r2r.c:execute_r2r", "rdft/problem.c:mkproblem_rdft"]}
{"id": "C54", "title": "Real-to-complex and complex-to-real plans compute the half of the Hermitian DFT", "statement": "A plan returned by fftw_plan_dft_r2c / fftw_plan_dft_c2r (any rank), fftw_plan_many_dft_r2c/_c2r or fftw_plan_guru(64)(_split)_dft_r2c/_c2r, executed with fftw_execute or the new-array functions, stores the first n/2+1 elements (last dimension) of the DFT of the real input, respectively the backward DFT of the Hermitian spectrum whose first half is the complex input, at the documented (padded, embedded, strided) places. It changes nothing else; r2c keeps its out-of-place input unless FFTW_DESTROY_INPUT is given, c2r if FFTW_PRESERVE_INPUT is given; c2r after r2c multiplies by the logical size.", "quantifier": "all ranks, sizes, strides, embeddings, batch layouts, in place or not, flags, wisdom states, planner choices, memory contents and later arrays of the same shape", "why_tests_cant": "sizes, layouts and planner choices combine without bound", "anchors": ["api/plan-many-dft-r2c.c", "api/plan-many-dft-c2r.c", "api/plan-guru-dft-r2c.h", "api/plan-guru-split-dft-c2r.h", "api/execute-dft-r2c.c", "rdft/problem2.c:mkproblem_rdft2", "rdft/rdft2-rdft.c", "rdft/rank-geq2-rdft2.c", "rdft/buffered2.c"]}
{"id": "C55", "title": "Threads do not change results", "statement": "A plan made after fftw_init_threads and fftw_plan_with_nthreads(n) computes the same transform and respects the same memory as a single-threaded plan, however the threads it starts are scheduled: the work is divided without gap or overlap, and no thread writes memory that another thread of the same execution reads or writes.", "quantifier": "all thread counts, problem shapes, layouts, planner choices, schedules and interleavings of memory accesses", "why_tests_cant": "races show only under particular schedules, and the division of the work depends on every combination of size and thread count", "anchors": ["threads/dft-vrank-geq1.c:mkplan,spawn_apply", "threads/rdft-vrank-geq1.c:mkplan,spawn_apply", "threads/vrank-geq1-rdft2.c:mkplan,spawn_apply", "threads/ct.c:mkplan,apply_dit,apply_dif", "threads/hc2hc.c:mkplan,apply_dit,apply_dif", "threads/api.c:init_threads", "threads/conf.c:threads_conf_standard"]}
{"id": "C56", "title": "Distributed transposition moves every element to its place", "statement": "A plan of fftw_mpi_plan_many_transpose, run by all processes of the communicator, leaves on process j/yblock, at the place prescribed by the layout flags, exactly the element that process i/xblock had for row i and column j; processes outside the communicator, memory outside the arrays and - if asked for - the input are not touched. This holds whichever of the pairwise, alltoall and recursive algorithms the planner picks, at every level of recursion, and for the serial plans each process picks on its own.", "quantifier": "all matrix sizes, tuple lengths, block sizes, numbers of processes, layout flags, in place or not, planner choices (MPI solvers at every recursion level, serial plans of each process), array contents", "why_tests_cant": "the result depends on every combination of sizes, blocks, process counts and algorithms, including recursion over groups of processes", "anchors": ["mpi/transpose-pairwise.c:mkplan,apply,transpose_chunks,mkplans_posttranspose", "mpi/transpose-alltoall.c:mkplan,apply", "mpi/transpose-recurse.c:mkplan,apply,enough_space,radix_sqrt,radix_first", "mpi/transpose-problem.c:mkproblem_transpose", "mpi/api.c:plan_many_transpose", "mpi/conf.c"]}
{"id": "C57", "title": "Distributed complex DFTs are right for every plan the MPI planner can make", "statement": "A plan for a distributed complex DFT, run by all processes of the communicator, leaves at every output index k, on the process and at the position which the layout of the output prescribes (row blocks, transposed rows, or the six-step layout of fftw_mpi_local_size_1d, scrambled or not), the sum over all inputs j, taken from the places the layout of the input prescribes, of x_j exp(-+2 pi i sum j_t k_t / n_t). Processes outside the communicator, memory outside the arrays and - if asked for - the input are not touched. This holds whichever of the serial, row-column, transposed, vector and six-step algorithms the planner picks at each level, and whatever serial plans each process picks.", "quantifier": "all ranks, sizes, block sizes, vector lengths, numbers of processes, both signs, TRANSPOSED_OUT and SCRAMBLED_IN/OUT flags, in place or not, all planner choices (MPI solvers at every level, serial plans of each process), array contents", "why_tests_cant": "the result depends on every combination of sizes, blocks, process counts, layouts and algorithms, nested several levels deep; testing needs a parallel machine and covers a few sizes", "anchors": ["mpi/dft-problem.c:mkproblem_dft", "mpi/dft-serial.c:mkplan,apply", "mpi/dft-rank-geq2.c:mkplan,apply", "mpi/dft-rank-geq2-transposed.c:mkplan,apply", "mpi/dft-rank1-bigvec.c:mkplan,apply", "mpi/dft-rank1.c:mkplan,apply_ddft_first,apply_ddft_last,do_twiddle", "mpi/rearrange.c", "mpi/choose-radix.c", "mpi/dtensor.c:dtensor_canonical", "mpi/block.c"]}
{"id": "C58", "title": "The MPI interface for complex DFTs: sizes, layouts and results agree", "statement": "A user who makes a distributed complex DFT with fftw_mpi_plan_guru_dft, fftw_mpi_plan_many_dft or fftw_mpi_plan_dft(_1d/_2d/_3d), allocates on every process the number of elements that the corresponding fftw_mpi_local_size function returns and stores the local part of the array (from local_start on, local_n elements in each dimension, row-major, transposed or scrambled if the flags say so), gets the transform distributed over the output arrays exactly as local_n and local_start of the output say; nothing outside the arrays is touched. The layout of the output of one transform is the layout of the input of the opposite one made with the flags exchanged (TRANSPOSED_OUT/IN, SCRAMBLED_OUT/IN), and doing both multiplies the array by its number of elements.", "quantifier": "all ranks, sizes (> 1), numbers of transforms, communicators, block sizes that distribute the first (transposed: the second) dimension, both signs, flags, in place or not, all planner choices, array contents", "why_tests_cant": "the layout is a function of all sizes and of the number of processes, and the sufficiency of the allocation must hold for whichever algorithm the planner picks", "anchors": ["mpi/api.c:default_sz,local_size,local_size_guru,local_size_many_transposed,local_size_many,local_size_many_1d,plan_guru_dft,plan_many_dft,plan_dft", "mpi/block.c:num_blocks_total,block_coords,is_block1d", "mpi/choose-radix.c", "mpi/dtensor.c:dtensor_canonical"]}
{"id": "C59", "title": "Processes that plan an MPI transform together stay in step", "statement": "When all processes of a communicator call fftw_mpi_plan_guru_dft (and so the other complex DFT planners) or fftw_mpi_plan_many_transpose with the same arguments, then - without a time limit, and planning for the same number of threads - planning never deadlocks by processes entering different collective operations: whatever wisdom each process has (different, stale, bogus or none), whatever times and costs it measures, and whatever serial plans it finds for its own data, all take the same decisions about the distributed problem. All processes or none get a plan, all get parts of one and the same distributed algorithm, and (with C56, C57, C58) executing it yields the transform of the distributed array; processes outside the communicator are not affected, and the processes are in a state in which the next planning stays in step again.", "quantifier": "all problems, planner flags, communicators, wisdom tables of each process, histories of earlier planning, clocks, cost estimates, serial solvers registered with each process, depths of recursion", "why_tests_cant": "that processes part ways depends on coincidences of timing, of different wisdom and of serial planning on different processes, and shows as a hang", "anchors": ["mpi/api.c:cost_hook,wisdom_ok_hook,nowisdom_hook,bogosity_hook,init,plan_guru_dft,plan_many_transpose", "mpi/any-true.c", "kernel/planner.c:mkplan,search,search0,evaluate_plan,invoke_solver,timeout_p,mkplan_f_d", "kernel/timer.c:measure_execution_time,elapsed_since", "api/apiplan.c:mkapiplan,mkplan,mkplan0", "mpi/transpose-pairwise.c", "mpi/transpose-alltoall.c", "mpi/transpose-recurse.c", "mpi/dft-serial.c", "mpi/dft-rank-geq2.c", "mpi/dft-rank-geq2-transposed.c", "mpi/dft-rank1-bigvec.c", "mpi/dft-rank1.c"]}
{"id": "C60", "title": "Collecting and distributing wisdom over MPI loses nothing and invents nothing", "statement": "When identically configured processes call fftw_mpi_gather_wisdom or fftw_mpi_broadcast_wisdom, the call neither hangs nor aborts. After gathering, the first process finds an answer in its wisdom to every question to which one of the processes had one; after broadcasting, every process finds an answer to every question to which it or the first process had one; after both, everybody to everything. No process ends up with a fact that none of the processes had saved, the wisdom tables stay well formed, and nothing but the saved wisdom of the processes involved changes (broadcasting changes nothing on the first process). If a process is configured differently (its solvers have another signature), broadcasting aborts the program instead of mixing up wisdom. (Saved time-outs that contradict plans saved elsewhere are excluded: there the newer record may win.)", "quantifier": "all communicators and numbers of processes, all wisdom tables of the processes, all questions (problem signatures, flags), all sets of registered solvers", "why_tests_cant": "the wisdom of a process is an arbitrary set of facts that supersede each other, and how it is merged depends on all of it and on the tree of processes", "anchors": ["mpi/wisdom-api.c:gather_wisdom,broadcast_wisdom", "api/export-wisdom-to-string.c", "api/import-wisdom-from-string.c", "kernel/planner.c:exprt,imprt,hlookup,hinsert"]}
{"id": "C61", "title": "The Fortran interface transforms Fortran arrays", "statement": "A Fortran program that declares arrays A(n1, ..., nd) and passes the extents in that order to dfftw_plan_dft, _many_dft, _dft_r2c, _dft_c2r, _r2r, _many_... (or nx, ny, nz to the 1d/2d/3d functions) gets the transform of its column-major arrays: element (k1, ..., kd) of the output, where Fortran stores it, is the sum over the elements of the input where Fortran stores them; each r2r kind acts along the dimension it was given for; in r2c and c2r transforms the first dimension of the complex array is n1/2+1, and the real array is padded in its first dimension if in place. The guru interface (complex, real-to-complex, complex-to-real, interleaved and split) takes dimensions and strides as they are, halving the dimension listed last, except that the kinds of plan_guru_r2r are reversed, as documented. Nothing but the output (and, where allowed, the input) changes. Wisdom that dfftw_export_wisdom passes to a Fortran routine character by character, and that another delivers to dfftw_import_wisdom, is imported with isuccess = 1 and is the wisdom exported; after isuccess = 0 nothing has changed.", "quantifier": "all ranks, extents, embeddings, strides, batches, kinds, flags, all sound solvers, any wisdom, any arrays of the same kind as those planned with", "why_tests_cant": "rank, extents and embeddings are unbounded, and exchanging dimensions is invisible for equal extents or kinds; that products of different one-dimensional transforms may be taken in the other order is an algebraic fact about all of them", "anchors": ["api/f77api.c:reverse_n,make_dims,ints2kinds", "api/f77funcs.h", "doc/legacy-fortran.texi"]}
{"id": "C62", "title": "Distributed real-to-real transforms", "statement": "If every process allocates as many real numbers as fftw_mpi_local_size_guru says, all call fftw_mpi_plan_guru_r2r for at least two dimensions and one kind per dimension, and the input array is distributed as the local sizes and offsets say (transposed if the flags say so), then after executing the plan the output is the product of the one-dimensional transforms of the kinds asked for, kind i along dimension i, distributed as the local sizes and offsets of the output say. Nothing else is changed on any process, and the input is kept if asked for. A second plan with the inverse kinds and the input and output layouts exchanged gives the original array back in its layout, times the product of the logical sizes.", "quantifier": "all ranks at least 2, sizes, block sizes, batches, numbers of processes, kinds, flags, in place or not, all sound serial plans and all choices of the planner, all arrays of the same kind as those planned with", "why_tests_cant": "sizes, process counts and plans are unbounded; kinds that are exchanged with the wrong dimension, blocks of uneven size and too small buffers show only for particular combinations", "anchors": ["mpi/rdft-problem.c:mkproblem_rdft", "mpi/rdft-serial.c", "mpi/rdft-rank-geq2.c:applicable,mkplan,apply", "mpi/rdft-rank-geq2-transposed.c:applicable,mkplan,apply", "mpi/rdft-rank1-bigvec.c:applicable,mkplan,apply", "mpi/api.c:plan_guru_r2r"]}
{"id": "C63", "title": "Planning with FFTW_ESTIMATE leaves the arrays alone", "statement": "Planning with FFTW_ESTIMATE in the flags never runs a plan, so the input and output arrays are not touched, even if wisdom created with other flags is used, whether or not a plan is found. Planning with FFTW_WISDOM_ONLY that returns no plan has not touched them either, whatever the other flags.", "quantifier": "all problems, flags, time limits, wisdom (also inconsistent), states of the planner, answers of the clock and of hooks, and sets of solvers that do not drop the flag for their children, in particular all those of the library", "why_tests_cant": "which sub-plans are searched for, with which flags, depends on the wisdom loaded and on the nesting of solvers; one path on which the flag is lost overwrites the user's data", "anchors": ["kernel/planner.c:evaluate_plan,mkplan,search,X(mkplan_f_d)", "kernel/timer.c:X(measure_execution_time)", "api/apiplan.c:X(mkapiplan),mkplan,force_estimator", "api/mapflags.c"]}
