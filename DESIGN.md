# Formal model of anishida/lis in Lean 4

## Method

The C code is modelled function by function as total Lean functions over
`Option`: `none` is *undefined behaviour* (an access outside an allocated
array), `some` is a normal return.  Memory blocks are `Arr α` (a size and a total content
function); every read and write in the models goes through the bounds-checked
`rd`/`wr`.  `malloc` returns a block of the requested size with *arbitrary*
contents: the contents are a parameter (`junk`) of the model function and the
theorems are stated for every such parameter.  A C `for(i=lo;i<hi;i++)` loop is
`loop lo hi`.  Error codes are ordinary return values.

Theorems have the form "if the input is well formed then the call returns
`some r` (hence no out-of-bounds access) and r satisfies the specification".
Specifications are written with entry functions (`entry A i j`) and
Mathlib `Finset` sums, not with the model's helpers.

Scalars: kernels that only move data use an arbitrary type; kernels
that compute use an arbitrary commutative ring / field (with a star operation for
conjugation).  Control-flow contracts of solvers use arbitrary operations without any law,
so they hold for IEEE arithmetic as well.

## Trusted base

* Lean 4.33.0's kernel and the three standard axioms `propext`, `Classical.choice`, `Quot.sound`
  (nothing else; `vcheck` audits every theorem).  Mathlib theorems are re-checked by the kernel.
* The reading of the C code: every definition in `Verif/Model/` cites the file and lines it models;
  nothing is extracted automatically.
* Assumptions built into the model, everywhere:
  - `malloc`/`realloc` succeed (the `LIS_OUT_OF_MEMORY` branches are not modelled unless said so);
  - `LIS_INT` does not overflow (indices and sizes are unbounded `Nat`/`Int`);
  - scalar arithmetic is exact arithmetic of a semiring/ring/field, except where a theorem is
    stated for arbitrary operations ("law-free"), which then covers IEEE doubles, complex and quad;
  - arrays passed by the caller do not alias unless a model says so;
  - reading an uninitialised element is not UB but yields an arbitrary value (`junk`), and theorems
    hold for every such value;
  - the serial code path (`#ifndef _OPENMP`, `#ifndef USE_MPI`) unless a module says otherwise.

## Layers of the model

* `Base/` – the C-level monad (`Option`, `Arr`, `loop`, `loopDown`, `loopB`, `whileL`), its Hoare-style rules (`Ok`), list
  and sum lemmas.
* `Spec/` – what things *mean*, with no reference to the model's functions: entry functions and well-formedness of the
  storage formats, products, triangular systems, sorting, solver contracts, the documented convergence conditions,
  Matrix Market files, memory histories, distributed matrices.
* `Model/` – the code, function by function, each definition citing file and lines.
* `Lemmas/` – invariants.
* `Props/` – the theorems named in MANIFEST.json, with `example`s showing that the hypotheses are met, and the findings
  (statements a user would expect that are *false* of the code, proved as negative theorems with concrete witnesses).

Solvers are modelled twice: as programs (`Prog`, `EProg`) over the library's vector calls, interpreted once
mathematically (`run`) and once on arrays (`exec`); `Prog.exec_refines` proves the second refines the first for every
program, and `Prog.dexec`/`mpi_solver` does the same for the message-passing execution on `P` ranks.

Message passing (`Model/Proc.lean`): ranks are trees of sends and grouped receives, channels are FIFO queues between pairs
of ranks, a configuration steps by letting any one rank move. `AllSchedules` quantifies over all step sequences. Confluence
of the step relation (`Net.step_comm`) reduces it to one schedule. `MPI_Isend`+`MPI_Irecv`+`MPI_Waitall` groups,
`MPI_Alltoall` and `MPI_Allreduce` are modelled with sends that never block; message matching by tag is by order on the
channel (all messages of the code use the same tag per phase).

## Plan and state per property

| id | what is modelled | how it is proved |
|----|------------------|------------------|
| C01-C03 | `lis_matrix_set_value(s)`, `lis_matrix_malloc`, `*_malloc_rco/_realloc_rco` as a state machine over row buffers (`Model/Assembly`) | refinement to a finite map, invariant over operation sequences; OOB histories as negative theorems |
| C04 | `lis_matrix_convert_rco2csr/csc/bsr` (`Model/Assembly`, `Model/Blocks`) | loop invariants; entries of result = abstract map |
| C05-C07 | every kernel in `src/matvec`, serial branch (`Model/Matvec1-3`, `Model/MatvecSplit`); the formats whose split branch departs from the product are stated as such | loop invariants, `Finset` sums, any semiring (`StarRing` for `matvech`) |
| C08-C09 | `lis_matrix_convert_csr2*`/`*2csr` (`Model/Convert1`, `Model/Convert2`, `Model/ConvertVbr`, `Model/Blocks`; padding rule in `Spec/Padded`) | loop invariants on prefix-sum pointers; emission lists (`Base/Lists3`) for what each loop writes; entry preservation by summing the lists; DIA/VBR use the sorting theorem of C14 |
| C42 | `lis_matrix_convert` (`Model/Convert`, `Spec/AnyMat`) | case analysis over formats, composing C08/C09; `Distinct` (no position stored twice) is carried through the temporary CSR matrix (`Lemmas/Convert3`) |
| C43 | `lis_solver_create/destroy/work_destroy`, `lis_solve`, `lis_solve_setup`, `lis_solve_kernel` reduced to allocation and release (`Model/Lifetime`: heap = multiset of live blocks; every failure is an input) | simulation: an invariant relates handle and heap to the account `Life` (`Spec/Lifetime`); induction over the calls (`Props/Lifetime`); consequences and findings in `Props/LifetimeUse` |
| C44 | `lis_cg`/`lis_cocg` as in C01 with exact inner products and products (`Spec/CgExact`: `Spd`, `Kit.Exact`, `energy`) | invariant: residuals are M-orthogonal and directions A-conjugate (`CgSeq`, `Lemmas/CgExact`), so at most n are nonzero; energy decreases by alpha*rho each step; transferred to arrays by the refinement of C23 (`Props/CgExact`, `Props/CgArray`) |
| C45 | Jacobi, Gauss-Seidel, SOR runs of C26 on CSR arrays over the reals (`Spec/Converge`: `StrictDom`, `DomGuarantee`, `EnergyGuarantee`) | dominance: contraction of the error in the maximum norm (strong induction over the rows); SPD: each sweep loses at least a fixed amount of energy while the residual is above the tolerance (Ostrowski-Reich) (`Lemmas/Converge`, `Props/Converge`, `Props/ConvergeCsr`) |
| C46 | `lis_cr`/`lis_cocr` as in C01 with exact inner products and products | CR for (A, M) is shown to be CG for (A M A, A⁻¹): the code's alpha and beta equal the CG ones, then `CgSeq` of C44 applies (`Lemmas/CrExact`, `Props/CrExact`, `Props/CrArray`) |
| C47 | `lis_array_cgs/mgs/qr`, `lis_array_nrm2` (`Model/GramSchmidt`), `Spec/GramSchmidt` | invariants over the columns (`CgsInv`, `MgsInv`): orthonormality, factored columns, projected rest; full rank from the smallest singular value because every projected column is A x with x_m = 1; QR step as orthogonal similarity, induction over iterations (`Lemmas/GramSchmidt*`, `Lemmas/QrAlg`). Findings: order 1 reads a[1] out of bounds; a zero first column gives the zero matrix reported as converged; only the element (1,0) is tested. Complex scalars not modelled (the code does not conjugate) |
| C48 | scalar double-double macros as assignment sequences (`Model/Quad`), floating-point numbers and rounding to nearest (`Spec/Fp`, any p, emin, tie rule; no overflow, NaN) | grid lemmas (`OnGrid`, `Lemmas/Fp`), Knuth/Dekker exactness (`Lemmas/TwoSum`), Veltkamp splitting and Dekker product (`Lemmas/TwoProd`), error bounds (`Lemmas/Quad*`); `rne` (`Spec/FpRound`) is proved to be an instance and runs the examples. Findings: `LIS_QUAD_ADD` without USE_FAST_QUAD_ADD counts a carry twice (aliased arguments), scalar `LIS_QUAD_SQRT` loses its correction (swapped operands), `HAS_FMA` product has the wrong sign. SSE2 macros not modelled |
| C49 | double-double vector kernels and `lis_matvec_csr_mp` (`Model/QuadVec`, serial scalar paths, macro arguments aliased as in the code) | closed forms of the multiply-adds by unfolding, one-step error bound (`fma_bound`), running-sum invariant `AccInv` (`Lemmas/QuadVec`), loop invariants over rows |
| C50 | `lis_psolve_is`, `lis_psolveh_is`, `lis_precon_create_is_csr` (`Model/PreconIs`, serial; the final `lis_matrix_merge_csr` is the C10 model) | list view of rows (`ksum`, `keysOf`: distinct columns in order of first appearance), counting pass = number of keys, filling pass = `rowAcc`, then sums by columns. Findings: wrong on unscaled matrices, NULL `solver->b`, dependence on storage order |
| C51 | `lis_psolve_adds`, `lis_psolveh_adds` (`Model/Adds`, serial, inner preconditioner and product as parameters; `Spec/Adds`) | loop invariant: `X` is the k-th refinement iterate and `R` its residual; matrix algebra for the closed form, the residual, the adjoint; positive definiteness for even `adds_iter` from 2N = M + EMEᵀ + Σ F M Fᵀ; composed with C44 (`cg_adds_spd`). Finding: default `adds_iter=1` is not SPD |
| C52 | the solver programs of `Model/Solver*`, `Gmres`, `Minres`, `Tfqmr`, `Bicgstabl`, `Idrs`, `Stationary` | a definedness calculus on programs (`Prog.Clean post p V`: started with the vectors in `V` known, `p` reads only known vectors), proved sound once against the semantics, then checked by rules for each solver, with loop invariants giving the set of known vectors; for BiCGSafe/BiCRSafe a semantic version with rules for zero factors. Findings: GPBiCG/GPBiCR and the NaN cases |
| C53 | `lis_psolve_hybrid`, `lis_psolveh_hybrid`, the option assignments of `lis_precon_create_hybrid` (`Model/Hybrid`, serial double precision; allocation and error paths not modelled) | `psolveHybrid` threads the inner solver's state; C52 + refinement give `MapsVecP` (a stateful preconditioner computing a function); a second refinement theorem `Prog.execP_refines` for outer runs with a stateful preconditioner; composed with C22-C25. Findings: psolveh, omega, status, GPBiCG |
| C54 | The two global tables of `psolve` functions, `lis_precon_create`, and the table writes of the ILU(k), (I+S), ILUC and ILUT creators; hybrids and additive Schwarz as nested objects (`Model/Dispatch`; what the creators compute is abstracted to the kind of data they build and whether they fail) | `createAt_spec`: frame of the tables for one call, induction over nesting and over the history; `precon_applied`, `preconh_applied`; findings as theorems over all histories (`user_precon_never_applied`, `iluc_after_bsr`, `hybrid_adds_undefined`) or witnesses |
| C55 | `lis_precon_create_sainv_csr`, `lis_psolve(h)_sainv`, `lis_matvec(h)_ilu`, growing rows (`Model/Sainv`, serial, double precision, malloc succeeds; `fabs`, `_max` and the drop test are parameters); algorithm of the source comment in `Spec/Sainv` | loop invariants: marks `ww` = inverse of the row's index list, lists `il`, `iu` without repetition (counting gives the bound), row contents as sums (`coef`); refinement to `biconj`; biconjugacy by induction over steps, hence W A Zᵀ diagonal; W = Z for symmetric matrices and unit triangular, hence SPD; composed with C44. Findings: order < 10, complex |
| C56 | `lis_precon_create_ilut_csr`, `lis_psolve(h)_ilut_csr` (`Model/Ilut`, serial, double precision, real scalars for the creation, malloc succeeds; `lfil` is a parameter); specification `Spec/Ilut` | invariant of one row: `iw` is the inverse of `jbuf` on the columns not eliminated, eliminated columns in increasing order, counting bounds `lenl`, `lenu`; value invariant `A(i,·) = Σ multipliers·U + current + dropped`; truncation from the sorting theorems (C31). Findings: keeps the smallest elements, `D` not conjugated, duplicates |
| C57 | `lis_ecr`, `lis_egcr`, `lis_ecg`, `lis_egcg` over abstract calls (`Model/EsolverCg`), the 3×3 Rayleigh-Ritz iteration on real arrays; specification `Spec/EsolverCg` (one step of each iteration on points) | refinement of the program to iterates of the step (history, stop, result); exact: invariant `r = λBx - Ax`, `λ` minimizes the residual norm, `α` minimizes along `p`, hence monotone; eigenvalue enclosure from the spectral theorem. Findings: `lis_egcg` returns its start vector; `lis_ecr` 0/0 on an eigenvector; `A` left shifted on errors. Noted only: `emaxiter = 0` tests an uninitialised residual; `lis_solver_get_timeex` after `lis_solver_destroy`; the inner 3×3 stop test of `lis_ecg` uses `z - μB₃v` where `z = A₃⁻¹B₃v` (for an eigenvector `z` is parallel to `v`, not to `B₃v`) |
| C58 | option tables, `lis_esolver_set_option(2)`, `lis_esolver_init`, `lis_esolve`, `lis_gesolve`, `lis_esolver_get_rhistory` (`Model/EsolverDriver`; the selected solver is an arbitrary function `exec`); specification `Spec/EsolverDriver` (the option list of the manual, accepted arguments) | table lookup by enumeration, induction over the pairs; exact characterisation of acceptance (`gesolveCheck_iff`) and of the out-of-bounds and silent cases. Storage conversion (`-estorage`), printing not modelled |
| C59 | `lis_esolver_create/destroy/work_destroy`, `lis_gesolve` reduced to allocation and release (`Model/EsolverLife`, heap of `Model/Lifetime`; every failure is an input; `lis_vector_destroy` ignores blocks not in use) | simulation: invariant `EMemInv` relates handle and heap to the account `ELife` (`Spec/EsolverLife`), induction over the calls; consequences and findings as instances (`Props/EsolverLife`). Simplification: a failing allocation leaves the registry intact (C32: it does not) |
| C60 | `lis_eli`, `lis_eai` as programs over the vector machine (`Model/Lanczos`, `Model/Arnoldi`); `lis_array_qr` from `Model/GramSchmidt`; the inner eigensolver is an arbitrary function | bounds and shape by invariant over the passes in any arithmetic; three-term recurrence invariant `LiCore` over ℝ, then `LanczosBasis` (`Spec/Lanczos`), residual bound by the spectral theorem; trace for the Ritz sum; `aiHess_breaks`, `aiRitz_defined` by induction on defined runs |
| C61 | `lis_esi` as a program over the eigensolver calls (`Model/EsolverSi`); the iteration of a mode as a function (`Spec/EsolverSi`) | the program equals the iteration by invariants over iterations and modes in any arithmetic (`lisEsi_spec`); residual bounds over ℝ by contraction of the orthogonalization and the spectral theorem; deviations as theorems |
| C62 | `lis_input_vector`, `lis_output_vector` and the functions behind them, files as lists of lines of words (`Model/VecIO`); what a file lists (`Spec/VecIO`) | reading loops by invariants over the lines; round trips by composing the writer with the reader's theorem, numbers printed and scanned exactly being a hypothesis on the printer |
| C63 | `lis_matrix_axpy/xpay/axpyz` (dense, split or not), `lis_matrix_shift_matrix` on top of the conversions (`Model/MatOps`) | loop invariants; the shift by composing the conversion theorems of C09; the ignored shift by what `lis_matrix_set_*` does to an assembled matrix; its effect on `lis_egpi`/`lis_egii` by relating two runs step by step |
| C64 | `lis_egsi` as a program over the eigensolver calls (`Model/EsolverGsi`), the iteration of a mode (`Spec/EsolverGsi`) | invariants of the loops over iterations and modes, without laws of arithmetic; then real arithmetic for the residual equations; findings as theorems |
| C65 | `lis_input_hb.c` character by character: columns, `strncpy`, `strchr`, `atoi`, `%14d`, the buffer with its old contents (`Model/InputHb`); `atof` is a parameter; what a file says (`Spec/InputHb`) | parsing lemmas, induction over fields and lines, then the conversion theorems; refusals for every prefix of a file; findings as theorems |
| C66 | `lis_matrix_split_bsr`, `lis_matrix_diag_{copy,inverse,matvec,matvech}`, block Jacobi (`Model/DiagBlock`); block diagonal, minors (`Spec/BlockJacobi`) | invariant of the filling pass per triangle; C21's inverse on every block through offset pointers; padding rows as identity rows (Laplace expansion); findings as theorems |
| C67 | `lis_matrix_solve_bsr`, `lis_matrix_solveh_bsr`, `lis_matrix_diag_scale` (blocks), SSOR on BSR (`Model/SolveBsr`, `Model/SolvehBsr`); block triangular systems (`Spec/BlockTri`) | one statement per block row covering the unrolled sizes 1–3 and the general one; sweep invariants (gather: rows done solve their equations; scatter: rows done and the right sides still to be updated); padding rows and columns cut off; missing `conj` as theorems over Gaussian integers |
| C68 | `lis_matrix_solve_csc`, `lis_matrix_solveh_csc`, `lis_matrix_solve_msr`, `lis_matrix_solveh_msr` (`Model/SolveCscMsr`; systems in `Spec/Tri`) | the CSC loops are the CSR loops of the transposed matrix (for the conjugated gather: of the conjugated arrays), the MSR loops those of a CSR structure with shifted pointers; then C14; wrong order of two MSR solves as theorems |
| C69 | `lis_matrix_solve_dns`, `lis_matrix_solveh_dns`, `lis_matrix_solve_ell`, `lis_matrix_solveh_ell` (`Model/SolveDnsEll`; systems in `Spec/Tri`) | `Props/TriSweep`: sweeps over any storage from the effect of one row, strictness required of the matrix only (so padding slots are allowed); the scattering sweeps are those of C67 with blocks of size 1 |
| C70 | `lis_matrix_solve_dia`, `lis_matrix_solveh_dia` (`Model/SolveDia`, signed subscripts checked at each access; systems in `Spec/Tri`) | the sweeps of `Props/TriSweep`; for the offsets that occur the one-sided guards say exactly that the column exists |
| C71 | `lis_matrix_solve_jad`, `lis_matrix_solveh_jad` (`Model/SolveJad`) | the `while` along a row as a least fixed point; induction over the jagged diagonals shows that it is a `for` over the elements of a short row and leaves `ptr` for a longest row; the numerical result (with a longer `ptr`) is not proved |
| C72 | `lis_matrix_split_bsc`, `lis_matrix_solve_bsc`, SSOR creation and `lis_psolve_ssor` with BSC (`Model/SolveBsc`) | the C text equals the BSR functions up to names (checked with diff), so the model runs them on the BSC arrays; the theorems of C67 are carried over by reading block columns as block rows (`blockTr`); not covered: order not a multiple of the block size (SSOR), `lis_matrix_solveh_bsc` |
| C10 | `lis_matrix_split_csr`, `lis_matrix_merge_csr` (`Model/CsrOps`) | entry preservation, strictness of L/U |
| C11-C13 | `get_diagonal`, `shift_diagonal`, `scale`, `scale_symm` for CSR, split and unsplit (`Model/CsrOps`), and for every other format, unsplit (`Model/AnyOps`, statements over `Spec/AnyMat` and `Spec/DiagOps`) | element-wise invariants; for the other formats the positions a scan visits are a set of pairs (row, place) on which each place occurs once (`Lemmas/AnyDiag*`); scaling as a pointwise update of the value array. Split matrices of the other formats not modelled. |
| C14 | `lis_matrix_solve_csr`, `lis_matrix_solveh_csr` | triangular recurrence, field |
| C15-C16 | `src/system/lis_sort.c` (`Model/Sort`) | total correctness: termination, permutation, sortedness |
| C17 | `LIS_GET_ISIE` and `lis_ranges_create` (`Model/Ranges`) | arithmetic |
| C18-C19 | `src/vector` (`Model/Vector`) | element-wise loop rules; reductions for every thread count and schedule |
| C20-C21 | `src/array/lis_array.c` (`Model/Array`) | loop vs. unrolled branch; Gauss elimination invariant |
| C22-C25 | 22 Krylov solvers (`Model/Solver`, `Model/Solver2`, `Model/Idrs`, `Model/Tfqmr`, `Model/Bicgstabl`, `Model/Gmres`, `Model/Minres`, `Model/Krylov`) | law-free control contract; ring-level residual invariant; documented condition over ℝ |
| C26 | Jacobi, Gauss-Seidel, SOR (`Model/Stationary`) | sweep equation, fixed points, contract |
| C27 | `lis_psolve`/`psolveh` of Jacobi and SSOR (`Model/Precon`) | apply = inverse of the represented operator |
| C28 | `src/precon/lis_precon_iluk.c` (CSR, serial) | `Model/Ilu`: work arrays `jbuf`,`levls`,`iw`,`jw` and ragged rows, function by function; `Spec/Ilu`: inductive level-of-fill, `(I+L)(D+U)`. Proof: invariant `iw` is the inverse of `jbuf` on the used positions (gives the buffer bounds by counting), pivots sorted, levels sound and complete by induction on the fill path; numerical phase by a working-row refinement. BSR/VBR block ILU and the per-thread OpenMP variant not modelled (one OpenMP finding). |
| C29-C30, C40 | `lis_text2args`, `lis_solver_set_option(2)`, the checks of `lis_solve` (`Model/Args`, `Model/Options`) | list semantics of text; overflow witness |
| C31 | `lis_hash.c` (`Model/Hash`) | refinement to a map |
| C32 | `lis_memory.c` (`Model/Memory`) | invariant over malloc/free histories against an arbitrary correct allocator |
| C33, C41 | `lis_input_mm.c`, `lis_output_mm.c` (`Model/MMIO`) | parse, then entries; write-read round trip |
| C34 | `lis_matrix_g2l_csr`, `lis_commtable_create`, `lis_send_recv`, `lis_reduce`, `lis_matvec(h)`, the solvers on P ranks (`Model/Proc`, `Model/Mpi`, `Model/MpiSolver`) | message-level model, all schedules |
| C35 | `Model/Omp`: threads over shared memory, one step per access, barriers; matvec/matvech CSR, split CSR, CSC, MSR, DNS, matvec ELL, element-wise vector operations | ownership of cells (`always_of_wp`): threads that write only their own cells and read only their own or unwritten ones give one result; barriers compose (`ompParallel_bar`); races of swap, BSC, DIA as explicit executions |
| C36 | `lis_bswap*` (`Model/Bswap`) | involution on bytes |
| C37 | `lis_solve_kernel` scaling logic (`Model/SolveScale`) | state machine over histories, witnesses |
| C38 | power, inverse, Rayleigh quotient eigensolvers, standard and generalized (`Model/Esolver`) | law-free contract; exact residual relations |
| C39 | registered preconditioners in `lis_solver_set_option` (`Model/Options`) | list semantics |

## Not modelled

Fortran interfaces; matrix input from Lis' own file formats, complex Harwell-Boeing files, binary Matrix Market; the SSE2 versions of the quad
(double-double) arithmetic; multiprecision solvers; SAAMG, Crout ILU (ILUC) preconditioners; the generalized Lanczos and Arnoldi eigensolvers, the refinement loop of Arnoldi; timing, printing and debugging output; the
triangular solves of the formats other than CSR, CSC, MSR, BSR, DNS, ELL and DIA (JAD: only the memory accesses along a row); diagonals with variable block sizes (VBR) apart from their application; `lis_matrix_*` operations on distributed matrices other than CSR products.
