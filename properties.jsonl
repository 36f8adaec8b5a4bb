{"id": "C01", "title": "Assembly by set_value behaves like a finite map", "statement": "After any sequence of lis_matrix_set_value calls on a fresh serial matrix, each entry (i,j) holds exactly what a map would hold: LIS_INS_VALUE overwrites, any other flag adds to the stored value (or stores the value if none was stored), entries never mentioned are absent, and no (i,j) is stored twice.", "quantifier": "every sequence of set_value calls, every matrix size, every initial row capacity > 0, every scalar type", "why_tests_cant": "the buffers are grown on the fly and searched linearly; a test samples a few orders and sizes, the claim is about every call history", "anchors": ["src/matrix/lis_matrix.c:lis_matrix_set_value", "src/matrix/lis_matrix_rco.c:lis_matrix_malloc_rco", "src/matrix/lis_matrix_rco.c:lis_matrix_realloc_rco"]}
{"id": "C02", "title": "set_value rejects bad indices without effect", "statement": "lis_matrix_set_value with an index outside the matrix (after subtracting the origin) returns LIS_ERR_ILL_ARG and leaves the matrix unchanged; with indices inside it returns LIS_SUCCESS.", "quantifier": "every matrix state reachable by set_value calls, every pair of (possibly negative) indices, both index origins", "why_tests_cant": "the guard must hold in every state and for every integer index", "anchors": ["src/matrix/lis_matrix.c:lis_matrix_set_value"]}
{"id": "C03", "title": "Assembly never leaves its buffers", "statement": "No sequence of lis_matrix_set_value calls writes or reads outside the row buffers, provided the row growth increment is positive and the sizes are not changed mid-assembly; with increment 0 (lis_matrix_malloc(A,0,NULL)) or a lis_matrix_malloc call in the middle of assembly an out-of-bounds write is reachable.", "quantifier": "every call history, every size, every capacity", "why_tests_cant": "memory safety over histories; the bad histories need particular lengths to hit", "anchors": ["src/matrix/lis_matrix.c:lis_matrix_set_value", "src/matrix/lis_matrix.c:lis_matrix_malloc"]}
{"id": "C04", "title": "Assembling to CSR, CSC or BSR keeps every entry", "statement": "lis_matrix_assemble turns the assembled entries into CSR, CSC or BSR arrays that represent exactly the same matrix, and the arrays are well formed (monotone pointers, indices in range).", "quantifier": "every reachable assembly state, every size, every block size", "why_tests_cant": "all sparsity patterns", "anchors": ["src/matrix/lis_matrix_rco.c:lis_matrix_convert_rco2csr", "src/matrix/lis_matrix_rco.c:lis_matrix_convert_rco2csc", "src/matrix/lis_matrix_rco.c:lis_matrix_convert_rco2bsr"]}
{"id": "C05", "title": "lis_matvec computes A*x in CSR", "statement": "For every well-formed CSR matrix (split or not) and every vector x, lis_matvec reads and writes only inside its arrays and sets y_i to the sum over j of A(i,j)*x_j.", "quantifier": "every size, pattern, values in any commutative ring, every previous content of y", "why_tests_cant": "unbounded family of matrices", "anchors": ["src/matvec/lis_matvec_csr.c:lis_matvec_csr"]}
{"id": "C06", "title": "lis_matvec agrees across storage formats", "statement": "For every well-formed matrix, split or not, in CSC, MSR, DIA, ELL, JAD, BSR, BSC, VBR, COO and DNS format, lis_matvec sets y_i (i<n) to the sum over j of A(i,j)*x_j, never touches memory outside the arrays and leaves y beyond n (beyond the padded length for block formats) unchanged. Two exceptions are part of the claim and proved as such: on a split VBR matrix the diagonal blocks are applied transposed (so the product is right exactly for symmetric diagonal blocks), and the unrolled BSR kernels write up to the padded length, out of bounds of an unpadded y.", "quantifier": "every well-formed matrix in each format, split or unsplit, every x, every previous y", "why_tests_cant": "each format has its own loops and padding rules; agreement must hold on all patterns", "anchors": ["src/matvec/lis_matvec_csc.c", "src/matvec/lis_matvec_msr.c", "src/matvec/lis_matvec_dia.c", "src/matvec/lis_matvec_ell.c", "src/matvec/lis_matvec_jad.c", "src/matvec/lis_matvec_bsr.c", "src/matvec/lis_matvec_bsc.c", "src/matvec/lis_matvec_vbr.c", "src/matvec/lis_matvec_coo.c", "src/matvec/lis_matvec_dns.c"]}
{"id": "C07", "title": "lis_matvech computes the conjugate-transpose product", "statement": "For every well-formed matrix, split or not, in every format lis_matvech sets y_j to the sum over i of conj(A(i,j))*x_i. The exceptions are part of the claim and proved as such: unsplit COO does not conjugate (right for real scalars and for the plain transpose), split CSR is out of bounds when there are more local columns than rows, split BSC computes a different product, and serial split VBR applies the diagonal blocks unconjugated and untransposed (right for Hermitian blocks).", "quantifier": "every well-formed matrix in each format, split or unsplit, every x, every previous y", "why_tests_cant": "unbounded family of matrices", "anchors": ["src/matvec/lis_matvec_csr.c:lis_matvech_csr", "src/matvec/lis_matvec_csc.c:lis_matvech_csc", "src/matvec/lis_matvec_coo.c:lis_matvech_coo", "src/matvec/lis_matvec_dns.c:lis_matvech_dns", "src/matvec/lis_matvec_bsr.c:lis_matvech_bsr", "src/matvec/lis_matvec_bsc.c:lis_matvech_bsc", "src/matvec/lis_matvec_vbr.c:lis_matvech_vbr", "src/matvec/lis_matvec_msr.c:lis_matvech_msr", "src/matvec/lis_matvec_dia.c:lis_matvech_dia", "src/matvec/lis_matvec_ell.c:lis_matvech_ell", "src/matvec/lis_matvec_jad.c:lis_matvech_jad"]}
{"id": "C08", "title": "Converting from CSR keeps the matrix", "statement": "lis_matrix_convert from CSR to each of CSC, MSR, DIA, ELL, JAD, BSR, BSC, VBR, COO, DNS gives a well-formed matrix with the same entries, without touching memory outside its buffers and independently of what malloc returned in them, when no position is stored twice (needed by DNS, MSR, DIA, BSR, BSC, VBR), every row stores its diagonal (MSR), the matrix is not empty (DIA), blocks are square (BSC), and for VBR the user gives a partition or the last column is not empty. In each excepted case the code really goes wrong, and how is part of the property.", "quantifier": "every well-formed CSR matrix (every pattern), every content of fresh memory", "why_tests_cant": "counting, prefix-sum and scatter loops must be right for all patterns, including empty rows and missing diagonals", "anchors": ["src/matrix/lis_matrix_csc.c:lis_matrix_convert_csr2csc", "src/matrix/lis_matrix_msr.c:lis_matrix_convert_csr2msr", "src/matrix/lis_matrix_dia.c:lis_matrix_convert_csr2dia", "src/matrix/lis_matrix_ell.c:lis_matrix_convert_csr2ell", "src/matrix/lis_matrix_jad.c:lis_matrix_convert_csr2jad", "src/matrix/lis_matrix_bsr.c:lis_matrix_convert_csr2bsr", "src/matrix/lis_matrix_coo.c:lis_matrix_convert_csr2coo", "src/matrix/lis_matrix_dns.c:lis_matrix_convert_csr2dns", "src/matrix/lis_matrix_bsc.c:lis_matrix_convert_csc2bsc", "src/matrix/lis_matrix_vbr.c:lis_matrix_convert_csr2vbr"]}
{"id": "C09", "title": "Converting back to CSR keeps the matrix", "statement": "lis_matrix_convert from each format to CSR gives a well-formed CSR matrix with the same entries (explicit zeros may be dropped), for matrices whose block padding is zero (BSR, BSC) and whose announced number of elements covers the stored ones (MSR).", "quantifier": "every well-formed matrix in each format, every content of fresh memory", "why_tests_cant": "same as C08, in the other direction", "anchors": ["src/matrix/lis_matrix_csc.c:lis_matrix_convert_csc2csr", "src/matrix/lis_matrix_msr.c:lis_matrix_convert_msr2csr", "src/matrix/lis_matrix_dia.c:lis_matrix_convert_dia2csr", "src/matrix/lis_matrix_ell.c:lis_matrix_convert_ell2csr", "src/matrix/lis_matrix_jad.c:lis_matrix_convert_jad2csr", "src/matrix/lis_matrix_bsr.c:lis_matrix_convert_bsr2csr", "src/matrix/lis_matrix_coo.c:lis_matrix_convert_coo2csr", "src/matrix/lis_matrix_dns.c:lis_matrix_convert_dns2csr", "src/matrix/lis_matrix_bsc.c:lis_matrix_convert_bsc2csr", "src/matrix/lis_matrix_vbr.c:lis_matrix_convert_vbr2csr"]}
{"id": "C10", "title": "Splitting into D+L+U and merging back keep the matrix", "statement": "If every row stores exactly one diagonal element, lis_matrix_split of a CSR matrix produces a strictly lower L, a strictly upper U and a diagonal D with L+D+U = A, and lis_matrix_merge rebuilds a matrix equal to L+D+U, whatever malloc returned. A row that stores no diagonal element leaves its D uninitialised, so L+D+U differs from A there.", "quantifier": "every well-formed matrix, every pattern (including rows without a stored diagonal)", "why_tests_cant": "all patterns", "anchors": ["src/matrix/lis_matrix_csr.c:lis_matrix_split_csr", "src/matrix/lis_matrix_csr.c:lis_matrix_merge_csr"]}
{"id": "C11", "title": "get_diagonal returns the diagonal", "statement": "lis_matrix_get_diagonal stores A(i,i) in d_i for every row whose diagonal has a place in the storage. Where it has none, CSR, CSC, MSR, ELL and DNS store 0 and JAD, BSR, BSC, VBR and COO leave d_i untouched; a DIA matrix without main diagonal makes the call read outside the array.", "quantifier": "every well-formed matrix in each of the eleven formats without duplicate positions (square blocks for BSR/BSC, equal blocks for VBR), every content of d", "why_tests_cant": "all patterns", "anchors": ["src/matrix/lis_matrix_csr.c:lis_matrix_get_diagonal_csr", "src/matrix/lis_matrix_ops.c:lis_matrix_get_diagonal", "src/matrix/lis_matrix_csc.c:lis_matrix_get_diagonal_csc", "src/matrix/lis_matrix_msr.c:lis_matrix_get_diagonal_msr", "src/matrix/lis_matrix_dia.c:lis_matrix_get_diagonal_dia", "src/matrix/lis_matrix_ell.c:lis_matrix_get_diagonal_ell", "src/matrix/lis_matrix_jad.c:lis_matrix_get_diagonal_jad", "src/matrix/lis_matrix_bsr.c:lis_matrix_get_diagonal_bsr", "src/matrix/lis_matrix_bsc.c:lis_matrix_get_diagonal_bsc", "src/matrix/lis_matrix_vbr.c:lis_matrix_get_diagonal_vbr", "src/matrix/lis_matrix_coo.c:lis_matrix_get_diagonal_coo", "src/matrix/lis_matrix_dns.c:lis_matrix_get_diagonal_dns"]}
{"id": "C12", "title": "shift_diagonal subtracts sigma on the diagonal", "statement": "lis_matrix_shift_diagonal(A,sigma) turns A into A - sigma*I when every row stores its diagonal; a row that does not store one is silently left unshifted.", "quantifier": "every well-formed matrix in each of the eleven formats, every sigma", "why_tests_cant": "the failing inputs are exactly the rows with no stored diagonal, which tests built from diagonally dominant examples never have", "anchors": ["src/matrix/lis_matrix_csr.c:lis_matrix_shift_diagonal_csr", "src/matrix/lis_matrix_ops.c:lis_matrix_shift_diagonal", "src/matrix/lis_matrix_csc.c:lis_matrix_shift_diagonal_csc", "src/matrix/lis_matrix_msr.c:lis_matrix_shift_diagonal_msr", "src/matrix/lis_matrix_dia.c:lis_matrix_shift_diagonal_dia", "src/matrix/lis_matrix_ell.c:lis_matrix_shift_diagonal_ell", "src/matrix/lis_matrix_jad.c:lis_matrix_shift_diagonal_jad", "src/matrix/lis_matrix_bsr.c:lis_matrix_shift_diagonal_bsr", "src/matrix/lis_matrix_bsc.c:lis_matrix_shift_diagonal_bsc", "src/matrix/lis_matrix_vbr.c:lis_matrix_shift_diagonal_vbr", "src/matrix/lis_matrix_coo.c:lis_matrix_shift_diagonal_coo", "src/matrix/lis_matrix_dns.c:lis_matrix_shift_diagonal_dns"]}
{"id": "C13", "title": "Scaling multiplies the system consistently", "statement": "lis_matrix_scale turns A x = b into D A x = D b (Jacobi) or D A D y = D b (symmetric), so solutions of the scaled system are solutions of the original one. This fails for BSC (both) and COO (symmetric): there the call multiplies by other factors.", "quantifier": "every matrix with nonzero (positive) diagonal, every b, each storage format", "why_tests_cant": "algebraic identity over all inputs", "anchors": ["src/matrix/lis_matrix_ops.c:lis_matrix_scale", "src/matrix/lis_matrix_csr.c:lis_matrix_scale_csr", "src/matrix/lis_matrix_csr.c:lis_matrix_scale_symm_csr", "src/matrix/lis_matrix_csc.c:lis_matrix_scale_csc", "src/matrix/lis_matrix_msr.c:lis_matrix_scale_msr", "src/matrix/lis_matrix_dia.c:lis_matrix_scale_dia", "src/matrix/lis_matrix_ell.c:lis_matrix_scale_ell", "src/matrix/lis_matrix_jad.c:lis_matrix_scale_jad", "src/matrix/lis_matrix_bsr.c:lis_matrix_scale_bsr", "src/matrix/lis_matrix_bsc.c:lis_matrix_scale_bsc", "src/matrix/lis_matrix_vbr.c:lis_matrix_scale_vbr", "src/matrix/lis_matrix_coo.c:lis_matrix_scale_coo", "src/matrix/lis_matrix_dns.c:lis_matrix_scale_dns"]}
{"id": "C14", "title": "Triangular solves satisfy their equation", "statement": "lis_matrix_solve with LIS_MATRIX_LOWER / UPPER / SSOR on a split CSR matrix returns x with (D+L)x=b, (D+U)x=b, or (D+L)D^-1(D+U)x=b, where D is the inverse of the working diagonal supplied; lis_matrix_solveh solves the conjugate transposed systems; x and b may be the same vector. UPPER reads outside x when the matrix has columns beyond its rows.", "quantifier": "every split matrix with invertible diagonal, every b, also when b and x are the same vector", "why_tests_cant": "all sizes and patterns", "anchors": ["src/matrix/lis_matrix_csr.c:lis_matrix_solve_csr", "src/matrix/lis_matrix_csr.c:lis_matrix_solveh_csr"]}
{"id": "C15", "title": "The sorts sort and carry their companions along", "statement": "lis_sort_i/ii/id/iid/iiid and the descending lis_sortr_ii terminate, stay inside [is,ie], leave the range ordered, permute the companion arrays by the same permutation, and change nothing outside the range.", "quantifier": "every array content and every range", "why_tests_cant": "Hoare partitioning has no sentinel tests; termination and bounds depend on all inputs", "anchors": ["src/system/lis_sort.c:lis_sort_i", "src/system/lis_sort.c:lis_sort_id", "src/system/lis_sort.c:lis_sort_iid", "src/system/lis_sort.c:lis_sortr_ii"]}
{"id": "C16", "title": "lis_sort_jad is a stable counting sort by row length", "statement": "lis_sort_jad orders rows by decreasing length, returns a permutation of the row range, keeps rows of equal length in order, and stays in bounds.", "quantifier": "every length array with entries at most maxnzr", "why_tests_cant": "all inputs", "anchors": ["src/system/lis_sort.c:lis_sort_jad"]}
{"id": "C17", "title": "Row ranges partition the rows", "statement": "The block distribution used for MPI ranks and OpenMP threads gives contiguous, disjoint ranges that cover exactly [0,n), whose sizes differ by at most one; user-given local sizes are placed consecutively.", "quantifier": "every n and every number of ranks/threads", "why_tests_cant": "all pairs (n, nprocs)", "anchors": ["include/lis.h:LIS_GET_ISIE", "src/system/lis_init.c:lis_ranges_create"]}
{"id": "C18", "title": "Vector operations are element-wise and reductions are sums", "statement": "lis_vector_axpy, xpay, axpyz, scale, pmul, pdiv, copy, swap, set_all, shift, dot, nhdot, sum, nrm1, nrm2, nrmi compute the documented expression over the n local elements and change nothing else; result does not depend on the number of threads (in exact arithmetic).", "quantifier": "every length, every content, every thread count and schedule", "why_tests_cant": "parallel reductions over all schedules", "anchors": ["src/vector/lis_vector_opv.c", "src/vector/lis_vector_ops.c"]}
{"id": "C19", "title": "Vector element access", "statement": "lis_vector_set_value/set_values/get_value/get_values behave like a bounded map: a get returns the last set/added value; out-of-range indices are rejected.", "quantifier": "every call history, both origins", "why_tests_cant": "histories", "anchors": ["src/vector/lis_vector.c:lis_vector_set_value", "src/vector/lis_vector.c:lis_vector_set_values", "src/vector/lis_vector.c:lis_vector_get_value"]}
{"id": "C20", "title": "Small dense kernels agree with their general loop", "statement": "lis_array_matvec, matvech, matmat compute (op)A*x, A^H*x, A*B for every n; the unrolled cases n=1,2,3 give the same value as the general formula.", "quantifier": "every n, every op, every content", "why_tests_cant": "the unrolled cases have hand-written indices", "anchors": ["src/array/lis_array.c:lis_array_matvec", "src/array/lis_array.c:lis_array_matvech", "src/array/lis_array.c:lis_array_matmat"]}
{"id": "C21", "title": "lis_array_solve and lis_array_ge invert", "statement": "If no zero pivot occurs, lis_array_solve returns x with A x = b and lis_array_ge overwrites A with its inverse.", "quantifier": "every n, every matrix over a field whose elimination pivots are nonzero", "why_tests_cant": "in-place elimination for all n", "anchors": ["src/array/lis_array.c:lis_array_ge", "src/array/lis_array.c:lis_array_solve"]}
{"id": "C22", "title": "CG status contract", "statement": "lis_cg returns LIS_SUCCESS only with a reported residual not exceeding the tolerance; LIS_MAXITER only after exactly maxiter iterations none of which met the tolerance; LIS_BREAKDOWN only when <p,Ap> = 0; it always terminates and never writes past the residual history. The reported iteration count on LIS_MAXITER is maxiter+1.", "quantifier": "every matrix, preconditioner, right-hand side, initial guess, option setting, and every arithmetic (no algebraic law assumed, so IEEE doubles included)", "why_tests_cant": "control flow over all floating-point behaviours", "anchors": ["src/solver/lis_solver_cg.c:lis_cg", "src/solver/lis_solver.c:lis_solver_get_initial_residual"]}
{"id": "C23", "title": "CG's recurrence residual is the true residual", "statement": "In exact arithmetic the vector r kept by lis_cg equals b - A x after every iteration, for every linear A and every preconditioner, so a reported converged residual is the residual of the returned x.", "quantifier": "every linear operator, every iteration count", "why_tests_cant": "induction over unbounded iterations", "anchors": ["src/solver/lis_solver_cg.c:lis_cg"]}
{"id": "C24", "title": "Convergence test matches the documented condition", "statement": "For conv_cond nrm2_r, nrm2_b and nrm1_b the tests made by the solvers correspond to ||r|| <= tol*||r0||, ||r|| <= tol*||b||, ||r||_1 <= tol_w*||b||_1 + tol.", "quantifier": "every residual, right-hand side and tolerance", "why_tests_cant": "all real inputs, including zero right-hand sides", "anchors": ["src/solver/lis_solver.c:lis_solver_get_initial_residual", "src/solver/lis_solver.c:lis_solver_get_residual_nrm2_r", "src/solver/lis_solver.c:lis_solver_get_residual_nrm1_b"]}
{"id": "C25", "title": "The other Krylov solvers keep the same contract", "statement": "The other Krylov solvers (COCG, CR, COCR, BiCG, BiCR, CGS, CRS, BiCGSTAB, BiCRSTAB, GPBiCG, BiCGSafe, GPBiCR, BiCRSafe, Orthomin(m), IDR(s), IDR(1), BiCGSTAB(l), GMRES(m), FGMRES(m), MINRES, TFQMR): the return status, iteration count and residual history obey the same kind of contract as C22, and in exact arithmetic the residual reported is the residual of the x returned, as C23. Exceptions, each with a counterexample: TFQMR (reports a quasi-residual), BiCGSTAB(l) with a nonzero initial guess and at LIS_MAXITER, GMRES with nrm1_b or a singular A M^-1; FGMRES reports the absolute residual; MINRES reports the preconditioned residual relative to the initial one.", "quantifier": "every linear system, every iteration", "why_tests_cant": "induction over unbounded iterations", "anchors": ["src/solver/lis_solver_bicg.c", "src/solver/lis_solver_cgs.c", "src/solver/lis_solver_bicgstab.c", "src/solver/lis_solver_gpbicg.c", "src/solver/lis_solver_orthomin.c", "src/solver/lis_solver_idrs.c", "src/solver/lis_solver_qmr.c", "src/solver/lis_solver_bicgstabl.c", "src/solver/lis_solver_gmres.c", "src/solver/lis_solver_minres.c"]}
{"id": "C26", "title": "Stationary solvers", "statement": "One sweep of the Jacobi, Gauss-Seidel and SOR solvers is x <- x + M^-1(b - A x) with M = D, D+L, (D+wL)/w; a fixed point of the sweep solves A x = b.", "quantifier": "every split matrix with invertible diagonal", "why_tests_cant": "algebra over all inputs", "anchors": ["src/solver/lis_solver_jacobi.c", "src/solver/lis_solver_gs.c", "src/solver/lis_solver_sor.c"]}
{"id": "C27", "title": "Jacobi and SSOR preconditioners apply their inverse", "statement": "lis_psolve with Jacobi returns D^-1 r; with SSOR returns z with (D/w+L)(D/w)^-1(D/w+U)z = r (as coded).", "quantifier": "every split matrix with invertible diagonal, every r", "why_tests_cant": "all sizes and patterns", "anchors": ["src/precon/lis_precon_jacobi.c", "src/precon/lis_precon_ssor.c"]}
{"id": "C28", "title": "ILU(p) preconditioner: pattern, factors and solve", "statement": "For a CSR matrix without duplicate entries, creating the ILU preconditioner with -ilu_fill p stays inside its buffers and gives factors L, D, U whose pattern is exactly the set of positions with level of fill <= p (the pattern of A for p=0), with (I+L)(D+U) = A on that pattern and on the diagonal when no pivot is zero; lis_psolve returns z with (I+L)(D+U) z = r and lis_psolveh the solution of the conjugate-transposed system; if p covers all fill, lis_psolve solves A z = r.", "quantifier": "every CSR pattern and values without duplicates, every fill level, every vector, every content of fresh memory", "why_tests_cant": "the interleaving of selection of pivots and fill insertion in shared work arrays must be right for every pattern and every fill level", "anchors": ["src/precon/lis_precon_iluk.c:lis_symbolic_fact_csr", "src/precon/lis_precon_iluk.c:lis_numerical_fact_csr", "src/precon/lis_precon_iluk.c:lis_psolve_iluk_csr", "src/precon/lis_precon_iluk.c:lis_psolveh_iluk_csr"]}
{"id": "C29", "title": "Option strings: later options win, unknown ones are ignored", "statement": "lis_solver_set_option parses a whitespace-separated option text into name/value pairs (case-insensitively); applying it equals applying the pairs left to right; unknown names change nothing; for the same option the last occurrence wins.", "quantifier": "every option text shorter than the 1024-byte buffer", "why_tests_cant": "all strings", "anchors": ["src/system/lis_init.c:lis_text2args", "src/solver/lis_solver.c:lis_solver_set_option", "src/solver/lis_solver.c:lis_solver_set_option2"]}
{"id": "C30", "title": "Option text longer than the buffer overflows it", "statement": "lis_text2args copies its text into a 1024-byte array. Texts of at most 1022 characters are parsed within the array (into their words, lower-cased, taken two at a time); texts of 1024 or more characters overflow it; some texts of exactly 1023 characters make the parser read one byte past its end.", "quantifier": "every text length", "why_tests_cant": "boundary over all lengths", "anchors": ["src/system/lis_init.c:lis_text2args"]}
{"id": "C31", "title": "Hash table behaves like a map", "statement": "After any sequence of lis_hashtable_set_value, lis_hashtable_get_value returns the value of the most recent insertion for the index, 0 (absent) otherwise.", "quantifier": "every history of insertions", "why_tests_cant": "histories with collisions", "anchors": ["src/system/lis_hash.c"]}
{"id": "C32", "title": "Tracked memory: blocks, membership, no leak, no double free", "statement": "After any history of lis_malloc/lis_calloc/lis_realloc/lis_free in which the user frees and reallocates only blocks it holds and the C allocator does not fail: no call is undefined; the blocks are 16-byte aligned, disjoint, inside their raw blocks; lis_is_malloc answers exactly membership; contents survive the other calls, calloc gives zeros; the C allocator holds exactly one raw block per user block. Exceptions: lis_realloc to a size smaller by more than 16 bytes copies out of bounds; lis_free_all returns no memory; a failed allocation hides every later block.", "quantifier": "every history of lis_malloc/lis_calloc/lis_realloc/lis_free calls", "why_tests_cant": "histories", "anchors": ["src/system/lis_memory.c"]}
{"id": "C33", "title": "Matrix Market input builds the matrix of the file", "statement": "Reading a coordinate Matrix Market stream gives the CSR matrix whose entries are those listed (mirrored for symmetric files), on every process for its own rows, whatever the entries, comments and letter case of the banner; every access is in bounds whatever the lines contain; truncated or non-square files are rejected; array files are stored by columns. (Found: Hermitian files are read conjugated, indices are not range-checked, over-long or short banners overflow or read uninitialised buffers, a truncated right-hand side frees a block twice, complex x lines are ignored.)", "quantifier": "every file (list of lines), row range, structure and number type", "why_tests_cant": "all files", "anchors": ["src/system/lis_input_mm.c:lis_input_mm", "src/system/lis_input_mm.c:lis_input_mm_csr", "src/system/lis_input_mm.c:lis_input_mm_dns", "src/system/lis_input_mm.c:lis_input_mm_vec", "src/system/lis_input_mm.c:lis_input_mm_banner"]}
{"id": "C34", "title": "Distributed products and solvers equal the serial ones", "statement": "After lis_matrix_assemble on P ranks (local numbering, communication table), lis_matvec gives on each rank its rows of the global product A x and lis_matvech its elements of A^H x, with no deadlock, no access outside an array and no message left over; consequently every iterative solver run on P ranks returns on all ranks the same status, iteration count and residual as the serial one on the whole matrix, and the ranks together hold the serial x. Exception: on a rank that needs no remote element lis_matvec reads one element of a zero-size block.", "quantifier": "every partition of the rows (empty ranks included), every sparsity pattern, every number of ranks, every schedule of ranks and messages, every solver program", "why_tests_cant": "all partitions and schedules", "anchors": ["src/matrix/lis_matrix_mpi.c:lis_matrix_g2l_csr", "src/matrix/lis_matrix_mpi.c:lis_commtable_create", "src/matrix/lis_matrix_mpi.c:lis_send_recv", "src/matrix/lis_matrix_mpi.c:lis_reduce", "src/matvec/lis_matvec.c:lis_matvec", "src/vector/lis_vector_ops.c:lis_vector_dot"]}
{"id": "C35", "title": "Threaded kernels do not depend on the schedule", "statement": "The threaded kernels give, in every interleaving of the threads' memory accesses and for every distribution of the iterations, a terminating, defined execution with one result: lis_matvec for CSR (split or not) and MSR, lis_matvech for CSC and the element-wise vector operations give exactly what the serial code gives (no law of arithmetic used); the buffered products (lis_matvech for CSR, split CSR and MSR, lis_matvec for CSC) and the row-split ones (lis_matvec for DNS and ELL, lis_matvech for DNS, with a full team) give the product in exact arithmetic. lis_vector_swap, lis_matvec for BSC and lis_matvech for DIA do not have the property.", "quantifier": "every matrix, team size, assignment of iterations to threads, interleaving of single accesses, initial buffer contents", "why_tests_cant": "all schedules", "anchors": ["src/matvec/lis_matvec_csr.c:lis_matvec_csr,lis_matvech_csr", "src/matvec/lis_matvec_csc.c", "src/matvec/lis_matvec_msr.c", "src/matvec/lis_matvec_dns.c", "src/matvec/lis_matvec_ell.c", "src/vector/lis_vector_opv.c", "src/matvec/lis_matvec_bsc.c:lis_matvec_bsc", "src/matvec/lis_matvec_dia.c:lis_matvech_dia"]}
{"id": "C36", "title": "Byte swapping is an involution", "statement": "lis_bswap_int, lis_bswap_double reverse the bytes of each element; applying them twice restores the buffer.", "quantifier": "every buffer", "why_tests_cant": "all byte contents", "anchors": ["src/system/lis_sort.c:lis_bswap_int", "src/system/lis_sort.c:lis_bswap_double"]}
{"id": "C37", "title": "Repeated solves with scaling", "statement": "In every history of stores, scale resets and lis_solve calls with one solver object of fixed settings in which matrix and right-hand side of each solve are either both as the program stored them with the matrix unmarked, or the matrix is marked and scaled and the right-hand side is unmarked and as stored or marked and scaled, each lis_solve works on consistently scaled data and returns a solution of the system the program stored. Exceptions, proved as such: a right-hand side scaled for an already scaled matrix is not marked, so a second solve with it scales it twice; a second solver object scales by an uninitialised vector; values stored in a marked vector are not scaled; preconditioned stationary solvers do not scale later right-hand sides.", "quantifier": "every history of operations, every scalable matrix, every right-hand side, every linear solver that solves what it is given", "why_tests_cant": "histories", "anchors": ["src/solver/lis_solver.c:lis_solve_kernel", "src/matrix/lis_matrix_ops.c:lis_matrix_scale"]}
{"id": "C38", "title": "Eigensolver iteration contract", "statement": "The power, inverse and Rayleigh quotient eigensolvers (standard and generalized) return LIS_SUCCESS only if the residual of their last iteration is at most the tolerance, LIS_MAXITER only after maxiter iterations none of which met it, and otherwise the error of the inner linear solver; iteration count, residual, eigenvalue and residual history reported are those of that iteration sequence. In exact arithmetic, on success the shifted matrix has been shifted back, and the reported residual determines ||A x - lambda x||: for power iteration that of the iterate before the vector returned, for inverse iteration that of the pair returned (given an accurate inner solve), for Rayleigh iteration relative to the last change of lambda.", "quantifier": "every matrix, every arithmetic (control flow); every real matrix and start vector (residual)", "why_tests_cant": "control flow over all arithmetic behaviours", "anchors": ["src/esolver/lis_esolver_pi.c", "src/esolver/lis_esolver_ii.c", "src/esolver/lis_esolver_rqi.c"]}
{"id": "C39", "title": "User-registered preconditioners cannot be selected", "statement": "Whatever preconditioners were registered with lis_precon_register, `-p name` with a registered name (that is no built-in name) is rejected by the option parser, and their numbers (12 and up) are rejected by lis_solve.", "quantifier": "every registry, name, number and solver state", "why_tests_cant": "all registries and names", "anchors": ["src/solver/lis_solver.c:lis_solver_set_option_precon", "src/solver/lis_solver.c:lis_solve", "src/precon/lis_precon.c:lis_precon_register"]}
{"id": "C40", "title": "lis_solve checks its settings", "statement": "For every content of the settings the checks of lis_solve access their tables in bounds, and the solution is started exactly when solver, preconditioner, iteration limit, convergence condition, precision, ell, restart and omega are in their documented ranges; otherwise LIS_ERR_ILL_ARG is returned. Exception: a convergence condition above 2 is not detected and the residual function table is read out of bounds.", "quantifier": "every settings array", "why_tests_cant": "all combinations of 27 integers and 15 reals", "anchors": ["src/solver/lis_solver.c:lis_solve", "src/solver/lis_solver.c:lis_solve_kernel", "src/solver/lis_solver.c:lis_solver_check_params"]}
{"id": "C41", "title": "Written files read back unchanged", "statement": "A matrix (and right-hand side) written by lis_output in Matrix Market format and read back by lis_input is the same matrix, element by element. (Found: the initial guess x is not: the file lists b in its place, and writing x without b dereferences a null pointer.)", "quantifier": "every well-formed CSR matrix and vectors", "why_tests_cant": "all matrices", "anchors": ["src/system/lis_output_mm.c:lis_output_mm_csr", "src/system/lis_output_mm.c:lis_output_mm_vec", "src/system/lis_input_mm.c:lis_input_mm"]}
{"id": "C42", "title": "lis_matrix_convert works between any two storage formats", "statement": "For every well-formed matrix A in any of the eleven storage formats and every target format t, lis_matrix_convert returns success, produces a well-formed matrix in format t with exactly the entries of A, and leaves A in its format with the same entries; it never reads or writes outside a buffer and does not depend on what malloc left in fresh memory. An unknown target gives LIS_ERR_NOT_IMPLEMENTED and no output. Converting there and back therefore preserves the matrix.", "quantifier": "every source matrix, every pair of formats, every block size or VBR partition, every content of fresh memory; A must meet the stated needs of the target (no position stored twice for DNS, MSR, DIA, BSR, BSC, VBR; nonzero diagonal for MSR; and so on)", "why_tests_cant": "121 pairs of formats times all matrices; the route through temporary CSR copies composes conversions that each make assumptions on the other's output", "anchors": ["src/matrix/lis_matrix_ops.c:lis_matrix_convert"]}
{"id": "C43", "title": "Who frees what over the life of a solver handle", "statement": "For every sequence of lis_solve and lis_solve_setup calls on one solver handle that all run to the end, creating the handle, making the calls and destroying it never frees a block twice and never uses a freed one, every call returns success, and afterwards exactly the memory in use before is in use, plus one block per call scaled by blocks and one per call with -use_at beyond the first. In general the outcome of any history, with any of the checks and allocations failing (a failing allocation is taken to leave the registry of blocks intact, which is not so, see C32), is given by a small account (one state of the history pointer, one counter of lost blocks). The account also shows the histories that go wrong: a failure after the history was released, following a completed solve, makes lis_solver_destroy free it twice; (MINRES hitting the limit destroys its work vectors, and lis_solve destroys them again: harmless, because lis_vector_destroy ignores blocks that are not in use); every call refused by the parameter checks leaks the preconditioner; after lis_solve_setup no lis_solve on the handle runs a solver although it returns success; and a history that cannot be allocated is reported as success.", "quantifier": "every finite history of calls, every combination of failing checks and allocations in each, every initial heap", "why_tests_cant": "allocation failures and mixed histories are not reachable from a unit test without fault injection, and there are infinitely many histories", "anchors": ["src/solver/lis_solver.c:lis_solver_create", "src/solver/lis_solver.c:lis_solver_destroy", "src/solver/lis_solver.c:lis_solver_work_destroy", "src/solver/lis_solver.c:lis_solve", "src/solver/lis_solver.c:lis_solve_setup", "src/solver/lis_solver.c:lis_solve_kernel", "src/solver/lis_solver_minres.c:lis_minres"]}
{"id": "C44", "title": "CG cannot fail on a symmetric positive definite system", "statement": "In exact arithmetic lis_solve with CG, on any symmetric positive definite matrix in any storage format, with no preconditioner, Jacobi, SSOR or any other symmetric positive definite preconditioner, any initial guess and any convergence condition, with maxiter at least n: it never reports a breakdown, returns LIS_SUCCESS after at most n iterations (or reports 1 if the initial guess is already good), the returned x meets the requested condition, and its error in the energy norm is never larger than that of the initial guess. For an indefinite matrix the breakdown can happen.", "quantifier": "every n, every SPD matrix and preconditioner, every right-hand side and initial guess, every iteration", "why_tests_cant": "the guarantee is about all matrices and depends on conjugacy of every pair of search directions over the whole run", "anchors": ["src/solver/lis_solver_cg.c:lis_cg", "src/solver/lis_solver_cg.c:lis_cocg", "src/precon/lis_precon_ssor.c:lis_psolve_ssor", "src/precon/lis_precon_jacobi.c:lis_psolve_jacobi"]}
{"id": "C45", "title": "The stationary solvers converge under the textbook conditions", "statement": "In exact arithmetic, for every strictly diagonally dominant matrix, Jacobi, Gauss-Seidel and SOR with 0 < omega <= 1 succeed for every nonzero right-hand side, every initial guess and every positive tolerance once maxiter is large enough, the largest error of a component is multiplied by at most a fixed factor below 1 in every iteration (success or not), and on success the error is at most tol*||b||_2 divided by the margin of dominance. For every symmetric positive definite matrix Gauss-Seidel and SOR with 0 < omega < 2 succeed likewise, and the energy norm of the error never grows. Without dominance Jacobi can hit maxiter however large it is.", "quantifier": "every n, every matrix of the class, every right-hand side, initial guess, tolerance, iteration limit", "why_tests_cant": "convergence is a statement about unboundedly many iterations and all matrices of a class", "anchors": ["src/solver/lis_solver_jacobi.c:lis_jacobi", "src/solver/lis_solver_gs.c:lis_gs", "src/solver/lis_solver_sor.c:lis_sor", "src/matrix/lis_matrix_csr.c:lis_matrix_solve_csr"]}
{"id": "C46", "title": "CR cannot fail on a symmetric positive definite system and never increases the residual", "statement": "In exact arithmetic lis_solve with CR, on any symmetric positive definite matrix in any storage format, with no preconditioner, Jacobi, SSOR or any other symmetric positive definite preconditioner M, any initial guess and any convergence condition, with maxiter at least n: it never reports a breakdown, returns LIS_SUCCESS after at most n iterations (or reports 1 if the initial guess is already good), the returned x meets the requested condition, and its residual in the norm of M (the Euclidean norm without preconditioner) is never larger than that of the initial guess. For an indefinite matrix the breakdown can happen.", "quantifier": "every n, every SPD matrix and preconditioner, every right-hand side and initial guess, every iteration", "why_tests_cant": "the guarantee is about all matrices and depends on orthogonality of all the vectors A p over the whole run", "anchors": ["src/solver/lis_solver_cg.c:lis_cr", "src/solver/lis_solver_cg.c:lis_cocr", "src/precon/lis_precon_ssor.c:lis_psolve_ssor", "src/precon/lis_precon_jacobi.c:lis_psolve_jacobi"]}
{"id": "C47", "title": "The dense QR helpers factor their matrix and the QR algorithm keeps the spectrum", "statement": "In exact real arithmetic, lis_array_cgs and lis_array_mgs on any n x n matrix stay within their arrays; if the smallest singular value of A is at least the tolerance 1e-12 they return Q with orthonormal columns, R upper triangular with positive diagonal and Q R = A. On any matrix lis_array_cgs factors the columns before the first one that depends (up to the tolerance) on the earlier ones, and lis_array_mgs returns Q R whose columns differ from those of A by less than the tolerance. lis_array_qr on such an A of order at least 2 returns in a a matrix orthogonally similar to A (same characteristic polynomial, still symmetric if A is), reports between 1 and maxiter iterations and the modulus of the element (1,0), which is below the tolerance unless maxiter was reached; for order 2 the diagonal then holds approximate eigenvalues. It must not read outside a (it does for order 1) and must not report convergence for a matrix it did not reduce (it does for singular and for reducible matrices).", "quantifier": "every order, every real matrix, every content of the output arrays, every number of iterations", "why_tests_cant": "orthogonality and similarity must hold for all matrices and iterations; the failures occur only on special matrices", "anchors": ["src/array/lis_array.c:lis_array_cgs", "src/array/lis_array.c:lis_array_mgs", "src/array/lis_array.c:lis_array_qr", "src/array/lis_array.c:lis_array_nrm2"]}
{"id": "C48", "title": "Quadruple-precision scalar arithmetic keeps about 106 bits", "statement": "With correctly rounded double operations (round to nearest, any rule for ties, no overflow): the sum and product transformations behind LIS_QUAD are error free (rounded result plus error term equals the exact result; the product needs operands that are not subnormal and a product that is not tiny). lis_quad_add and lis_quad_sub of two normalized pairs return a normalized pair within 6*2^-106 of the larger operand, for every pair of exponents; lis_quad_mul, lis_quad_mul_dd_d, lis_quad_sqr and lis_quad_div return a normalized pair with relative error at most 9, 3, 11 and 17 times 2^-106 when nothing underflows. (lis_quad_sqrt and the build without USE_FAST_QUAD_ADD do not have this accuracy: counterexamples.)", "quantifier": "every pair of normalized operands, every rounding to nearest, every precision (106 = 2p for double)", "why_tests_cant": "the error bounds must hold for all 2^212 operand pairs including ties and cancellations; sampling finds only typical errors", "anchors": ["include/lis_precision.h LIS_QUAD_TWO_SUM, LIS_QUAD_TWO_DIFF, LIS_QUAD_FAST_TWO_SUM, LIS_QUAD_SPLIT, LIS_QUAD_TWO_PROD, LIS_QUAD_TWO_SQR, LIS_QUAD_ADD, LIS_QUAD_MUL, LIS_QUAD_MULD, LIS_QUAD_SQR, LIS_QUAD_DIV, LIS_QUAD_SQRT", "src/precision/lis_precision.c lis_quad_add, lis_quad_sub, lis_quad_mul, lis_quad_mul_dd_d, lis_quad_sqr, lis_quad_div, lis_quad_sqrt"]}
{"id": "C49", "title": "Quadruple-precision vector operations and CSR products are accurate elementwise", "statement": "With correctly rounded double operations and no underflow in the products: the double-double axpy, axpyz, xpay, scale (by a pair or a double) and reciprocal stay within their arrays, leave elements beyond n unchanged and return normalized pairs whose error is at most 2^-106 times (6|y|+16|alpha x|), 9, 3 and 17 times the result respectively; the inner product, the sum of squares and every row of the CSR matrix-vector product (plain and split storage) have error at most 18 m 2^-106 times the sum of the moduli of their m terms. In-place use (y=y+alpha x, y=x+alpha y, x=alpha x, x=1/x) is included.", "quantifier": "every n (m up to 2^98), every matrix and vectors of normalized pairs, every rounding to nearest", "why_tests_cant": "error bounds over all operands and all lengths; aliasing of macro arguments must be harmless for all inputs", "anchors": ["src/precision/lis_precision_vec.c lis_vector_axpyex_mmm, lis_vector_axpyzex_mmmm, lis_vector_xpayex_mmm, lis_vector_dotex_mmm, lis_vector_nrm2ex_mm, lis_vector_scaleex_nm, lis_vector_scaleex_mm, lis_vector_reciprocalex_m", "src/precision/lis_precision_matvec.c lis_matvec_csr_mp", "include/lis_precision.h LIS_QUAD_FMA, LIS_QUAD_FMAD, LIS_QUAD_FSA"]}
{"id": "C50", "title": "The I+S preconditioner applies I - wS, and builds an equivalent system on a scaled matrix", "statement": "Preconditioning with -p is returns y = (I - w S) x, where w is -is_alpha and S holds the first is_m+1 stored elements of every row of the strictly upper triangle; the conjugate-transposed application returns (I - w S)^H x for real w. I - w S is invertible, so no information is lost. For a stationary solver the construction stays within its arrays for every matrix, and when the diagonal is one it produces (I - wS)A and (I - wS)b, a system with exactly the same solutions. Documented deviations: the construction is wrong on an unscaled matrix (and lis_solve runs it before scaling), dereferences a NULL right-hand side on the first lis_solve, and the result depends on the storage order of the rows.", "quantifier": "every split CSR matrix with strictly triangular duplicate-free parts, every w and m, every right-hand side, every content of fresh memory", "why_tests_cant": "the sparsity pattern of S*A depends on arbitrary collisions between rows; the two passes (count, fill) must agree for all of them or the fill writes out of bounds", "anchors": ["src/precon/lis_precon_is.c lis_psolve_is, lis_psolveh_is, lis_precon_create_is_csr"]}
{"id": "C51", "title": "Additive Schwarz preconditioning is iterative refinement with the inner preconditioner", "statement": "With -adds true the preconditioner returns in X the result of adds_iter+1 steps of X <- X + P(B - A X) from zero, where P is the preconditioner chosen by -p, whatever its work vectors held; the caller's other vectors are unchanged. For a linear P with matrix M this is multiplication by sum_{j<=adds_iter} (I - MA)^j M; the residual of the result is (I - AM)^(adds_iter+1) B, so an exact P stays exact; the conjugate-transposed application multiplies by the conjugate transpose. With even adds_iter and SPD M and symmetric A it is SPD, and CG with it keeps all guarantees of C44. Documented deviation: with the default adds_iter=1 it need not be positive definite for an SPD matrix with an SPD inner preconditioner.", "quantifier": "every inner preconditioner computing a function, every matrix with a correct product, every adds_iter, every B, every stale content of the work vectors", "why_tests_cant": "the definiteness needed by CG is a statement about all vectors and all matrices, and depends on the parity of adds_iter", "anchors": ["src/precon/lis_precon_ads.c lis_psolve_adds, lis_psolveh_adds"]}
{"id": "C52", "title": "A solver's answer does not depend on what its work vectors held before", "statement": "Running a solver with work vectors and a residual history left over from an earlier run gives the same status, iteration count, residual, residual history and solution x as running it with fresh ones. Holds without any assumption on the scalars (so also with rounding and NaN leftovers) for CG, COCG, CR, COCR, BiCG, BiCR, CGS, CRS, BiCGSTAB, BiCRSTAB, Orthomin, MINRES, TFQMR, GMRES, FGMRES, BiCGSTAB(l), IDR(s), IDR(1), Jacobi, Gauss-Seidel and SOR; for BiCGSafe and BiCRSafe if zero times a leftover is zero. Documented deviations: GPBiCG and GPBiCR read the leftover vector mr in their first iteration; a NaN left behind poisons BiCGSafe and BiCRSafe.", "quantifier": "every matrix, preconditioner, b, initial x, option setting, and every pair of contents of the work vectors and the history", "why_tests_cant": "an uninitialised read shows only for particular leftovers; fresh work vectors are zeroed, so ordinary runs never show it", "anchors": ["src/solver/*.c", "src/precon/lis_precon_hybrid.c lis_psolve_hybrid"]}
{"id": "C53", "title": "The hybrid preconditioner is a fixed operator", "statement": "lis_psolve_hybrid puts into X the vector the inner solver (-hybrid_i) computes for A X = B from a fresh start, whatever its vectors and history hold from earlier applications, changes no other vector of the caller, and leaves the inner solver ready; so an outer run with it stays inside its arrays and keeps the status, residual and tolerance guarantees (C22-C25) as with that fixed operator. An inner Krylov run that succeeds gives A X = B within the inner tolerance; inner SOR/Gauss-Seidel gives between one and -hybrid_maxiter sweeps. The inner solver's options are exactly the -hybrid_ ones, all others have their defaults. Documented deviations: inner GPBiCG/GPBiCR are not fixed operators; the conjugate-transposed application solves A x = b, not A^H x = b; -hybrid_omega does not reach the inner SOR; the inner status is ignored.", "quantifier": "every matrix, outer and inner solver of the list, inner preconditioner, history of applications, B, thread count and schedule of the reductions", "why_tests_cant": "dependence on the history of applications and on all pairs of solvers cannot be enumerated", "anchors": ["src/precon/lis_precon_hybrid.c lis_precon_create_hybrid, lis_psolve_hybrid, lis_psolveh_hybrid", "src/solver/lis_solver_sor.c lis_sor"]}
{"id": "C54", "title": "A solver applies the preconditioner it was given", "statement": "However many preconditioners a program creates with lis_precon_create, in any order, with failing calls in between and with hybrids nested in hybrids, the functions that lis_psolve and lis_psolveh call for one of them are those of its own kind and get its own data, as long as no preconditioner of the same type but another kind (ILU in another storage format, (I+S) of another level, ILUC in another format) has been created since, and no BSR ILUC was ever created before a CSR ILUC. Documented deviations: two live ILU preconditioners in different formats are both applied by the function of the last one; a BSR ILUC spoils every later CSR ILUC even after it is destroyed; lis_psolveh is never right for VBR ILU and BSR ILUC; a preconditioner registered with lis_precon_register is never applied (its type indexes past the end of the table); -hybrid_p 11 reads past the end of the table of creators.", "quantifier": "every sequence of lis_precon_create calls (options, matrix formats, success or failure of each), every one of the preconditioners created, any number of them alive", "why_tests_cant": "the function tables are global and depend on the whole history of calls; tests see a few histories", "anchors": ["src/precon/lis_precon.c lis_psolve_xxx, lis_psolveh_xxx, lis_precon_create, lis_precon_register", "include/lis_precon.h lis_psolve, lis_psolveh", "src/precon/lis_precon_iluk.c lis_precon_create_iluk", "src/precon/lis_precon_is.c lis_precon_create_is", "src/precon/lis_precon_iluc.c lis_precon_create_iluc", "src/precon/lis_precon_ilut.c lis_precon_create_ilut", "src/precon/lis_precon_ads.c lis_precon_create_adds, lis_psolve_adds"]}
{"id": "C55", "title": "SAINV preconditioner: memory safety, what it computes, and when it is the inverse", "statement": "For every square CSR matrix of order at least 10 and every drop tolerance, creating the SAINV preconditioner touches no memory outside its arrays, whatever fresh memory contains, and produces exactly the vectors and pivots of biconjugation with dropping as printed in the source; lis_psolve applies Z^T D conj(W) and lis_psolveh its conjugate transpose. If nothing is dropped and no pivot is zero, lis_psolve solves A x = b (real scalars). If the matrix is symmetric positive definite then, whatever is dropped, every pivot is positive and the preconditioner is symmetric positive definite, and CG with SAINV succeeds within n iterations in exact arithmetic. Deviations: for every matrix of order 1 to 9 the creation writes past the end of its (empty) rows; in complex builds the preconditioner is the inverse only if W is real.", "quantifier": "every well-formed CSR matrix (any order, any pattern, duplicates included), every drop test, every right hand side, every content of fresh memory", "why_tests_cant": "rows grow by realloc depending on values, the safety and exactness claims concern all patterns and values; tests run on a few matrices", "anchors": ["src/precon/lis_precon_sainv.c lis_precon_create_sainv_csr, lis_psolve_sainv, lis_psolveh_sainv", "src/matrix/lis_matrix_ilu.c lis_matrix_ilu_premalloc, lis_matrix_ilu_realloc, lis_matvec_ilu, lis_matvech_ilu", "src/matrix/lis_matrix_csc.c lis_matrix_convert_csr2csc"]}
{"id": "C56", "title": "ILUT preconditioner: memory safety, error bound, exactness, and what truncation keeps", "statement": "For every square CSR matrix without duplicate entries, every tolerance >= 0 and every limit lfil on the row length, creating the ILUT preconditioner touches no memory outside its arrays, whatever fresh memory contains, and yields strictly triangular factors with at most lfil elements per row. Every row is an exact elimination with the stored previous rows, up to an error that is at most i*tol*(mean magnitude of row i) per element, and zero on the diagonal and wherever A has an element. If lfil >= n and no pivot is zero, (I+L)(D+U) differs from A by at most that error; with tol=0 as well, lis_psolve solves A x = b exactly. lis_psolve solves with the stored factors; lis_psolveh with their conjugate transpose if the pivots are real. Deviations: when a row is truncated, the elements smallest in magnitude are kept and the largest discarded; lis_psolveh does not conjugate D; a column stored twice overflows the work array.", "quantifier": "every well-formed square CSR matrix without duplicates, every tol >= 0, every lfil, every content of fresh memory, every right hand side", "why_tests_cant": "which elements are dropped, exchanged and truncated depends on all values of the matrix; safety of the work arrays and the error bound must hold for all of them", "anchors": ["src/precon/lis_precon_ilut.c lis_precon_create_ilut_csr, lis_psolve_ilut_csr, lis_psolveh_ilut_csr", "src/system/lis_sort.c lis_sort_di, lis_sort_i"]}
{"id": "C57", "title": "The CG and CR eigensolvers: what success means", "statement": "For every matrix, initial vector, tolerance, iteration limit and stored history, the CR, CG, generalized CR and generalized CG eigensolvers stay inside their history array, stop at the first residual below the tolerance or after the limit, record every residual, report residual and eigenvalue (shifted back) of the last iterate and shift A back; an error of the preconditioner or linear solver is returned unchanged, but then A stays shifted. In exact real arithmetic, the CR residual norms never increase; a success of CR or CG means that the vector returned has a residual below tolerance times |eigenvalue| relative to the shifted matrix (for CR, before its final normalization), and for a symmetric matrix that there is an eigenvalue within that distance. Deviations: the generalized CG always returns its normalized initial vector, never an approximate eigenvector; CR started with an exact eigenvector divides 0 by 0.", "quantifier": "every matrix (pair), initial vector, option values, linear solver, preconditioner, contents of work vectors and number of iterations", "why_tests_cant": "convergence histories depend on all of the data; monotonicity and the meaning of success must hold for every problem", "anchors": ["src/esolver/lis_esolver_cg.c lis_ecr, lis_egcr", "src/esolver/lis_esolver_cg.c lis_ecg, lis_egcg", "src/array/lis_array.c lis_array_scale, lis_array_dot, lis_array_axpyz"]}
{"id": "C58", "title": "Eigensolver options and what lis_esolve accepts, runs and returns", "statement": "For every option text (up to the buffer length) lis_esolver_set_option applies the name/value pairs from left to right exactly as the manual lists them, ignores unknown names, stops at the first rejected value with LIS_ERR_ILL_ARG and leaves the settings made before it; a new handle has the documented defaults. lis_esolve/lis_gesolve reject (without running a solver or changing anything) exactly the arguments and settings that violate the documented conditions, and otherwise run the selected solver once, on arrays of ss+2 and emaxiter+2 elements, from the vector of ones or the caller's vector, and return the first eigenvalue, the vector and the solver's status in the handle. Deviations: the code returned is LIS_SUCCESS whatever the solver reported; A is not checked when a B is given; ss in {0,-1,-2} or a mode outside 0..ss+1 with a solver that does not check it accesses memory out of bounds; smaller ss or emaxiter make the call return LIS_SUCCESS without computing anything. lis_esolver_get_rhistory copies the recorded residuals as far as the vector is long enough.", "quantifier": "every option text, matrix and vector sizes, settings, solver outcome and contents of fresh memory", "why_tests_cant": "the texts, settings and combinations of arguments are unbounded; acceptance must be characterised exactly", "anchors": ["src/esolver/lis_esolver.c lis_esolver_set_option, lis_esolver_set_option2, lis_esolver_init, lis_esolve, lis_gesolve, lis_esolver_get_rhistory", "src/esolver/lis_esolver_li.c lis_eli_check_params", "src/esolver/lis_esolver_si.c lis_esi_check_params"]}
{"id": "C59", "title": "Who frees what over the life of an eigensolver handle", "statement": "For every sequence of option changes and lis_esolve/lis_gesolve calls on one eigensolver handle, with any of the checks and allocations failing, the outcome of creating the handle, making the calls and destroying it is given by a small account: whether a block is freed twice or an array read outside its bounds, the return codes, and how many blocks stay in use for good. With options set once and calls that all run to the end nothing is freed twice, and what is lost is the work vectors and eigenvectors of every call but the last, and the last eigenvectors too unless the solver is SI, LI or AI; so one call per handle with a standard solver loses nothing. Deviations: every further lis_esolve on a handle leaks; GSI, GLI, GAI leak their eigenvectors even in a single call; a call whose array cannot be allocated returns LIS_SUCCESS and the handle, if it had been used before, cannot be destroyed any more without a double free; raising -ss after the last call makes lis_esolver_destroy read out of bounds; lis_esolver_destroy looks at two uninitialised elements and destroys a vector of the caller if they happen to hold its address.", "quantifier": "every finite history of calls, every combination of failing checks and allocations in each, every subspace size, number of work vectors and initial heap", "why_tests_cant": "allocation failures and mixed histories are not reachable from a unit test without fault injection, and there are infinitely many histories", "anchors": ["src/esolver/lis_esolver.c lis_esolver_create, lis_esolver_destroy, lis_esolver_work_destroy, lis_gesolve", "src/esolver/lis_esolver_li.c lis_eli_malloc_work, lis_eli", "src/vector/lis_vector.c lis_vector_destroy"]}
{"id": "C60", "title": "Lanczos and Arnoldi eigensolvers: the projected matrix and what is reported from it", "statement": "lis_eli, for every matrix and every -ss at least 2, stays inside its arrays while building its tridiagonal matrix t; in exact arithmetic with a symmetric A the vectors it builds are orthonormal starting from the normalized constant vector, the leading block of t of the order of the passes made is the matrix of A in that basis, the loop ends early only when the residual norm is below the tolerance, and every eigenvalue of that block is within the residual norm of an eigenvalue of A. The refined results are exactly those left by the inner eigensolver, mode by mode, and the vector, history and values returned are those of mode 0. Deviations: the loop makes one pass too few, so the last diagonal element of t is always 0 and the Ritz values reported are those of a matrix with a spurious row and column (they add up to ss-1 Rayleigh quotients; 5 I has the reported Ritz values 5 and 0); with the default -ss 1 the QR algorithm reads out of bounds; the return value is LIS_SUCCESS whatever the inner calls return. lis_eai writes one element behind its array in the last pass, for every matrix and every -ss, unless it breaks down before, and then reads there too unless the last 2x2 block has complex eigenvalues.", "quantifier": "every matrix (symmetric for the exact part), every -ss, tolerance, content of uninitialised memory, every inner eigensolver; any arithmetic for the bounds", "why_tests_cant": "orthonormality and the projection property are statements about all symmetric matrices and subspace sizes; the out-of-bounds accesses go unnoticed in a test because malloc rounds sizes up", "anchors": ["src/esolver/lis_esolver_li.c lis_eli", "src/esolver/lis_esolver_ai.c lis_eai", "src/array/lis_array.c lis_array_qr"]}
{"id": "C61", "title": "Subspace iteration: what its eigenpairs mean", "statement": "lis_esi, for every matrix and every -ss at least 1, in any arithmetic, stays inside its history array, stops each mode at the first residual below the tolerance or after emaxiter iterations, reports for each mode the iterations made, last residual and eigenvalue (shifted back), leaves the last iterate as its eigenvector, copies that of mode 0 to x and shifts A back; an error of the preconditioner or linear solver in a mode is returned with the results of the modes before it, and A then stays shifted. In exact arithmetic, inverse iteration gives for every mode a unit vector x with ||A x - l x|| <= (resid + error of the linear solver) |l - shift|, and power iteration gives for every mode of a symmetric matrix an eigenvalue mu with (1-resid)|mu - l| <= resid |l - shift|. Deviations: LIS_SUCCESS is returned whether or not the modes converged; with an accepted inner eigensolver other than power or inverse iteration (-ie rqi, cg, cr, jd) no eigenvalue is ever stored and x is the constant vector, with LIS_SUCCESS; every mode starts from the vector the previous mode ended with, so in exact arithmetic the second mode orthogonalizes it to zero and divides zero by zero.", "quantifier": "every matrix (symmetric where said), -ss, tolerance, iteration limit, shift, linear solver, return codes of the preconditioner, contents of uninitialised variables", "why_tests_cant": "the residual bounds are statements about all matrices and modes; the zero division of the second mode is hidden by rounding errors", "anchors": ["src/esolver/lis_esolver_si.c lis_esi, lis_esi_malloc_work", "src/esolver/lis_esolver.c lis_gesolve"]}
{"id": "C62", "title": "Vector files: what is read is what was written, and where it is not", "statement": "lis_input_vector reads every Matrix Market vector file (banner in any case, comments, positions in any order, later lines overriding earlier ones, positions out of range ignored, unlisted elements zero), on each process exactly the elements it owns, and reads every plain file of one number per line as the vector of those numbers. A vector written by lis_output_vector with LIS_FMT_MM is read back unchanged in the real and complex builds, with LIS_FMT_PLAIN in the real build (integer vectors as their elements cast to int). A plain file with more numbers than lines is refused, and other format codes give LIS_ERR_ILL_ARG. Deviations: an integer vector (lis_esolver_get_iters) written with LIS_FMT_MM is refused on reading; in the complex build no nonempty vector written with LIS_FMT_PLAIN can be read back, in any build no empty one; a vector written with LIS_FMT_LIS is read back, with LIS_SUCCESS, as its first element followed by zeros, and no error in the body of such a file is ever reported.", "quantifier": "every vector, length, process range, file contents (as lines of words), real and complex builds, contents of uninitialised variables", "why_tests_cant": "the round trip must hold for every vector and partition, and files may be malformed in unboundedly many ways", "anchors": ["src/system/lis_input.c lis_input_vector, lis_input_vector_mm, lis_input_vector_plain, lis_input_vector_lis, lis_input_vector_lis_ascii, lis_fscan_scalar", "src/system/lis_output.c lis_output_vector, lis_output_vector_plain, lis_output_vector_mm, lis_output_vector_lis_ascii"]}
{"id": "C63", "title": "Linear combinations of matrices and the shift by a matrix", "statement": "On dense matrices of one size, both split or both unsplit, lis_matrix_axpy makes B = B + alpha A, lis_matrix_xpay B = A + alpha B, lis_matrix_axpyz C = alpha A + B; on a matrix in any other format they return LIS_ERR_NOT_IMPLEMENTED and change nothing. lis_matrix_shift_matrix(A,B,sigma) with A in CSR and B in any format makes A = A - sigma B in CSR, and shifting by -sigma restores A. Deviations: B's format and size are not checked, so a B with fewer stored elements is written out of bounds; when only one of A and B is split the separate diagonal is left stale with LIS_SUCCESS; lis_matrix_shift_matrix on A in any format but CSR returns LIS_SUCCESS and leaves A unchanged, and then the generalized power and inverse iterations with a shift sigma do exactly the run without a shift and report its eigenvalue plus sigma.", "quantifier": "every size, contents, scalar ring, storage format of A and B, contents of uninitialised memory, options and inner solver", "why_tests_cant": "must hold for all matrices in all pairs of formats; the ignored shift is only visible as a wrong eigenvalue", "anchors": ["src/matrix/lis_matrix_ops.c lis_matrix_axpy, lis_matrix_xpay, lis_matrix_axpyz, lis_matrix_shift_matrix, lis_matrix_convert", "src/matrix/lis_matrix_dns.c lis_matrix_axpy_dns, lis_matrix_xpay_dns, lis_matrix_axpyz_dns, lis_matrix_set_dns", "src/esolver/lis_esolver_pi.c lis_egpi", "src/esolver/lis_esolver_ii.c lis_egii"]}
{"id": "C64", "title": "Generalized subspace iteration: what it computes and what it cannot", "statement": "lis_gesolve with the generalized subspace iteration, for every subspace size, shift and inner eigensolver: each mode runs at most emaxiter iterations, stops early exactly when the residual is below the tolerance or the linear solver fails, reports the iterations, residual and eigenvalue of its last iterate, leaves that iterate as its eigenvector, records the first mode's residuals in the history without leaving it; the first mode's vector is the one returned, A and B are shifted back unless an error is returned. With an exact linear solver every reported pair satisfies the stated residual equation (power: B y = (A - sigma B) v, ||y-(l-sigma)v|| = resid |l-sigma|; inverse: (A - sigma B) y = B v, ||(l-sigma) y - v|| = resid), and residual 0 means A v = l B v. Deviations: LIS_SUCCESS is returned whether or not the modes converged; vectors are orthogonalized in the plain inner product and not that of B, so a later mode cannot reach residual 0 unless the pencil has an eigenvector orthogonal in the plain inner product to the previous one; every later mode starts with a vector that orthogonalization makes zero; with inverse iteration the solves with A use the preconditioner made from B; with any other inner eigensolver nothing is computed and an uninitialised preconditioner is destroyed; on an error A stays shifted.", "quantifier": "every size, matrices, subspace size, options, linear solver, error behaviour of the preconditioner, arithmetic (control); real arithmetic (equations)", "why_tests_cant": "claims about every mode of every run, for every pencil, including those where the method cannot converge", "anchors": ["src/esolver/lis_esolver_si.c lis_egsi, lis_egsi_malloc_work"]}
{"id": "C65", "title": "Harwell-Boeing files: the matrix of the file, or a refusal", "statement": "lis_input of a Harwell-Boeing file (real, unsymmetric, assembled): for every header layout in fixed or free columns, every field width below 128 and number of fields per line, with or without right hand sides, and whatever uninitialised memory holds, it succeeds and the matrix, in whichever storage format was set, has exactly the entries of the file. A file cut off at any line is either refused with LIS_ERR_FILE_IO or still a file for the same matrix; any type other than RUA and any non-square size is refused with LIS_ERR_FILE_IO. The file is taken for a Matrix Market file exactly when its first word starts with %%MatrixMarket. Deviations: a value format with a scale factor (1P,3E25.16) makes the scale factor the number of fields per line, so most values stay uninitialised memory, with LIS_SUCCESS; F formats leave the field count uninitialised; a format without ) or . dereferences NULL; header counts and row numbers are not checked against the data.", "quantifier": "every file (as characters), every size, pointers, row numbers, values, formats, contents of uninitialised memory, target storage format", "why_tests_cant": "unboundedly many files and layouts; truncation at every line; the outcome on unusual formats depends on uninitialised memory", "anchors": ["src/system/lis_input_hb.c lis_input_hb, lis_input_hb_csr, lis_input_hb_get_fmt", "src/system/lis_input.c lis_input"]}
{"id": "C66", "title": "Block Jacobi solves with the diagonal blocks of the matrix", "statement": "For a matrix in BSR format with square blocks of any size b, any order n (also not a multiple of b), each block row storing its diagonal block once and every diagonal block (cut at row n) having nonzero leading principal minors: splitting gives strictly lower blocks, upper blocks and a block diagonal that add up to the matrix; lis_precon_create for -p bjacobi succeeds, and afterwards lis_psolve writes x with D x = b and lis_psolveh writes x with D^H x = b, D the block diagonal of the matrix, whatever the memory held that the library allocated without initialising it, whatever the padding elements of the vectors hold, and without touching other vectors or anything beyond the last block. The products with a block diagonal (unrolled for b up to 4) are exact for every b. Deviations: a block row without stored diagonal block takes that block from uninitialised memory; a zero pivot divides by zero without an error; with variable block sizes (VBR) the blocks are applied at offset i*bns[i], which is wrong or out of bounds as soon as the sizes differ.", "quantifier": "every matrix, order, block size, sparsity, vectors, contents of uninitialised memory", "why_tests_cant": "unboundedly many orders and block sizes with a separate unrolled kernel for each small size; padding and uninitialised memory are invisible in a test that happens to pass", "anchors": ["src/precon/lis_precon_jacobi.c lis_precon_create_bjacobi, lis_psolve_bjacobi, lis_psolveh_bjacobi", "src/matrix/lis_matrix_diag.c lis_matrix_diag_copy, lis_matrix_diag_inverse, lis_matrix_diag_matvec, lis_matrix_diag_matvech", "src/matrix/lis_matrix_bsr.c lis_matrix_split_bsr"]}
{"id": "C67", "title": "SSOR and triangular solves with block (BSR) matrices are exact", "statement": "For a split matrix in BSR format with square blocks of any size b, any order n, and blocks WD inverse to the diagonal blocks d: lis_matrix_solve writes x with (d+L)x=b, (d+U)x=b or (d+L)d^-1(d+U)x=b for the flags LOWER, UPPER and SSOR; lis_matrix_solveh with SSOR writes x with ((d+L)d^-1(d+U))^H x = b, with LOWER (d+U)^H x = b and with UPPER (d+L)^H x = b in the real build; other vectors and elements past the last block keep their values. Creating the SSOR preconditioner with parameter w for a BSR matrix whose diagonal blocks (cut at row n) have nonzero leading principal minors succeeds, and lis_psolve / lis_psolveh then solve ((wD+L)(wD)^-1(wD+U)) x = b and its conjugate transpose, D, L, U the block diagonal, strictly lower and upper block parts of the matrix, whatever the padding of the vectors and the uninitialised memory hold. Deviation in the complex build: with LOWER (block sizes 2 and 3) and UPPER (block sizes 1 and 2), lis_matrix_solveh misses conj on some elements and returns an x that does not solve the system.", "quantifier": "every matrix, order, block size, sparsity, parameter w, vectors (also b and x the same vector), contents of uninitialised memory", "why_tests_cant": "a separate unrolled kernel for each small block size, three flags and two directions; unboundedly many orders, sparsity patterns and block sizes; padding and uninitialised memory do not show in a test that happens to pass", "anchors": ["src/matrix/lis_matrix_bsr.c lis_matrix_solve_bsr, lis_matrix_solveh_bsr", "src/precon/lis_precon_ssor.c lis_precon_create_ssor, lis_psolve_ssor, lis_psolveh_ssor", "src/matrix/lis_matrix_diag.c lis_matrix_diag_scale"]}
{"id": "C68", "title": "Triangular solves and SSOR with CSC and MSR matrices are exact", "statement": "For a split matrix in CSC or MSR format of any order and strictly triangular parts, with WD the reciprocals of the diagonal D: lis_matrix_solve writes x with (D+L)x=b, (D+U)x=b or (D+L)D^-1(D+U)x=b for LOWER, UPPER and SSOR; lis_matrix_solveh with SSOR writes x with ((D+L)D^-1(D+U))^H x=b for both formats, and for CSC with LOWER (D+U)^H x=b and with UPPER (D+L)^H x=b; other vectors and elements beyond the order keep their values. Deviation: for MSR, lis_matrix_solveh with LOWER and UPPER runs through the rows in the wrong order and returns an x that does not solve the system (the CSR version runs the other way).", "quantifier": "every order, sparsity pattern (repeated positions allowed), values, vectors", "why_tests_cant": "unboundedly many orders and patterns; a test matrix with a unit diagonal or few couplings does not show the wrong order", "anchors": ["src/matrix/lis_matrix_csc.c lis_matrix_solve_csc, lis_matrix_solveh_csc", "src/matrix/lis_matrix_msr.c lis_matrix_solve_msr, lis_matrix_solveh_msr"]}
{"id": "C69", "title": "Triangular solves and SSOR with DNS and ELL matrices are exact", "statement": "For a DNS matrix of any order (its strictly lower and strictly upper triangles taken as L and U) and for a split ELL matrix whose used slots are strictly triangular (unused slots hold value 0 in any column), with WD the reciprocals of the diagonal D: lis_matrix_solve writes x with (D+L)x=b, (D+U)x=b or (D+L)D^-1(D+U)x=b for LOWER, UPPER and SSOR; lis_matrix_solveh writes x with (D+U)^H x=b, (D+L)^H x=b or ((D+L)D^-1(D+U))^H x=b; other vectors and elements beyond the order keep their values, and no access leaves the arrays.", "quantifier": "every order, number of slots per row, pattern (repeated positions and unused slots allowed), values, vectors", "why_tests_cant": "unboundedly many orders and patterns; errors in one triangle, in padding slots or in the order of a sweep stay hidden for sparse or diagonal test matrices", "anchors": ["src/matrix/lis_matrix_dns.c lis_matrix_solve_dns, lis_matrix_solveh_dns", "src/matrix/lis_matrix_ell.c lis_matrix_solve_ell, lis_matrix_solveh_ell"]}
{"id": "C70", "title": "Triangular solves and SSOR with DIA matrices are exact", "statement": "For a split DIA matrix of any order whose stored diagonals of L have negative and those of U positive offsets (any number, repeated or longer than the order), with WD the reciprocals of the diagonal D: lis_matrix_solve writes x with (D+L)x=b, (D+U)x=b or (D+L)D^-1(D+U)x=b for LOWER, UPPER and SSOR; lis_matrix_solveh writes x with (D+U)^H x=b, (D+L)^H x=b or ((D+L)D^-1(D+U))^H x=b; the values stored for positions outside the matrix are not used, other vectors and elements beyond the order keep their values, and no access leaves the arrays.", "quantifier": "every order, number and choice of diagonals, values (also outside the matrix), vectors", "why_tests_cant": "unboundedly many orders and sets of offsets; a wrong guard reads or writes next to the vector only for particular offsets", "anchors": ["src/matrix/lis_matrix_dia.c lis_matrix_solve_dia, lis_matrix_solveh_dia"]}
{"id": "C71", "title": "JAD triangular solves read one element behind ptr", "statement": "lis_matrix_solve and lis_matrix_solveh with a split JAD matrix walk the row at position k of a triangle through exactly its elements ptr[d]+k in the order of the jagged diagonals, reading only existing elements of ptr, if the row is shorter than the longest. Deviation: the loop tests j<ptr[l] before l<=maxnzr, so for a row as long as the longest it reads ptr[maxnzr+1], while ptr has maxnzr+1 elements; since there always is such a row, every call of every variant (LOWER, UPPER, SSOR, with or without conjugate transpose) reads behind the end of ptr, for every matrix of positive order.", "quantifier": "every JAD matrix whose jagged diagonals are not empty (as the library builds them), every right side", "why_tests_cant": "the value read does not change the result, so a test passes unless the read happens to fault", "anchors": ["src/matrix/lis_matrix_jad.c lis_matrix_solve_jad, lis_matrix_solveh_jad, lis_matrix_malloc_jad"]}
{"id": "C72", "title": "BSC matrices: split, triangular solves and SSOR use the transposed block pattern", "statement": "lis_matrix_split of a square BSC matrix puts the blocks above the block diagonal into L and those below into U, and the diagonal blocks into D. lis_matrix_solve with such a matrix, every block size b: LOWER, UPPER and SSOR write x with (d+L')x=b, (d+U')x=b and (d+L')d^-1(d+U')x=b, where block (I,J) of L' (U') is block (J,I) of L (U), not transposed itself. Creating the SSOR preconditioner for a BSC matrix whose order is a multiple of b and applying it solves (wD+L)(wD)^-1(wD+U)x=b with D, L, U the block parts of the matrix M whose block (I,J) is block (J,I) of A. For b=1 and symmetric A this is the documented preconditioner. Deviations: for b=1 it is that of the transposed matrix; for b>1 it differs from the documented one even for a symmetric matrix.", "quantifier": "every matrix, order, block size, sparsity, parameter w, vectors (also b and x the same vector), contents of uninitialised memory", "why_tests_cant": "a test with a symmetric matrix and block size 1 passes; unboundedly many block sizes, orders and patterns", "anchors": ["src/matrix/lis_matrix_bsc.c lis_matrix_split_bsc, lis_matrix_solve_bsc", "src/precon/lis_precon_ssor.c lis_precon_create_ssor, lis_psolve_ssor"]}
