C05 proved | matvecCsr_spec matvecSplitCsr_spec | Every well-formed CSR matrix (split or not), every semiring.
C06 proved | matvecCsc_spec matvecSplitCsc_spec matvecCoo_spec matvecSplitCoo_spec matvecDns_spec matvecMsr_spec matvecEll_spec matvecSplitEll_spec matvecDia_spec matvecSplitDia_spec matvecJad_spec matvecSplitJad_spec matvecBsr_spec matvecBsrU_spec lisMatvecBsr_spec matvecSplitBsr_spec matvecSplitBsrU_spec matvecBsrU_oob matvecBsc_spec matvecSplitBsc_spec matvecVbr_spec matvecSplitMsr_spec matvecSplitVbr_spec matvecSplitVbr_symm matvecSplitVbr_wrong | Serial kernels (OpenMP: C35). The exceptions in the statement have theorems of their own: matvecSplitVbr_spec (what is computed), matvecSplitVbr_wrong, matvecBsrU_oob.
C07 proved | matvechCsr_spec matvechSplitCsr_spec matvechSplitCsr_oob matvechCsc_spec matvechSplitCsc_spec matvechSplitCoo_spec matvechCoo_transpose matvechCoo_spec_partial matvechCoo_not_conj matvechDns_spec matvechMsr_spec matvechEll_spec matvechSplitEll_spec matvechDia_spec matvechSplitDia_spec matvechJad_spec matvechSplitJad_spec matvechBsr_spec matvechSplitBsr_spec matvechBsc_spec matvechSplitBsc_wrong matvechVbr_spec matvechSplitMsr_spec matvechSplitVbr_spec matvechSplitVbr_herm matvechSplitVbr_wrong | Serial kernels. matvechCoo_spec_partial is the real-scalar case; COO unsplit is wrong in the complex build; split CSR is out of bounds for np>n; split BSC is wrong.
C01 proved | setCalls_spec create_setCalls_spec ready_nodup setValues_spec create_setSize_ready matrixMalloc_ready setSize_success_iff | Any call sequence from any assembly-ready state; also from create+set_size.
C02 proved | setValue_status setValue_assembled | Every ready state, every integer index, both origins.
C03 proved | setCalls_spec setValue_annz0_oob malloc_mid_assembly_oob resize_after_malloc_oob | Ok = no access outside a block; three histories that do go out of bounds.
C04 proved | rco2csr_spec rco2csc_spec rco2bsr_spec create_set_assemble_csr | CSR, CSC and BSR (every block size), all contents of fresh memory.
C08 proved | csr2csc_spec csr2coo_spec csr2dns_spec csr2dns_duplicates csr2ell_spec csr2msr_spec csr2msr_nnz csr2bsr_spec csr2bsr_padded csr2bsr_duplicates csc2bsc_spec csc2bsc_padded csc2bsc_rect_oob csc2bsc_rect_wrong csr2dia_spec csr2dia_ascending csr2dia_empty csr2jad_spec csr2vbrWith_spec csr2vbrWith_blocks vbrRowcol_boundaries csr2vbr_spec csr2vbr_drops_rows fromCsr_spec | All ten targets; every exception in the statement has a negative theorem.
C09 proved | csc2csr_spec dns2csr_spec ell2csr_spec msr2csr_spec msr_roundtrip_oob coo2csr_spec dia2csr_spec jad2csr_spec bsr2csr_spec bsr2csr_padding_oob bsr2csr_padding_column bsc2csr_spec vbr2csr_spec csr_bsr_csr csr_jad_csr csr_dia_csr csr_vbr_csr toCsr_spec | All ten sources; exceptions have negative theorems.
C15 proved | lisSortI_spec lisSortId_spec lisSortIi_spec lisSortrIi_spec lisSortIid_spec lisSortIiid_spec lisSortD_spec lisSortDi_spec lisSortIdBlock_spec lisSortIdBlock_overflow | All quicksorts, any linear order of keys, any range inside the arrays; block version needs bs<=9, otherwise overflow (proved).
C16 proved | lisSortJad_spec | .
C36 proved | bswapInt32_spec bswapDouble_spec bswap_involution bswapInt32_involution bswapDouble_involution bswapInt64_not_reversal bswapComplex_imag_unswapped | Reversal holds for 4-byte int and 8-byte double/size_t; negative results for 64-bit LIS_INT and complex.
C17 proved | getIsIe_contiguous getIsIe_balanced getIsIe_partition rangesCreateMpi_global rangesCreateMpi_local rangesCreateSerial_spec | All n, all process counts; MPI collectives modelled by their results.
C18 proved | vectorCopy_spec vectorAxpy_spec vectorXpay_spec vectorAxpyz_spec vectorPmul_spec vectorPdiv_spec vectorScale_spec vectorSetAll_spec vectorAbs_spec vectorReciprocal_spec vectorConjugate_spec vectorShift_spec vectorSwap_spec vector_length_mismatch vectorDot_spec vectorNhdot_spec vectorNrm2_spec vectorNrm1_spec vectorSum_spec vectorNrmi_spec vectorSum_mpi vectorSum_small_team vectorNrmiOmp_spec vectorNrmiOmp_uninitialised | All lengths, all aliasing, any thread schedule (team = max threads), any number of ranks; the OpenMP nrmi needs luck with uninitialised memory (negative theorem).
C19 proved | avecSetCalls_spec avecSetValue_spec avecGetValue_spec avecGetValues_spec avecSetSize_spec avecSetSize_reject avecSetValues_spec avecSetValues_add_origin_wrong avecSetValues_partial_effect avecSetValues2_ignores_start avecSetValues2_origin_rejects avecScatter_gather | Any call sequence; the add branch of set_values with origin 1 and set_values2 are shown not to satisfy it.
C10 proved | splitCsr_parts splitCsr_spec splitCsr_missing_diagonal mergeCsr_spec split_merge | CSR; every content of fresh memory; exception for rows without a stored diagonal proved.
C11 proved | AnyMat.getDiagonal_spec AnyMat.getDiagonal_zeroed AnyMat.getDiagonal_nonzero getDiagonalCsr_spec getDiagonalSplitCsr_spec getDiagonalDia_undefined getDiagonal_stale getDiagonalVbr_uneven getDiagonalBsr_unsorted | All eleven formats, unsplit, and split CSR. Rows without a stored diagonal: 0 for CSR, CSC, MSR, ELL, DNS; the vector is left as it was for JAD, BSR, BSC, VBR, COO (counterexamples to the plain statement are theorems too: DIA without a main diagonal reads outside the array, VBR with uneven blocks). Block formats with square blocks; VBR with equal blocks.
C12 proved | AnyMat.shiftDiagonal_spec shiftDiagonalCsr_spec shiftDiagonalCsr_full shiftDiagonalSplitCsr_spec | All eleven formats, unsplit, and split CSR. Same reachability hypotheses as C11.
C13 proved | scaleCsr_spec scaleSymmCsr_spec scaleSplitCsr_spec scaleSymmSplitCsr_spec matrixScaleJacobi_spec matrixScaleSymm_spec matrixScaleSymm_diag matrixScaleJacobiSplit_spec matrixScaleSymmSplit_spec matrixScaleSymmSplit_negative AnyMat.scaleBy_spec AnyMat.scaleSymmBy_spec AnyMat.scaleJacobi_spec AnyMat.scaleSymm_spec AnyMat.scaleSymm_real scaleBsc_effect scaleSymmBsc_effect scaleSymmCoo_squares scaleJacobi_bsc_wrong scaleSymmCoo_wrong | CSR split and unsplit; every other format unsplit (Jacobi for all but BSC, symmetric for all but BSC and COO). What BSC and COO do instead is stated and proved, with witnesses that the claim fails there; negative result for the split symmetric scaling of a negative diagonal.
C14 proved | solveLowerCsr_spec solveUpperCsr_spec solveSsorCsr_spec solvehLowerCsr_spec solvehUpperCsr_spec solvehSsorCsr_spec solveUpperCsr_oob | CSR, serial; aliasing of x and b allowed.
C22 proved | lisCg_status krylov_status krylov_array maxiter_zero_reports_junk | Any arithmetic (no laws assumed), any matrix/preconditioner; on arrays for any correct kernel, thread count and schedule. maxiter=0 reports an uninitialised residual (proved).
C23 proved | lisCg_residual krylov_residual krylov_array | Exact arithmetic, linear product, any preconditioner.
C24 proved | krylov_success_meetsTol csr_none_success csr_jacobi_success csr_ssor_success nrm1_initial_too_weak | nrm1_b needs tol <= tol_w because of the initial test; counterexample proved.
C25 proved | krylov_status krylov_residual krylov_array lisCocg_status lisCr_status lisCocr_status lisBicg_status lisBicr_status lisCgs_status lisCrs_status lisBicgstab_status lisBicrstab_status lisGpbicg_status lisBicgsafe_status lisGpbicr_status lisBicrsafe_status lisOrthomin_status lisOrthomin_residual lisIdrs_status lisIdrs_residual lisIdr1_status lisIdr1_residual lisIdrs_success_meetsTol lisIdr1_success_meetsTol lisIdrs_zero_undefined lisIdrs_rhistory_overflow lisIdr1_rhistory_overflow lisTfqmr_status lisTfqmr_false_success lisBicgstabl_status lisBicgstabl_residual lisBicgstabl_reports lisBicgstabl_success_meetsTol lisBicgstabl_guess_counted_twice lisBicgstabl_maxiter_wrong_x lisBicgstabl_rhistory_overflow lisGmres_status lisGmres_residual lisGmres_success_meetsTol lisGmres_singular_false_success lisGmres_restart0_undefined lisGmres_nrm1_false_success lisFgmres_status lisFgmres_residual lisFgmres_success_absolute lisFgmres_false_success lisMinres_status lisMinres_residual lisMinres_success lisMinres_false_success | CG, COCG, CR, COCR, BiCG, BiCR, CGS, CRS, BiCGSTAB, BiCRSTAB, GPBiCG, BiCGSafe, GPBiCR, BiCRSafe, Orthomin(m), IDR(s), IDR(1): status and reported residual; TFQMR: status, and a refutation of its reported residual; BiCGSTAB(l): status and reported residual (with a zero initial guess; refuted otherwise); GMRES(m): status and reported residual over the reals for a nonsingular A*M^-1 (refuted for a singular one and for nrm1_b); FGMRES(m): status, reported residual is absolute (refuted as a relative one); MINRES: status, reported residual is the preconditioned one relative to the initial one (symmetric nonsingular M^-1*A, over the reals).
C26 proved | lisJacobi_spec lisGs_spec sweep_correction sweep_fixed csr_jacobi csr_gs csr_sor | On arrays without preconditioner; with any preconditioner at the level of lisJacobi_spec, lisGs_spec.
C27 proved | psolveNone_spec jacobi_psolve_spec jacobi_psolveh_spec ssor_psolve_spec ssor_psolveh_spec ssor_psolve_default ssor_not_documented ensureWdSor_first ensureWdSor_stale | CSR. As coded M=(wD+L)(wD)^-1(wD+U), which is the documented one only for w=1 (negative theorem); A->WD goes stale (proved).
C20 proved | arrayMatvec_spec arrayMatvech_spec arrayMatvecNs_spec arrayMatmat_spec arrayMatmatNs_spec | All n including the unrolled 1,2,3; insert, subtract, add; leading dimensions for the _ns kernels.
C21 proved | arraySolve_spec arrayGe_spec arraySolve_no_pivoting | Under nonzero leading principal minors (the condition for elimination without row exchanges); a nonsingular matrix outside it is not solved (arraySolve_no_pivoting).
C31 proved | hash_map hash_negative | Any history of insertions and clears; negative indices fall outside the table (hash_negative).
C29 proved | setOption_spec setOptionArgs_spec setOption2_spec setOption2_unknown setOption_last_int setOption_last_real solverInit_spec | Texts of at most 1022 characters; settings compared with the option table of the manual; %d is modelled, %lg is a parameter.
C30 proved | text2args_spec text2args_overflow text2args_overread |
C39 proved | setOption2_userdef solveCheck_userdef |
C40 proved | solveCheck_spec convCond3_oob | Build without MPI and quadruple precision; creation of the preconditioner is a parameter.
C32 proved | memHist_blocks memHist_isMalloc memHist_malloc memHist_calloc memHist_realloc memHist_free memHist_free_null memHist_realloc_shrink memHist_freeAll memHist_failure | Pointer-level model of the list; the C allocator is arbitrary; lis_free_mat and lis_free2 are not modelled.
C33 proved | mmInput_spec mmCsr_spec mmCsrRows_spec mmCsrRows_safe mmCsrRows_truncated mmInput_notSquare mmBanner_spec mmDns_spec | Text files, files seen as lines of words with the values %d/%lg give them (text-number conversion trusted); serial and per-process row ranges. Binary files not modelled.
C33 proved | mmCsrRows_herm mmCsrRows_herm_witness mmCsr_column_unchecked mmCsr_row_dropped mmBanner_bad mmCsr_vec_truncated mmReadX_complex_ignores mmInput_dns_short | Findings, proved of the model.
C41 proved | mm_roundTrip mm_roundTrip_b | Matrix and b, real and complex builds, assuming printf/scanf of numbers is exact.
C41 proved | mm_roundTrip_x_is_b mmOutput_x_without_b | Findings: x is written from b.
C37 proved | runHistory_solves solveCall_step kernelScale_none exists_solvesAll solve_twice_scales_twice refill_without_reset other_solver_uses_uninitialised stationary_second_rhs_unscaled stationary_symm_unscaled_twice switch_to_cg_wrong none_after_symm_wrong | every history of stores, resets and solves with one solver object; the exceptions named in the statement are proved as findings
C38 proved | lisEpi_contract lisEii_contract lisErqi_contract lisEgpi_contract lisEgii_contract lisEgrqi_contract EProg.exec_refines | law-free: the six programs make exactly the stated iterations, report success iff the residual of the last iteration met the tolerance, stop after maxiter, pass on inner-solver errors
C38 proved | lisEpi_exact lisEii_exact lisErqi_exact lisEgpi_exact lisEgii_exact lisEgrqi_exact lisEpi_csr lisEii_csr lisErqi_csr | real arithmetic: relation of the reported residual to the returned pair; matrix restored; on CSR arrays
C38 proved | lisEpi_maxiter_zero lisEii_error_leaves_shifted lisErqi_error_leaves_shifted lisEpi_residual_of_other_vector | findings
C34 proved | g2lCsr_local mpi_matvec mpi_matvech mpi_solver mpi_krylov mpi_psolveNone mpi_psolveJacobi | all partitions, patterns, rank counts and schedules (FIFO channels between rank pairs, Isend/Irecv/Waitall groups, Alltoall and Allreduce as exchanges); CSR, user-supplied arrays; solvers: real build, one value of the uninitialised residual variable on all ranks
C34 proved | mpi_matvec_no_remote | finding: import_index[0] of a zero-size block is read on a rank that needs no remote column
C35 proved | ompParallel_reach ompParallel_terminates omp_matvecCsr omp_matvecSplitCsr omp_matvecMsr omp_matvechCsc omp_matvecCsr_spec | every team size, schedule and interleaving of single accesses: exactly the serial block, no law of arithmetic; sequentially consistent memory, one step per access to a shared cell
C35 proved | omp_matvechCsr omp_matvechSplitCsr omp_matvecCsc omp_matvechMsr omp_matvecDns omp_matvecEll omp_matvechDns | buffered and row-split kernels, exact arithmetic; buffered ones also when the team is smaller than omp_get_max_threads()
C35 proved | omp_vectorCopy omp_vectorAxpy omp_vectorXpay omp_vectorAxpyz omp_vectorPmul omp_vectorPdiv omp_vectorScale omp_vectorSetAll omp_vectorAbs omp_vectorReciprocal omp_vectorConjugate omp_vectorShift | element-wise vector operations, aliasing allowed
C35 proved | vectorSwapOmp_race vectorSwapOmp_wrong matvecBscOmp_race matvecBscOmp_wrong matvechDiaOmp_race matvechDiaOmp_wrong matvecDnsOmp_small_team | findings: shared temporary in lis_vector_swap and lis_matvech_dia, unsynchronised += in lis_matvec_bsc, rows of missing threads
C28 proved | createIlukCsr_spec createIlukCsr_full ilu0_spec iluk_direct | symbolic + numerical factorization of CSR matrices, every pattern, every fill level: buffers respected, pattern = level-of-fill pattern, (I+L)(D+U)=A on it when pivots are nonzero; enough fill gives a direct solver
C28 proved | psolveIluk_spec psolvehIluk_spec | applying the preconditioner solves with (conjugate transpose of) the product of the stored factors
C28 proved | ilu_duplicates_overflow ilu_duplicates_lost psolveh_omp_no_conj | findings: duplicate entries overflow or are lost; OpenMP psolveh lacks conj on D. Not modelled: BSR/VBR block ILU, OpenMP per-thread block-diagonal variant
C42 proved | matrixConvert_spec matrixConvert_unknown matrixConvert_twice toCsr_spec toCsr_nodup fromCsr_spec | Serial, unsplit, assembled source; the same-format case (lis_matrix_copy) is modelled as giving the same arrays.
C43 proved | handleLife_spec handle_completed handle_no_leak handle_double_free refused_leaks setup_disables_solve history_failure_is_success | Ownership only: a vector, matrix or preconditioner is one block; which step of a call fails is an input of the model, and a failing allocation is assumed to leave the registry of lis_malloc intact (C32 shows that it does not). handleLife_spec is exact for every history; the others instantiate it.
C44 proved | cgProg_exact lisCg_spd cg_array_spd cg_csr_none_spd cg_csr_jacobi_spd cg_csr_ssor_spd cg_indefinite_breakdown | Exact arithmetic (any ordered field; reals for the documented terms). Floating-point loss of conjugacy is outside the model. The SPD preconditioners proved: none, Jacobi, SSOR with the relaxation of the model; others by hypothesis.
C45 proved | csr_jacobi_dom csr_gs_dom csr_sor_dom csr_gs_spd csr_sor_spd StationaryArray.dom StationaryArray.spd jacobi_diverges | Exact real arithmetic, CSR, no preconditioner, b not zero. The number of iterations that is enough is existential (it depends on the matrix, b, x and tol only).
C46 proved | crProg_exact lisCr_spd cr_array_spd cr_csr_none_spd cr_csr_jacobi_spd cr_csr_ssor_spd cr_indefinite_breakdown | Exact arithmetic (any ordered field; reals for the documented terms). Floating-point loss of orthogonality is outside the model.
C47 proved | cgs_any cgs_factors mgs_any mgs_error mgs_factors qr_similar_result qr_symmetric qr_two cgs_zero_first_column qr_zero_first_column qr_one_out_of_bounds qr_tests_one_element | Real scalars, exact arithmetic. Convergence of the QR iteration itself is not claimed (the code does not guarantee it). The last three sentences of the statement's negative part are theorems about the code as it is (findings).
C48 proved | splitOk_double quad_two_sum_exact quad_two_diff_exact quad_fast_two_sum_exact quad_split_exact quad_two_prod_exact quad_two_sqr_exact quad_add_accurate quad_sub_accurate quad_mul_accurate quad_muld_accurate quad_sqr_accurate quad_div_accurate rneD_nearest quad_add_slow_wrong quad_sqrt_loses_correction quad_two_prod_fma_sign | Scalar macros, any precision p and rounding to nearest with any tie rule; overflow, NaN and the SSE2 versions are not modelled.
C49 proved | axpyex_accurate axpyzex_accurate xpayex_accurate scaleex_accurate scaleexD_accurate reciprocalex_accurate dotex_accurate sumsqex_accurate matvecCsrEx_accurate matvecSplitCsrEx_accurate | Scalar serial paths; a product is required to be zero or not to underflow (SafeMul). The square root of nrm2 is excluded (see quad_sqrt_loses_correction in C48).
C50 proved | psolveIs_spec psolvehIs_spec isMat_injective createIsCsr_entries createIsCsr_spec is_unscaled_wrong is_first_solve_null is_depends_on_order | Serial paths, CSR storage; createIsCsr_entries says what is built for any diagonal, createIsCsr_spec is the unit-diagonal case. The equivalence on unscaled matrices is false (is_unscaled_wrong).
C51 proved | psolveAdds_spec psolveAddsCall_maps addsIter_eq adds_residual adds_exact adds_adjoint adds_spd_even cg_adds_spd adds_default_not_spd | Serial, double precision; inner preconditioner and matrix product are parameters specified by MapsVec.
C52 proved | krylov_ignores_work minres_ignores_work tfqmr_ignores_work gmres_ignores_work fgmres_ignores_work bicgstabl_ignores_work idrs_ignores_work idr1_ignores_work jacobi_ignores_work gs_ignores_work sor_ignores_work bicgsafe_ignores_work bicrsafe_ignores_work gpbicg_stale gpbicr_stale bicgsafe_stale_nan bicrsafe_stale_nan | Solver programs in the mathematical interpretation (the array interpretation refines it).
C53 proved | psolveHybrid_spec psolveHybrid_maps psolvehHybrid_maps Prog.execP_refines krylov_ignores_ring krylov_ends gmres_ends fgmres_ends jacobi_ends gs_ends sor_ends krylov_hybrid_array hybrid_meets hybrid_sor hybridOptions_spec hybrid_omega_ignored psolveh_hybrid_wrong hybrid_gpbicg_not_fixed hybrid_status_ignored | Serial double precision; allocation of the inner solver and its error paths are not modelled.
C54 proved | precon_applied preconh_applied createAt_fuel user_precon_never_applied ilu_two_formats ilu_hybrid_two_formats iluc_after_bsr psolveh_vbr_bsr hybrid_adds_undefined | lis_precon_psd_create/update are not modelled; the data a creator builds is abstracted to its kind.
C55 proved | createSainv_spec psolveSainv_spec sainv_solves biconj_inverse sainv_adjoint biconj_piv_pos sainvMat_spd cg_csr_sainv_spd createSainv_small sainv_complex_iff | Serial double precision; the quad-precision branches of psolve are not modelled.
C56 proved | createIlutCsr_spec ilut_error ilut_direct psolveIlut_spec psolvehIlut_spec ilut_keeps_the_smallest ilut_duplicates_overflow | Serial double precision, CSR; the quad-precision and OpenMP branches are not modelled.
C57 proved | lisEcr_contract lisEgcr_contract lisEcg_contract lisEgcg_contract lisEcr_error lisEgcr_error lisEcg_error lisEgcg_error lisEcr_exact lisEcr_success lisEgcr_exact lisEcg_exact lisEcg_success lisEgcg_start_vector lisEgcg_returns_start lisEgcg_not_an_eigenvector ecr_start_eigenvector ecr_breaks_down_on_eigenvector ritz3_defined | Vector, matrix and linear solver calls are abstract (their own models are C01-C40); complex scalars only for the contracts.
C58 proved | esetOption2_spec esetOptionArgs_spec esetOption_spec esolverInit_spec gesolveCheck_iff gesolve_rejects gesolve_spec gesolve_oob gesolve_silent esolve_spec egetRhistory_spec mode_oob negative_ss_silent gesolve_A_unchecked | The selected solver is an arbitrary function that keeps the sizes of its arrays; storage conversion and printing are not modelled.
C59 proved | ehandleLife_spec ehandle_completed ehandle_no_leak ehandle_generalized_leaks ehandle_double_free ehandle_ss_grown ehandle_junk_freed | Ownership only: a vector is one block; which step of a call fails is an input of the model; a failing allocation is assumed to leave the registry of lis_malloc intact. ehandle_junk_freed is a witness, not a general statement.
C60 proved | liTridiag_shape liTridiag_exact LanczosBasis.enclosure liRefine_spec liRitz_sum liRitz_default_undefined aiHess_breaks aiHess_default_undefined aiRitz_defined | Real build, standard eigenproblem. liRitz_sum assumes that t is not nearly singular (otherwise lis_array_qr loses columns, C47). The refinement loop of lis_eai is not modelled.
C61 proved | lisEsi_spec siIter_spec lisEsi_ishift lisEsi_ii_exact siErr_pi lisEsi_pi_exact siMode_second_degenerate siEnds_two lisEsi_other lisEsi_other_vector | Standard eigenproblem, real build; failure of lis_vector_duplicate and leaks of preconditioners are not modelled. The generalized version lis_egsi is not modelled.
C62 proved | inputVector_mm vecMm_roundTrip vecMm_integer_rejected inputVector_plain inputVector_plain_crowded vecPlain_roundTrip vecPlain_integer vecPlain_complex_fails vecPlain_empty_fails inputVector_lis_success inputVector_lis_first vecLis_first vecLis_roundTrip_iff outputVector_ill | The conversion of numbers to text and back is a hypothesis; words are consumed whole; fopen succeeds; writing is the serial build's.
C63 proved | matrixAxpy_spec matrixXpay_spec matrixAxpyz_spec matrixUpd_stale matrixUpd_notImplemented matrixUpd_oob shiftMatrix_csr shiftMatrix_csr_back shiftMatrix_ignored shiftMatrix_returns lisEgpi_shiftIgnored lisEgii_shiftIgnored | Positions stored once; matrices with n = np. axpyz with split matrices: the full values only (unsplit C).
C64 proved | lisEgsi_spec lisEgsi_ishift sgIter_spec lisEgsi_gpi_exact lisEgsi_gii_exact lisEgsi_later_inexact sgMode_second_degenerate sgEnds_two sgFree_other sgPreconVar_gii lisEgsi_other lisEgsi_precon_error | Subspace size at least 1; quad precision, timing and printing not modelled; the linear solver is a parameter (exact where the equations are stated).
C65 proved | inputHb_spec hbRead_spec inputHb_truncated inputHb_type inputIsMM_spec getFmtStr_scale getFmtStr_f hbCards_none hb_scale_misread hb_f_misread hb_paren_undefined hb_row_undefined hb_cards_misread inputIsMM_blank | Serial build, real scalars; atof is a parameter; negative pointers or row numbers are treated as undefined at once.
C66 proved | splitBsr_spec createBjacobi_spec bjacobi_spec diagInverse_spec diagMatvec_spec diagMatvech_spec diagCopy_spec splitBsr_missing_diagonal diagMatvecVbr_oob diagMatvecVbr_wrong bjacobi_zero_pivot | Serial build, exact field arithmetic; BSR only (BSC and VBR block Jacobi: only the application with variable block sizes).
C67 proved | solveLowerBsr_spec solveUpperBsr_spec solveSsorBsr_spec ssorBsr_spec solvehLowerBsr_spec solvehUpperBsr_spec solvehSsorBsr_spec ssorhBsr_spec diagScaleBlk_spec solvehLowerBsr_missing_conj solvehUpperBsr_missing_conj solvehUpperBsr_missing_conj1 | Serial build, exact ring/field arithmetic. For LOWER and UPPER with conjugate transpose no stored block of the part is a diagonal block and, for the block sizes where the code lacks conj, conjugation is trivial (the theorems *_missing_conj* show what happens otherwise).
C68 proved | solveLowerCsc_spec solveUpperCsc_spec solveSsorCsc_spec solvehLowerCsc_spec solvehUpperCsc_spec solvehSsorCsc_spec solveLowerMsr_spec solveUpperMsr_spec solveSsorMsr_spec solvehSsorMsr_spec solvehLowerMsr_wrong solvehUpperMsr_wrong | Serial build (n = np), exact ring arithmetic.
C69 proved | solveLowerDns_spec solveUpperDns_spec solveSsorDns_spec solvehLowerDns_spec solvehUpperDns_spec solvehSsorDns_spec solveLowerEll_spec solveUpperEll_spec solveSsorEll_spec solvehLowerEll_spec solvehUpperEll_spec solvehSsorEll_spec | Serial build (n = np), exact ring arithmetic.
C70 proved | solveLowerDia_spec solveUpperDia_spec solveSsorDia_spec solvehLowerDia_spec solvehUpperDia_spec solvehSsorDia_spec | Serial build, exact ring arithmetic.
C71 proved | jadWalk_short jadWalk_oob solveLowerJad_oob solveUpperJad_oob solveSsorJad_oob solvehLowerJad_oob solvehUpperJad_oob solvehSsorJad_oob | The deviation is proved: the model rejects every call. Serial build.
C72 proved | splitBsc_spec solveLowerBsc_spec solveUpperBsc_spec solveSsorBsc_spec ssorBsc_spec ssorBsc_symm ssorBsc_transposes ssorBsc_symmetric_wrong | Serial build, exact arithmetic; the SSOR theorem is for orders that are multiples of the block size. solveh_bsc is not modelled.
