{
 "claims": [
  {
   "property": "C01",
   "status": "proved",
   "theorems": [
    "Lis.setCalls_spec",
    "Lis.create_setCalls_spec",
    "Lis.ready_nodup",
    "Lis.setValues_spec",
    "Lis.create_setSize_ready",
    "Lis.matrixMalloc_ready",
    "Lis.setSize_success_iff"
   ],
   "note": "Any call sequence from any assembly-ready state; also from create+set_size."
  },
  {
   "property": "C02",
   "status": "proved",
   "theorems": [
    "Lis.setValue_status",
    "Lis.setValue_assembled"
   ],
   "note": "Every ready state, every integer index, both origins."
  },
  {
   "property": "C03",
   "status": "proved",
   "theorems": [
    "Lis.setCalls_spec",
    "Lis.setValue_annz0_oob",
    "Lis.malloc_mid_assembly_oob",
    "Lis.resize_after_malloc_oob"
   ],
   "note": "Ok = no access outside a block; three histories that do go out of bounds."
  },
  {
   "property": "C04",
   "status": "proved",
   "theorems": [
    "Lis.rco2csr_spec",
    "Lis.rco2csc_spec",
    "Lis.rco2bsr_spec",
    "Lis.create_set_assemble_csr"
   ],
   "note": "CSR, CSC and BSR (every block size), all contents of fresh memory."
  },
  {
   "property": "C05",
   "status": "proved",
   "theorems": [
    "Lis.matvecCsr_spec",
    "Lis.matvecSplitCsr_spec"
   ],
   "note": "Every well-formed CSR matrix (split or not), every semiring."
  },
  {
   "property": "C06",
   "status": "proved",
   "theorems": [
    "Lis.matvecCsc_spec",
    "Lis.matvecSplitCsc_spec",
    "Lis.matvecCoo_spec",
    "Lis.matvecSplitCoo_spec",
    "Lis.matvecDns_spec",
    "Lis.matvecMsr_spec",
    "Lis.matvecEll_spec",
    "Lis.matvecSplitEll_spec",
    "Lis.matvecDia_spec",
    "Lis.matvecSplitDia_spec",
    "Lis.matvecJad_spec",
    "Lis.matvecSplitJad_spec",
    "Lis.matvecBsr_spec",
    "Lis.matvecBsrU_spec",
    "Lis.lisMatvecBsr_spec",
    "Lis.matvecSplitBsr_spec",
    "Lis.matvecSplitBsrU_spec",
    "Lis.matvecBsrU_oob",
    "Lis.matvecBsc_spec",
    "Lis.matvecSplitBsc_spec",
    "Lis.matvecVbr_spec",
    "Lis.matvecSplitMsr_spec",
    "Lis.matvecSplitVbr_spec",
    "Lis.matvecSplitVbr_symm",
    "Lis.matvecSplitVbr_wrong"
   ],
   "note": "Serial kernels (OpenMP: C35). The exceptions in the statement have theorems of their own: matvecSplitVbr_spec (what is computed), matvecSplitVbr_wrong, matvecBsrU_oob."
  },
  {
   "property": "C07",
   "status": "proved",
   "theorems": [
    "Lis.matvechCsr_spec",
    "Lis.matvechSplitCsr_spec",
    "Lis.matvechSplitCsr_oob",
    "Lis.matvechCsc_spec",
    "Lis.matvechSplitCsc_spec",
    "Lis.matvechSplitCoo_spec",
    "Lis.matvechCoo_transpose",
    "Lis.matvechCoo_spec_partial",
    "Lis.matvechCoo_not_conj",
    "Lis.matvechDns_spec",
    "Lis.matvechMsr_spec",
    "Lis.matvechEll_spec",
    "Lis.matvechSplitEll_spec",
    "Lis.matvechDia_spec",
    "Lis.matvechSplitDia_spec",
    "Lis.matvechJad_spec",
    "Lis.matvechSplitJad_spec",
    "Lis.matvechBsr_spec",
    "Lis.matvechSplitBsr_spec",
    "Lis.matvechBsc_spec",
    "Lis.matvechSplitBsc_wrong",
    "Lis.matvechVbr_spec",
    "Lis.matvechSplitMsr_spec",
    "Lis.matvechSplitVbr_spec",
    "Lis.matvechSplitVbr_herm",
    "Lis.matvechSplitVbr_wrong"
   ],
   "note": "Serial kernels. matvechCoo_spec_partial is the real-scalar case; COO unsplit is wrong in the complex build; split CSR is out of bounds for np>n; split BSC is wrong."
  },
  {
   "property": "C08",
   "status": "proved",
   "theorems": [
    "Lis.csr2csc_spec",
    "Lis.csr2coo_spec",
    "Lis.csr2dns_spec",
    "Lis.csr2dns_duplicates",
    "Lis.csr2ell_spec",
    "Lis.csr2msr_spec",
    "Lis.csr2msr_nnz",
    "Lis.csr2bsr_spec",
    "Lis.csr2bsr_padded",
    "Lis.csr2bsr_duplicates",
    "Lis.csc2bsc_spec",
    "Lis.csc2bsc_padded",
    "Lis.csc2bsc_rect_oob",
    "Lis.csc2bsc_rect_wrong",
    "Lis.csr2dia_spec",
    "Lis.csr2dia_ascending",
    "Lis.csr2dia_empty",
    "Lis.csr2jad_spec",
    "Lis.csr2vbrWith_spec",
    "Lis.csr2vbrWith_blocks",
    "Lis.vbrRowcol_boundaries",
    "Lis.csr2vbr_spec",
    "Lis.csr2vbr_drops_rows",
    "Lis.fromCsr_spec"
   ],
   "note": "All ten targets; every exception in the statement has a negative theorem."
  },
  {
   "property": "C09",
   "status": "proved",
   "theorems": [
    "Lis.csc2csr_spec",
    "Lis.dns2csr_spec",
    "Lis.ell2csr_spec",
    "Lis.msr2csr_spec",
    "Lis.msr_roundtrip_oob",
    "Lis.coo2csr_spec",
    "Lis.dia2csr_spec",
    "Lis.jad2csr_spec",
    "Lis.bsr2csr_spec",
    "Lis.bsr2csr_padding_oob",
    "Lis.bsr2csr_padding_column",
    "Lis.bsc2csr_spec",
    "Lis.vbr2csr_spec",
    "Lis.csr_bsr_csr",
    "Lis.csr_jad_csr",
    "Lis.csr_dia_csr",
    "Lis.csr_vbr_csr",
    "Lis.toCsr_spec"
   ],
   "note": "All ten sources; exceptions have negative theorems."
  },
  {
   "property": "C10",
   "status": "proved",
   "theorems": [
    "Lis.splitCsr_parts",
    "Lis.splitCsr_spec",
    "Lis.splitCsr_missing_diagonal",
    "Lis.mergeCsr_spec",
    "Lis.split_merge"
   ],
   "note": "CSR; every content of fresh memory; exception for rows without a stored diagonal proved."
  },
  {
   "property": "C11",
   "status": "proved",
   "theorems": [
    "Lis.AnyMat.getDiagonal_spec",
    "Lis.AnyMat.getDiagonal_zeroed",
    "Lis.AnyMat.getDiagonal_nonzero",
    "Lis.getDiagonalCsr_spec",
    "Lis.getDiagonalSplitCsr_spec",
    "Lis.getDiagonalDia_undefined",
    "Lis.getDiagonal_stale",
    "Lis.getDiagonalVbr_uneven",
    "Lis.getDiagonalBsr_unsorted"
   ],
   "note": "All eleven formats, unsplit, and split CSR. Rows without a stored diagonal: 0 for CSR, CSC, MSR, ELL, DNS; the vector is left as it was for JAD, BSR, BSC, VBR, COO (counterexamples to the plain statement are theorems too: DIA without a main diagonal reads outside the array, VBR with uneven blocks). Block formats with square blocks; VBR with equal blocks."
  },
  {
   "property": "C12",
   "status": "proved",
   "theorems": [
    "Lis.AnyMat.shiftDiagonal_spec",
    "Lis.shiftDiagonalCsr_spec",
    "Lis.shiftDiagonalCsr_full",
    "Lis.shiftDiagonalSplitCsr_spec"
   ],
   "note": "All eleven formats, unsplit, and split CSR. Same reachability hypotheses as C11."
  },
  {
   "property": "C13",
   "status": "proved",
   "theorems": [
    "Lis.scaleCsr_spec",
    "Lis.scaleSymmCsr_spec",
    "Lis.scaleSplitCsr_spec",
    "Lis.scaleSymmSplitCsr_spec",
    "Lis.matrixScaleJacobi_spec",
    "Lis.matrixScaleSymm_spec",
    "Lis.matrixScaleSymm_diag",
    "Lis.matrixScaleJacobiSplit_spec",
    "Lis.matrixScaleSymmSplit_spec",
    "Lis.matrixScaleSymmSplit_negative",
    "Lis.AnyMat.scaleBy_spec",
    "Lis.AnyMat.scaleSymmBy_spec",
    "Lis.AnyMat.scaleJacobi_spec",
    "Lis.AnyMat.scaleSymm_spec",
    "Lis.AnyMat.scaleSymm_real",
    "Lis.scaleBsc_effect",
    "Lis.scaleSymmBsc_effect",
    "Lis.scaleSymmCoo_squares",
    "Lis.scaleJacobi_bsc_wrong",
    "Lis.scaleSymmCoo_wrong"
   ],
   "note": "CSR split and unsplit; every other format unsplit (Jacobi for all but BSC, symmetric for all but BSC and COO). What BSC and COO do instead is stated and proved, with witnesses that the claim fails there; negative result for the split symmetric scaling of a negative diagonal."
  },
  {
   "property": "C14",
   "status": "proved",
   "theorems": [
    "Lis.solveLowerCsr_spec",
    "Lis.solveUpperCsr_spec",
    "Lis.solveSsorCsr_spec",
    "Lis.solvehLowerCsr_spec",
    "Lis.solvehUpperCsr_spec",
    "Lis.solvehSsorCsr_spec",
    "Lis.solveUpperCsr_oob"
   ],
   "note": "CSR, serial; aliasing of x and b allowed."
  },
  {
   "property": "C15",
   "status": "proved",
   "theorems": [
    "Lis.lisSortI_spec",
    "Lis.lisSortId_spec",
    "Lis.lisSortIi_spec",
    "Lis.lisSortrIi_spec",
    "Lis.lisSortIid_spec",
    "Lis.lisSortIiid_spec",
    "Lis.lisSortD_spec",
    "Lis.lisSortDi_spec",
    "Lis.lisSortIdBlock_spec",
    "Lis.lisSortIdBlock_overflow"
   ],
   "note": "All quicksorts, any linear order of keys, any range inside the arrays; block version needs bs<=9, otherwise overflow (proved)."
  },
  {
   "property": "C16",
   "status": "proved",
   "theorems": [
    "Lis.lisSortJad_spec"
   ],
   "note": "."
  },
  {
   "property": "C17",
   "status": "proved",
   "theorems": [
    "Lis.getIsIe_contiguous",
    "Lis.getIsIe_balanced",
    "Lis.getIsIe_partition",
    "Lis.rangesCreateMpi_global",
    "Lis.rangesCreateMpi_local",
    "Lis.rangesCreateSerial_spec"
   ],
   "note": "All n, all process counts; MPI collectives modelled by their results."
  },
  {
   "property": "C18",
   "status": "proved",
   "theorems": [
    "Lis.vectorCopy_spec",
    "Lis.vectorAxpy_spec",
    "Lis.vectorXpay_spec",
    "Lis.vectorAxpyz_spec",
    "Lis.vectorPmul_spec",
    "Lis.vectorPdiv_spec",
    "Lis.vectorScale_spec",
    "Lis.vectorSetAll_spec",
    "Lis.vectorAbs_spec",
    "Lis.vectorReciprocal_spec",
    "Lis.vectorConjugate_spec",
    "Lis.vectorShift_spec",
    "Lis.vectorSwap_spec",
    "Lis.vector_length_mismatch",
    "Lis.vectorDot_spec",
    "Lis.vectorNhdot_spec",
    "Lis.vectorNrm2_spec",
    "Lis.vectorNrm1_spec",
    "Lis.vectorSum_spec",
    "Lis.vectorNrmi_spec",
    "Lis.vectorSum_mpi",
    "Lis.vectorSum_small_team",
    "Lis.vectorNrmiOmp_spec",
    "Lis.vectorNrmiOmp_uninitialised"
   ],
   "note": "All lengths, all aliasing, any thread schedule (team = max threads), any number of ranks; the OpenMP nrmi needs luck with uninitialised memory (negative theorem)."
  },
  {
   "property": "C19",
   "status": "proved",
   "theorems": [
    "Lis.avecSetCalls_spec",
    "Lis.avecSetValue_spec",
    "Lis.avecGetValue_spec",
    "Lis.avecGetValues_spec",
    "Lis.avecSetSize_spec",
    "Lis.avecSetSize_reject",
    "Lis.avecSetValues_spec",
    "Lis.avecSetValues_add_origin_wrong",
    "Lis.avecSetValues_partial_effect",
    "Lis.avecSetValues2_ignores_start",
    "Lis.avecSetValues2_origin_rejects",
    "Lis.avecScatter_gather"
   ],
   "note": "Any call sequence; the add branch of set_values with origin 1 and set_values2 are shown not to satisfy it."
  },
  {
   "property": "C20",
   "status": "proved",
   "theorems": [
    "Lis.arrayMatvec_spec",
    "Lis.arrayMatvech_spec",
    "Lis.arrayMatvecNs_spec",
    "Lis.arrayMatmat_spec",
    "Lis.arrayMatmatNs_spec"
   ],
   "note": "All n including the unrolled 1,2,3; insert, subtract, add; leading dimensions for the _ns kernels."
  },
  {
   "property": "C21",
   "status": "proved",
   "theorems": [
    "Lis.arraySolve_spec",
    "Lis.arrayGe_spec",
    "Lis.arraySolve_no_pivoting"
   ],
   "note": "Under nonzero leading principal minors (the condition for elimination without row exchanges); a nonsingular matrix outside it is not solved (arraySolve_no_pivoting)."
  },
  {
   "property": "C22",
   "status": "proved",
   "theorems": [
    "Lis.lisCg_status",
    "Lis.krylov_status",
    "Lis.krylov_array",
    "Lis.maxiter_zero_reports_junk"
   ],
   "note": "Any arithmetic (no laws assumed), any matrix/preconditioner; on arrays for any correct kernel, thread count and schedule. maxiter=0 reports an uninitialised residual (proved)."
  },
  {
   "property": "C23",
   "status": "proved",
   "theorems": [
    "Lis.lisCg_residual",
    "Lis.krylov_residual",
    "Lis.krylov_array"
   ],
   "note": "Exact arithmetic, linear product, any preconditioner."
  },
  {
   "property": "C24",
   "status": "proved",
   "theorems": [
    "Lis.krylov_success_meetsTol",
    "Lis.csr_none_success",
    "Lis.csr_jacobi_success",
    "Lis.csr_ssor_success",
    "Lis.nrm1_initial_too_weak"
   ],
   "note": "nrm1_b needs tol <= tol_w because of the initial test; counterexample proved."
  },
  {
   "property": "C25",
   "status": "proved",
   "theorems": [
    "Lis.krylov_status",
    "Lis.krylov_residual",
    "Lis.krylov_array",
    "Lis.lisCocg_status",
    "Lis.lisCr_status",
    "Lis.lisCocr_status",
    "Lis.lisBicg_status",
    "Lis.lisBicr_status",
    "Lis.lisCgs_status",
    "Lis.lisCrs_status",
    "Lis.lisBicgstab_status",
    "Lis.lisBicrstab_status",
    "Lis.lisGpbicg_status",
    "Lis.lisBicgsafe_status",
    "Lis.lisGpbicr_status",
    "Lis.lisBicrsafe_status",
    "Lis.lisOrthomin_status",
    "Lis.lisOrthomin_residual",
    "Lis.lisIdrs_status",
    "Lis.lisIdrs_residual",
    "Lis.lisIdr1_status",
    "Lis.lisIdr1_residual",
    "Lis.lisIdrs_success_meetsTol",
    "Lis.lisIdr1_success_meetsTol",
    "Lis.lisIdrs_zero_undefined",
    "Lis.lisIdrs_rhistory_overflow",
    "Lis.lisIdr1_rhistory_overflow",
    "Lis.lisTfqmr_status",
    "Lis.lisTfqmr_false_success",
    "Lis.lisBicgstabl_status",
    "Lis.lisBicgstabl_residual",
    "Lis.lisBicgstabl_reports",
    "Lis.lisBicgstabl_success_meetsTol",
    "Lis.lisBicgstabl_guess_counted_twice",
    "Lis.lisBicgstabl_maxiter_wrong_x",
    "Lis.lisBicgstabl_rhistory_overflow",
    "Lis.lisGmres_status",
    "Lis.lisGmres_residual",
    "Lis.lisGmres_success_meetsTol",
    "Lis.lisGmres_singular_false_success",
    "Lis.lisGmres_restart0_undefined",
    "Lis.lisGmres_nrm1_false_success",
    "Lis.lisFgmres_status",
    "Lis.lisFgmres_residual",
    "Lis.lisFgmres_success_absolute",
    "Lis.lisFgmres_false_success",
    "Lis.lisMinres_status",
    "Lis.lisMinres_residual",
    "Lis.lisMinres_success",
    "Lis.lisMinres_false_success"
   ],
   "note": "CG, COCG, CR, COCR, BiCG, BiCR, CGS, CRS, BiCGSTAB, BiCRSTAB, GPBiCG, BiCGSafe, GPBiCR, BiCRSafe, Orthomin(m), IDR(s), IDR(1): status and reported residual; TFQMR: status, and a refutation of its reported residual; BiCGSTAB(l): status and reported residual (with a zero initial guess; refuted otherwise); GMRES(m): status and reported residual over the reals for a nonsingular A*M^-1 (refuted for a singular one and for nrm1_b); FGMRES(m): status, reported residual is absolute (refuted as a relative one); MINRES: status, reported residual is the preconditioned one relative to the initial one (symmetric nonsingular M^-1*A, over the reals)."
  },
  {
   "property": "C26",
   "status": "proved",
   "theorems": [
    "Lis.lisJacobi_spec",
    "Lis.lisGs_spec",
    "Lis.sweep_correction",
    "Lis.sweep_fixed",
    "Lis.csr_jacobi",
    "Lis.csr_gs",
    "Lis.csr_sor"
   ],
   "note": "On arrays without preconditioner; with any preconditioner at the level of lisJacobi_spec, lisGs_spec."
  },
  {
   "property": "C27",
   "status": "proved",
   "theorems": [
    "Lis.psolveNone_spec",
    "Lis.jacobi_psolve_spec",
    "Lis.jacobi_psolveh_spec",
    "Lis.ssor_psolve_spec",
    "Lis.ssor_psolveh_spec",
    "Lis.ssor_psolve_default",
    "Lis.ssor_not_documented",
    "Lis.ensureWdSor_first",
    "Lis.ensureWdSor_stale"
   ],
   "note": "CSR. As coded M=(wD+L)(wD)^-1(wD+U), which is the documented one only for w=1 (negative theorem); A->WD goes stale (proved)."
  },
  {
   "property": "C28",
   "status": "proved",
   "theorems": [
    "Lis.createIlukCsr_spec",
    "Lis.createIlukCsr_full",
    "Lis.ilu0_spec",
    "Lis.iluk_direct",
    "Lis.psolveIluk_spec",
    "Lis.psolvehIluk_spec",
    "Lis.ilu_duplicates_overflow",
    "Lis.ilu_duplicates_lost",
    "Lis.psolveh_omp_no_conj"
   ],
   "note": "symbolic + numerical factorization of CSR matrices, every pattern, every fill level: buffers respected, pattern = level-of-fill pattern, (I+L)(D+U)=A on it when pivots are nonzero; enough fill gives a direct solver applying the preconditioner solves with (conjugate transpose of) the product of the stored factors findings: duplicate entries overflow or are lost; OpenMP psolveh lacks conj on D. Not modelled: BSR/VBR block ILU, OpenMP per-thread block-diagonal variant"
  },
  {
   "property": "C29",
   "status": "proved",
   "theorems": [
    "Lis.setOption_spec",
    "Lis.setOptionArgs_spec",
    "Lis.setOption2_spec",
    "Lis.setOption2_unknown",
    "Lis.setOption_last_int",
    "Lis.setOption_last_real",
    "Lis.solverInit_spec"
   ],
   "note": "Texts of at most 1022 characters; settings compared with the option table of the manual; %d is modelled, %lg is a parameter."
  },
  {
   "property": "C30",
   "status": "proved",
   "theorems": [
    "Lis.text2args_spec",
    "Lis.text2args_overflow",
    "Lis.text2args_overread"
   ],
   "note": ""
  },
  {
   "property": "C31",
   "status": "proved",
   "theorems": [
    "Lis.hash_map",
    "Lis.hash_negative"
   ],
   "note": "Any history of insertions and clears; negative indices fall outside the table (hash_negative)."
  },
  {
   "property": "C32",
   "status": "proved",
   "theorems": [
    "Lis.memHist_blocks",
    "Lis.memHist_isMalloc",
    "Lis.memHist_malloc",
    "Lis.memHist_calloc",
    "Lis.memHist_realloc",
    "Lis.memHist_free",
    "Lis.memHist_free_null",
    "Lis.memHist_realloc_shrink",
    "Lis.memHist_freeAll",
    "Lis.memHist_failure"
   ],
   "note": "Pointer-level model of the list; the C allocator is arbitrary; lis_free_mat and lis_free2 are not modelled."
  },
  {
   "property": "C33",
   "status": "proved",
   "theorems": [
    "Lis.mmInput_spec",
    "Lis.mmCsr_spec",
    "Lis.mmCsrRows_spec",
    "Lis.mmCsrRows_safe",
    "Lis.mmCsrRows_truncated",
    "Lis.mmInput_notSquare",
    "Lis.mmBanner_spec",
    "Lis.mmDns_spec",
    "Lis.mmCsrRows_herm",
    "Lis.mmCsrRows_herm_witness",
    "Lis.mmCsr_column_unchecked",
    "Lis.mmCsr_row_dropped",
    "Lis.mmBanner_bad",
    "Lis.mmCsr_vec_truncated",
    "Lis.mmReadX_complex_ignores",
    "Lis.mmInput_dns_short"
   ],
   "note": "Text files, files seen as lines of words with the values %d/%lg give them (text-number conversion trusted); serial and per-process row ranges. Binary files not modelled. Findings, proved of the model."
  },
  {
   "property": "C34",
   "status": "proved",
   "theorems": [
    "Lis.g2lCsr_local",
    "Lis.mpi_matvec",
    "Lis.mpi_matvech",
    "Lis.mpi_solver",
    "Lis.mpi_krylov",
    "Lis.mpi_psolveNone",
    "Lis.mpi_psolveJacobi",
    "Lis.mpi_matvec_no_remote"
   ],
   "note": "all partitions, patterns, rank counts and schedules (FIFO channels between rank pairs, Isend/Irecv/Waitall groups, Alltoall and Allreduce as exchanges); CSR, user-supplied arrays; solvers: real build, one value of the uninitialised residual variable on all ranks finding: import_index[0] of a zero-size block is read on a rank that needs no remote column"
  },
  {
   "property": "C35",
   "status": "proved",
   "theorems": [
    "Lis.ompParallel_reach",
    "Lis.ompParallel_terminates",
    "Lis.omp_matvecCsr",
    "Lis.omp_matvecSplitCsr",
    "Lis.omp_matvecMsr",
    "Lis.omp_matvechCsc",
    "Lis.omp_matvecCsr_spec",
    "Lis.omp_matvechCsr",
    "Lis.omp_matvechSplitCsr",
    "Lis.omp_matvecCsc",
    "Lis.omp_matvechMsr",
    "Lis.omp_matvecDns",
    "Lis.omp_matvecEll",
    "Lis.omp_matvechDns",
    "Lis.omp_vectorCopy",
    "Lis.omp_vectorAxpy",
    "Lis.omp_vectorXpay",
    "Lis.omp_vectorAxpyz",
    "Lis.omp_vectorPmul",
    "Lis.omp_vectorPdiv",
    "Lis.omp_vectorScale",
    "Lis.omp_vectorSetAll",
    "Lis.omp_vectorAbs",
    "Lis.omp_vectorReciprocal",
    "Lis.omp_vectorConjugate",
    "Lis.omp_vectorShift",
    "Lis.vectorSwapOmp_race",
    "Lis.vectorSwapOmp_wrong",
    "Lis.matvecBscOmp_race",
    "Lis.matvecBscOmp_wrong",
    "Lis.matvechDiaOmp_race",
    "Lis.matvechDiaOmp_wrong",
    "Lis.matvecDnsOmp_small_team"
   ],
   "note": "every team size, schedule and interleaving of single accesses: exactly the serial block, no law of arithmetic; sequentially consistent memory, one step per access to a shared cell buffered and row-split kernels, exact arithmetic; buffered ones also when the team is smaller than omp_get_max_threads() element-wise vector operations, aliasing allowed findings: shared temporary in lis_vector_swap and lis_matvech_dia, unsynchronised += in lis_matvec_bsc, rows of missing threads"
  },
  {
   "property": "C36",
   "status": "proved",
   "theorems": [
    "Lis.bswapInt32_spec",
    "Lis.bswapDouble_spec",
    "Lis.bswap_involution",
    "Lis.bswapInt32_involution",
    "Lis.bswapDouble_involution",
    "Lis.bswapInt64_not_reversal",
    "Lis.bswapComplex_imag_unswapped"
   ],
   "note": "Reversal holds for 4-byte int and 8-byte double/size_t; negative results for 64-bit LIS_INT and complex."
  },
  {
   "property": "C37",
   "status": "proved",
   "theorems": [
    "Lis.runHistory_solves",
    "Lis.solveCall_step",
    "Lis.kernelScale_none",
    "Lis.exists_solvesAll",
    "Lis.solve_twice_scales_twice",
    "Lis.refill_without_reset",
    "Lis.other_solver_uses_uninitialised",
    "Lis.stationary_second_rhs_unscaled",
    "Lis.stationary_symm_unscaled_twice",
    "Lis.switch_to_cg_wrong",
    "Lis.none_after_symm_wrong"
   ],
   "note": "every history of stores, resets and solves with one solver object; the exceptions named in the statement are proved as findings"
  },
  {
   "property": "C38",
   "status": "proved",
   "theorems": [
    "Lis.lisEpi_contract",
    "Lis.lisEii_contract",
    "Lis.lisErqi_contract",
    "Lis.lisEgpi_contract",
    "Lis.lisEgii_contract",
    "Lis.lisEgrqi_contract",
    "Lis.EProg.exec_refines",
    "Lis.lisEpi_exact",
    "Lis.lisEii_exact",
    "Lis.lisErqi_exact",
    "Lis.lisEgpi_exact",
    "Lis.lisEgii_exact",
    "Lis.lisEgrqi_exact",
    "Lis.lisEpi_csr",
    "Lis.lisEii_csr",
    "Lis.lisErqi_csr",
    "Lis.lisEpi_maxiter_zero",
    "Lis.lisEii_error_leaves_shifted",
    "Lis.lisErqi_error_leaves_shifted",
    "Lis.lisEpi_residual_of_other_vector"
   ],
   "note": "law-free: the six programs make exactly the stated iterations, report success iff the residual of the last iteration met the tolerance, stop after maxiter, pass on inner-solver errors real arithmetic: relation of the reported residual to the returned pair; matrix restored; on CSR arrays findings"
  },
  {
   "property": "C39",
   "status": "proved",
   "theorems": [
    "Lis.setOption2_userdef",
    "Lis.solveCheck_userdef"
   ],
   "note": ""
  },
  {
   "property": "C40",
   "status": "proved",
   "theorems": [
    "Lis.solveCheck_spec",
    "Lis.convCond3_oob"
   ],
   "note": "Build without MPI and quadruple precision; creation of the preconditioner is a parameter."
  },
  {
   "property": "C41",
   "status": "proved",
   "theorems": [
    "Lis.mm_roundTrip",
    "Lis.mm_roundTrip_b",
    "Lis.mm_roundTrip_x_is_b",
    "Lis.mmOutput_x_without_b"
   ],
   "note": "Matrix and b, real and complex builds, assuming printf/scanf of numbers is exact. Findings: x is written from b."
  },
  {
   "property": "C42",
   "status": "proved",
   "theorems": [
    "Lis.matrixConvert_spec",
    "Lis.matrixConvert_unknown",
    "Lis.matrixConvert_twice",
    "Lis.toCsr_spec",
    "Lis.toCsr_nodup",
    "Lis.fromCsr_spec"
   ],
   "note": "Serial, unsplit, assembled source; the same-format case (lis_matrix_copy) is modelled as giving the same arrays."
  },
  {
   "property": "C43",
   "status": "proved",
   "theorems": [
    "Lis.handleLife_spec",
    "Lis.handle_completed",
    "Lis.handle_no_leak",
    "Lis.handle_double_free",
    "Lis.refused_leaks",
    "Lis.setup_disables_solve",
    "Lis.history_failure_is_success"
   ],
   "note": "Ownership only: a vector, matrix or preconditioner is one block; which step of a call fails is an input of the model, and a failing allocation is assumed to leave the registry of lis_malloc intact (C32 shows that it does not). handleLife_spec is exact for every history; the others instantiate it."
  },
  {
   "property": "C44",
   "status": "proved",
   "theorems": [
    "Lis.cgProg_exact",
    "Lis.lisCg_spd",
    "Lis.cg_array_spd",
    "Lis.cg_csr_none_spd",
    "Lis.cg_csr_jacobi_spd",
    "Lis.cg_csr_ssor_spd",
    "Lis.cg_indefinite_breakdown"
   ],
   "note": "Exact arithmetic (any ordered field; reals for the documented terms). Floating-point loss of conjugacy is outside the model. The SPD preconditioners proved: none, Jacobi, SSOR with the relaxation of the model; others by hypothesis."
  },
  {
   "property": "C45",
   "status": "proved",
   "theorems": [
    "Lis.csr_jacobi_dom",
    "Lis.csr_gs_dom",
    "Lis.csr_sor_dom",
    "Lis.csr_gs_spd",
    "Lis.csr_sor_spd",
    "Lis.StationaryArray.dom",
    "Lis.StationaryArray.spd",
    "Lis.jacobi_diverges"
   ],
   "note": "Exact real arithmetic, CSR, no preconditioner, b not zero. The number of iterations that is enough is existential (it depends on the matrix, b, x and tol only)."
  },
  {
   "property": "C46",
   "status": "proved",
   "theorems": [
    "Lis.crProg_exact",
    "Lis.lisCr_spd",
    "Lis.cr_array_spd",
    "Lis.cr_csr_none_spd",
    "Lis.cr_csr_jacobi_spd",
    "Lis.cr_csr_ssor_spd",
    "Lis.cr_indefinite_breakdown"
   ],
   "note": "Exact arithmetic (any ordered field; reals for the documented terms). Floating-point loss of orthogonality is outside the model."
  },
  {
   "property": "C47",
   "status": "proved",
   "theorems": [
    "Lis.cgs_any",
    "Lis.cgs_factors",
    "Lis.mgs_any",
    "Lis.mgs_error",
    "Lis.mgs_factors",
    "Lis.qr_similar_result",
    "Lis.qr_symmetric",
    "Lis.qr_two",
    "Lis.cgs_zero_first_column",
    "Lis.qr_zero_first_column",
    "Lis.qr_one_out_of_bounds",
    "Lis.qr_tests_one_element"
   ],
   "note": "Real scalars, exact arithmetic. Convergence of the QR iteration itself is not claimed (the code does not guarantee it). The last three sentences of the statement's negative part are theorems about the code as it is (findings)."
  },
  {
   "property": "C48",
   "status": "proved",
   "theorems": [
    "Lis.splitOk_double",
    "Lis.quad_two_sum_exact",
    "Lis.quad_two_diff_exact",
    "Lis.quad_fast_two_sum_exact",
    "Lis.quad_split_exact",
    "Lis.quad_two_prod_exact",
    "Lis.quad_two_sqr_exact",
    "Lis.quad_add_accurate",
    "Lis.quad_sub_accurate",
    "Lis.quad_mul_accurate",
    "Lis.quad_muld_accurate",
    "Lis.quad_sqr_accurate",
    "Lis.quad_div_accurate",
    "Lis.rneD_nearest",
    "Lis.quad_add_slow_wrong",
    "Lis.quad_sqrt_loses_correction",
    "Lis.quad_two_prod_fma_sign"
   ],
   "note": "Scalar macros, any precision p and rounding to nearest with any tie rule; overflow, NaN and the SSE2 versions are not modelled."
  },
  {
   "property": "C49",
   "status": "proved",
   "theorems": [
    "Lis.axpyex_accurate",
    "Lis.axpyzex_accurate",
    "Lis.xpayex_accurate",
    "Lis.scaleex_accurate",
    "Lis.scaleexD_accurate",
    "Lis.reciprocalex_accurate",
    "Lis.dotex_accurate",
    "Lis.sumsqex_accurate",
    "Lis.matvecCsrEx_accurate",
    "Lis.matvecSplitCsrEx_accurate"
   ],
   "note": "Scalar serial paths; a product is required to be zero or not to underflow (SafeMul). The square root of nrm2 is excluded (see quad_sqrt_loses_correction in C48)."
  },
  {
   "property": "C50",
   "status": "proved",
   "theorems": [
    "Lis.psolveIs_spec",
    "Lis.psolvehIs_spec",
    "Lis.isMat_injective",
    "Lis.createIsCsr_entries",
    "Lis.createIsCsr_spec",
    "Lis.is_unscaled_wrong",
    "Lis.is_first_solve_null",
    "Lis.is_depends_on_order"
   ],
   "note": "Serial paths, CSR storage; createIsCsr_entries says what is built for any diagonal, createIsCsr_spec is the unit-diagonal case. The equivalence on unscaled matrices is false (is_unscaled_wrong)."
  },
  {
   "property": "C51",
   "status": "proved",
   "theorems": [
    "Lis.psolveAdds_spec",
    "Lis.psolveAddsCall_maps",
    "Lis.addsIter_eq",
    "Lis.adds_residual",
    "Lis.adds_exact",
    "Lis.adds_adjoint",
    "Lis.adds_spd_even",
    "Lis.cg_adds_spd",
    "Lis.adds_default_not_spd"
   ],
   "note": "Serial, double precision; inner preconditioner and matrix product are parameters specified by MapsVec."
  },
  {
   "property": "C52",
   "status": "proved",
   "theorems": [
    "Lis.krylov_ignores_work",
    "Lis.minres_ignores_work",
    "Lis.tfqmr_ignores_work",
    "Lis.gmres_ignores_work",
    "Lis.fgmres_ignores_work",
    "Lis.bicgstabl_ignores_work",
    "Lis.idrs_ignores_work",
    "Lis.idr1_ignores_work",
    "Lis.jacobi_ignores_work",
    "Lis.gs_ignores_work",
    "Lis.sor_ignores_work",
    "Lis.bicgsafe_ignores_work",
    "Lis.bicrsafe_ignores_work",
    "Lis.gpbicg_stale",
    "Lis.gpbicr_stale",
    "Lis.bicgsafe_stale_nan",
    "Lis.bicrsafe_stale_nan"
   ],
   "note": "Solver programs in the mathematical interpretation (the array interpretation refines it)."
  },
  {
   "property": "C53",
   "status": "proved",
   "theorems": [
    "Lis.psolveHybrid_spec",
    "Lis.psolveHybrid_maps",
    "Lis.psolvehHybrid_maps",
    "Lis.Prog.execP_refines",
    "Lis.krylov_ignores_ring",
    "Lis.krylov_ends",
    "Lis.gmres_ends",
    "Lis.fgmres_ends",
    "Lis.jacobi_ends",
    "Lis.gs_ends",
    "Lis.sor_ends",
    "Lis.krylov_hybrid_array",
    "Lis.hybrid_meets",
    "Lis.hybrid_sor",
    "Lis.hybridOptions_spec",
    "Lis.hybrid_omega_ignored",
    "Lis.psolveh_hybrid_wrong",
    "Lis.hybrid_gpbicg_not_fixed",
    "Lis.hybrid_status_ignored"
   ],
   "note": "Serial double precision; allocation of the inner solver and its error paths are not modelled."
  },
  {
   "property": "C54",
   "status": "proved",
   "theorems": [
    "Lis.precon_applied",
    "Lis.preconh_applied",
    "Lis.createAt_fuel",
    "Lis.user_precon_never_applied",
    "Lis.ilu_two_formats",
    "Lis.ilu_hybrid_two_formats",
    "Lis.iluc_after_bsr",
    "Lis.psolveh_vbr_bsr",
    "Lis.hybrid_adds_undefined"
   ],
   "note": "lis_precon_psd_create/update are not modelled; the data a creator builds is abstracted to its kind."
  },
  {
   "property": "C55",
   "status": "proved",
   "theorems": [
    "Lis.createSainv_spec",
    "Lis.psolveSainv_spec",
    "Lis.sainv_solves",
    "Lis.biconj_inverse",
    "Lis.sainv_adjoint",
    "Lis.biconj_piv_pos",
    "Lis.sainvMat_spd",
    "Lis.cg_csr_sainv_spd",
    "Lis.createSainv_small",
    "Lis.sainv_complex_iff"
   ],
   "note": "Serial double precision; the quad-precision branches of psolve are not modelled."
  },
  {
   "property": "C56",
   "status": "proved",
   "theorems": [
    "Lis.createIlutCsr_spec",
    "Lis.ilut_error",
    "Lis.ilut_direct",
    "Lis.psolveIlut_spec",
    "Lis.psolvehIlut_spec",
    "Lis.ilut_keeps_the_smallest",
    "Lis.ilut_duplicates_overflow"
   ],
   "note": "Serial double precision, CSR; the quad-precision and OpenMP branches are not modelled."
  },
  {
   "property": "C57",
   "status": "proved",
   "theorems": [
    "Lis.lisEcr_contract",
    "Lis.lisEgcr_contract",
    "Lis.lisEcg_contract",
    "Lis.lisEgcg_contract",
    "Lis.lisEcr_error",
    "Lis.lisEgcr_error",
    "Lis.lisEcg_error",
    "Lis.lisEgcg_error",
    "Lis.lisEcr_exact",
    "Lis.lisEcr_success",
    "Lis.lisEgcr_exact",
    "Lis.lisEcg_exact",
    "Lis.lisEcg_success",
    "Lis.lisEgcg_start_vector",
    "Lis.lisEgcg_returns_start",
    "Lis.lisEgcg_not_an_eigenvector",
    "Lis.ecr_start_eigenvector",
    "Lis.ecr_breaks_down_on_eigenvector",
    "Lis.ritz3_defined"
   ],
   "note": "Vector, matrix and linear solver calls are abstract (their own models are C01-C40); complex scalars only for the contracts."
  },
  {
   "property": "C58",
   "status": "proved",
   "theorems": [
    "Lis.esetOption2_spec",
    "Lis.esetOptionArgs_spec",
    "Lis.esetOption_spec",
    "Lis.esolverInit_spec",
    "Lis.gesolveCheck_iff",
    "Lis.gesolve_rejects",
    "Lis.gesolve_spec",
    "Lis.gesolve_oob",
    "Lis.gesolve_silent",
    "Lis.esolve_spec",
    "Lis.egetRhistory_spec",
    "Lis.mode_oob",
    "Lis.negative_ss_silent",
    "Lis.gesolve_A_unchecked"
   ],
   "note": "The selected solver is an arbitrary function that keeps the sizes of its arrays; storage conversion and printing are not modelled."
  },
  {
   "property": "C59",
   "status": "proved",
   "theorems": [
    "Lis.ehandleLife_spec",
    "Lis.ehandle_completed",
    "Lis.ehandle_no_leak",
    "Lis.ehandle_generalized_leaks",
    "Lis.ehandle_double_free",
    "Lis.ehandle_ss_grown",
    "Lis.ehandle_junk_freed"
   ],
   "note": "Ownership only: a vector is one block; which step of a call fails is an input of the model; a failing allocation is assumed to leave the registry of lis_malloc intact. ehandle_junk_freed is a witness, not a general statement."
  },
  {
   "property": "C60",
   "status": "proved",
   "theorems": [
    "Lis.liTridiag_shape",
    "Lis.liTridiag_exact",
    "Lis.LanczosBasis.enclosure",
    "Lis.liRefine_spec",
    "Lis.liRitz_sum",
    "Lis.liRitz_default_undefined",
    "Lis.aiHess_breaks",
    "Lis.aiHess_default_undefined",
    "Lis.aiRitz_defined"
   ],
   "note": "Real build, standard eigenproblem. liRitz_sum assumes that t is not nearly singular (otherwise lis_array_qr loses columns, C47). The refinement loop of lis_eai is not modelled."
  },
  {
   "property": "C61",
   "status": "proved",
   "theorems": [
    "Lis.lisEsi_spec",
    "Lis.siIter_spec",
    "Lis.lisEsi_ishift",
    "Lis.lisEsi_ii_exact",
    "Lis.siErr_pi",
    "Lis.lisEsi_pi_exact",
    "Lis.siMode_second_degenerate",
    "Lis.siEnds_two",
    "Lis.lisEsi_other",
    "Lis.lisEsi_other_vector"
   ],
   "note": "Standard eigenproblem, real build; failure of lis_vector_duplicate and leaks of preconditioners are not modelled. The generalized version lis_egsi is not modelled."
  },
  {
   "property": "C62",
   "status": "proved",
   "theorems": [
    "Lis.inputVector_mm",
    "Lis.vecMm_roundTrip",
    "Lis.vecMm_integer_rejected",
    "Lis.inputVector_plain",
    "Lis.inputVector_plain_crowded",
    "Lis.vecPlain_roundTrip",
    "Lis.vecPlain_integer",
    "Lis.vecPlain_complex_fails",
    "Lis.vecPlain_empty_fails",
    "Lis.inputVector_lis_success",
    "Lis.inputVector_lis_first",
    "Lis.vecLis_first",
    "Lis.vecLis_roundTrip_iff",
    "Lis.outputVector_ill"
   ],
   "note": "The conversion of numbers to text and back is a hypothesis; words are consumed whole; fopen succeeds; writing is the serial build's."
  },
  {
   "property": "C63",
   "status": "proved",
   "theorems": [
    "Lis.matrixAxpy_spec",
    "Lis.matrixXpay_spec",
    "Lis.matrixAxpyz_spec",
    "Lis.matrixUpd_stale",
    "Lis.matrixUpd_notImplemented",
    "Lis.matrixUpd_oob",
    "Lis.shiftMatrix_csr",
    "Lis.shiftMatrix_csr_back",
    "Lis.shiftMatrix_ignored",
    "Lis.shiftMatrix_returns",
    "Lis.lisEgpi_shiftIgnored",
    "Lis.lisEgii_shiftIgnored"
   ],
   "note": "Positions stored once; matrices with n = np. axpyz with split matrices: the full values only (unsplit C)."
  },
  {
   "property": "C64",
   "status": "proved",
   "theorems": [
    "Lis.lisEgsi_spec",
    "Lis.lisEgsi_ishift",
    "Lis.sgIter_spec",
    "Lis.lisEgsi_gpi_exact",
    "Lis.lisEgsi_gii_exact",
    "Lis.lisEgsi_later_inexact",
    "Lis.sgMode_second_degenerate",
    "Lis.sgEnds_two",
    "Lis.sgFree_other",
    "Lis.sgPreconVar_gii",
    "Lis.lisEgsi_other",
    "Lis.lisEgsi_precon_error"
   ],
   "note": "Subspace size at least 1; quad precision, timing and printing not modelled; the linear solver is a parameter (exact where the equations are stated)."
  },
  {
   "property": "C65",
   "status": "proved",
   "theorems": [
    "Lis.inputHb_spec",
    "Lis.hbRead_spec",
    "Lis.inputHb_truncated",
    "Lis.inputHb_type",
    "Lis.inputIsMM_spec",
    "Lis.getFmtStr_scale",
    "Lis.getFmtStr_f",
    "Lis.hbCards_none",
    "Lis.hb_scale_misread",
    "Lis.hb_f_misread",
    "Lis.hb_paren_undefined",
    "Lis.hb_row_undefined",
    "Lis.hb_cards_misread",
    "Lis.inputIsMM_blank"
   ],
   "note": "Serial build, real scalars; atof is a parameter; negative pointers or row numbers are treated as undefined at once."
  },
  {
   "property": "C66",
   "status": "proved",
   "theorems": [
    "Lis.splitBsr_spec",
    "Lis.createBjacobi_spec",
    "Lis.bjacobi_spec",
    "Lis.diagInverse_spec",
    "Lis.diagMatvec_spec",
    "Lis.diagMatvech_spec",
    "Lis.diagCopy_spec",
    "Lis.splitBsr_missing_diagonal",
    "Lis.diagMatvecVbr_oob",
    "Lis.diagMatvecVbr_wrong",
    "Lis.bjacobi_zero_pivot"
   ],
   "note": "Serial build, exact field arithmetic; BSR only (BSC and VBR block Jacobi: only the application with variable block sizes)."
  },
  {
   "property": "C67",
   "status": "proved",
   "theorems": [
    "Lis.solveLowerBsr_spec",
    "Lis.solveUpperBsr_spec",
    "Lis.solveSsorBsr_spec",
    "Lis.ssorBsr_spec",
    "Lis.solvehLowerBsr_spec",
    "Lis.solvehUpperBsr_spec",
    "Lis.solvehSsorBsr_spec",
    "Lis.ssorhBsr_spec",
    "Lis.diagScaleBlk_spec",
    "Lis.solvehLowerBsr_missing_conj",
    "Lis.solvehUpperBsr_missing_conj",
    "Lis.solvehUpperBsr_missing_conj1"
   ],
   "note": "Serial build, exact ring/field arithmetic. For LOWER and UPPER with conjugate transpose no stored block of the part is a diagonal block and, for the block sizes where the code lacks conj, conjugation is trivial (the theorems *_missing_conj* show what happens otherwise)."
  },
  {
   "property": "C68",
   "status": "proved",
   "theorems": [
    "Lis.solveLowerCsc_spec",
    "Lis.solveUpperCsc_spec",
    "Lis.solveSsorCsc_spec",
    "Lis.solvehLowerCsc_spec",
    "Lis.solvehUpperCsc_spec",
    "Lis.solvehSsorCsc_spec",
    "Lis.solveLowerMsr_spec",
    "Lis.solveUpperMsr_spec",
    "Lis.solveSsorMsr_spec",
    "Lis.solvehSsorMsr_spec",
    "Lis.solvehLowerMsr_wrong",
    "Lis.solvehUpperMsr_wrong"
   ],
   "note": "Serial build (n = np), exact ring arithmetic."
  },
  {
   "property": "C69",
   "status": "proved",
   "theorems": [
    "Lis.solveLowerDns_spec",
    "Lis.solveUpperDns_spec",
    "Lis.solveSsorDns_spec",
    "Lis.solvehLowerDns_spec",
    "Lis.solvehUpperDns_spec",
    "Lis.solvehSsorDns_spec",
    "Lis.solveLowerEll_spec",
    "Lis.solveUpperEll_spec",
    "Lis.solveSsorEll_spec",
    "Lis.solvehLowerEll_spec",
    "Lis.solvehUpperEll_spec",
    "Lis.solvehSsorEll_spec"
   ],
   "note": "Serial build (n = np), exact ring arithmetic."
  },
  {
   "property": "C70",
   "status": "proved",
   "theorems": [
    "Lis.solveLowerDia_spec",
    "Lis.solveUpperDia_spec",
    "Lis.solveSsorDia_spec",
    "Lis.solvehLowerDia_spec",
    "Lis.solvehUpperDia_spec",
    "Lis.solvehSsorDia_spec"
   ],
   "note": "Serial build, exact ring arithmetic."
  },
  {
   "property": "C71",
   "status": "proved",
   "theorems": [
    "Lis.jadWalk_short",
    "Lis.jadWalk_oob",
    "Lis.solveLowerJad_oob",
    "Lis.solveUpperJad_oob",
    "Lis.solveSsorJad_oob",
    "Lis.solvehLowerJad_oob",
    "Lis.solvehUpperJad_oob",
    "Lis.solvehSsorJad_oob"
   ],
   "note": "The deviation is proved: the model rejects every call. Serial build."
  },
  {
   "property": "C72",
   "status": "proved",
   "theorems": [
    "Lis.splitBsc_spec",
    "Lis.solveLowerBsc_spec",
    "Lis.solveUpperBsc_spec",
    "Lis.solveSsorBsc_spec",
    "Lis.ssorBsc_spec",
    "Lis.ssorBsc_symm",
    "Lis.ssorBsc_transposes",
    "Lis.ssorBsc_symmetric_wrong"
   ],
   "note": "Serial build, exact arithmetic; the SSOR theorem is for orders that are multiples of the block size. solveh_bsc is not modelled."
  }
 ]
}