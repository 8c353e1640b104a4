{
 "claims": [
  {
   "property": "C01",
   "status": "proved",
   "theorems": [
    "PML.Word.C01_integer_dot_exact"
   ],
   "note": ""
  },
  {
   "property": "C02",
   "status": "proved",
   "theorems": [
    "PML.Word.C02_dot_product_unbalanced"
   ],
   "note": ""
  },
  {
   "property": "C03",
   "status": "proved",
   "theorems": [
    "PML.Word.C03_bound_limbs_sound"
   ],
   "note": ""
  },
  {
   "property": "C04",
   "status": "partial",
   "theorems": [
    "PML.Word.C04_split26_partial",
    "PML.Word.C04_split26_wrong"
   ],
   "note": "False of the code (lost carry in the recombination, witness proved); proved when that addition does not carry."
  },
  {
   "property": "C05",
   "status": "partial",
   "theorems": [
    "PML.Word.C05_two_dot_split_partial",
    "PML.Word.C05_two_dot_split_wrong"
   ],
   "note": "False at the advertised maximal length (witness proved); proved for lengths up to 47000000. Scalar build only."
  },
  {
   "property": "C06",
   "status": "proved",
   "theorems": [
    "PML.Word.C06_nmod32_dot_split"
   ],
   "note": "Scalar build."
  },
  {
   "property": "C07",
   "status": "proved",
   "theorems": [
    "PML.NmodExtra.C07_inverse_mod_power_of_two",
    "PML.NmodExtra.C07_mask_undefined"
   ],
   "note": ""
  },
  {
   "property": "C08",
   "status": "partial",
   "theorems": [
    "PML.NmodExtra.C08_next_power_of_two_partial",
    "PML.NmodExtra.C08_next_power_of_two_wrong",
    "PML.NmodExtra.C08_next_power_of_two_ub"
   ],
   "note": "False of the code at some inputs (witnesses proved)."
  },
  {
   "property": "C09",
   "status": "proved",
   "theorems": [
    "PML.NmodExtra.C09_find_root_correct",
    "PML.NmodExtra.C09_find_root_succeeds"
   ],
   "note": ""
  },
  {
   "property": "C10",
   "status": "partial",
   "theorems": [
    "PML.MatOps.C10_rotate_rows",
    "PML.MatOps.C10_rotate_rows_inverse",
    "PML.MatOps.C10_rotate_columns_rightward",
    "PML.MatOps.C10_rotate_columns_leftward_wrong",
    "PML.MatOps.C10_rotate_columns_leftward_partial"
   ],
   "note": "Rows and rightward columns proved; the leftward column rotation is wrong in the code (witness proved)."
  },
  {
   "property": "C100",
   "status": "partial",
   "theorems": [
    "PML.Ntl.CLike.C100_invert_partial",
    "PML.Ntl.CLike.C100_small",
    "PML.Ntl.CLike.C100_random",
    "PML.Ntl.CLike.C100_block_accepts",
    "PML.Ntl.CLike.C100_not_profile",
    "PML.Ntl.CLike.C100_random_not_profile",
    "PML.Ntl.CLike.C100_equal_points",
    "PML.Ntl.CLike.C100_forever"
   ],
   "note": "Proved for all sizes: termination, Cinv is the inverse of a leading block, and with generic rank profile the value is 1 and the block has the size of the rank; so the value 0 means that there is no generic rank profile. For the least dimension below 200 the block always has the size of the rank, and with less generators than thresh_alpha (the default is 8 or 15), or more than the least dimension, the value is 1 exactly for generic rank profile; no overflow assumption there. Missing, because false: the value 1 for the block algorithm, or above size 200, does not mean generic rank profile. Sizes from 200 assume no overflow in the products by Toeplitz matrices (C83)."
  },
  {
   "property": "C101",
   "status": "partial",
   "theorems": [
    "PML.Ntl.CLike.C101_solve_partial",
    "PML.Ntl.CLike.C101_zero"
   ],
   "note": "Missing, because false: for the zero matrix with at least one generator an error is raised. The products by Toeplitz matrices are assumed not to overflow (C83)."
  },
  {
   "property": "C102",
   "status": "partial",
   "theorems": [
    "PML.Ntl.Mosaic.C102_constructor",
    "PML.Ntl.Mosaic.C102_constructor_empty",
    "PML.Ntl.Mosaic.C102_access",
    "PML.Ntl.Mosaic.C102_dense",
    "PML.Ntl.Mosaic.C102_right_partial",
    "PML.Ntl.Mosaic.C102_left_partial",
    "PML.Ntl.Mosaic.C102_right_matrix_partial",
    "PML.Ntl.Mosaic.C102_left_matrix_partial"
   ],
   "note": "The constructor, operator() and to_dense are proved without restriction. Missing for the products: the products by one block are right only if their sums of products do not overflow (C83)."
  },
  {
   "property": "C103",
   "status": "proved",
   "theorems": [
    "PML.Ntl.Mosaic.C103_rows_columns",
    "PML.Ntl.Mosaic.C103_generators",
    "PML.Ntl.Mosaic.C103_reduction",
    "PML.Ntl.Mosaic.C103_point_exists"
   ],
   "note": "C103_reduction also says exactly when the reduction gives up: the field is too small, the search for an element of large order gives zero, or no random element is outside of two progressions."
  },
  {
   "property": "C104",
   "status": "partial",
   "theorems": [
    "PML.Ntl.Mosaic.C104_solve_partial",
    "PML.Ntl.Mosaic.C104_complete_partial",
    "PML.Ntl.Mosaic.C104_zero_draws",
    "PML.Ntl.Mosaic.C104_small_field",
    "PML.Ntl.Mosaic.C104_short"
   ],
   "note": "Missing, because false: if a random diagonal entry is zero, the value 1 does not mean that x is a solution (C104_zero_draws), and a system without solution leads to a read outside of an empty vector (second part of C104_complete_partial). The products by Toeplitz matrices are assumed not to overflow (C83)."
  },
  {
   "property": "C105",
   "status": "partial",
   "theorems": [
    "PML.Ntl.Mosaic.C105_inverse_partial",
    "PML.Ntl.Mosaic.C105_succeeds_partial",
    "PML.Ntl.Mosaic.C105_square"
   ],
   "note": "Missing: the products by Toeplitz matrices are assumed not to overflow (C83, C100). C105_succeeds_partial assumes that the random choices are good, as they must be."
  },
  {
   "property": "C106",
   "status": "partial",
   "theorems": [
    "PML.Ntl.OneCol.C106_mbasis",
    "PML.Ntl.OneCol.C106_pmbasis_partial",
    "PML.Ntl.OneCol.C106_short_entry_fails",
    "PML.Ntl.OneCol.C106_no_row_fails",
    "PML.Ntl.OneCol.C106_small_order_wrong",
    "PML.Ntl.OneCol.C106_degree_lost"
   ],
   "note": "Missing for pmbasis_generic_onecolumn, because false: it can stop with an error or read out of bounds when an entry is short, and at an order such as 17 n it never returns a basis (C106_degree_lost). mbasis_generic_onecolumn gives a basis at the largest multiple of n below the order."
  },
  {
   "property": "C107",
   "status": "proved",
   "theorems": [
    "PML.MatPoly.Mem.C107_safe",
    "PML.MatPoly.Mem.C107_step",
    "PML.MatPoly.Mem.C107_held",
    "PML.MatPoly.Mem.C107_reads",
    "PML.MatPoly.Mem.C107_limits",
    "PML.MatPoly.Mem.C107_lost",
    "PML.MatPoly.Mem.C107_history"
   ],
   "note": "Allocations are assumed to succeed and sizes not to overflow. The header asks for length < alloc in _nmod_mat_poly_set_length; length = alloc is safe as well (and used by the library). The buffer of the permutation of rows is not modelled."
  },
  {
   "property": "C108",
   "status": "partial",
   "theorems": [
    "PML.Ntl.BlockSeq.C108_sequence_partial",
    "PML.Ntl.BlockSeq.C108_pows",
    "PML.Ntl.BlockSeq.C108_naive",
    "PML.Ntl.BlockSeq.C108_small_fails",
    "PML.Ntl.BlockSeq.C108_short_modulus",
    "PML.Ntl.BlockSeq.C108_crossover_wrong"
   ],
   "note": "gen_pows and gen_sequence_naive are proved for all reduced inputs. gen_sequence is proved when deg(g) > 2 m, the FFT is used modulo g, 0, ..., 4m-2 are distinct in the field, every power a^(w v) mod g has degree above the crossover or has products by the x^(m-1) a^u mod g that need no reduction, and at least one is above the crossover. Without these conditions the property is false: no result if no power is above the crossover (C108_small_fails) or if deg(g) <= 2 m (C108_short_modulus), and wrong results if one of the powers is below it (C108_crossover_wrong). Fields in which 0, ..., 4m-2 are not distinct are not covered."
  },
  {
   "property": "C109",
   "status": "proved",
   "theorems": [
    "PML.Ntl.Recon.C109_interpolation",
    "PML.Ntl.Recon.C109_geometric",
    "PML.Ntl.Recon.C109_empty",
    "PML.Ntl.Recon.C109_lengths",
    "PML.Ntl.Recon.C109_more_points_undefined",
    "PML.Ntl.Recon.C109_rectangular_lost"
   ],
   "note": "Proved for square matrices, one or more rows, and at most as many points as matrices (at least as many for the geometric variant). The other lengths never succeed (C109_lengths) and an empty sequence is an error (C109_empty). Matrices that are not square are thrown away before they are used (C109_rectangular_lost). matrix_recon_approximation is not modelled."
  },
  {
   "property": "C11",
   "status": "partial",
   "theorems": [
    "PML.MatOps.C11_permute_rows",
    "PML.MatOps.C11_permute_columns",
    "PML.MatOps.C11_permute_inverse",
    "PML.MatOps.C11_swap_and_invert",
    "PML.MatOps.C11_nmod_mat_permute_columns_wrong",
    "PML.MatOps.C11_nmod_mat_permute_columns_partial"
   ],
   "note": "nmod_mat_permute_columns composes the stored permutation on the wrong length (witness proved); everything else proved."
  },
  {
   "property": "C110",
   "status": "partial",
   "theorems": [
    "PML.CrtMem.C110_safe_partial",
    "PML.CrtMem.C110_restores",
    "PML.CrtMem.C110_default_leak",
    "PML.CrtMem.C110_no_moduli_undefined",
    "PML.CrtMem.C110_twice_leak",
    "PML.CrtMem.C110_reduce",
    "PML.CrtMem.C110_crt"
   ],
   "note": "Proved for 1 to 4 primes of nmod_multimod_CRT_t; the default value 0 leaks (C110_default_leak). For fmpz_multimod_CRT_t there is at least one modulus, and the leaf size for 200 moduli or more, which the code computes in floating point, is any positive number. The accesses of reduce and combine are covered for the naive objects (C110_reduce, C110_crt), not for the others; accesses inside of FLINT are not part of the model."
  },
  {
   "property": "C111",
   "status": "partial",
   "theorems": [
    "PML.Ntl.Bmas.C111_single_partial",
    "PML.Ntl.Bmas.C111_vectors_partial",
    "PML.Ntl.Bmas.C111_hnf_partial",
    "PML.Ntl.Bmas.C111_single_annihilator_partial",
    "PML.Ntl.Bmas.C111_vectors_annihilator_partial",
    "PML.Ntl.Bmas.C111_empty_undefined",
    "PML.Ntl.Bmas.C111_order_zero_undefined"
   ],
   "note": "Proved for d > 0, at least one vector, and vectors of the same length; products and middle products of matrices, and the NTL functions, meet their contracts (C76). For _hnf nothing is said about the degrees in x. The randomised version with compressed columns is not modelled, and integers do not overflow."
  },
  {
   "property": "C112",
   "status": "partial",
   "theorems": [
    "PML.Ntl.Struct.C112_block_partial",
    "PML.Ntl.Struct.C112_refused",
    "PML.Ntl.Struct.C112_undefined"
   ],
   "note": "The full statement is false: when the entry (deg(b) - 1, 0) of the inverse is zero, a coefficient is read outside of a polynomial (second part of C112_block_partial; C112_undefined is a case where the matrix is invertible). Otherwise proved for polynomials of positive degree. Missing: constant and zero polynomials. XGCD and PlainInvTrunc meet their contracts, and NTL_zz_pX_NEWTON_CROSSOVER is at least 5 (C59)."
  },
  {
   "property": "C113",
   "status": "partial",
   "theorems": [
    "PML.Ntl.Bivar.C113_blocks_partial",
    "PML.Ntl.Bivar.C113_blocks_tdeg_partial",
    "PML.Ntl.Bivar.C113_zero_resultant",
    "PML.Ntl.Bivar.C113_success_partial",
    "PML.Ntl.Bivar.C113_division_by_zero",
    "PML.Ntl.Bivar.C113_wrong",
    "PML.Ntl.Bivar.C113_wrong_result",
    "PML.Ntl.Bivar.C113_failure",
    "PML.Ntl.Bivar.C113_zero_returns",
    "PML.Ntl.Bivar.C113_failure_tdeg"
   ],
   "note": "The full statement is false: for Y + X and Y, resultant_villard returns 1 with res = 1 (C113_wrong_result), and no result it may return is the resultant up to a constant (C113_wrong); both functions divide by zero for small degrees in Y (C113_division_by_zero). Proved for positive degrees in Y: the matrices given to the reconstruction are the blocks of the inverses of the Sylvester matrices at the chosen points, where the resultant does not vanish, so that 1 is never returned for a zero resultant; 0 is returned only when a leading coefficient or the resultant vanishes at a point (C113_failure), or, for resultant_villard_tdeg, the blocks would be larger than a degree in Y (C113_failure_tdeg). Missing: that the reconstruction and the determinant give the resultant for generic polynomials, the end of resultant_villard_tdeg (lines 705-741, an arbitrary function in the model), zero polynomials, one polynomial constant in Y."
  },
  {
   "property": "C12",
   "status": "proved",
   "theorems": [
    "PML.Pluq.C12_pluq"
   ],
   "note": ""
  },
  {
   "property": "C13",
   "status": "proved",
   "theorems": [
    "PML.Pluq.C13_crout_eq_pluq"
   ],
   "note": ""
  },
  {
   "property": "C14",
   "status": "partial",
   "theorems": [
    "PML.MatOps.C14_zeroin_aliased",
    "PML.MatOps.C14_zeroin_old",
    "PML.MatOps.C14_zeroin_new_wrong",
    "PML.MatOps.C14_stale_L_wrong",
    "PML.MatOps.C14_from_compactlu_partial",
    "PML.MatOps.C14_new_values"
   ],
   "note": "False of the code with FLINT >= 3.3 without aliasing, and for stale contents of row 0 of L (witnesses proved)."
  },
  {
   "property": "C15",
   "status": "proved",
   "theorems": [
    "PML.Nullspace.C15_left_nullspace"
   ],
   "note": "Relative to the contract of FLINT nmod_mat_nullspace (shown satisfiable)."
  },
  {
   "property": "C16",
   "status": "proved",
   "theorems": [
    "PML.Nullspace.C16_left_nullspace_compact",
    "PML.Nullspace.C16_full_is_expansion"
   ],
   "note": "Relative to the contract of FLINT nmod_mat_nullspace (shown satisfiable)."
  },
  {
   "property": "C17",
   "status": "partial",
   "theorems": [
    "PML.MatPoly.C17_shift_left_aliased_partial",
    "PML.MatPoly.C17_shift_left_aliased_normalised",
    "PML.MatPoly.C17_shift_left_distinct_partial",
    "PML.MatPoly.C17_shift_left_not_correct"
   ],
   "note": "True in place; false of the code for distinct arguments (witness proved; what it computes is proved)."
  },
  {
   "property": "C18",
   "status": "proved",
   "theorems": [
    "PML.MatPoly.C18_mul_coeff",
    "PML.MatPoly.C18_evaluate"
   ],
   "note": ""
  },
  {
   "property": "C19",
   "status": "proved",
   "theorems": [
    "PML.MatPoly.C19_set_trunc_from_poly_mat",
    "PML.MatPoly.C19_poly_mat_set_trunc",
    "PML.MatPoly.C19_round_trip",
    "PML.MatPoly.C19_set_from_nmod_mat"
   ],
   "note": ""
  },
  {
   "property": "C20",
   "status": "partial",
   "theorems": [
    "PML.MatPoly.C20_is_zero",
    "PML.MatPoly.C20_is_one",
    "PML.MatPoly.C20_truncate",
    "PML.MatPoly.C20_normalise",
    "PML.MatPoly.C20_set_length",
    "PML.MatPoly.C20_zero_one_set",
    "PML.MatPoly.C20_degree",
    "PML.MatPoly.C20_is_constant_partial",
    "PML.MatPoly.C20_is_constant_not_correct",
    "PML.MatPoly.C20_is_one_rect"
   ],
   "note": "All proved except is_constant, which is false of the code (witness proved). is_one needs nonempty dimensions."
  },
  {
   "property": "C21",
   "status": "proved",
   "theorems": [
    "PML.Mbasis.C21_mbasis_is_approximant_basis",
    "PML.Mbasis.C21_row_shift_branches_agree",
    "PML.Mbasis.C21_length_at_least_two"
   ],
   "note": "Relative to the contracts of FLINT's nmod_mat_nullspace and of C qsort (both shown satisfiable)."
  },
  {
   "property": "C22",
   "status": "proved",
   "theorems": [
    "PML.Mbasis.C22_mbasis_minimal"
   ],
   "note": "Same contracts as C21."
  },
  {
   "property": "C23",
   "status": "proved",
   "theorems": [
    "PML.Pmbasis.C23_pmbasis",
    "PML.Pmbasis.C23_poly_mat_mbasis"
   ],
   "note": "Contracts of C21 and C27; every threshold >= 1."
  },
  {
   "property": "C24",
   "status": "partial",
   "theorems": [
    "PML.PolyMul.C24_waksman",
    "PML.PolyMul.C24_waksman_alias_partial",
    "PML.PolyMul.C24_waksman_alias_not_correct"
   ],
   "note": "Proved for distinct arguments and for output == first argument; false of the code for output == second argument with more columns than rows (proved: out-of-bounds temporary)."
  },
  {
   "property": "C25",
   "status": "partial",
   "theorems": [
    "PML.PolyMul.C25_vandermonde1",
    "PML.PolyMul.C25_vandermonde2_partial",
    "PML.PolyMul.C25_vandermonde2_modulus_two",
    "PML.PolyMul.C25_alias_modulus_not_preserved"
   ],
   "note": "Proved for distinct arguments and odd moduli; false for modulus 2 (aborts) and for aliased calls (entries get a wrong modulus), both proved."
  },
  {
   "property": "C26",
   "status": "proved",
   "theorems": [
    "PML.PolyMul.C26_mul_geometric"
   ],
   "note": "Relative to the contract of FLINT geometric interpolation (shown satisfiable)."
  },
  {
   "property": "C27",
   "status": "proved",
   "theorems": [
    "PML.PolyMul.C27_multiply"
   ],
   "note": "Relative to the contracts of FLINT functions (shown satisfiable)."
  },
  {
   "property": "C28",
   "status": "proved",
   "theorems": [
    "PML.PolyMul.C28_mulmid"
   ],
   "note": "Relative to the contracts of FLINT functions (shown satisfiable)."
  },
  {
   "property": "C29",
   "status": "proved",
   "theorems": [
    "PML.Forms.C29_row_degree",
    "PML.Forms.C29_column_degree",
    "PML.Forms.C29_degree_matrix"
   ],
   "note": ""
  },
  {
   "property": "C30",
   "status": "partial",
   "theorems": [
    "PML.Forms.C30_pivot_nonzero",
    "PML.Forms.C30_pivot_zero_partial",
    "PML.Forms.C30_zero_upper_shift_wrong",
    "PML.Forms.C30_echelon_pivot",
    "PML.Forms.C30_pivot_unique"
   ],
   "note": "Proved for nonzero vectors and for zero vectors except leftmost orientation with a shift, where the code exchanges the two sentinels (proved)."
  },
  {
   "property": "C31",
   "status": "partial",
   "theorems": [
    "PML.Forms.C31_is_weak_popov",
    "PML.Forms.C31_is_ordered_weak_popov",
    "PML.Forms.C31_is_popov_partial",
    "PML.Forms.C31_is_echelon",
    "PML.Forms.C31_is_hermite",
    "PML.Forms.C31_is_reduced",
    "PML.Forms.C31_implications",
    "PML.Forms.C31_is_form_partial",
    "PML.Forms.C31_is_form_hermite_wrong",
    "PML.Forms.C31_is_popov_row_upper_wrong"
   ],
   "note": "All predicates and orientations proved except is_popov ROW_UPPER and is_form HERMITE, which are false of the code (witnesses proved). Contract of C qsort shown satisfiable."
  },
  {
   "property": "C32",
   "status": "partial",
   "theorems": [
    "PML.WeakPopov.C32_weak_popov_lower",
    "PML.WeakPopov.C32_weak_popov_upper_partial",
    "PML.WeakPopov.C32_weak_popov_upper_oob",
    "PML.WeakPopov.C32_early_exit"
   ],
   "note": "Proved for ROW_LOWER with all shifts and for ROW_UPPER without a shift or for full row rank; proved to access out of bounds in every other case (ROW_UPPER with a shift, rank-deficient)."
  },
  {
   "property": "C33",
   "status": "partial",
   "theorems": [
    "PML.WeakPopov.C33_ordered_weak_popov_lower",
    "PML.WeakPopov.C33_ordered_weak_popov_upper_partial",
    "PML.WeakPopov.C33_ordered_weak_popov_upper_oob"
   ],
   "note": "As C32. Contract of C qsort shown satisfiable."
  },
  {
   "property": "C34",
   "status": "proved",
   "theorems": [
    "PML.Det.C34_det_iter",
    "PML.Det.C34_contracts_satisfiable"
   ],
   "note": "Relative to the contracts of C qsort and FLINT _perm_parity (shown satisfiable)."
  },
  {
   "property": "C35",
   "status": "partial",
   "theorems": [
    "PML.Hermite.C35_uref_maxdeg_atomic",
    "PML.Hermite.C35_uref_revlex_xgcd",
    "PML.Hermite.C35_uref_lex_xgcd",
    "PML.Hermite.C35_uref_matrixgcd_iter_partial",
    "PML.Hermite.C35_matrixgcd_udet_wrong",
    "PML.Hermite.C35_matrixgcd_pivind_overwritten",
    "PML.Hermite.C35_matrixgcd_hypotheses_satisfiable"
   ],
   "note": "All four functions, relative to the contract of nmod_poly_xgcd (shown satisfiable). For uref_matrixgcd_iter two documented claims are false and refuted: udet is wrong for some matrices with more rows than columns (a row exchange is not counted), and pivind[rank] may be overwritten; the rest is proved."
  },
  {
   "property": "C36",
   "status": "partial",
   "theorems": [
    "PML.Hermite.C36_hnf_maxdeg_atomic",
    "PML.Hermite.C36_hnf_revlex_xgcd",
    "PML.Hermite.C36_hnf_lex_xgcd",
    "PML.Hermite.C36_hnf_matrixgcd_iter",
    "PML.Hermite.C36_hnf_delayed_zero_partial",
    "PML.Hermite.C36_hnf_delayed_zero_general",
    "PML.Hermite.C36_hnf_delayed_zero_not_hermite"
   ],
   "note": "Contract of nmod_poly_xgcd (shown satisfiable). All five functions. The Kannan-Bachem variant never processes the rows below a pivot found in the last column: refuted with a witness, proved when the rank is the number of rows or the last column is not in the column rank profile; rank, pivots and transformation are right for every input."
  },
  {
   "property": "C37",
   "status": "proved",
   "theorems": [
    "PML.Kernel.C37_kernel_via_approx",
    "PML.Kernel.C37_kernel_zls_approx"
   ],
   "note": "Relative to the contracts of the external functions used by pmbasis and the products (EnvOK, shown satisfiable). The destination has as many rows as the input (the documentation asks for nullity rows only)."
  },
  {
   "property": "C38",
   "status": "proved",
   "theorems": [
    "PML.Kernel.C38_kernel_via_approx",
    "PML.Kernel.C38_kernel_zls_approx"
   ],
   "note": "Relative to the contracts of the external functions used by pmbasis and the products (EnvOK, shown satisfiable). The destination has as many rows as the input (the documentation asks for nullity rows only)."
  },
  {
   "property": "C39",
   "status": "proved",
   "theorems": [
    "PML.Dixon.C39_inv_trunc",
    "PML.Dixon.C39_dixon",
    "PML.Dixon.C39_dixon_order_zero"
   ],
   "note": "Relative to the contracts of the external functions used by pmbasis and the products (EnvOK, shown satisfiable). order = 0 makes the loop of dixon endless (proved); the property is for order >= 1."
  },
  {
   "property": "C40",
   "status": "partial",
   "theorems": [
    "PML.Unimodular.C40_is_unimodular",
    "PML.Unimodular.C40_is_unimodular_randomized_partial",
    "PML.Unimodular.C40_randomized_exact",
    "PML.Unimodular.C40_randomized_wrong"
   ],
   "note": "is_unimodular exact; is_unimodular_randomized never rejects a unimodular matrix; the rejection claim is refuted: both determinants are taken at the first point, so some non-unimodular matrices are always accepted."
  },
  {
   "property": "C41",
   "status": "partial",
   "theorems": [
    "PML.Verification.C41_is_approximant_basis_exact",
    "PML.Verification.C41_is_approximant_basis_complete",
    "PML.Verification.C41_is_approximant_basis_sound_partial",
    "PML.Verification.C41_is_approximant_basis_wrong"
   ],
   "note": "Exact characterisation of what is accepted; complete; sound when the determinant is a monomial; refuted in general, since only the degree of the determinant is tested."
  },
  {
   "property": "C42",
   "status": "proved",
   "theorems": [
    "PML.Crt.C42_naive_CRT",
    "PML.Crt.C42_multimod_CRT",
    "PML.Crt.C42_roundtrip",
    "PML.Crt.isCrt_unique"
   ],
   "note": "Relative to contracts of n_invmod, fmpz_multi_mod_precomp and of the program built by fmpz_multi_CRT_precompute (ExtOK, shown satisfiable); for every leaf size >= 1."
  },
  {
   "property": "C43",
   "status": "proved",
   "theorems": [
    "PML.Crt.C43_multimod_naive_reduce",
    "PML.Crt.C43_multimod_reduce",
    "PML.Crt.C43_multimod_reduce_frame"
   ],
   "note": "The naive reduction depends on no contract; the tree version on that of fmpz_multi_mod_precomp."
  },
  {
   "property": "C44",
   "status": "proved",
   "theorems": [
    "PML.Crt.C44_mul_multimod"
   ],
   "note": "Relative to ExtOK and to the contract of n_nextprime (shown satisfiable)."
  },
  {
   "property": "C45",
   "status": "partial",
   "theorems": [
    "PML.WordCrt.C45_nmod_multimod_CRT_partial",
    "PML.WordCrt.C45_sum_of_products",
    "PML.WordCrt.C45_four_primes_wrong",
    "PML.WordCrt.C45_default_writes_nothing"
   ],
   "note": "Full statement is false: with 4 primes outside the AVX2 branch the top limb is ignored (C45_four_primes_wrong, every odd p). Proved for all values in the AVX2 small-modulus branch and for 1-2 primes, and for values below p*2^128 for 3-4 primes, which covers every sum of at most 2^64 products of reduced words. Relative to contracts of FLINT's floating-point primitives and NMOD_RED3 (shown satisfiable)."
  },
  {
   "property": "C46",
   "status": "partial",
   "theorems": [
    "PML.MatMul.C46_mul_2dot_partial",
    "PML.MatMul.C46_mul_2dot_wrong",
    "PML.MatMul.C46_mul_newdot",
    "PML.MatMul.C46_mul_pml",
    "PML.MatMul.C46_mul_nmod_vec_2dot_partial",
    "PML.MatMul.C46_mul_nmod_vec_newdot",
    "PML.MatMul.dot2Contract_satisfiable",
    "PML.MatMul.dotContract_satisfiable",
    "PML.MatMul.mulContract_satisfiable"
   ],
   "note": "newdot and mul_pml for all shapes, moduli and aliasing; 2dot for moduli up to DOT2_ACC8_MAX_MODULUS and inner dimension up to 47000000 (false beyond, witness proved). FLINT dot products by contract."
  },
  {
   "property": "C47",
   "status": "proved",
   "theorems": [
    "PML.Rand.C47_rand_popov_row_lower",
    "PML.Rand.C47_rand_popov_col_upper",
    "PML.Rand.C47_rand_popov_others",
    "PML.Rand.C47_rand_popov_row_lower_reaches",
    "PML.Rand.C47_rand_popov_col_upper_reaches",
    "PML.Rand.C47_poly_rand_monic",
    "PML.Rand.C47_constraints_frame"
   ],
   "note": "For an arbitrary generator; the other two orientations are rejected. Every Popov matrix with the given pivots is reachable."
  },
  {
   "property": "C48",
   "status": "proved",
   "theorems": [
    "PML.Sort.C48_permute_rows_by_sorting",
    "PML.Sort.C48_permute_columns_by_sorting"
   ],
   "note": "Relative to the contract of C qsort (shown satisfiable)."
  },
  {
   "property": "C50",
   "status": "proved",
   "theorems": [
    "PML.Hermite.C50_mrp_lex_xgcd",
    "PML.Hermite.C50_mrp_revlex_xgcd",
    "PML.Hermite.C50_mrp_delayed_zero"
   ],
   "note": "All three functions with an mrp output, relative to the contract of nmod_poly_xgcd."
  },
  {
   "property": "C51",
   "status": "partial",
   "theorems": [
    "PML.Verification.C51_is_kernel_exact",
    "PML.Verification.C51_is_kernel_wrong"
   ],
   "note": "Exact characterisation for row orientations; generation is not tested by the code (witness proved)."
  },
  {
   "property": "C52",
   "status": "proved",
   "theorems": [
    "PML.Kernel.C52_left_kernel",
    "PML.Kernel.C52_right_kernel",
    "PML.Kernel.C52_rejected"
   ],
   "note": "Relative to the contracts of the external functions used by pmbasis and the products (EnvOK, shown satisfiable). The destination has as many rows as the input (the documentation asks for nullity rows only)."
  },
  {
   "property": "C53",
   "status": "proved",
   "theorems": [
    "PML.WordCrt.C53_nmod_multimod_CRT_reduce"
   ],
   "note": "Relative to the contract of FLINT's vec1d_mulmod (shown satisfiable)."
  },
  {
   "property": "C54",
   "status": "proved",
   "theorems": [
    "PML.Rand.C54_rand_degree",
    "PML.Rand.C54_rand_degree_reaches"
   ],
   "note": "For an arbitrary generator."
  },
  {
   "property": "C55",
   "status": "proved",
   "theorems": [
    "PML.Rand.C55_rand_lref",
    "PML.Rand.C55_rand_uref",
    "PML.Rand.C55_rand_lrref",
    "PML.Rand.C55_rand_urref"
   ],
   "note": "For an arbitrary generator; contracts of _perm_randtest and qsort, shown satisfiable."
  },
  {
   "property": "C56",
   "status": "partial",
   "theorems": [
    "PML.Ntl.Middle.C56_middle_product_partial",
    "PML.Ntl.Middle.C56_middle_product_overflow"
   ],
   "note": "All algorithm choices, with NTL's FFT as a contract; holds when the delayed reductions fit in 63 bits, and it is proved that some sizes and primes selected by the code overflow."
  },
  {
   "property": "C57",
   "status": "proved",
   "theorems": [
    "PML.Ntl.Crt.C57_crt",
    "PML.Ntl.Crt.C57_multimod",
    "PML.Ntl.Crt.C57_empty_never_ends"
   ],
   "note": "InvMod of NTL is a contract, shown satisfiable. An empty vector of moduli makes the construction loop for ever."
  },
  {
   "property": "C58",
   "status": "proved",
   "theorems": [
    "PML.Ntl.Crt.C58_multipoint"
   ],
   "note": "InvTrunc of NTL is a contract, shown satisfiable."
  },
  {
   "property": "C59",
   "status": "proved",
   "theorems": [
    "PML.Ntl.Series.C59_inv_trunc_mul",
    "PML.Ntl.Series.C59_not_invertible"
   ],
   "note": "NTL's PlainInvTrunc is a contract, shown satisfiable."
  },
  {
   "property": "C60",
   "status": "partial",
   "theorems": [
    "PML.Ntl.Shift.C60_shift_dac",
    "PML.Ntl.Shift.C60_shift_large",
    "PML.Ntl.Shift.C60_shift_partial",
    "PML.Ntl.Shift.C60_shift_zero_fails"
   ],
   "note": "Both algorithms for all inputs; shift() for all nonzero f. Refuted for f = 0 in odd characteristic: an entry of an empty vector is written."
  },
  {
   "property": "C61",
   "status": "partial",
   "theorems": [
    "PML.Ntl.Shift.C61_add_left_shift_partial",
    "PML.Ntl.Shift.C61_add_left_shift_not_normalised"
   ],
   "note": "Coefficients are right for all inputs, and the result is normalised unless b = 0 and deg a < k-1, where it is not (proved)."
  },
  {
   "property": "C62",
   "status": "proved",
   "theorems": [
    "PML.Ntl.Geom.C62_geometric",
    "PML.Ntl.Geom.C62_geometric_order",
    "PML.Ntl.Geom.C62_getters",
    "PML.Ntl.Geom.C62_getters_one_point",
    "PML.Ntl.Geom.C62_alias_fails"
   ],
   "note": "middle_product by contract (C56), instantiated in C62_geometric_order. Two inaccuracies of the documentation are proved: values of the getters for one point, and aliasing of val with f.rep."
  },
  {
   "property": "C63",
   "status": "proved",
   "theorems": [
    "PML.Ntl.Order.C63_order",
    "PML.Ntl.Order.C63_element_of_order_strong",
    "PML.Ntl.Order.C63_order_at_least",
    "PML.Ntl.Order.C63_element_of_order_weak",
    "PML.Ntl.Order.C63_get_geometric_points"
   ],
   "note": "For every stream of random elements."
  },
  {
   "property": "C64",
   "status": "proved",
   "theorems": [
    "PML.Ntl.Order.C64_inv"
   ],
   "note": ""
  },
  {
   "property": "C65",
   "status": "partial",
   "theorems": [
    "PML.Ntl.Utils.C65_clear",
    "PML.Ntl.Utils.C65_clear_window",
    "PML.Ntl.Utils.C65_ident",
    "PML.Ntl.Utils.C65_is_zero",
    "PML.Ntl.Utils.C65_is_ident",
    "PML.Ntl.Utils.C65_is_ident_dim",
    "PML.Ntl.Utils.C65_deg",
    "PML.Ntl.Utils.C65_is_constant",
    "PML.Ntl.Utils.C65_get_coeff",
    "PML.Ntl.Utils.C65_set_coeff",
    "PML.Ntl.Utils.C65_transpose",
    "PML.Ntl.Utils.C65_trunc",
    "PML.Ntl.Utils.C65_shift",
    "PML.Ntl.Utils.C65_reverse",
    "PML.Ntl.Utils.C65_trunc_row_partial",
    "PML.Ntl.Utils.C65_trunc_row_wrong",
    "PML.Ntl.Utils.C65_trunc_col_partial",
    "PML.Ntl.Utils.C65_trunc_col_wrong",
    "PML.Ntl.Utils.C65_shift_row",
    "PML.Ntl.Utils.C65_shift_col",
    "PML.Ntl.Utils.C65_eval",
    "PML.Ntl.Utils.C65_eval_coeffs",
    "PML.Ntl.Utils.C65_conv_const",
    "PML.Ntl.Utils.C65_conv_to_coeffs_partial",
    "PML.Ntl.Utils.C65_conv_out_of_bounds",
    "PML.Ntl.Utils.C65_conv_from_coeffs",
    "PML.Ntl.Utils.C65_conv_order",
    "PML.Ntl.VecUtils.C65_vec_is_zero",
    "PML.Ntl.VecUtils.C65_vec_deg",
    "PML.Ntl.VecUtils.C65_vec_mirror",
    "PML.Ntl.VecUtils.C65_vec_trunc_shift"
   ],
   "note": "truncRow and truncCol leave the other rows or columns of a separate output as they were; the conversion to a vector of coefficient matrices reads out of bounds when entries have different degrees; both proved"
  },
  {
   "property": "C66",
   "status": "partial",
   "theorems": [
    "PML.Ntl.Utils.C66_add_sub",
    "PML.Ntl.Utils.C66_add_sub_const",
    "PML.Ntl.Utils.C66_negate_scale",
    "PML.Ntl.Utils.C66_mul_const_right",
    "PML.Ntl.Utils.C66_mul_const_left",
    "PML.Ntl.Utils.C66_mul_poly_partial",
    "PML.Ntl.Utils.C66_mul_poly_alias_wrong",
    "PML.Ntl.VecUtils.C66_vec_add_sub",
    "PML.Ntl.VecUtils.C66_vec_const",
    "PML.Ntl.VecUtils.C66_vec_scale",
    "PML.Ntl.VecUtils.C66_vec_mul_entry_wrong",
    "PML.Ntl.VecUtils.C66_add_left_shift"
   ],
   "note": "mul by an entry of the matrix or vector itself, in place, is wrong (proved)"
  },
  {
   "property": "C67",
   "status": "partial",
   "theorems": [
    "PML.Ntl.MatMul.C67_naive",
    "PML.Ntl.MatMul.C67_naive_no_columns_fails",
    "PML.Ntl.MatMul.C67_waksman",
    "PML.Ntl.MatMul.C67_waksman_no_half",
    "PML.Ntl.MatMul.C67_transform",
    "PML.Ntl.MatMul.C67_transform_needs_degree",
    "PML.Ntl.MatMul.C67_transform_naive_zero_wrong",
    "PML.Ntl.MatEval.C67_fft_direct",
    "PML.Ntl.MatEval.C67_fft_matmul1",
    "PML.Ntl.MatEval.C67_fft_matmul2",
    "PML.Ntl.MatEval.C67_fft_matmul3",
    "PML.Ntl.MatEval.C67_fft_ll",
    "PML.Ntl.MatEval.C67_fft_matmul3_one_column_fails",
    "PML.Ntl.MatEval.C67_dense",
    "PML.Ntl.MatEval.C67_dense2",
    "PML.Ntl.MatEval.C67_fft",
    "PML.Ntl.MatEval.C67_geometric",
    "PML.Ntl.MatEval.C67_geometric_points",
    "PML.Ntl.MatEval.C67_geometric_zero_wrong",
    "PML.Ntl.MatEval.C67_multiply",
    "PML.Ntl.MatEval.C67_multiply_alias_drops_prime",
    "PML.Ntl.MatEval.C67_multiply_col",
    "PML.Ntl.MatEval.C67_multiply_row_partial",
    "PML.Ntl.MatEval.C67_multiply_row_fails",
    "PML.Ntl.MatEval.C67_multiply_prime"
   ],
   "note": "The FFT of NTL (points, FFTRoundUp) and its matrix inverse are contracts, shown satisfiable; multiply_3_primes is a hypothesis of the general theorem. Refuted: row vector version with an ordinary output vector (error), geometric version with a zero operand (dimensions), matmul3 with one column (unallocated array), is_prime dropped on aliasing."
  },
  {
   "property": "C68",
   "status": "proved",
   "theorems": [
    "PML.Ntl.Three.C68_three_primes",
    "PML.Ntl.Three.C68_subMod_range",
    "PML.Ntl.Three.C68_three_primes_reject",
    "PML.Ntl.Three.C68_reconstruct",
    "PML.Ntl.Three.C68_sizes",
    "PML.Ntl.Three.C68_multiply_3_primes",
    "PML.Ntl.Three.C68_multiply_prime"
   ],
   "note": "Word-level Barrett helpers of NTL (MulMod, MulModPrecon, InvMod) are modelled by their exact values; middle_product_3_primes is treated in C69."
  },
  {
   "property": "C69",
   "status": "partial",
   "theorems": [
    "PML.Ntl.MatMid.C69_fft_direct",
    "PML.Ntl.MatMid.C69_fft_matmul",
    "PML.Ntl.MatMid.C69_fft_matmul1",
    "PML.Ntl.MatMid.C69_fft_matmul2",
    "PML.Ntl.MatMid.C69_fft_matmul3",
    "PML.Ntl.MatMid.C69_fft_ll",
    "PML.Ntl.MatMid.C69_fft",
    "PML.Ntl.MatMid.C69_fft_new",
    "PML.Ntl.MatMid.C69_dense",
    "PML.Ntl.MatMid.C69_dense_reject",
    "PML.Ntl.MatMid.C69_t_multiply",
    "PML.Ntl.MatMid.C69_t_multiply_geometric",
    "PML.Ntl.MatMid.C69_naive",
    "PML.Ntl.MatMid.C69_three_primes_partial",
    "PML.Ntl.MatMid.C69_middle_product_partial",
    "PML.Ntl.MatMid.C69_zero_matrix_fails",
    "PML.Ntl.MatMid.C69_degree_a_wrong",
    "PML.Ntl.MatMid.C69_degree_c_wrong",
    "PML.Ntl.MatMid.C69_three_primes_wrong",
    "PML.Ntl.MatMid.C69_fft_matmul3_one_column_fails",
    "PML.Ntl.MatMid.C69_naive_no_column_fails"
   ],
   "note": "Proved when a is nonzero, deg a <= dA, deg c <= dA+dB, n > 0 and, for three primes, deg a <= dB. Outside of this the code is wrong (proved negations): zero matrix, larger degrees in the FFT, too few primes when dA > dB, one column in matmul3, no column."
  },
  {
   "property": "C70",
   "status": "partial",
   "theorems": [
    "PML.Ntl.LMul.C70_fft_direct",
    "PML.Ntl.LMul.C70_fft_matmul",
    "PML.Ntl.LMul.C70_geometric",
    "PML.Ntl.LMul.C70_dense",
    "PML.Ntl.LMul.C70_three_primes",
    "PML.Ntl.LMul.C70_three_primes_reject",
    "PML.Ntl.LMul.C70_get_lmultiplier_partial",
    "PML.Ntl.LMul.C70_get_lmultiplier_reject_partial",
    "PML.Ntl.LMul.C70_get_lmultiplier_built",
    "PML.Ntl.LMul.C70_dense_large_degree_out_of_bounds",
    "PML.Ntl.LMul.C70_dense_zero_out_of_bounds",
    "PML.Ntl.LMul.C70_dense_small_field_error",
    "PML.Ntl.LMul.C70_zero_out_of_bounds",
    "PML.Ntl.LMul.C70_small_field_error"
   ],
   "note": "Proved when the object is built: products for every b of degree at most dB. Outside of this the code is wrong (proved negations): the dense multiplier does not test the degree of b and writes out of bounds, a zero matrix with a prime that is not an FFT prime writes out of bounds, and a small field raises an error although the product exists."
  },
  {
   "property": "C71",
   "status": "partial",
   "theorems": [
    "PML.Ntl.Inv.C71_plain",
    "PML.Ntl.Inv.C71_plain_reject",
    "PML.Ntl.Inv.C71_middle_product",
    "PML.Ntl.Inv.C71_fft_partial",
    "PML.Ntl.Inv.C71_fft_reject",
    "PML.Ntl.Inv.C71_geometric_partial",
    "PML.Ntl.Inv.C71_reject",
    "PML.Ntl.Inv.C71_inv_trunc_partial",
    "PML.Ntl.Inv.C71_inv_trunc_reject",
    "PML.Ntl.Inv.C71_fft_stale",
    "PML.Ntl.Inv.C71_fft_stale_wrong",
    "PML.Ntl.Inv.C71_geometric_thresh_one",
    "PML.Ntl.Inv.C71_geometric_empty_loops",
    "PML.Ntl.Inv.C71_thresh_zero_loops",
    "PML.Ntl.Inv.C71_fft_size_unchecked"
   ],
   "note": "Proved for the naive algorithm and middle products without restriction. For FFT and geometric points, when a is not constant or the output does not keep old coefficients: otherwise the code is wrong (proved negation). Threshold 1 at geometric points fails, 0 x 0 matrices make it loop (proved)."
  },
  {
   "property": "C72",
   "status": "partial",
   "theorems": [
    "PML.Ntl.Solve.C72_solve_series_partial",
    "PML.Ntl.Solve.C72_low_precision_partial",
    "PML.Ntl.Solve.C72_low_precision_small",
    "PML.Ntl.Solve.C72_high_precision",
    "PML.Ntl.Solve.C72_vector_partial",
    "PML.Ntl.Solve.C72_reject",
    "PML.Ntl.Solve.C72_low_precision_fails",
    "PML.Ntl.Solve.C72_high_precision_not_normal"
   ],
   "note": "High precision: proved. Low precision: the result is right unless middle_product, given a zero matrix, fails; then so does the function (proved negation), e.g. when the low half of b is zero. The polynomials returned may have leading zeros (proved)."
  },
  {
   "property": "C73",
   "status": "partial",
   "theorems": [
    "PML.Ntl.Div.C73_quo_rem_partial",
    "PML.Ntl.Div.C73_unique",
    "PML.Ntl.Div.C73_row_degree",
    "PML.Ntl.Div.C73_solve_ok",
    "PML.Ntl.Div.C73_bad_dimensions",
    "PML.Ntl.Div.C73_remainder_in_A_wrong",
    "PML.Ntl.Div.C73_quotient_in_B_wrong"
   ],
   "note": "Proved for Q and R distinct from each other and from A and B; the function may fail only if solve_series does (C72). With R stored in A, or Q in B, the result is wrong (proved negations)."
  },
  {
   "property": "C74",
   "status": "partial",
   "theorems": [
    "PML.Ntl.Lift.C74_solve_partial",
    "PML.Ntl.Lift.C74_lift_partial",
    "PML.Ntl.Lift.C74_join",
    "PML.Ntl.Lift.C74_collapse_nonconsecutive",
    "PML.Ntl.Lift.C74_collapse_consecutive",
    "PML.Ntl.Lift.C74_collapse_reject",
    "PML.Ntl.Lift.C74_reject",
    "PML.Ntl.Lift.C74_lift_fails",
    "PML.Ntl.Lift.C74_zero_rhs_fails",
    "PML.Ntl.Lift.C74_unimodular_fails",
    "PML.Ntl.Lift.C74_no_column_fails"
   ],
   "note": "Proved except that the function may fail when b is zero or A has a polynomial inverse; it does then (proved negations), because middle_product fails on a zero matrix (C69). It divides by zero if b has no column (proved)."
  },
  {
   "property": "C75",
   "status": "partial",
   "theorems": [
    "PML.Ntl.Parlin.C75_parlin_partial",
    "PML.Ntl.Parlin.C75_parlin_inf_partial",
    "PML.Ntl.Parlin.C75_multiply_partial",
    "PML.Ntl.Parlin.C75_middle_partial",
    "PML.Ntl.Parlin.C75_short_entry_fails",
    "PML.Ntl.Parlin.C75_short_entry_inf_fails",
    "PML.Ntl.Parlin.C75_zero_column_fails",
    "PML.Ntl.Parlin.C75_multiply_reused_wrong",
    "PML.Ntl.Parlin.C75_multiply_fails",
    "PML.Ntl.Parlin.C75_middle_fails"
   ],
   "note": "Proved if no entry is too short for the target degree of its column, and, for the products, if the output stores only zeros. Otherwise these functions fail, or give a wrong product (proved negations)."
  },
  {
   "property": "C76",
   "status": "partial",
   "theorems": [
    "PML.Ntl.Mbasis.C76_mbasis1",
    "PML.Ntl.Mbasis.C76_mbasis_plain",
    "PML.Ntl.Mbasis.C76_rescomp_partial",
    "PML.Ntl.Mbasis.C76_resupdate_partial",
    "PML.Ntl.Mbasis.C76_mbasis_partial",
    "PML.Ntl.Mbasis.C76_pmbasis_partial",
    "PML.Ntl.Mbasis.C76_order_zero_fails",
    "PML.Ntl.Mbasis.C76_no_row_fails"
   ],
   "note": "mbasis1 and mbasis_plain without restriction; the others for matrices with rows, and a positive order where mbasis_rescomp is called. Otherwise they fail (proved negations)."
  },
  {
   "property": "C77",
   "status": "partial",
   "theorems": [
    "PML.Ntl.Det.C77_minors_partial",
    "PML.Ntl.Det.C77_minors_unchanged",
    "PML.Ntl.Det.C77_minors_rec",
    "PML.Ntl.Det.C77_general_partial",
    "PML.Ntl.Det.C77_general_fails",
    "PML.Ntl.Det.C77_geometric",
    "PML.Ntl.Det.C77_fft",
    "PML.Ntl.Det.C77_verify_complete",
    "PML.Ntl.Det.C77_verify_sound",
    "PML.Ntl.Det.C77_verify_sound_up_to_partial",
    "PML.Ntl.Det.C77_verify_zero_accepted",
    "PML.Ntl.Det.C77_generic_partial",
    "PML.Ntl.Det.C77_generic_wrong",
    "PML.Ntl.Det.C77_generic_zero"
   ],
   "note": "Minors: dimensions 1 to 4 (the other ones leave the output unchanged). Evaluation: fields with enough points. determinant_generic_knowing_degree: when the last rows of the approximant bases annihilate the left columns; a matrix on which it returns true with a wrong determinant is exhibited."
  },
  {
   "property": "C78",
   "status": "partial",
   "theorems": [
    "PML.Ntl.Forms.C78_degree",
    "PML.Ntl.Forms.C78_pivots",
    "PML.Ntl.Forms.C78_wrong_shift",
    "PML.Ntl.Forms.C78_empty_shift",
    "PML.Ntl.Forms.C78_amplitude",
    "PML.Ntl.Forms.C78_degree_matrix",
    "PML.Ntl.Forms.C78_degree_matrix_shifted",
    "PML.Ntl.Forms.C78_leading_matrix",
    "PML.Ntl.Forms.C78_reduced",
    "PML.Ntl.Forms.C78_predictable_degree",
    "PML.Ntl.Forms.C78_weak_popov",
    "PML.Ntl.Forms.C78_ordered_weak_popov",
    "PML.Ntl.Forms.C78_row_popov",
    "PML.Ntl.Forms.C78_col_popov_partial",
    "PML.Ntl.Forms.C78_col_popov_out_of_bounds",
    "PML.Ntl.Forms.C78_tall_column",
    "PML.Ntl.Forms.C78_strength",
    "PML.Ntl.Forms.C78_row_form",
    "PML.Ntl.Forms.C78_col_form_partial",
    "PML.Ntl.Forms.C78_get_row_form",
    "PML.Ntl.Forms.C78_get_col_form_partial"
   ],
   "note": "Everything for rows. For columns, is_col_popov reads outside of the matrix when there are more rows than columns (proved); the empty shift is dereferenced (proved)."
  },
  {
   "property": "C79",
   "status": "proved",
   "theorems": [
    "PML.Ntl.Appbas.C79_iterative",
    "PML.Ntl.Appbas.C79_iterative_2x1",
    "PML.Ntl.Appbas.C79_popov",
    "PML.Ntl.Appbas.C79_approximant_basis",
    "PML.Ntl.Appbas.C79_verify_complete",
    "PML.Ntl.Appbas.C79_verify_sound",
    "PML.Ntl.Appbas.C79_verify_form",
    "PML.Ntl.Appbas.C79_verify_dimensions",
    "PML.Ntl.Appbas.C79_compute_verify",
    "PML.Ntl.Appbas.C79_deterministic_verification_missing",
    "PML.Ntl.Appbas.C79_missing_variants",
    "PML.Ntl.Appbas.C79_default_shift",
    "PML.Ntl.Appbas.C79_zero_order",
    "PML.Ntl.Appbas.C79_popov_no_rows"
   ],
   "note": "Row-wise, for positive orders and a shift of the right length. The default empty shift, the deterministic verification and the column-wise variant are findings. Completeness of the verification is for forms from REDUCED on; for NONE the degree test is not implied."
  },
  {
   "property": "C80",
   "status": "partial",
   "theorems": [
    "PML.Ntl.Intbas.C80_interpolant_values",
    "PML.Ntl.Intbas.C80_verify_geometric_poly_partial",
    "PML.Ntl.Intbas.C80_rescomp",
    "PML.Ntl.Intbas.C80_resupdate",
    "PML.Ntl.Intbas.C80_mbasis",
    "PML.Ntl.Intbas.C80_pmbasis",
    "PML.Ntl.Intbas.C80_pmbasis_geometric",
    "PML.Ntl.Intbas.C80_pmbasis_poly",
    "PML.Ntl.Intbas.C80_pmbasis_geometric_poly",
    "PML.Ntl.Intbas.C80_popov_mbasis",
    "PML.Ntl.Intbas.C80_popov_pmbasis",
    "PML.Ntl.Intbas.C80_verify",
    "PML.Ntl.Intbas.C80_verify_poly",
    "PML.Ntl.Intbas.C80_verify_geometric_partial",
    "PML.Ntl.Intbas.C80_compute_verify",
    "PML.Ntl.Intbas.C80_randomized_missing",
    "PML.Ntl.Intbas.C80_verify_geometric_degree",
    "PML.Ntl.Intbas.C80_verify_geometric_fails",
    "PML.Ntl.Intbas.C80_verify_not_square",
    "PML.Ntl.Intbas.C80_verify_none",
    "PML.Ntl.Intbas.C80_no_points",
    "PML.Ntl.Intbas.C80_no_rows"
   ],
   "note": "Everything is proved except that is_interpolant_basis_geometric fails, for every correct basis with an entry of degree at least the number of points (negation proved): C80_verify_geometric_partial is for smaller degrees. is_interpolant_basis is proved sound and complete for square matrices and forms from REDUCED on; for the form NONE and for rectangular matrices it is unsound (counterexamples proved)."
  },
  {
   "property": "C81",
   "status": "partial",
   "theorems": [
    "PML.Ntl.Kerbas.C81_via_approximation",
    "PML.Ntl.Kerbas.C81_via_interpolation",
    "PML.Ntl.Kerbas.C81_zls_approximation_partial",
    "PML.Ntl.Kerbas.C81_kernel_basis_partial",
    "PML.Ntl.Kerbas.C81_zls_interpolation_partial",
    "PML.Ntl.Kerbas.C81_verify",
    "PML.Ntl.Kerbas.C81_verify_randomized",
    "PML.Ntl.Kerbas.C81_verify_random_accepts",
    "PML.Ntl.Kerbas.C81_compute_verify",
    "PML.Ntl.Kerbas.C81_zls_incomplete",
    "PML.Ntl.Kerbas.C81_zls_degrees",
    "PML.Ntl.Kerbas.C81_zls_interpolation_error",
    "PML.Ntl.Kerbas.C81_verify_generation"
   ],
   "note": "The two via_ functions are proved completely. For the Zhou-Labahn-Storjohann functions: termination, no out-of-bounds access, independent rows in the kernel for all inputs; generation for at most 2 columns, at most 5 rows, or at most 4 columns and fewer than twice as many rows; the form for at most 3 columns. In general generation fails, the returned shift is wrong, and the interpolation variant may throw (negations proved). is_kernel_basis does not test generation (proved)."
  },
  {
   "property": "C82",
   "status": "partial",
   "theorems": [
    "PML.Ntl.Popov.C82_popov_mbasis1",
    "PML.Ntl.Popov.C82_shape_needed",
    "PML.Ntl.Popov.C82_popov_mbasis_partial",
    "PML.Ntl.Popov.C82_popov_pmbasis_partial",
    "PML.Ntl.Popov.C82_order_zero_fails",
    "PML.Ntl.Popov.C82_unique",
    "PML.Ntl.Popov.C82_same",
    "PML.Ntl.Popov.C82_pmbasis_2x1",
    "PML.Ntl.Popov.C82_threshold"
   ],
   "note": "Missing for popov_mbasis and popov_pmbasis: order 0 when there are few columns, where they read the first entry of an empty vector (proved). popov_mbasis1 relies on the shape of the matrix that NTL's kernel returns, as comments in the code say; without it the result may not be in Popov form (proved)."
  },
  {
   "property": "C83",
   "status": "partial",
   "theorems": [
    "PML.Ntl.Struct.C83_constructor",
    "PML.Ntl.Struct.C83_toeplitz_dense",
    "PML.Ntl.Struct.C83_hankel_dense",
    "PML.Ntl.Struct.C83_toeplitz_right_partial",
    "PML.Ntl.Struct.C83_toeplitz_left_partial",
    "PML.Ntl.Struct.C83_hankel_right_partial",
    "PML.Ntl.Struct.C83_hankel_left_partial",
    "PML.Ntl.Struct.C83_sizes",
    "PML.Ntl.Struct.C83_toeplitz_right_matrix_partial",
    "PML.Ntl.Struct.C83_toeplitz_left_matrix_partial",
    "PML.Ntl.Struct.C83_hankel_right_matrix_partial",
    "PML.Ntl.Struct.C83_hankel_left_matrix_partial",
    "PML.Ntl.Struct.C83_toeplitz_overflow",
    "PML.Ntl.Struct.C83_empty",
    "PML.Ntl.Struct.C83_triangular_right",
    "PML.Ntl.Struct.C83_triangular_left",
    "PML.Ntl.Struct.C83_triangular_dense_partial",
    "PML.Ntl.Struct.C83_triangular_dense_stale",
    "PML.Ntl.Struct.C83_triangular_matrix_missing",
    "PML.Ntl.Struct.C83_triangular_matrix_wrong",
    "PML.Ntl.Struct.C83_circulant_constructor",
    "PML.Ntl.Struct.C83_circulant_column_dense",
    "PML.Ntl.Struct.C83_circulant_row_dense",
    "PML.Ntl.Struct.C83_circulant_column_right",
    "PML.Ntl.Struct.C83_circulant_row_left",
    "PML.Ntl.Struct.C83_circulant_row_right",
    "PML.Ntl.Struct.C83_circulant_column_left_partial",
    "PML.Ntl.Struct.C83_circulant_column_left_overrun",
    "PML.Ntl.Struct.C83_circulant_empty",
    "PML.Ntl.Struct.C83_circulant_matrix_missing",
    "PML.Ntl.Struct.C83_circulant_matrix_wrong"
   ],
   "note": "Missing: Toeplitz and Hankel products whose delayed sums overflow (proved to fail); products by matrices for triangular and circulant matrices, which compute nothing (proved); the left product of a circulant matrix given by columns when it has fewer columns than rows, which writes beyond an array (proved); triangular to_dense into a matrix with non-zero entries above the diagonal (proved wrong); circulant matrices without rows or columns."
  },
  {
   "property": "C84",
   "status": "partial",
   "theorems": [
    "PML.Ntl.Struct.C84_unique",
    "PML.Ntl.Struct.C84_phi",
    "PML.Ntl.Struct.C84_phi_empty",
    "PML.Ntl.Struct.C84_constructor",
    "PML.Ntl.Struct.C84_constructor_overread",
    "PML.Ntl.Struct.C84_plus_no_rows",
    "PML.Ntl.Struct.C84_toeplitz_plus_partial",
    "PML.Ntl.Struct.C84_toeplitz_minus_partial",
    "PML.Ntl.Struct.C84_hankel_plus_partial",
    "PML.Ntl.Struct.C84_hankel_minus_partial",
    "PML.Ntl.Struct.C84_round_trip",
    "PML.Ntl.Struct.C84_dense_stale",
    "PML.Ntl.Struct.C84_right_length",
    "PML.Ntl.Struct.C84_plus_no_columns",
    "PML.Ntl.Struct.C84_minus_empty",
    "PML.Ntl.Struct.C84_missing_products"
   ],
   "note": "Missing: the products on the left and by matrices, which compute nothing (proved); to_dense into a matrix with other contents (proved to add to them); matrices without rows or columns (proved to fail)."
  },
  {
   "property": "C85",
   "status": "partial",
   "theorems": [
    "PML.Ntl.Struct.C85_constructor",
    "PML.Ntl.Struct.C85_dense",
    "PML.Ntl.Struct.C85_right_partial",
    "PML.Ntl.Struct.C85_left_partial",
    "PML.Ntl.Struct.C85_right_matrix_partial",
    "PML.Ntl.Struct.C85_left_matrix_partial",
    "PML.Ntl.Struct.C85_left_sizes",
    "PML.Ntl.Struct.C85_right_sizes",
    "PML.Ntl.Struct.C85_no_rows",
    "PML.Ntl.Struct.C85_empty",
    "PML.Ntl.Struct.C85_diagonal_matrix",
    "PML.Ntl.Struct.C85_clear_window"
   ],
   "note": "Missing: products whose delayed sums overflow (C83); the size of the operand of mul_left is not tested (proved); matrices without rows (proved to fail)."
  },
  {
   "property": "C86",
   "status": "partial",
   "theorems": [
    "PML.Ntl.Struct.C86_dense",
    "PML.Ntl.Struct.C86_right",
    "PML.Ntl.Struct.C86_right_matrix",
    "PML.Ntl.Struct.C86_left_partial",
    "PML.Ntl.Struct.C86_left_matrix_partial",
    "PML.Ntl.Struct.C86_solve_partial",
    "PML.Ntl.Struct.C86_solve_transpose_partial",
    "PML.Ntl.Struct.C86_solve_matrix_partial",
    "PML.Ntl.Struct.C86_solve_transpose_matrix_partial",
    "PML.Ntl.Struct.C86_invertible",
    "PML.Ntl.Struct.C86_generators_partial",
    "PML.Ntl.Struct.C86_generators_constant",
    "PML.Ntl.Struct.C86_prepare_partial",
    "PML.Ntl.Struct.C86_inv_partial",
    "PML.Ntl.Struct.C86_constant",
    "PML.Ntl.Struct.C86_short",
    "PML.Ntl.Struct.C86_solve_no_columns"
   ],
   "note": "Missing: constant polynomials, for which the systems are proved to end in an error; zero polynomials; left products whose delayed sums overflow (C56). For top_right_block_inverse see C112."
  },
  {
   "property": "C87",
   "status": "partial",
   "theorems": [
    "PML.Multi.C87_dot_product_multi",
    "PML.Multi.C87_one_limb_variants",
    "PML.Multi.C87_two_limb_variants",
    "PML.Multi.C87_split26_wrong",
    "PML.Multi.C87_split26_partial"
   ],
   "note": "The dispatcher and all blocked variants are proved in full; the 26-bit variant loses a carry (proved), and is proved correct when no carry occurs."
  },
  {
   "property": "C88",
   "status": "partial",
   "theorems": [
    "PML.N32.C88_dot_simd",
    "PML.N32.C88_dot_msolve",
    "PML.N32.C88_mdot",
    "PML.N32.C88_mdot_native",
    "PML.N32.C88_ifma_partial",
    "PML.N32.C88_ifma_wrong"
   ],
   "note": "All split and msolve functions are proved in full; the unfinished IFMA variants are wrong outside lengths that are multiples of 32 and at most 4096 (proved wrong outside, right inside)."
  },
  {
   "property": "C89",
   "status": "partial",
   "theorems": [
    "PML.Ntl.Bivar.C89_add",
    "PML.Ntl.Bivar.C89_sub",
    "PML.Ntl.Bivar.C89_mul_naive",
    "PML.Ntl.Bivar.C89_mul_const",
    "PML.Ntl.Bivar.C89_mul",
    "PML.Ntl.Bivar.C89_to_kronecker",
    "PML.Ntl.Bivar.C89_from_kronecker",
    "PML.Ntl.Bivar.C89_kronecker_inverse",
    "PML.Ntl.Bivar.C89_shift_x",
    "PML.Ntl.Bivar.C89_shift_y_mul",
    "PML.Ntl.Bivar.C89_shift_y_div_partial",
    "PML.Ntl.Bivar.C89_trunc_x",
    "PML.Ntl.Bivar.C89_trunc_y",
    "PML.Ntl.Bivar.C89_set_coeff",
    "PML.Ntl.Bivar.C89_evaluate",
    "PML.Ntl.Bivar.C89_degrees",
    "PML.Ntl.Bivar.C89_equal",
    "PML.Ntl.Bivar.C89_constructors",
    "PML.Ntl.Bivar.C89_random",
    "PML.Ntl.Bivar.C89_shift_y_error",
    "PML.Ntl.Bivar.C89_shift_y_alias",
    "PML.Ntl.Bivar.C89_shift_y_alias_wrong",
    "PML.Ntl.Bivar.C89_shift_y_alias_ub",
    "PML.Ntl.Bivar.C89_trunc_y_negative",
    "PML.Ntl.Bivar.C89_mul_not_normal",
    "PML.Ntl.Bivar.C89_to_kronecker_overflow",
    "PML.Ntl.Bivar.C89_to_kronecker_overwrites"
   ],
   "note": "shift_y is false of the code in place and for large quotients (C89_shift_y_alias_wrong, C89_shift_y_alias_ub, C89_shift_y_error); what holds is C89_shift_y_mul and C89_shift_y_div_partial. The other functions are proved, the products for operands without zero leading coefficient."
  },
  {
   "property": "C90",
   "status": "partial",
   "theorems": [
    "PML.Ntl.Bivar.C90_resultant",
    "PML.Ntl.Bivar.C90_success",
    "PML.Ntl.Bivar.C90_zero",
    "PML.Ntl.Bivar.C90_error",
    "PML.Ntl.Bivar.C90_fifth",
    "PML.Ntl.Bivar.C90_small_field"
   ],
   "note": "Soundness (C90_resultant) and success (C90_success) are proved in full for nonzero polynomials. That a failure is reported by the value 0 is false of the code: a draw of 0, or an element of small order, ends in an error (C90_error, C90_small_field), a zero polynomial is read out of bounds (C90_zero), and a successful fifth attempt is reported as a failure (C90_fifth). resultant_villard is not modelled."
  },
  {
   "property": "C91",
   "status": "partial",
   "theorems": [
    "PML.Ntl.FftPoints.C91_bit_reverse",
    "PML.Ntl.FftPoints.C91_construct",
    "PML.Ntl.FftPoints.C91_construct_error",
    "PML.Ntl.FftPoints.C91_construct_one",
    "PML.Ntl.FftPoints.C91_get_points",
    "PML.Ntl.FftPoints.C91_points",
    "PML.Ntl.FftPoints.C91_evaluate",
    "PML.Ntl.FftPoints.C91_interpolate",
    "PML.Ntl.FftPoints.C91_interpolate_short",
    "PML.Ntl.FftPoints.C91_t_evaluate",
    "PML.Ntl.FftPoints.C91_t_evaluate_long",
    "PML.Ntl.FftPoints.C91_t_interpolate",
    "PML.Ntl.FftPoints.C91_t_inverse"
   ],
   "note": "Proved for n at least 2 under the contract of NTL's TofftRep and FromfftRep (values at the powers of a primitive root, in natural or bit-reversed order). For n = 1 the constructor is undefined (C91_construct_one), and t_evaluate is undefined for an output size above n (C91_t_evaluate_long)."
  },
  {
   "property": "C92",
   "status": "partial",
   "theorems": [
    "PML.Ntl.StructX.C92_tri_prepare",
    "PML.Ntl.StructX.C92_tri_right",
    "PML.Ntl.StructX.C92_tri_right_trunc",
    "PML.Ntl.StructX.C92_tri_left",
    "PML.Ntl.StructX.C92_tri_left_trunc",
    "PML.Ntl.StructX.C92_tri_dense_partial",
    "PML.Ntl.StructX.C92_tri_dense_stale",
    "PML.Ntl.StructX.C92_circ_make",
    "PML.Ntl.StructX.C92_circ_prepare",
    "PML.Ntl.StructX.C92_circ_right",
    "PML.Ntl.StructX.C92_circ_right_trunc",
    "PML.Ntl.StructX.C92_circ_left",
    "PML.Ntl.StructX.C92_circ_left_trunc",
    "PML.Ntl.StructX.C92_circ_dense",
    "PML.Ntl.StructX.C92_unique",
    "PML.Ntl.StructX.C92_like_make",
    "PML.Ntl.StructX.C92_like_right",
    "PML.Ntl.StructX.C92_like_left",
    "PML.Ntl.StructX.C92_like_right_trunc",
    "PML.Ntl.StructX.C92_like_left_trunc",
    "PML.Ntl.StructX.C92_like_dense_partial",
    "PML.Ntl.StructX.C92_like_dense_stale",
    "PML.Ntl.StructX.C92_like_empty",
    "PML.Ntl.StructX.C92_phi",
    "PML.Ntl.StructX.C92_round_trip",
    "PML.Ntl.StructX.C92_mat_right",
    "PML.Ntl.StructX.C92_mat_right_trunc",
    "PML.Ntl.StructX.C92_mat_left",
    "PML.Ntl.StructX.C92_mat_left_trunc"
   ],
   "note": "The products are proved in full for non-empty matrices. to_dense of triangular and Toeplitz-like matrices is proved for outputs of another width or with zero entries, and proved wrong otherwise; empty Toeplitz-like matrices and empty circulant vectors are proved to fail."
  },
  {
   "property": "C93",
   "status": "partial",
   "theorems": [
    "PML.Ntl.SylvX.C93_make",
    "PML.Ntl.SylvX.C93_right",
    "PML.Ntl.SylvX.C93_right_trunc",
    "PML.Ntl.SylvX.C93_left",
    "PML.Ntl.SylvX.C93_left_trunc",
    "PML.Ntl.SylvX.C93_dense",
    "PML.Ntl.SylvX.C93_gens",
    "PML.Ntl.SylvX.C93_right_zero_part",
    "PML.Ntl.SylvX.C93_left_zero",
    "PML.Ntl.SylvX.C93_trunc_zero",
    "PML.Ntl.SylvX.C93_middle"
   ],
   "note": "The products are proved to be right exactly when the Kronecker substitutions have room for their operands, and to fail otherwise: a zero part of the input (for example a unit vector) and s = 0 make them write outside an array. to_dense is proved in full; phi_plus_generators is proved when B has positive degree in Y and writes outside a matrix otherwise. mul_left assumes the contract of middle_product, proved in C56 for large primes (C93_middle)."
  },
  {
   "property": "C94",
   "status": "partial",
   "theorems": [
    "PML.Ntl.NewtonX.C94_degrees",
    "PML.Ntl.NewtonX.C94_newton",
    "PML.Ntl.NewtonX.C94_newton_returns",
    "PML.Ntl.NewtonX.C94_newton_errors",
    "PML.Ntl.NewtonX.C94_newton_short",
    "PML.Ntl.NewtonX.C94_newton_zero",
    "PML.Ntl.NewtonX.C94_high",
    "PML.Ntl.NewtonX.C94_high_returns",
    "PML.Ntl.NewtonX.C94_short_witness"
   ],
   "note": "Proved: every matrix returned is the inverse modulo X^m, for both functions. They are proved to return when the degrees in Y do not drop at x = 0 and the products of the Sylvester matrix by the intermediate generators return (C93 says when). Missing, because false: if a degree drops at x = 0 the matrix may be invertible there (C94_short_witness) and newton_inv_trunc ends with an error for m >= 2, and returns a matrix of the wrong dimension for m <= 1 (C94_newton_short)."
  },
  {
   "property": "C95",
   "status": "partial",
   "theorems": [
    "PML.Ntl.Linsolve.C95_series_partial",
    "PML.Ntl.Linsolve.C95_series_count",
    "PML.Ntl.Linsolve.C95_series_zero_draws",
    "PML.Ntl.Linsolve.C95_const",
    "PML.Ntl.Linsolve.C95_const_singular",
    "PML.Ntl.Linsolve.C95_empty",
    "PML.Ntl.Linsolve.C95_const_alias",
    "PML.Ntl.Linsolve.C95_det_partial",
    "PML.Ntl.Linsolve.C95_det_wrong",
    "PML.Ntl.Linsolve.C95_kernel",
    "PML.Ntl.Linsolve.C95_kernel_complete_partial",
    "PML.Ntl.Linsolve.C95_kernel_missed"
   ],
   "note": "Proved: for all draws linsolve_via_series returns a monic divisor of the denominators of all solutions and the matching numerators, which is a solution as soon as one exists with that denominator; over a field with q elements at most n deg(A) q^(n-1) of the q^n draws give something that is not a solution; the constant case; linsolve_via_kernel is always sound. Missing, because false: draws equal to zero give den = 1 and a wrong result; for constant A an output aliasing b is wrong; the determinant is only a divisor, and never the determinant for diag(1+X, 1+X); linsolve_via_kernel may return 0 for an invertible matrix. Completeness of linsolve_via_kernel is proved for at most two equations. nb_max > 1 is not modelled."
  },
  {
   "property": "C96",
   "status": "partial",
   "theorems": [
    "PML.Ntl.Reduce.C96_reduced_partial",
    "PML.Ntl.Reduce.C96_singular",
    "PML.Ntl.Reduce.C96_constant_fails",
    "PML.Ntl.Reduce.C96_unimodular_fails"
   ],
   "note": "Proved: for every nonconstant square matrix with pmat(0) invertible the function returns 1 with a matrix in ordered weak Popov form (hence row reduced) that is U pmat with U unimodular, or it fails and pmat is unimodular; value 0 exactly for pmat(0) singular. Missing, because false: constant invertible matrices make pmbasis read an empty vector; unimodular matrices whose inverse has small degree make middle_product fail on a zero matrix."
  },
  {
   "property": "C97",
   "status": "proved",
   "theorems": [
    "PML.Ntl.Seq.C97_kurakin",
    "PML.Ntl.Seq.C97_minimal",
    "PML.Ntl.Seq.C97_annihilator",
    "PML.Ntl.Seq.C97_short_fails"
   ],
   "note": "C97_short_fails shows that the bound on the length cannot be dropped: a polynomial of the largest degree in y need not cancel S."
  },
  {
   "property": "C98",
   "status": "partial",
   "theorems": [
    "PML.Ntl.Seq.C98_check_vectors",
    "PML.Ntl.Seq.C98_check_vacuous",
    "PML.Ntl.Seq.C98_check_fails",
    "PML.Ntl.Seq.C98_check_error",
    "PML.Ntl.Seq.C98_check_empty_fails",
    "PML.Ntl.Seq.C98_check_vectors_vacuous",
    "PML.Ntl.Seq.C98_modified_overflow"
   ],
   "note": "Proved: for sequences of nonempty vectors and d >= 0 the answer is right. Missing, because false: for sequences of polynomials, and with d = -1, the answer is true whatever the polynomials; with a polynomial of degree in y larger than the length an error is raised; modified_kurakin reads out of bounds exactly when d = 0 or no entry of S is invertible."
  },
  {
   "property": "C99",
   "status": "partial",
   "theorems": [
    "PML.Ntl.CLike.C99_constructor",
    "PML.Ntl.CLike.C99_dense",
    "PML.Ntl.CLike.C99_right_partial",
    "PML.Ntl.CLike.C99_left_partial",
    "PML.Ntl.CLike.C99_right_matrix_partial",
    "PML.Ntl.CLike.C99_left_matrix_partial",
    "PML.Ntl.CLike.C99_short_operand",
    "PML.Ntl.CLike.C99_no_generator"
   ],
   "note": "The constructor and to_dense are proved without restriction. Missing for the products: the Toeplitz products inside them are right only if their sums of products do not overflow (see C83). The products do not test the size of their operand and read a shorter one out of bounds (proved)."
  }
 ]
}