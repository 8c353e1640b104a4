#!/usr/bin/env python3
# Generates /verif/properties.jsonl (one JSON object per line).
import json
P=[]
S="flint-extras/src/"
def p(id,title,statement,quant,why,anchors):
    P.append(dict(id=id,title=title,statement=statement,quantifier=quant,why_tests_cant=why,anchors=anchors))

p("C01","Integer dot product is exact",
 "nmod_vec_integer_dot_product(res,v1,v2,len,b1,b2) leaves in the three words of res the exact integer sum_i v1[i]*v2[i]: no carry is lost in any of the block sums, whatever the block size derived from the bit bounds.",
 "all vectors of any length below 2^64 with v1[i]<2^b1, v2[i]<2^b2, and all bit bounds b1,b2 in 1..64",
 "the block size depends on b1+b2 and carries are lost only for particular extreme words at particular positions; the space of vectors is unbounded",
 [S+"nmod_vec_extra/nmod_vec_integer_dot_product.c:nmod_vec_integer_dot_product"])
p("C02","Unbalanced modular dot product is correct",
 "nmod_vec_dot_product_unbalanced(v1,v2,len,b1,b2,mod) returns sum_i v1[i]*v2[i] mod n, whichever of the 0/1/2/3-limb kernels is selected from the bounds.",
 "all lengths, all vectors respecting the bit bounds, all moduli",
 "the selection and block sizes depend on len,b1,b2; intermediate overflow only shows for extreme words",
 [S+"nmod_vec_extra/nmod_vec_dot_product.c:nmod_vec_dot_product_unbalanced",S+"nmod_vec_extra/nmod_vec_dot_product.c:_nmod_vec_dot_product_1",S+"nmod_vec_extra/nmod_vec_dot_product.c:_nmod_vec_dot_product_2",S+"nmod_vec_extra/nmod_vec_dot_product.c:_nmod_vec_dot_product_3"])
p("C03","Limb bound of a dot product is sound",
 "_nmod_vec_dot_bound_limbs_unbalanced(len,b1,b2) returns a number L of limbs such that every dot product of len terms with entries below 2^b1 and 2^b2 is strictly below 2^(64 L).",
 "all len<2^64, all b1,b2<=64, all vectors in range",
 "soundness is a statement on every vector in range; the worst case is attained by none of the random tests",
 [S+"nmod_vec_extra/nmod_vec_dot_product.c:_nmod_vec_dot_bound_limbs_unbalanced"])
p("C04","26-bit split dot product is correct",
 "_nmod_vec_dot_product_split26 returns sum_i v1[i]*v2[i] mod n for every pair of vectors accepted by its documented domain.",
 "all vectors of reduced entries",
 "a lost carry in the recombination happens for a vanishing fraction of inputs",
 [S+"nmod_vec_extra/nmod_vec_dot_product.c:_nmod_vec_dot_product_split26"])
p("C05","Two simultaneous split dot products are correct",
 "_nmod_vec_2dot2_split(res0,res1,v1,v2_0,v2_1,len,mod,pow2_precomp) returns both dot products modulo n as long as the accumulators fit, i.e. for n and len within the advertised DOT2 bounds.",
 "all lengths and reduced vectors within the bounds, all moduli within the bound",
 "overflow occurs only for lengths near 3.8e8 with extreme entries, unreachable in unit tests",
 [S+"nmod_vec_extra/nmod_vec_2dot.c:_nmod_vec_2dot2_split",S+"nmod_mat_extra/nmod_mat_mul_2dot.c:nmod_mat_mul_2dot"])
p("C06","32-bit split dot product is correct",
 "nmod32 split dot product returns sum_i v1[i]*v2[i] mod n, the high/low accumulators never overflowing, for n and len within DOT2_ACC8_MAX_MODULUS / DOT2_ACC8_MAX_LEN.",
 "all moduli and lengths within the bounds, all reduced vectors",
 "accumulator bounds are only approached at lengths in the hundreds of millions",
 [S+"nmod32_vec/dot_split.c",S+"nmod32_vec.h"])
p("C07","Inverse modulo a power of two",
 "inverse_mod_power_of_two(p,k) terminates and returns the unique r in [0,2^k) with p*r = 1 mod 2^k.",
 "all odd 64-bit p and all 0<=k<=62",
 "2^63 odd inputs; termination of the do-while is a liveness statement",
 [S+"nmod_extra/nmod_extra.c:inverse_mod_power_of_two"])
p("C08","Next power of two",
 "next_power_of_two(x) terminates without undefined behaviour and returns the smallest i with 2^i >= x.",
 "all 64-bit x",
 "fails only for x above 2^30, because of a narrowing conversion to int",
 [S+"nmod_extra/nmod_extra.c:next_power_of_two"])
p("C09","Finding an element of large order",
 "nmod_find_root(n,mod) returns either 0 or an element q in [2,mod.n) such that none of q,q^2,...,q^n is 1; for a prime modulus with n < mod.n - 1 it never returns 0, and it returns 0 only if no such element exists.",
 "all n, all moduli",
 "existence for every prime needs the structure of the multiplicative group",
 [S+"nmod_extra/nmod_find_root.c:nmod_find_root"])
p("C10","Row and column rotations",
 "The four rotation functions move rows (columns) i..j cyclically by one, leave every other row (column) unchanged, apply the same rotation to the companion index vector when it is given, and downward/upward (resp. rightward/leftward) rotations undo each other.",
 "all matrices, all index ranges i<=j, all companion vectors or NULL",
 "in-place moves of all positions; must hold for every range, including empty and full",
 [S+"nmod_mat_extra/nmod_mat_rotations.c:_nmod_mat_rotate_rows_downward",S+"nmod_mat_extra/nmod_mat_rotations.c:_nmod_mat_rotate_rows_upward",S+"nmod_mat_extra/nmod_mat_rotations.c:_nmod_mat_rotate_columns_rightward",S+"nmod_mat_extra/nmod_mat_rotations.c:_nmod_mat_rotate_columns_leftward"])
p("C11","Permutations of rows and columns are tracked",
 "Permuting the rows (columns) of a matrix places old row (column) perm[i] at position i, and composes the stored permutation accordingly, so that the stored permutation always describes the accumulated move; permuting by perm then by its inverse is the identity.",
 "all matrices, all permutations, all stored permutations",
 "quantifies over all permutations of all sizes and non-square shapes",
 [S+"nmod_mat_extra/nmod_mat_rotations.c:nmod_mat_permute_columns",S+"nmod_poly_mat_utils.h:nmod_poly_mat_permute_rows",S+"nmod_mat_poly_extra/nmod_mat_poly_arith.c"])
p("C12","PLUQ elimination",
 "nmod_mat_pluq(LU,P,Q) returns the rank r of the input A and leaves a compact LU such that permuting the rows of L*U by P and its columns by Q gives back A, where L is m x m unit lower triangular whose columns >= r are those of the identity and U is m x n upper triangular with nonzero first r diagonal entries and zero rows >= r; P lists first the row rank profile in increasing order, then the other rows in increasing order.",
 "all prime moduli, all shapes including empty ones, all ranks and rank profiles, all matrices",
 "the interplay of rotations and eliminations must hold for each rank profile of each shape",
 [S+"nmod_mat_extra/nmod_mat_pluq.c:nmod_mat_pluq"])
p("C13","Crout variant of PLUQ agrees with PLUQ",
 "nmod_mat_pluq_crout produces the same rank, permutations and compact LU as nmod_mat_pluq.",
 "all prime moduli, all matrices of all shapes",
 "delayed updates must coincide after every sequence of zero rows and column rotations",
 [S+"nmod_mat_extra/nmod_mat_pluq.c:nmod_mat_pluq_crout"])
p("C14","Expansion of a compact LU",
 "nmod_mat_l_u_from_compactlu(L,U,LU,rank) writes in L the unit lower triangular factor and in U the upper triangular factor stored in the first `rank` columns/rows of LU, overwriting whatever was in L and U; the _zeroin variant does the same when L and U are zero on input, also if U aliases LU.",
 "all compact LU arrays, all ranks, all previous contents of L and U, aliased or not",
 "depends on previous contents and aliasing",
 [S+"nmod_mat_extra/nmod_mat_pluq.c:nmod_mat_l_u_from_compactlu",S+"nmod_mat_extra/nmod_mat_pluq.c:_nmod_mat_l_u_from_compactlu_zeroin"])
p("C15","Left nullspace is a basis of the left kernel",
 "nmod_mat_left_nullspace(X,A) returns nullity = r - rank(A) and X has nullity rows that are linearly independent, satisfy X*A = 0, and span every row vector v with v*A = 0; X is in lower row echelon form with unit pivots.",
 "all prime moduli, all matrices",
 "spanning is a statement about all vectors of the kernel",
 [S+"nmod_mat_extra/left_nullspace.c:nmod_mat_left_nullspace"])
p("C16","Compact left nullspace is consistent with the full one",
 "nmod_mat_left_nullspace_compact(X,perm,A) returns a permutation perm whose first rank(A) entries are the row rank profile of A in increasing order followed by the remaining indices in increasing order, and X such that row perm[rank+i] of A plus sum_j X[i][j] * row perm[j] of A is zero; expanding it gives nmod_mat_left_nullspace.",
 "all prime moduli, all matrices",
 "rank profiles range over all subsets of rows",
 [S+"nmod_mat_extra/left_nullspace.c:nmod_mat_left_nullspace_compact"])
p("C17","Shifts of matrix polynomials",
 "nmod_mat_poly_shift_left(s,a,n) leaves in s the matrix polynomial x^n * a, whether or not s is the same object as a.",
 "all matrix polynomials, all n, both aliasing modes",
 "must hold for each length/shift pair and both aliasing modes",
 [S+"nmod_mat_poly_extra/nmod_mat_poly_shift.c"])
p("C18","Coefficient of a product and evaluation of matrix polynomials",
 "nmod_mat_poly_mul_coeff(c,a,b,k) is the coefficient of degree k of a*b, and nmod_mat_poly_evaluate_nmod(e,a,pt) is the value of a at pt.",
 "all matrix polynomials, all degrees k, all points",
 "index-bound arithmetic over all lengths",
 [S+"nmod_mat_poly_extra/nmod_mat_poly_arith.c:nmod_mat_poly_mul_coeff",S+"nmod_mat_poly_extra/nmod_mat_poly_arith.c:nmod_mat_poly_evaluate_nmod"])
p("C19","Conversions between polynomial matrices and matrix polynomials",
 "Converting a polynomial matrix to a matrix polynomial truncated at an order and back yields the polynomial matrix truncated at that order (equal to the input when the order is at least its length); the intermediate object is normalised (its leading coefficient is nonzero).",
 "all matrices, all orders",
 "all lengths and orders, including those where truncation exposes zero leading coefficients",
 [S+"nmod_mat_poly_extra/nmod_mat_poly_set_from.c",S+"nmod_poly_mat_utils.h:nmod_poly_mat_set_trunc_from_mat_poly"])
p("C20","Status predicates of matrix polynomials",
 "nmod_mat_poly_is_zero / is_one / is_constant (and truncate, normalise, set_length) answer according to the mathematical value represented by a normalised object; e.g. is_constant holds exactly when all coefficients of positive degree are zero.",
 "all normalised matrix polynomials",
 "a predicate must agree with the mathematical notion on every value",
 [S+"nmod_mat_poly.h:nmod_mat_poly_is_constant",S+"nmod_mat_poly.h:nmod_mat_poly_is_zero",S+"nmod_mat_poly_extra/nmod_mat_poly_mem.c"])
p("C21","mbasis computes an approximant basis",
 "nmod_mat_poly_mbasis(P,s,F,d): the rows of P generate exactly the module of row vectors p with p*F = 0 mod x^d, and P is nonsingular.",
 "all prime moduli, all F of all shapes and degrees, all shifts, all orders d>=1",
 "generation quantifies over all polynomial vectors of the module",
 [S+"nmod_mat_poly_extra/nmod_mat_poly_mbasis.c:nmod_mat_poly_mbasis"])
p("C22","mbasis output is shift-minimal",
 "The basis returned by nmod_mat_poly_mbasis is in s-ordered weak Popov form (row orientation, lower) for the input shift s, and the shift returned in place is the s-row degree of the basis.",
 "all F, all integer shifts s, all orders",
 "minimality for every shift is an invariant over all iterations and all permutations produced by sorting",
 [S+"nmod_mat_poly_extra/nmod_mat_poly_mbasis.c:nmod_mat_poly_mbasis"])
p("C23","pmbasis agrees with the specification of approximant bases",
 "nmod_poly_mat_pmbasis(P,s,F,d) returns an approximant basis of F at order d in s-ordered weak Popov form with the output shift being the s-row degree, for every recursion threshold.",
 "all F, shifts, orders, thresholds (hence all recursion trees)",
 "divide and conquer correctness over all recursion trees",
 [S+"nmod_poly_mat_extra/approximant_basis.c:nmod_poly_mat_pmbasis",S+"nmod_poly_mat_extra/approximant_basis.c:nmod_poly_mat_mbasis"])
p("C24","Waksman multiplication",
 "nmod_poly_mat_mul_waksman(C,A,B) computes A*B over every ring where 2 is invertible via (n+1)/2, in any alias configuration.",
 "all dimensions (odd and even inner dimension, empty), all entries, all odd moduli",
 "an algebraic identity over all dimensions",
 [S+"nmod_poly_mat_extra/mul_waksman.c:nmod_poly_mat_mul_waksman"])
p("C25","Vandermonde evaluation/interpolation multiplication",
 "nmod_poly_mat_mul_vandermonde1 and nmod_poly_mat_mul_vandermonde2 compute A*B whenever the field has enough points (n >= len, resp. n >= 2 len), len being the length of the product.",
 "all prime fields large enough, all matrices, all degrees, all parities of the degrees",
 "depends on parities of degree and number of points for every field",
 [S+"nmod_poly_mat_extra/mul_vandermonde.c:nmod_poly_mat_mul_vandermonde1",S+"nmod_poly_mat_extra/mul_vandermonde.c:nmod_poly_mat_mul_vandermonde2"])
p("C26","Geometric-progression multiplication",
 "nmod_poly_mat_mul_geometric computes A*B whenever the modulus passes the size test: the chosen root always exists and gives pairwise distinct evaluation points.",
 "all prime fields passing the size test, all matrices",
 "existence of the root and distinctness for every prime",
 [S+"nmod_poly_mat_extra/mul_geometric.c:nmod_poly_mat_mul_geometric",S+"nmod_extra/nmod_find_root.c:nmod_find_root"])
p("C27","Multiplication dispatcher is transparent",
 "nmod_poly_mat_multiply(C,A,B) returns A*B whatever algorithm is selected from dimensions, lengths and modulus, and whether or not C aliases A or B; every selected algorithm has its preconditions met.",
 "all prime moduli, all shapes and lengths, all aliasing modes",
 "the selection thresholds partition an infinite parameter space; each region must satisfy the algorithm's field-size precondition",
 [S+"nmod_poly_mat_extra/mul.c:nmod_poly_mat_multiply"])
p("C28","Middle product",
 "nmod_poly_mat_mulmid(C,A,B,nlo,nhi) returns the coefficients of degrees nlo..nhi-1 of A*B (shifted down by nlo), for every strategy (naive, both geometric variants, length and shift reductions).",
 "all matrices, all 0<=nlo<=nhi, all prime moduli",
 "reductions change windows depending on the lengths; transposition principle for all sizes",
 [S+"nmod_poly_mat_extra/mulmid.c:nmod_poly_mat_mulmid"])
p("C29","Shifted row and column degrees",
 "nmod_poly_mat_row_degree/column_degree give the maximum over the row (column) of deg+shift, the documented value for zero rows, and return the number of nonzero rows (columns).",
 "all matrices and shifts",
 "a maximum specification for each shift and shape",
 [S+"nmod_poly_mat_extra/degrees_pivots_leadingmatrix.c:nmod_poly_mat_row_degree",S+"nmod_poly_mat_extra/degrees_pivots_leadingmatrix.c:nmod_poly_mat_column_degree"])
p("C30","Pivot index and pivot degree",
 "The pivot profile of a vector gives the rightmost (ROW_LOWER/COL_UPPER) or leftmost (ROW_UPPER/COL_LOWER) entry reaching the shifted degree, and its degree; for the zero vector it gives the documented sentinel.",
 "all vectors, all shifts, four orientations",
 "tie-breaking must hold for every vector and shift",
 [S+"nmod_poly_mat_extra/degrees_pivots_leadingmatrix.c:_nmod_poly_vec_pivot_profile"])
p("C31","Form predicates decide the documented forms",
 "nmod_poly_mat_is_reduced / is_weak_popov / is_ordered_weak_popov / is_popov / is_echelon / is_hermite / is_form return 1 exactly when the matrix is in the documented form for the given shift and orientation.",
 "all matrices, shifts and orientations",
 "an equivalence with a mathematical definition",
 [S+"nmod_poly_mat_extra/nmod_poly_mat_is_form.c",S+"nmod_poly_mat_forms.h:nmod_poly_mat_is_form"])
p("C32","Weak Popov iteration",
 "nmod_poly_mat_weak_popov_iter terminates, transforms mat and tsf by one and the same unimodular left transformation of determinant +1 or -1 (tracked in det), returns the rank, leaves the nonzero rows with pairwise distinct shifted pivots reported in pivind, and groups zero rows at the bottom.",
 "all matrices, all shifts, both orientations",
 "termination and invariants of an unbounded reduction loop",
 [S+"nmod_poly_mat_extra/nmod_poly_mat_weak_popov.c:_nmod_poly_mat_weak_popov_iter_submat_rowbyrow"])
p("C33","Ordered weak Popov iteration",
 "nmod_poly_mat_ordered_weak_popov_iter returns a matrix left-unimodularly equivalent to the input, in ordered weak Popov form followed by zero rows, with its rank.",
 "all matrices, shifts, orientations",
 "sorting step over all pivot configurations",
 [S+"nmod_poly_mat_extra/nmod_poly_mat_weak_popov.c:nmod_poly_mat_ordered_weak_popov_iter"])
p("C34","Iterative determinant",
 "nmod_poly_mat_det_iter(det,M) gives the determinant of M, including the sign, for singular and nonsingular matrices.",
 "all square polynomial matrices over a field",
 "sign bookkeeping through unboundedly many swaps, rotations and sorts",
 [S+"nmod_poly_mat_extra/nmod_poly_mat_det.c:nmod_poly_mat_det_iter"])
p("C35","Upper row echelon forms",
 "The uref functions (maxdeg_atomic, revlex_xgcd, lex_xgcd, matrixgcd_iter) terminate, apply one unimodular left transformation to mat and tsf, and leave mat in upper row echelon form with the returned rank and pivot indices.",
 "all polynomial matrices over a field, all companion matrices",
 "unbounded elimination loops over all shapes and rank profiles",
 [S+"nmod_poly_mat_extra/nmod_poly_mat_hermite.c"])
p("C36","Hermite normal form",
 "The hnf functions leave mat in Hermite normal form: echelon, monic pivots, entries above a pivot of smaller degree than the pivot; obtained by a unimodular left transformation also applied to tsf.",
 "all polynomial matrices over a field",
 "normalisation of one pivot must not destroy the normalisation of others, for each pivot structure",
 [S+"nmod_poly_mat_extra/nmod_poly_mat_hermite.c:_normalize_uref",S+"nmod_poly_mat_forms.h:nmod_poly_mat_hnf_ur_lex_xgcd"])
p("C37","Kernel functions return kernel vectors",
 "Every row returned by nmod_poly_mat_kernel_via_approx and nmod_poly_mat_kernel_zls_approx multiplies the input matrix to zero.",
 "all polynomial matrices, all shifts, all recursion trees",
 "soundness depends on a degree argument, true for all inputs or none",
 [S+"nmod_poly_mat_extra/kernel.c:nmod_poly_mat_kernel_via_approx",S+"nmod_poly_mat_extra/kernel.c:nmod_poly_mat_kernel_zls_approx"])
p("C38","Kernel functions return a whole kernel basis",
 "The rows returned by nmod_poly_mat_kernel_via_approx and nmod_poly_mat_kernel_zls_approx are a basis of the left kernel module, their number is the nullity (row dimension minus rank), they are in shifted ordered weak Popov form, pivind holds their pivot indices and shift their shifted row degrees.",
 "all polynomial matrices, all shifts",
 "generation quantifies over the whole kernel module and rests on degree bounds",
 [S+"nmod_poly_mat_extra/kernel.c:nmod_poly_mat_kernel_via_approx"])
p("C39","Truncated inverse and Dixon solving",
 "For order>=1, nmod_poly_mat_inv_trunc returns nonzero exactly when A(0) is invertible, and then S is the truncated inverse (S*A = A*S = I mod x^order, degree below order), otherwise S is unmodified; nmod_poly_mat_dixon returns nonzero exactly when A(0) is invertible, and then A*X = B mod x^sigma, otherwise X is unmodified.",
 "all A with A(0) invertible, all B, all orders and sigma",
 "lifting invariant over unboundedly many steps",
 [S+"nmod_poly_mat_extra/nmod_poly_mat_dixon.c:nmod_poly_mat_inv_trunc",S+"nmod_poly_mat_extra/nmod_poly_mat_dixon.c:nmod_poly_mat_dixon"])
p("C40","Unimodularity tests",
 "nmod_poly_mat_is_unimodular returns 1 exactly for unimodular matrices; nmod_poly_mat_is_unimodular_randomized returns 1 for each unimodular matrix, and returning 0 certifies non-unimodularity; a non-unimodular matrix whose determinant has degree below the modulus is rejected for some choice of random points.",
 "all square matrices, all random choices",
 "one-sided error over all random choices",
 [S+"nmod_poly_mat_extra/nmod_poly_mat_is_unimodular.c"])
p("C41","Approximant basis verification is sound and complete",
 "nmod_poly_mat_is_approximant_basis(P,F,d,s,form) returns 1 exactly if P is an approximant basis of F at order d in the requested form.",
 "all P, F, d, s",
 "a checker must be right on all candidate inputs, including wrong ones",
 [S+"nmod_poly_mat_extra/verification.c:nmod_poly_mat_is_approximant_basis"])
p("C42","Integer CRT combination",
 "fmpz_multimod_CRT_CRT returns, from residues modulo distinct primes, the unique integer in [0,prod) with those residues, for all numbers of primes (naive leaves and subproduct tree).",
 "all lists of pairwise coprime moduli, all residues, all tree shapes",
 "tree shapes and limb carries over all lengths",
 [S+"fmpz_extra/fmpz_multimod_CRT_CRT.c",S+"fmpz_extra/fmpz_CRT_naive_combine.c",S+"fmpz_extra/fmpz_multi_CRT_combine.c",S+"fmpz_extra/fmpz_multimod_CRT_init.c"])
p("C43","Integer multimodular reduction",
 "fmpz_multimod_naive_reduce and fmpz_multimod_CRT_reduce return the residue of A modulo each of the pairwise coprime moduli, for positive and negative A of all sizes, in both slicing modes.",
 "all integers, all lists of moduli",
 "slicing and sign handling over all integers",
 [S+"fmpz_extra/fmpz_multimod_naive_reduce.c",S+"fmpz_extra/fmpz_multimod_naive_init.c"])
p("C44","Multimodular integer matrix product is exact",
 "fmpz_mat_mul_multimod(C,A,B) returns exactly A*B for inner dimensions up to 2^29, with any aliasing of C: the number of primes chosen always suffices and the symmetric lift recovers signs. The only other outcome is an error, thrown exactly when fewer 30-bit primes exist than required.",
 "all integer matrices of compatible shapes",
 "bound argument over all integers",
 [S+"fmpz_mat_extra/fmpz_mat_mul_multimod_CRT.c"])
p("C45","Word-size multimodular CRT",
 "nmod_multimod_CRT_CRT returns, modulo p, the integer below the product of the first num_primes fixed primes having the given residues, for 1 to 4 primes.",
 "all residues, all moduli p, 1..4 primes",
 "large moduli and the 4-prime path involve multi-limb values beyond what random tests reach",
 [S+"nmod_extra/nmod_multimod_CRT_CRT.c",S+"nmod_extra/nmod_multimod_CRT_init.c"])
p("C46","Matrix products by dot products",
 "nmod_mat_mul_2dot and nmod_mat_mul_newdot compute A*B for every shape, including odd numbers of rows and empty dimensions, and when C aliases A or B.",
 "all shapes, all matrices, all aliasing modes",
 "row pairing and aliasing for each shape",
 [S+"nmod_mat_extra/nmod_mat_mul_2dot.c",S+"nmod_mat_extra/nmod_mat_mul_newdot.c"])
p("C47","Random Popov matrices are Popov",
 "nmod_poly_mat_rand_popov(mat,state,pivind,pivdeg,shift,orient), for row-wise lower and column-wise upper orientation, yields a matrix in shifted Popov form with exactly the requested pivot indices and pivot degrees, whatever the random generator returns.",
 "all generator states, all strictly increasing pivind, all pivdeg>=0, all shifts",
 "quantifies over all random outcomes",
 [S+"nmod_poly_mat_extra/randomisation.c:_nmod_poly_mat_rand_popov_row_lower"])
p("C48","Sorting rows by a key",
 "Sorting the rows of a polynomial matrix by an integer vector is a stable sort: the vector becomes nondecreasing, rows are permuted consistently, the recorded permutation describes the move, and rows beyond the sorted range are untouched.",
 "all vectors, all matrices, all prefix lengths",
 "stability and consistency over all key multisets",
 [S+"nmod_poly_mat_extra/nmod_poly_mat_utils.c:_nmod_poly_mat_permute_rows_by_sorting_vec"])
p("C50","Matrix rank profile output",
 "The array mrp written by the row echelon form functions (lexicographic and reverse lexicographic pivoting, Kannan-Bachem) is the matrix rank profile of the input: for all s, t, the rank of the leading s x t submatrix is the number of rows i<s with 0<=mrp[i]<t; the other entries are -1 and nothing beyond the r entries is written.",
 "all polynomial matrices, all dimensions, all leading submatrices",
 "all leading submatrices of all matrices, including rank-deficient ones",
 [S+"nmod_poly_mat_extra/nmod_poly_mat_hermite.c:nmod_poly_mat_uref_lex_xgcd",S+"nmod_poly_mat_extra/nmod_poly_mat_hermite.c:nmod_poly_mat_uref_revlex_xgcd"])
p("C51","Kernel basis verification",
 "nmod_poly_mat_is_kernel(N,s,A,form) returns 1 exactly if the rows of N form a basis of the left kernel module of A in the requested form.",
 "all N, A, s, forms",
 "a checker must be right on all candidate inputs, including wrong ones",
 [S+"nmod_poly_mat_extra/verification.c:nmod_poly_mat_is_kernel",S+"nmod_poly_mat_kernel.h"])
p("C52","General kernel interface",
 "nmod_poly_mat_kernel returns the nullity and, for row orientations, a left kernel basis (for column orientations a right kernel basis) in shifted ordered weak Popov form with lower or upper pivots as requested, with pivot indices in pivind and shifted degrees in shift when these are given; a NULL shift stands for the row (column) degrees, with 0 for zero rows (columns). Forms above ordered weak Popov are rejected.",
 "all polynomial matrices, all shifts, all orientations and forms",
 "mirroring and transposition must be consistent for all dimensions and nullities",
 [S+"nmod_poly_mat_extra/kernel.c:nmod_poly_mat_kernel",S+"nmod_poly_mat_kernel.h"])
p("C53","Word-size multimodular reduction",
 "nmod_multimod_CRT_reduce writes in residues[j][i] the residue of input[i] modulo the j-th prime, for j below the number of primes and i<nb, for input entries below the modulus, and writes nothing else.",
 "all moduli up to 2^64, all inputs and lengths, 0..4 primes",
 "floating-point and word arithmetic must agree for all words; vector and tail loops for all lengths",
 [S+"nmod_extra/nmod_multimod_CRT_reduce.c"])
p("C54","Random matrices respect degree bounds",
 "nmod_poly_mat_rand and its row-degree, column-degree and degree-matrix variants fill every entry of the matrix with a polynomial of length at most the requested bound for this entry (zero if the bound is not positive), write nothing else, and every such matrix is reachable for some generator.",
 "all generator states, all dimensions, all degree bounds including negative ones",
 "quantifies over all random outcomes",
 [S+"nmod_poly_mat_extra/randomisation.c:nmod_poly_mat_rand_degree_matrix",S+"nmod_poly_extra/nmod_poly_rand.c",S+"nmod_vec_extra/nmod_vec_rand.c"])
p("C55","Random echelon forms have the requested rank",
 "nmod_mat_rand_lref/uref(mat,state,rank,unit) yields a lower/upper row echelon form of rank exactly rank (unit pivots if unit is set), nmod_mat_rand_lrref/urref the reduced echelon form (unit pivots, alone in their column), whatever the random generator returns; an impossible rank is rejected; only entries of the matrix are written.",
 "all generator states, all dimensions, all ranks, all moduli",
 "quantifies over all random outcomes",
 [S+"nmod_mat_extra/nmod_mat_rand.c:nmod_mat_rand_lref",S+"nmod_mat_extra/nmod_mat_rand.c:nmod_mat_rand_urref"])
N="ntl-extras/"
p("C56","Middle product of univariate polynomials (NTL)",
 "middle_product(c,a,dA,b,dB), for deg a <= dA and deg b <= dA+dB, sets c to the polynomial whose coefficients 0..dB are coefficients dA..dA+dB of a*b, whichever of the plain, Karatsuba or FFT algorithms the sizes and the modulus select.",
 "all polynomials, all sizes dA, dB, all primes, all FFT representations",
 "case distinctions on sizes and moduli, delayed reductions in machine words, wraparound products",
 [N+"lzz_pX_middle_product/src/lzz_pX_middle_product.cpp:middle_product"])
p("C57","Chinese remaindering over a subproduct tree (NTL)",
 "For pairwise coprime squarefree moduli q[0..n), n>=1, zz_pX_CRT(q) is constructed without error; multimod returns f mod q[i] for all i; combine returns the polynomial f with deg f < sum deg q[i] and f mod q[i] = val[i] mod q[i] for all i.",
 "all numbers of moduli (powers of two or not), all degrees, all inputs",
 "the in-place tree loops must be right for all numbers of leaves",
 [N+"lzz_pX_CRT/src/lzz_pX_CRT.cpp:build_subproduct_tree",N+"lzz_pX_CRT/src/lzz_pX_CRT.cpp:zz_pX_CRT"])
p("C58","General multipoint evaluation and interpolation (NTL)",
 "For n>=1 distinct points, zz_pX_Multipoint_General::evaluate returns f(pts[i]) for any f; interpolate returns the polynomial of degree < n with the given values; t_evaluate returns the n first weighted power sums of the points; t_interpolate is its inverse.",
 "all point sets, all n, all polynomials and values",
 "the in-place tree loops must be right for all numbers of points; the transposed maps rely on truncated inverses",
 [N+"lzz_pX_CRT/src/lzz_pX_Multipoint_General.cpp:zz_pX_Multipoint_General"])
p("C59","Power series division (NTL)",
 "InvTruncMul(x,b,a,m) returns the polynomial x of degree < m with a*x = b mod X^m when a(0) is nonzero, whichever of the plain and Newton algorithms is selected, for every crossover; x=0 when m=0; it raises an error when a(0)=0 and m>0.",
 "all polynomials, all precisions m>=0, all crossover values",
 "the Newton iteration uses wraparound products whose correctness depends on the sizes at each step",
 [N+"lzz_pX_extra/src/lzz_pX_extra.cpp:InvTruncMul",N+"lzz_pX_extra/src/lzz_pX_extra.cpp:NewtonInvTruncMul"])
p("C60","Taylor shift (NTL)",
 "shift(g,f,c) returns g(X)=f(X+c), in small characteristic (divide and conquer) as well as in characteristic larger than the degree (factorials).",
 "all polynomials, all shifts c, all primes",
 "recursion sizes and invertibility of factorials for all degrees and characteristics",
 [N+"lzz_pX_extra/src/lzz_pX_extra.cpp:zz_pX_shift_DAC",N+"lzz_pX_extra/src/lzz_pX_extra.cpp:shift"])
p("C61","Addition of a shifted polynomial (NTL)",
 "add_LeftShift(c,a,b,k) sets c to a + X^k b, with c normalised, also when c and a are the same object.",
 "all polynomials, all shifts k>=0, aliased or not",
 "overlap of the ranges for all lengths, in place",
 [N+"lzz_pX_extra/src/lzz_pX_extra.cpp:add_LeftShift"])
p("C62","Evaluation and interpolation at a geometric progression (NTL)",
 "For n>=1, s nonzero and r of order at least 2(n-1)+1, zz_pX_Multipoint_Geometric(r,s,n) evaluates at the points s*r^(2i), i<n (or i<nb), polynomials of degree < n, interpolates, and performs the transposed operations, on polynomials and on vectors, with or without FFT, and after any sequence of calls to prepare_degree and to the setters of the FFT flags; degrees >= n are rejected.",
 "all fields, all r, s, n, nb, all polynomials and values, all histories of calls on the object",
 "identities on q-binomials for all sizes; wraparound products; table of precomputed transforms depends on the history",
 [N+"lzz_pX_CRT/src/lzz_pX_Multipoint_Geometric.cpp:zz_pX_Multipoint_Geometric"])
p("C63","Multiplicative order and elements of large order (NTL)",
 "order(a) ends and returns the multiplicative order of a if a is a unit modulo m, -1 otherwise. element_of_order(a,ord,nb,true) sets a to the first random element such that a and a^i-1, 1<=i<ord, are units, or to zero if none of the nb elements drawn is suitable; it raises an error if ord > m-1. Hence get_geometric_points(n) yields n distinct points when an element is found.",
 "all moduli m>=2 (prime or not), all elements, all random generators",
 "quantifies over all moduli and random outcomes",
 [N+"lzz_p_extra/src/lzz_p_extra.cpp:order",N+"lzz_p_extra/src/lzz_p_extra.cpp:element_of_order",N+"lzz_pX_CRT/src/lzz_pX_Multipoint_Geometric.cpp:get_geometric_points"])
p("C64","Simultaneous inversion of a vector (NTL)",
 "inv(invA,A) and inv_naive(invA,A) set invA[i] to the inverse of A[i] for all i when no entry is zero, and raise an error otherwise.",
 "all vectors of all lengths",
 "in-place loop with a single inversion, for all lengths",
 [N+"vec_lzz_p_extra/src/vec_lzz_p_extra.cpp:inv"])
p("C65","Basic operations on polynomial matrices (NTL)",
 "clear, ident, IsZero, IsIdent, IsConstant, deg, GetCoeff, SetCoeff, transpose, trunc, LeftShift, RightShift, reverse, their row and column versions, eval, and the conversions between Mat<zz_pX>, Mat<zz_p> and Vec<Mat<zz_p>> have the effect their documentation gives, on matrices of all dimensions; so do IsZero, deg, mirror, trunc, LeftShift and RightShift on vectors of all lengths.",
 "all dimensions (including 0), all entries, all degrees, shifts and truncation orders, output aliasing input or not",
 "nested loops over all dimensions and degrees; reads beyond the degree of an entry are silent",
 [N+"mat_lzz_pX_extra/src/mat_lzz_pX_utils.cpp:trunc",N+"mat_lzz_pX_extra/src/mat_lzz_pX_utils.cpp:conv",N+"mat_lzz_pX_extra/src/mat_lzz_pX_utils.cpp:truncRow"])
p("C66","Arithmetic of polynomial matrices (NTL)",
 "add, sub, negate, mul by a constant matrix on the left or right, mul by a scalar or a polynomial, and add_LeftShift (a + x^k b) return the corresponding matrix or vector; dimension mismatches raise an error.",
 "all dimensions and entries, output aliasing an input or not",
 "quantifies over all dimensions, entries and alias patterns",
 [N+"mat_lzz_pX_extra/src/mat_lzz_pX_arith.cpp:add",N+"mat_lzz_pX_extra/src/mat_lzz_pX_arith.cpp:mul"])
p("C67","Product of polynomial matrices (NTL)",
 "multiply(c, a, b) returns the s x u matrix a*b, whichever method is chosen (constant factor, naive, Karatsuba-like transforms, Waksman, FFT with its six variants, dense evaluation with or without the even/odd trick, geometric points, three primes), also when an operand is zero, and in the versions with a row or column vector.",
 "all dimensions, degrees, entries, primes, thresholds, and aliasing of the output",
 "the method depends on sizes, degrees and prime; blocks, slices and buffer swaps depend on dimensions modulo 8, 16 and 255",
 [N+"mat_lzz_pX_extra/src/mat_lzz_pX_multiply.cpp:multiply",N+"mat_lzz_pX_extra/src/mat_lzz_pX_multiply_naive.cpp",N+"mat_lzz_pX_extra/src/mat_lzz_pX_multiply_transform.cpp",N+"mat_lzz_pX_extra/src/mat_lzz_pX_multiply_evaluate_FFT.cpp",N+"mat_lzz_pX_extra/src/mat_lzz_pX_multiply_evaluate_dense.cpp",N+"mat_lzz_pX_extra/src/mat_lzz_pX_multiply_evaluate_geometric.cpp"])
p("C68","Polynomial matrix product through three FFT primes is exact",
"For any modulus p (prime or not) and any reduced polynomial matrices a, b with a.cols = b.rows, provided the FFT product modulo each prime used is correct (C67), multiply_3_primes either raises an error (sizes too large for three primes) or returns a times b modulo p: the number of primes chosen always makes their product exceed every coefficient of the integer product, and the Chinese remainder reconstruction (one, two or three primes in any order, entries of unequal lengths) returns each integer coefficient modulo p exactly.",
"all moduli, all triples of distinct FFT primes, all dimensions, all degrees, all entries",
"An overflow of the CRT range only happens for extreme coefficients; tests with random entries never reach the bound, nor every order of the primes and every pattern of vanishing coefficients",
[N+"mat_lzz_pX_extra/src/mat_lzz_pX_multiply_3_primes.cpp:multiply_3_primes, lzz_pX_3_primes, reconstruct_2CRT, reconstruct_3CRT, reduce_mod_p"])
p("C69","Middle products of polynomial matrices keep exactly the requested coefficients",
"For polynomial matrices a (m x n), c (n x p) and nonnegative dA, dB, middle_product and each of its methods (naive, FFT direct, FFT with matrix products in five variants, Vandermonde, three primes) returns trunc(trunc(a, dA+1) c div x^dA, dB+1), and t_multiply_evaluate_geometric returns trunc(rev(a, dA) c div x^dA, dB+1): the cyclic wrap-around of a transform of length at least dA+dB+1, shorter than the product, never reaches the coefficients kept, and the transposed evaluation and interpolation agree with the direct ones.",
"all fields Z/p, all dimensions, all degrees, all dA and dB, all entries, all thresholds",
"The output depends on which coefficients wrap around; sizes just above the power of two, degenerate degrees and extreme coefficients are not sampled by tests",
[N+"mat_lzz_pX_extra/src/mat_lzz_pX_middle_product.cpp:middle_product, middle_product_naive",N+"mat_lzz_pX_extra/src/mat_lzz_pX_middle_product_evaluate_FFT.cpp",N+"mat_lzz_pX_extra/src/mat_lzz_pX_middle_product_evaluate_dense.cpp",N+"mat_lzz_pX_extra/src/mat_lzz_pX_t_multiply_evaluate.cpp",N+"mat_lzz_pX_extra/src/mat_lzz_pX_multiply_3_primes.cpp:middle_product_3_primes"])
p("C70","Left multipliers with precomputation compute every product they accept",
"get_lmultiplier(a, dB), and the constructor of each class (FFT, FFT with matrix products, geometric points, dense, three primes), builds an object whose multiply(c, b) returns a*b for every b with the right number of rows and degree at most dB, however many times it is called, and raises an error when the degree of b is larger.",
"all fields Z/p, all a, all dB, all sequences of matrices b of all dimensions and degrees",
"The precomputed transform has the length of the largest degree allowed while each product may use a shorter one; number of primes and slices are fixed at construction for all later b",
[N+"mat_lzz_pX_extra/src/mat_lzz_pX_lmultiplier.cpp:get_lmultiplier, mat_lzz_pX_lmultiplier_FFT_direct, mat_lzz_pX_lmultiplier_FFT_matmul, mat_lzz_pX_lmultiplier_geometric, mat_lzz_pX_lmultiplier_dense, mat_lzz_pX_lmultiplier_3_primes"])
p("C71","Truncated inverses of polynomial matrices are two-sided inverses modulo X^m",
"inv_trunc(x, a, m) and each algorithm it uses (naive, Newton with FFT, with middle products, at geometric points), for m >= 1 and a square matrix a whose constant coefficient is invertible, return the matrix of degree less than m that is a left and right inverse of a modulo X^m, whatever x was before the call and also when x is a; an error is raised for matrices that are not square or have no such inverse.",
"all fields Z/p, all a of all sizes and degrees, all m >= 1, all thresholds, all previous contents of x",
"The iterations double the precision for every size and threshold; transforms are shorter than the products, and the storage of the output keeps coefficients of its previous value",
[N+"mat_lzz_pX_extra/src/mat_lzz_pX_inv_trunc.cpp:inv_trunc, plain_inv_trunc, newton_inv_trunc_FFT, newton_inv_trunc_middle_product, newton_inv_trunc_geometric"])
p('C72','Power series solutions of linear systems',
'For a square matrix A whose constant coefficient is invertible, any right-hand side b (a matrix with as many rows, or a vector) and any prec >= 1, solve_series(u, A, b, prec), and each of the two algorithms it uses with any threshold, returns the u of degree less than prec such that A u = b modulo X^prec, also if u is A or b; an error is raised if A is not square or not invertible at 0.',
'all fields Z/p, all sizes, degrees and precisions, all thresholds',
'The recursion splits every precision in two uneven halves, and the iteration carries over the high part of a product for any number of steps',
[N+"mat_lzz_pX_extra/src/mat_lzz_pX_linsolve.cpp:solve_series, solve_series_low_precision, solve_series_high_precision, solve_DAC", N+"mat_lzz_pX_extra/src/mat_lzz_pX_arith.cpp:add_LeftShift"])
p('C73','Division of polynomial matrices with remainder',
'If B is row reduced (square, with an invertible matrix of leading coefficients of its rows), and A has as many rows, quo_rem(Q, R, A, B) gives the Q and R such that A = B Q + R with each row of R of degree less than the row of B, and there is only one such pair; A and B are unchanged. row_degree gives the largest degree in each row, -1 for a zero row.',
'all fields Z/p, all sizes and degrees, all row-reduced B, all A with as many rows, whatever Q and R contain before',
'The quotient is read in the truncated solution of a system reversed row by row; the relation holds for all row degrees at once only by an identity on reversals, and aliasing of outputs and inputs is not visible on separate arguments',
[N+"mat_lzz_pX_extra/src/mat_lzz_pX_division.cpp:quo_rem", N+"mat_lzz_pX_extra/src/mat_lzz_pX_forms.cpp:row_degree"])
p('C74','High-order lifting',
'For a square A with A(0) invertible and b with at least one column and of degree less than A, solve_series_high_order_lifting(u, A, b, prec) gives the u of degree less than prec with A u = b modulo X^prec. high_order_lift_inverse_odd turns a slice of the power series inverse of A of length 2d-1 at offset (i-1)d+1 into the slice of the same length at the offset that doubles the number of steps, as documented. horizontal_join and the collapse functions put columns side by side, and add blocks of columns multiplied by powers of X^d.',
'all fields Z/p, all sizes and degrees, all A with A(0) invertible, all b, all precisions, whatever u contains before',
'Each lifting step is right only because the residue of the inverse has degree less than d, for every offset at once; the number of steps grows with the precision',
[N+"mat_lzz_pX_extra/src/mat_lzz_pX_linsolve.cpp:solve_series_high_order_lifting", N+"mat_lzz_pX_extra/src/mat_lzz_pX_inv_trunc.cpp:high_order_lift_inverse_odd", N+"mat_lzz_pX_extra/src/mat_lzz_pX_linearization.cpp:horizontal_join", N+"mat_lzz_pX_extra/src/mat_lzz_pX_linearization.cpp:collapse_consecutive_columns", N+"mat_lzz_pX_extra/src/mat_lzz_pX_linearization.cpp:collapse_nonconsecutive_columns"])
p('C75','Partial linearization',
'column_partial_linearization expands column j of a matrix into consecutive columns of degree at most parlin_degree[j], whose sum with powers of X^(parlin_degree[j]+1) is the column (without its coefficients of degree less than d_inf, in the variant with this parameter), and returns where the columns start. right_parlin_multiply computes the product of two matrices through such an expansion, and right_parlin_middle_product a middle product, when the given degrees bound those of the columns.',
'all fields Z/p, all matrices, all linearization and target degrees (target degrees below 2^53), whatever the outputs contain before',
'The number of columns is computed in floating point, lengths of polynomials are set before their coefficients, and the result is accumulated in place: only a proof covers all the degrees and all the former contents of the output',
[N+"mat_lzz_pX_extra/src/mat_lzz_pX_linearization.cpp:column_partial_linearization", N+"mat_lzz_pX_extra/src/mat_lzz_pX_linearization.cpp:right_parlin_multiply", N+"mat_lzz_pX_extra/src/mat_lzz_pX_linearization.cpp:right_parlin_middle_product"])
p('C76','Approximant bases with NTL',
'mbasis1 returns a basis of the left kernel of a constant matrix, in the order of its distinct shifted pivots, and which rows are pivots. mbasis_plain, mbasis_rescomp, mbasis_resupdate, mbasis and pmbasis return a basis of the approximants of the matrix at the order, in shifted ordered weak Popov form (so of minimal shifted row degrees), of degree at most the order, and replace the shift by the shifted row degree of this basis.',
'all fields Z/p, all polynomial matrices, orders and shifts, whatever the output contains before; all thresholds and kernel bases NTL may return',
'The four algorithms share little code, permute rows by shifts, keep coefficient matrices of the basis that grow with its degree, exchange rows in place, and reuse vectors between iterations: only a proof covers all the shifts, degeneracies of the residuals and early exits',
[N+"mat_lzz_pX_extra/src/mat_lzz_pX_pmbasis.cpp:mbasis1", N+"mat_lzz_pX_extra/src/mat_lzz_pX_pmbasis.cpp:mbasis_plain", N+"mat_lzz_pX_extra/src/mat_lzz_pX_pmbasis.cpp:mbasis_rescomp", N+"mat_lzz_pX_extra/src/mat_lzz_pX_pmbasis.cpp:mbasis_resupdate", N+"mat_lzz_pX_extra/src/mat_lzz_pX_pmbasis.cpp:pmbasis", N+"mat_lzz_pX_extra/mat_lzz_pX_approximant.h:mbasis"])
p('C77','Determinants with NTL',
'determinant_expansion_by_minors, determinant_expansion_by_minors_rec, determinant_via_evaluation_general, determinant_via_evaluation_geometric and determinant_via_evaluation_FFT compute the determinant of a square polynomial matrix. verify_determinant accepts the determinant (or a multiple of it by a constant), and accepts anything else for few points only. determinant_generic_knowing_degree, given the degree of the determinant, returns true if and only if what it computes is the determinant up to a constant.',
'all fields Z/p, all dimensions and all square polynomial matrices; all evaluation points',
'The expansion for dimension 4 is written out by hand with reused temporaries; the evaluation methods depend on degree bounds and on the number of points; verification is randomized, so its guarantee is a count over all points; the last function relies on genericity and checks a degree only',
[N+"mat_lzz_pX_extra/src/mat_lzz_pX_determinant.cpp:determinant_expansion_by_minors", N+"mat_lzz_pX_extra/src/mat_lzz_pX_determinant.cpp:determinant_expansion_by_minors_rec", N+"mat_lzz_pX_extra/src/mat_lzz_pX_determinant.cpp:determinant_via_evaluation_general", N+"mat_lzz_pX_extra/src/mat_lzz_pX_determinant.cpp:determinant_via_evaluation_geometric", N+"mat_lzz_pX_extra/src/mat_lzz_pX_determinant.cpp:determinant_via_evaluation_FFT", N+"mat_lzz_pX_extra/src/mat_lzz_pX_determinant.cpp:verify_determinant", N+"mat_lzz_pX_extra/src/mat_lzz_pX_determinant.cpp:determinant_generic_knowing_degree"])
p('C78','Degrees, pivots and forms with NTL',
'row_degree, col_degree, row_pivots, col_pivots, degree_matrix (and shifted versions), row_leading_matrix, col_leading_matrix compute the objects of the documentation, with the documented conventions for zero rows and columns. is_row_reduced, is_row_weak_popov, is_row_ordered_weak_popov, is_row_popov and their column versions return true exactly for matrices in the corresponding shifted form, and get_row_polmatform, get_col_polmatform return the strongest form. A shift of a wrong length is refused.',
'all fields, all dimensions, all polynomial matrices, all shifts',
'The tests return booleans about infinitely many matrices; the conventions for zero rows, ties between pivots and extreme shifts interact; the implication between forms is a theorem of algebra',
[N+"mat_lzz_pX_extra/src/mat_lzz_pX_forms.cpp:row_degree", N+"mat_lzz_pX_extra/src/mat_lzz_pX_forms.cpp:col_degree", N+"mat_lzz_pX_extra/src/mat_lzz_pX_forms.cpp:row_pivots", N+"mat_lzz_pX_extra/src/mat_lzz_pX_forms.cpp:col_pivots", N+"mat_lzz_pX_extra/src/mat_lzz_pX_forms.cpp:degree_matrix", N+"mat_lzz_pX_extra/src/mat_lzz_pX_forms.cpp:degree_matrix_rowshifted", N+"mat_lzz_pX_extra/src/mat_lzz_pX_forms.cpp:degree_matrix_colshifted", N+"mat_lzz_pX_extra/src/mat_lzz_pX_forms.cpp:row_leading_matrix", N+"mat_lzz_pX_extra/src/mat_lzz_pX_forms.cpp:col_leading_matrix", N+"mat_lzz_pX_extra/src/mat_lzz_pX_forms.cpp:is_row_reduced", N+"mat_lzz_pX_extra/src/mat_lzz_pX_forms.cpp:is_col_reduced", N+"mat_lzz_pX_extra/src/mat_lzz_pX_forms.cpp:is_row_weak_popov", N+"mat_lzz_pX_extra/src/mat_lzz_pX_forms.cpp:is_col_weak_popov", N+"mat_lzz_pX_extra/src/mat_lzz_pX_forms.cpp:is_row_ordered_weak_popov", N+"mat_lzz_pX_extra/src/mat_lzz_pX_forms.cpp:is_col_ordered_weak_popov", N+"mat_lzz_pX_extra/src/mat_lzz_pX_forms.cpp:is_row_popov", N+"mat_lzz_pX_extra/src/mat_lzz_pX_forms.cpp:is_col_popov", N+"mat_lzz_pX_extra/src/mat_lzz_pX_forms.cpp:is_row_polmatform", N+"mat_lzz_pX_extra/src/mat_lzz_pX_forms.cpp:is_col_polmatform", N+"mat_lzz_pX_extra/src/mat_lzz_pX_forms.cpp:get_row_polmatform", N+"mat_lzz_pX_extra/src/mat_lzz_pX_forms.cpp:get_col_polmatform", N+"mat_lzz_pX_extra/mat_lzz_pX_forms.h:amplitude"])
p('C79','Approximant bases with one order per column, and their verification, with NTL',
'appbas_iterative and appbas_iterative_2x1 terminate, stay in bounds, and return an approximant basis of the given matrix at the given orders (one positive order per column), in shifted ordered weak Popov form with its pivots on the diagonal, the shift being replaced by the shifted row degrees; popov_appbas_iterative returns the basis in shifted Popov form; approximant_basis returns a basis of the form asked for. is_approximant_basis (randomized) accepts every basis in the form asked for, whatever its random point, and rejects any other matrix except for a number of points bounded by a degree; so the output of approximant_basis is always accepted.',
'all prime fields, all dimensions, all matrices, all vectors of positive orders, all shifts, both orders of processing, all random points',
'The module of approximants is infinite, the choice of pivots depends on ties between shifts and on which residuals vanish, and the verification is probabilistic: the number of bad points must be bounded for every matrix',
[N+"mat_lzz_pX_extra/src/mat_lzz_pX_approximant.cpp:approximant_basis", N+"mat_lzz_pX_extra/src/mat_lzz_pX_approximant.cpp:is_approximant_basis", N+"mat_lzz_pX_extra/src/mat_lzz_pX_approximant.cpp:appbas_iterative", N+"mat_lzz_pX_extra/src/mat_lzz_pX_approximant.cpp:appbas_iterative_2x1", N+"mat_lzz_pX_extra/src/mat_lzz_pX_approximant.cpp:popov_appbas_iterative"])
p('C80','Interpolant bases and their verification, with NTL',
'The interpolant variants of mbasis_rescomp, mbasis_resupdate, mbasis, pmbasis, pmbasis_geometric, popov_mbasis and popov_pmbasis terminate, stay in bounds, and return a basis of the module of vectors p such that p(x_k) E_k = 0 for all k (for a polynomial matrix F: such that p F vanishes at all points), in shifted ordered weak Popov form with pivots on the diagonal (Popov form for the last two), the shift being replaced by the shifted row degrees, and the evaluations outside of the processed range are left as they were. is_interpolant_basis (deterministic) accepts exactly the interpolant bases in the form asked for; is_interpolant_basis_geometric does so for all matrices.',
'all prime fields, all dimensions with at least one row, all evaluations, all vectors of pairwise distinct points (any points for mbasis_rescomp), all ratios of large enough order, all shifts, all thresholds of the recursion',
'The module of interpolants is infinite, the pivots depend on ties between shifts and on ranks of residuals, and acceptance by the verification must be equivalent to generating that module for every candidate matrix',
[N+"mat_lzz_pX_extra/src/mat_lzz_pX_interpolant.cpp:is_interpolant_basis", N+"mat_lzz_pX_extra/src/mat_lzz_pX_interpolant.cpp:is_interpolant_basis_geometric", N+"mat_lzz_pX_extra/src/mat_lzz_pX_interpolant.cpp:mbasis_rescomp", N+"mat_lzz_pX_extra/src/mat_lzz_pX_interpolant.cpp:mbasis_resupdate", N+"mat_lzz_pX_extra/src/mat_lzz_pX_interpolant.cpp:mbasis", N+"mat_lzz_pX_extra/src/mat_lzz_pX_interpolant.cpp:popov_mbasis", N+"mat_lzz_pX_extra/src/mat_lzz_pX_interpolant.cpp:pmbasis", N+"mat_lzz_pX_extra/src/mat_lzz_pX_interpolant.cpp:pmbasis_geometric", N+"mat_lzz_pX_extra/src/mat_lzz_pX_interpolant.cpp:popov_pmbasis"])
p('C81','Kernel bases and their verification, with NTL',
'kernel_basis_via_approximation and kernel_basis_via_interpolation terminate without error for every matrix and shift, and return a basis of the module of vectors v with v*pmat = 0, in shifted ordered weak Popov form, with the pivot indices, the shift being replaced by the shifted row degrees. kernel_basis, kernel_basis_zls_via_approximation and kernel_basis_zls_via_interpolation do the same. is_kernel_basis accepts exactly the kernel bases in the form asked for; its randomized variant accepts them always, and other matrices only when the random vectors fall in proper subspaces.',
'all prime fields, all dimensions, all polynomial matrices (zero, of any rank, with zero rows), all shifts, all depths of the recursion, all outcomes of the search for an element of large order, all random vectors',
'The kernel is an infinite module whose rank depends on the input; the rows found are selected by degree bounds which have to hold for every matrix and shift, and the recursion splits, residuals and merges depend on data-dependent degrees',
[N+"mat_lzz_pX_extra/src/mat_lzz_pX_kernel.cpp:is_kernel_basis", N+"mat_lzz_pX_extra/src/mat_lzz_pX_kernel.cpp:kernel_basis", N+"mat_lzz_pX_extra/src/mat_lzz_pX_kernel.cpp:kernel_basis_via_approximation", N+"mat_lzz_pX_extra/src/mat_lzz_pX_kernel.cpp:kernel_basis_via_interpolation", N+"mat_lzz_pX_extra/src/mat_lzz_pX_kernel.cpp:kernel_basis_zls_via_approximation", N+"mat_lzz_pX_extra/src/mat_lzz_pX_kernel.cpp:kernel_basis_zls_via_interpolation"])
p('C82','Approximant bases in Popov form, and for two polynomials, with NTL',
'popov_mbasis1 never fails; its result is a left kernel basis of the constant matrix and represents, with the degrees it returns, the approximant basis at order 1 in shifted Popov form. popov_mbasis and popov_pmbasis return the approximant basis in shifted Popov form, which is unique, so that they return the same matrix whatever the threshold; the shift is replaced by the shifted row degrees. pmbasis_2x1 returns a minimal approximant basis of the column of two polynomials for every order, pair of shifts and positive threshold, and calls the middle product within its conditions.',
"all prime fields, all dimensions, all polynomial matrices, all orders, all shifts, all positive thresholds, all results of NTL's kernel and image which satisfy their contracts",
'The Popov form is a canonical form: each entry is determined by degree conditions on a whole column, for a module which depends on the input; the recursion depends on data-dependent degrees and shifts',
[N+"mat_lzz_pX_extra/src/mat_lzz_pX_pmbasis.cpp:popov_mbasis1", N+"mat_lzz_pX_extra/src/mat_lzz_pX_pmbasis.cpp:popov_mbasis", N+"mat_lzz_pX_extra/src/mat_lzz_pX_pmbasis.cpp:popov_pmbasis", N+"mat_lzz_pX_extra/src/mat_lzz_pX_pmbasis.cpp:pmbasis_2x1"])
p('C83','Toeplitz, Hankel, triangular and circulant matrices over a prime field, with NTL',
'For Toeplitz, Hankel, lower triangular Toeplitz and circulant matrices built from a vector, to_dense returns the matrix drawn in the documentation, and mul_right and mul_left return the product of that matrix with a vector or a matrix, for every size, on each of the algorithms selected by size; operands of another size are rejected.',
'all moduli, all numbers of rows and columns, all coefficients, all vectors and matrices, all values of the crossover',
'The algorithm depends on the sizes (Karatsuba, FFT, dense) and each relies on index reversals and on the absence of wrap-around for every size; the loops of circulant matrices depend on the quotient and remainder of the dimensions',
[N+"structured_lzz_p/src/toeplitz_lzz_p.cpp:mul_right", N+"structured_lzz_p/src/toeplitz_lzz_p.cpp:mul_left", N+"structured_lzz_p/src/hankel_lzz_p.cpp:mul_right", N+"structured_lzz_p/src/hankel_lzz_p.cpp:mul_left", N+"structured_lzz_p/src/lower_triangular_toeplitz_lzz_p.cpp:mul_right", N+"structured_lzz_p/src/circulant_column_lzz_p.cpp:mul_left", N+"structured_lzz_p/src/circulant_row_lzz_p.cpp:mul_right"])
p('C84','Matrices given by displacement generators over a prime field, with NTL',
'A Toeplitz-like or Hankel-like matrix built from generators U and V is the only matrix M whose displacement is U V^t (Z_1 M - M Z_0 or Z_0 M - M Z_1 in the Toeplitz case, Z_1 M - M Z_0^t or Z_0^t M - M Z_1 in the Hankel case): to_dense returns M, mul_right and mul_left return the products of M with a vector or a matrix, and phi of M is U V^t; phi of any matrix is its displacement.',
'all moduli, all numbers of rows and columns, all numbers of generators, all generators, all vectors, all matrices',
'The factors are circulant and triangular matrices filled by loops whose index wraps around at a position which depends on the remainder of one dimension by the other; the identity holds for all generators and all shapes or for none',
[N+"structured_lzz_p/src/toeplitz_like_plus_lzz_p.cpp:mul_right", N+"structured_lzz_p/src/toeplitz_like_minus_lzz_p.cpp:mul_right", N+"structured_lzz_p/src/hankel_like_plus_lzz_p.cpp:to_dense", N+"structured_lzz_p/src/hankel_like_minus_lzz_p.cpp:to_dense", N+"structured_lzz_p/src/toeplitz_like_plus_lzz_p.cpp:toeplitz_lzz_p_phi_plus", N+"structured_lzz_p/src/hankel_like_minus_lzz_p.cpp:hankel_lzz_p_phi_minus", N+"mat_lzz_p_extra/src/mat_lzz_p_extra.cpp:Z_lzz_p"])
p('C85','Cauchy matrices on geometric progressions over a prime field, with NTL',
'The Cauchy matrix built from u, v, rho with m rows and n columns has the entries 1/(u rho^i - v rho^j): the constructor succeeds exactly when no denominator is zero, to_dense returns this matrix, mul_right and mul_left return its products with vectors and matrices, and the simple variants those of the matrix without its diagonal factor; operands of another size are rejected. diagonal_matrix and clear on a window have the effect their names say.',
'all primes, all u, v, rho, all numbers of rows and columns, all vectors and matrices, all values of the crossover',
'The denominators are computed by a loop which runs through both positive and negative powers of rho in reverse order, and inverted together; the identity with the entries holds for all sizes and progressions or fails for a single one',
[N+"structured_lzz_p/src/cauchy_geometric_lzz_p.cpp:mul_right", N+"structured_lzz_p/src/cauchy_geometric_lzz_p.cpp:mul_left", N+"structured_lzz_p/src/cauchy_geometric_lzz_p.cpp:to_dense", N+"structured_lzz_p/src/cauchy_geometric_lzz_p.cpp:prepare_inverses_cauchy_reverse", N+"mat_lzz_p_extra/src/mat_lzz_p_extra.cpp:diagonal_matrix", N+"mat_lzz_p_extra/src/mat_lzz_p_extra.cpp:clear"])
p('C86','Sylvester matrices over a prime field, with NTL',
'The Sylvester matrix of two nonzero polynomials a and b is the matrix of (F, G) -> F a + G b: to_dense returns it, mul_right and mul_left return its products with vectors and matrices, and reject operands of another size. It is invertible exactly when a and b are coprime. When neither polynomial is a constant, solve and solve_transpose return solutions of the right and left systems if a and b are coprime, and return 0 otherwise, before and after prepare_inverse; inv returns a Toeplitz-like matrix which is the inverse; phi_plus_generators returns generators of the displacement of the matrix.',
'all primes, all pairs of nonzero polynomials, all states reached by the constructor and prepare_inverse, all vectors and matrices, every extended gcd that satisfies the documentation of NTL',
'The systems are solved by modular products with the cofactors of an extended gcd, and for the transposed matrix by extending a linear recurrence with a power series; these identities must hold for all pairs of polynomials, and the return value must tell exactly whether the matrix is invertible',
[N+"structured_lzz_p/src/sylvester_lzz_p.cpp:mul_right", N+"structured_lzz_p/src/sylvester_lzz_p.cpp:mul_left", N+"structured_lzz_p/src/sylvester_lzz_p.cpp:to_dense", N+"structured_lzz_p/src/sylvester_lzz_p.cpp:prepare_inverse", N+"structured_lzz_p/src/sylvester_lzz_p.cpp:solve", N+"structured_lzz_p/src/sylvester_lzz_p.cpp:solve_transpose", N+"structured_lzz_p/src/sylvester_lzz_p.cpp:phi_plus_generators", N+"structured_lzz_p/src/sylvester_lzz_p.cpp:inv"])
p('C87','Several dot products with a common left operand',
'nmod_vec_dot_product_multi(uv,u,v,len,k,max_bits_u,max_bits_v,mod) writes sum_i u[i]*v[i][j] mod n at uv[j] for each j < k and changes no other entry, whichever of the kernels with 0, 1, 2 or 3 limbs is selected, for entries that are not necessarily reduced; the blocked variants of the one-limb and two-limb kernels return the same vector whenever the sums fit.',
'all lengths, numbers of columns, bit bounds up to 64, vectors respecting them, and moduli',
'The number of limbs, the block sizes and the remainders of the unrolled loops all depend on len, k and the bit bounds; overflow and lost carries only show for extreme words',
[S+"nmod_vec_extra/nmod_vec_dot_product_multi.c:nmod_vec_dot_product_multi", S+"nmod_vec_extra/nmod_vec_dot_product_multi.c:_nmod_vec_dot_product_multi_1", S+"nmod_vec_extra/nmod_vec_dot_product_multi.c:_nmod_vec_dot_product_multi_2", S+"nmod_vec_extra/nmod_vec_dot_product_multi.c:_nmod_vec_dot_product_multi_3", S+"nmod_vec_extra/nmod_vec_dot_product_multi.c:_nmod_vec_dot_product_multi_1_v1_8", S+"nmod_vec_extra/nmod_vec_dot_product_multi.c:_nmod_vec_dot_product_multi_1_v8_8", S+"nmod_vec_extra/nmod_vec_dot_product_multi.c:_nmod_vec_dot_product_multi_1_v8_32", S+"nmod_vec_extra/nmod_vec_dot_product_multi.c:_nmod_vec_dot_product_multi_1_v16_16", S+"nmod_vec_extra/nmod_vec_dot_product_multi.c:_nmod_vec_dot_product_multi_2_v1_8", S+"nmod_vec_extra/nmod_vec_dot_product_multi.c:_nmod_vec_dot_product_multi_2_v4_8", S+"nmod_vec_extra/nmod_vec_dot_product_multi.c:_nmod_vec_dot_product_multi_2_v4_32", S+"nmod_vec_extra/nmod_vec_dot_product_multi.c:_nmod_vec_dot_product_multi_2_v8_8", S+"nmod_vec_extra/nmod_vec_dot_product_multi.c:_nmod_vec_dot_product_multi_2_split26"])
p('C88','Vectors with 32-bit entries: SIMD dot products and matrix-vector products',
'For moduli and lengths within the bounds of nmod32_vec.h and reduced entries, the AVX2 and AVX512 versions of the single, double and triple dot products, the dot product taken from msolve, and all matrix-vector products (rows one by one, by pairs, by triples, scalar or SIMD, msolve) return the dot products modulo n; the matrix-vector products write exactly the nrows first entries of the output, for any stride.',
'all lengths and moduli up to the constants of the header, all reduced vectors and matrices, all numbers of rows and strides',
'The lengths modulo 8, 16, 32 and 64 select different loops, tails and masked loads; the accumulators only overflow for extreme moduli and lengths of about 2^28',
[S+"nmod32_vec/dot_split.c:_nmod32_vec_dot_split_avx2", S+"nmod32_vec/dot_split.c:_nmod32_vec_dot_split_avx512", S+"nmod32_vec/dot_split.c:_nmod32_vec_dot_ifma_avx2", S+"nmod32_vec/dot_split.c:_nmod32_vec_dot_ifma_avx512", S+"nmod32_vec/dot2_split.c:_nmod32_vec_dot2_split", S+"nmod32_vec/dot2_split.c:_nmod32_vec_dot2_split_avx2", S+"nmod32_vec/dot2_split.c:_nmod32_vec_dot2_split_avx512", S+"nmod32_vec/dot2_split.c:_nmod32_vec_dot3_split_avx2", S+"nmod32_vec/dot2_split.c:_nmod32_vec_dot3_split_avx512", S+"nmod32_vec/mdot_split.c:_nmod32_vec_mdot_split", S+"nmod32_vec/mdot2_split.c:_nmod32_vec_mdot2_split", S+"nmod32_vec/mdot2_split.c:_nmod32_vec_mdot3_split_avx2", S+"nmod32_vec/mdot2_split.c:_nmod32_vec_mdot3_split_avx512", S+"nmod32_vec/dot_msolve.c:_nmod32_vec_dot_msolve_avx2", S+"nmod32_vec/mdot_msolve.c:_nmod32_vec_mdot_msolve_native_avx2"])
p('C89','Bivariate polynomials over a prime field, with NTL',
'add, sub, mul_naive, mul by a constant, mul (by Kronecker substitution), shift_x, shift_y, trunc_x, trunc_y, SetCoeff and evaluate return the sum, difference, product, shift, truncation, update and specialisation of bivariate polynomials, also when the output is one of the operands; the result has no zero leading coefficient, and no other variable changes. The degrees, the zero test and the equality test are those of the polynomial. to_kronecker and from_kronecker with the same parameter are inverse to each other on the polynomials whose coefficients have at most this degree.',
'all fields, all polynomials of all degrees, all shifts and truncation orders, all earlier contents of the outputs, all patterns of identical variables',
'The product packs both operands into univariate polynomials and unpacks the product, which is right only if no coefficient runs into the next one, for all degrees; outputs keep stale entries beyond their length and may be the operands themselves, so every loop order and resizing matters',
[N+"lzz_pXY/src/lzz_pXY.cpp:add", N+"lzz_pXY/src/lzz_pXY.cpp:sub", N+"lzz_pXY/src/lzz_pXY.cpp:mul_naive", N+"lzz_pXY/src/lzz_pXY.cpp:mul", N+"lzz_pXY/src/lzz_pXY.cpp:to_kronecker", N+"lzz_pXY/src/lzz_pXY.cpp:from_kronecker", N+"lzz_pXY/src/lzz_pXY.cpp:mul_kronecker", N+"lzz_pXY/src/lzz_pXY.cpp:shift_x", N+"lzz_pXY/src/lzz_pXY.cpp:shift_y", N+"lzz_pXY/src/lzz_pXY.cpp:trunc_x", N+"lzz_pXY/src/lzz_pXY.cpp:trunc_y", N+"lzz_pXY/src/lzz_pXY.cpp:SetCoeff", N+"lzz_pXY/src/lzz_pXY.cpp:evaluate", N+"lzz_pXY/src/lzz_pXY.cpp:normalize", N+"lzz_pXY/src/lzz_pXY.cpp:tdeg", N+"lzz_pXY/src/lzz_pXY.cpp:degX", N+"lzz_pXY/src/lzz_pXY.cpp:random_zz_pXY"])
p('C90','Resultants of bivariate polynomials by evaluation and interpolation',
'resultant(res, f, g) either returns 1 and sets res to the resultant of f and g with respect to Y, whatever the random choices were, or returns 0. It returns 1 whenever its first points are distinct and no leading coefficient vanishes at one of them.',
'all fields, all nonzero bivariate polynomials of all degrees, all sequences of random draws',
'The result must be right for every outcome of the random choices: the number of points must exceed the degree of the resultant for all degrees, and one point where a leading coefficient vanishes changes the resultant of the values; tests see a few random draws over large fields',
[N+"lzz_pXY/src/lzz_pXY.cpp:resultant"])
p('C91','Evaluation, interpolation and their transposes at FFT points',
"For every power of two n from 2 up to the maximal FFT length, zz_pX_Multipoint_FFT(n) accepts the order in which NTL's FFT returns its values, natural or bit-reversed, and with it: evaluate returns the values at n distinct points, for polynomials of every degree; interpolate returns the polynomial of degree less than n with given values; t_evaluate returns the sums of val_i pt_i^j for j below the output size; t_interpolate is its inverse. The bit-reversal table sends bit b to bit k-1-b. get_FFT_points(n) has at least n and less than 2n points.",
'all fields with a root of unity of order 2^k, all k, all polynomials, all vectors of values, both orders of the FFT',
'The order of the points is found out at run time by comparing powers; the transposed maps are right only if the reversal is applied on both sides, for every length; a test sees the one order of the installed NTL and a few lengths',
[N+"lzz_pX_CRT/src/lzz_pX_Multipoint_FFT.cpp:RevInc", N+"lzz_pX_CRT/src/lzz_pX_Multipoint_FFT.cpp:BitReverse_init", N+"lzz_pX_CRT/src/lzz_pX_Multipoint_FFT.cpp:zz_pX_Multipoint_FFT::zz_pX_Multipoint_FFT", N+"lzz_pX_CRT/src/lzz_pX_Multipoint_FFT.cpp:zz_pX_Multipoint_FFT::evaluate", N+"lzz_pX_CRT/src/lzz_pX_Multipoint_FFT.cpp:zz_pX_Multipoint_FFT::interpolate", N+"lzz_pX_CRT/src/lzz_pX_Multipoint_FFT.cpp:zz_pX_Multipoint_FFT::t_evaluate", N+"lzz_pX_CRT/src/lzz_pX_Multipoint_FFT.cpp:zz_pX_Multipoint_FFT::t_interpolate", N+"lzz_pX_CRT/src/lzz_pX_Multipoint_FFT.cpp:get_FFT_points"])
p('C92','Structured matrices over K[X]: triangular Toeplitz, circulant, Toeplitz-like',
'For every lower triangular Toeplitz matrix, every circulant matrix with any number of rows, and every non-empty Toeplitz-like matrix given by generators over K[X]: mul_right and mul_left return the product of the matrix by the vector, mul_right_trunc and mul_left_trunc the product modulo X^s, whatever degrees were prepared before with prepare_degree and whatever the output held; a vector of the wrong length is refused. There is exactly one matrix M such that Z_0 M - M Z_1 = U V^t, and it is the one these functions multiply by. The products by a matrix apply the products by a vector to its columns or rows. phi_minus and phi_plus compute the displacements, and the displacement of the dense matrix is the product of the generators.',
'all fields, all lengths, degrees and entries, all sequences of prepared degrees, all numbers of rows, all truncation orders, all contents of outputs and temporaries',
'The products go through a Kronecker substitution of just sufficient size, with transforms computed for another degree, and fold chunks of a vector of any length; an entry of larger degree, or a number of rows that is not a multiple of the length, is wrong only for particular shapes',
[N+"structured_lzz_pX/src/lower_triangular_toeplitz_lzz_pX.cpp:prepare_degree", N+"structured_lzz_pX/src/lower_triangular_toeplitz_lzz_pX.cpp:to_dense", N+"structured_lzz_pX/src/lower_triangular_toeplitz_lzz_pX.cpp:mul_right", N+"structured_lzz_pX/src/lower_triangular_toeplitz_lzz_pX.cpp:mul_right_trunc", N+"structured_lzz_pX/src/lower_triangular_toeplitz_lzz_pX.cpp:mul_left", N+"structured_lzz_pX/src/lower_triangular_toeplitz_lzz_pX.cpp:mul_left_trunc", N+"structured_lzz_pX/src/circulant_row_lzz_pX.cpp:circulant_row_lzz_pX", N+"structured_lzz_pX/src/circulant_row_lzz_pX.cpp:prepare_degree", N+"structured_lzz_pX/src/circulant_row_lzz_pX.cpp:to_dense", N+"structured_lzz_pX/src/circulant_row_lzz_pX.cpp:mul_right", N+"structured_lzz_pX/src/circulant_row_lzz_pX.cpp:mul_right_trunc", N+"structured_lzz_pX/src/circulant_row_lzz_pX.cpp:mul_left", N+"structured_lzz_pX/src/circulant_row_lzz_pX.cpp:mul_left_trunc", N+"structured_lzz_pX/src/toeplitz_like_minus_lzz_pX.cpp:toeplitz_like_minus_lzz_pX", N+"structured_lzz_pX/src/toeplitz_like_minus_lzz_pX.cpp:mul_right", N+"structured_lzz_pX/src/toeplitz_like_minus_lzz_pX.cpp:mul_left", N+"structured_lzz_pX/src/toeplitz_like_minus_lzz_pX.cpp:mul_right_trunc", N+"structured_lzz_pX/src/toeplitz_like_minus_lzz_pX.cpp:mul_left_trunc", N+"structured_lzz_pX/src/toeplitz_like_minus_lzz_pX.cpp:to_dense", N+"structured_lzz_pX/src/toeplitz_like_minus_lzz_pX.cpp:toeplitz_lzz_pX_phi_minus", N+"structured_lzz_pX/src/toeplitz_like_plus_lzz_pX.cpp:toeplitz_lzz_pX_phi_plus", N+"structured_lzz_pX/src/structured_lzz_pX.cpp:mul_right", N+"structured_lzz_pX/src/structured_lzz_pX.cpp:mul_left", N+"structured_lzz_pX/src/structured_lzz_pX.cpp:mul_right_trunc", N+"structured_lzz_pX/src/structured_lzz_pX.cpp:mul_left_trunc"])
p('C93','Sylvester matrices over K[X]',
'For all A and B in K[X][Y] with nonzero leading coefficients: the Sylvester matrix of A and B maps the coefficients of F and G, of degrees in Y less than those of B and A, to those of A F + B G. mul_right and mul_left return its product by a vector, mul_right_trunc and mul_left_trunc the product modulo X^s, to_dense its entries whatever the output held, and phi_plus_generators two matrices with two columns such that Z_1 M - M Z_0 = G H^t. A vanishing leading coefficient and a vector of the wrong length are refused.',
'all fields, all degrees in X and Y, all entries, all vectors, all truncation orders, all contents of outputs and temporaries',
'The products go through two Kronecker substitutions whose step is computed from the degrees of the two parts of the input, equal or not, and through a middle product at an offset which depends on them; only some combinations of degrees, such as a zero part, reach the wrong step',
[N+"structured_lzz_pX/src/sylvester_lzz_pX.cpp:sylvester_lzz_pX", N+"structured_lzz_pX/src/sylvester_lzz_pX.cpp:mul_right", N+"structured_lzz_pX/src/sylvester_lzz_pX.cpp:mul_right_trunc", N+"structured_lzz_pX/src/sylvester_lzz_pX.cpp:mul_left", N+"structured_lzz_pX/src/sylvester_lzz_pX.cpp:mul_left_trunc", N+"structured_lzz_pX/src/sylvester_lzz_pX.cpp:to_dense", N+"structured_lzz_pX/src/sylvester_lzz_pX.cpp:phi_plus_generators"])
p('C94','Inversion of Sylvester matrices over K[X] modulo X^m',
'For all A and B in K[X][Y] whose Sylvester matrix is invertible at x = 0, and all m: newton_inv_trunc and high_precision_inv_trunc return a structured matrix, with generators of two columns and of degrees less than m, whose products by all vectors, in full or truncated, are those of a matrix N with M N = N M = 1 modulo X^m. The precisions of the Newton iteration start at 1, at most double, and end at m. A singular matrix at x = 0 is refused.',
'all primes, all degrees in X and Y, all entries, all precisions m, all contents of outputs and temporaries, all functions XGCD and middle_product meeting their contracts',
'The result is a pair of generators which is right only if the displacement identity, the Newton or block lifting at every precision, odd or even, and the last truncation all fit; tests check a few precisions, where a wrong last step or a degree that drops at x = 0 does not show',
[N+"structured_lzz_pX/src/sylvester_lzz_pX.cpp:degrees", N+"structured_lzz_pX/src/sylvester_lzz_pX.cpp:newton_inv_trunc", N+"structured_lzz_pX/src/sylvester_lzz_pX.cpp:high_precision_inv_trunc", N+"structured_lzz_pX/src/toeplitz_like_minus_lzz_pX.cpp:toeplitz_like_minus_lzz_pX"])
p('C95','Linear systems over K(X)',
'linsolve_via_series(u, den, A, b), for every square matrix A with A(0) invertible and every b, returns u and a monic den with A u = den b, the output may alias the input, and the random choices it makes are only rarely bad. linsolve_via_kernel returns such a pair with den nonzero, or 0 if there is no solution. determinant_via_linsolve returns the determinant.',
'all fields, all dimensions, all matrices and vectors, all random choices, all functions HalfGCD, inv, solve_series and kernel_basis meeting their contracts',
'The denominator is reconstructed from one random linear combination: whether it is the right one depends on all the draws, on the factors of the denominator, and on degree bounds that must hold for every matrix; tests draw generic matrices, for which the bounds are reached and the determinant is the smallest denominator',
[N+"mat_lzz_pX_extra/src/mat_lzz_pX_linsolve.cpp:linsolve_via_series", N+"mat_lzz_pX_extra/src/mat_lzz_pX_linsolve.cpp:linsolve_via_kernel", N+"mat_lzz_pX_extra/src/mat_lzz_pX_determinant.cpp:determinant_via_linsolve"])
p('C96','Row reduced form of a square matrix',
'reduced_form_gjv(reduced, pmat), for a square matrix pmat, returns 0 if pmat(0) is singular; otherwise it returns 1 and reduced is row reduced and equal to U pmat for a unimodular matrix U.',
'all fields, all dimensions, all square matrices of any degree, all functions inv_trunc, get_lmultiplier, middle_product, multiply, kernel and image meeting their contracts',
'The form is read off an approximant basis computed from a slice of the expansion of the inverse: the place and the length of the slice, the number of lifting steps and the order of approximation must be right for every dimension and degree, and a wrong bound only shows for matrices whose degrees reach it; the test draws generic matrices, which are already reduced',
[N+"mat_lzz_pX_extra/src/mat_lzz_pX_reduction.cpp:reduced_form_gjv", N+"mat_lzz_pX_extra/mat_lzz_pX_extra.h:reduced_form_gjv"])
p('C97','Generators of the annihilator of a sequence over F[x]/x^d',
'kurakin(d, S, gens), for the first n terms S of a sequence over F[x]/x^d that has a monic recurrence of degree m with 2m <= n, gives d bivariate polynomials that cancel the whole sequence, have degree at most m in y, and generate all polynomials that cancel it. For every S it gives d polynomials, the t-th with leading coefficient x^t and of the smallest degree in y possible among those that cancel S.',
'all fields, all precisions d >= 0, all finite sequences, and all infinite sequences with a monic recurrence modulo x^d',
'The annihilator is an infinite set, so that generating all of it cannot be checked on examples; the algorithm keeps one polynomial per power of x and a table of earlier polynomials indexed by the place and the valuation of the first nonzero term, and a wrong pivot only shows when several sequences with zero divisors compete for the same place; check_cancel, used by the test, is always true (see C98)',
[N+"lzz_pX_seq/src/lzz_pX_seq.cpp:kurakin", N+"lzz_pX_seq/src/lzz_pX_seq.cpp:solve", N+"lzz_pX_seq/src/lzz_pX_seq.cpp:mulTrunc", N+"lzz_pX_seq/lzz_pX_seq.h:kurakin"])
p('C98','The test that polynomials cancel a sequence',
'check_cancel(S, gens, d) is true exactly when each polynomial of gens cancels S modulo x^d (exactly, with d = -1), for a sequence S of polynomials or of vectors of polynomials; and modified_kurakin(d, S, gens) does not read outside of its vectors.',
'all fields, all precisions, all sequences of polynomials and of vectors of polynomials, all lists of bivariate polynomials',
'check_cancel is the oracle that the tests rely on, and a test that only sees the value true cannot tell that it is always true; the reads out of bounds happen only for sequences without an invertible entry, which random tests do not draw',
[N+"lzz_pX_seq/src/lzz_pX_seq.cpp:check_cancel", N+"lzz_pX_seq/src/lzz_pX_seq.cpp:mulTrunc", N+"lzz_pX_seq/src/lzz_pX_seq.cpp:is_zero_seq", N+"lzz_pX_seq/src/lzz_pX_seq.cpp:modified_kurakin", N+"lzz_pX_seq/lzz_pX_seq.h:check_cancel"])
p('C99','Products by Cauchy-like matrices',
'cauchy_like_geometric_lzz_p(G, H, u, v, rho) succeeds exactly when rho is not zero and no point u rho^i of a row is equal to a point v rho^j of a column; the object then stands for the matrix of entries (G_i . H_j) / (u rho^i - v rho^j): to_dense gives these entries, and mul_right and mul_left on vectors and matrices give the products by it.',
'all primes, all pairs of generator matrices with the same number of columns and at least one row each, all u, v, rho, all vectors and matrices of the right dimensions, all thresholds',
'the product is a sum over the generators of diagonal, Toeplitz and diagonal factors with indices counted from the end of a vector of inverses; square matrices and a single generator hide exchanges of dimensions, and the condition on the points quantifies over all pairs',
[N+"structured_lzz_p/src/cauchy_like_geometric_lzz_p.cpp:cauchy_like_geometric_lzz_p", N+"structured_lzz_p/src/cauchy_like_geometric_lzz_p.cpp:mul_right", N+"structured_lzz_p/src/cauchy_like_geometric_lzz_p.cpp:mul_left", N+"structured_lzz_p/src/cauchy_like_geometric_lzz_p.cpp:to_dense"])
p('C100','Inversion of the leading principal minor of a Cauchy-like matrix',
'invert_leading_principal_minor_grp(Cinv) ends, and returns 0 or 1. If it returns 1, Cinv is a Cauchy-like matrix on the exchanged points that is the inverse of a leading block of the matrix. If the matrix has generic rank profile, it returns 1 and the size of the block is the rank. If it returns 0, the matrix does not have generic rank profile; if it returns 1, it has.',
'all primes, all Cauchy-like matrices of any dimensions and any number of generators whose first points are pairwise distinct, all values of the thresholds, all random vectors',
'three algorithms (direct, by blocks, divide and conquer with a switch at size 200) update generators in place with four vectors of inverses indexed from the end; matrices of deficient rank and blocks that end early are not drawn at random, and the test of the rank is probabilistic',
[N+"structured_lzz_p/src/cauchy_like_geometric_lzz_p.cpp:invert_leading_principal_minor_grp", N+"structured_lzz_p/src/cauchy_like_geometric_lzz_p.cpp:invert_rec", N+"structured_lzz_p/src/cauchy_like_geometric_lzz_p.cpp:invert_raw", N+"structured_lzz_p/src/cauchy_like_geometric_lzz_p.cpp:invert_block_raw", N+"structured_lzz_p/src/cauchy_like_geometric_lzz_p.cpp:prepare_inverses_cauchy"])
p('C101','Linear systems with Cauchy-like matrices',
'If solve_grp(x, b) returns 1, x is empty or a solution of the system. If the matrix has generic rank profile, the function returns 1, and x is a solution if there is one, and empty otherwise.',
'all primes, all Cauchy-like matrices whose first points are pairwise distinct, all right-hand sides, all random choices',
'a random system has a solution and a matrix of full rank; systems of deficient rank with and without solution, and the zero matrix, are not drawn',
[N+"structured_lzz_p/src/cauchy_like_geometric_lzz_p.cpp:solve_grp", N+"structured_lzz_p/src/cauchy_like_geometric_lzz_p.cpp:invert_leading_principal_minor_grp", N+"structured_lzz_p/src/cauchy_like_geometric_lzz_p.cpp:mul_right"])
p('C102','Products by mosaic Hankel and mosaic Toeplitz matrices',
'The constructor of a mosaic Hankel (Toeplitz) matrix from a rectangular array of blocks whose dimensions agree stands for the block matrix: operator(), to_dense, NumRows and NumCols give its entries and dimensions, and mul_right and mul_left on vectors and matrices give the products by it.',
'all primes, all rectangular arrays of blocks with at least one row and one column of blocks, all block sizes including unequal ones, all vectors and matrices of the right dimensions',
'the entry at (i, j) is found by subtracting block sizes, and the products keep three running offsets; tests with equal blocks hide exchanges of the number of block rows and block columns',
[N+"structured_lzz_p/src/mosaic_hankel_lzz_p.cpp:mul_right", N+"structured_lzz_p/src/mosaic_hankel_lzz_p.cpp:mul_left", N+"structured_lzz_p/src/mosaic_hankel_lzz_p.cpp:to_dense", N+"structured_lzz_p/src/mosaic_toeplitz_lzz_p.cpp:mul_right", N+"structured_lzz_p/src/mosaic_toeplitz_lzz_p.cpp:mul_left", N+"structured_lzz_p/src/mosaic_toeplitz_lzz_p.cpp:to_dense"])
p('C103','Generators of mosaic matrices and reduction to Cauchy-like matrices',
'first_column_of_block, last_column_of_block, first_row_of_block and last_row_of_block give the rows and columns of the matrix they name; the matrices G, H of phi_plus_generators are generators of the matrix for its displacement operator, with as many columns as there are block rows and block columns. If the field is large enough, solve and inv work on a Cauchy-like matrix whose entries are the values of the bivariate polynomial of the matrix at two disjoint geometric progressions, times random diagonal factors.',
'all primes, all mosaic Hankel and mosaic Toeplitz matrices with nonempty blocks of any sizes, all random choices',
'the generators fill rows at the boundaries of the blocks with signs and shifts by one; an error of one position cancels for a single block or for equal blocks',
[N+"structured_lzz_p/src/mosaic_hankel_lzz_p.cpp:phi_plus_generators", N+"structured_lzz_p/src/mosaic_hankel_lzz_p.cpp:first_column_of_block", N+"structured_lzz_p/src/mosaic_hankel_lzz_p.cpp:last_column_of_block", N+"structured_lzz_p/src/mosaic_hankel_lzz_p.cpp:first_row_of_block", N+"structured_lzz_p/src/mosaic_hankel_lzz_p.cpp:last_row_of_block", N+"structured_lzz_p/src/mosaic_toeplitz_lzz_p.cpp:phi_plus_generators", N+"structured_lzz_p/src/mosaic_toeplitz_lzz_p.cpp:first_column_of_block", N+"structured_lzz_p/src/mosaic_toeplitz_lzz_p.cpp:last_column_of_block", N+"structured_lzz_p/src/mosaic_toeplitz_lzz_p.cpp:first_row_of_block", N+"structured_lzz_p/src/mosaic_toeplitz_lzz_p.cpp:last_row_of_block"])
p('C104','Linear systems with mosaic matrices',
'If solve(x, b) returns 1, x is a solution of the system. If the field is large enough, the random choices give a matrix of generic rank profile and there is a solution, it returns 1.',
'all primes, all mosaic Hankel and mosaic Toeplitz matrices with nonempty blocks, of any dimensions and any rank, all right-hand sides, all random choices',
'correctness for all random choices cannot be tested; the choices that break it have a small probability, and systems without solution are not drawn',
[N+"structured_lzz_p/src/mosaic_hankel_lzz_p.cpp:solve", N+"structured_lzz_p/src/mosaic_toeplitz_lzz_p.cpp:solve"])
p('C105','Inversion of mosaic matrices',
'If inv(inv) returns 1, the matrix is square and invertible, and the object inv represents its inverse: its to_dense and mul_right are those of the inverse. If the matrix is invertible, the field is large enough and the random choices give generic rank profile, it returns 1.',
'all primes, all mosaic Hankel and mosaic Toeplitz matrices with nonempty blocks, all random choices',
'the generators of the inverse are obtained by four products with transposed and inverse Vandermonde matrices; an error of a power or of a transposition is not seen for symmetric cases, and the statement must hold for all random choices',
[N+"structured_lzz_p/src/mosaic_hankel_lzz_p.cpp:inv", N+"structured_lzz_p/src/mosaic_toeplitz_lzz_p.cpp:inv"])
p('C106','Approximant bases of one generic column',
'For a column of n polynomials that is generic up to the order (no nonzero vector of degree less than k is an approximant at order n k), mbasis_generic_onecolumn and pmbasis_generic_onecolumn compute the approximant basis in Popov form at that order, a matrix whose coefficient of degree order / n is the identity, and return its row degrees.',
'all fields, all numbers of rows, all generic columns, all orders that are multiples of the number of rows (divide and conquer: n 2^k d with d at most 16)',
'the kernel is read without checking its form, the residuals are moved by one position across blocks, and the recursion divides the order without regard to the number of rows; tests draw dense random columns at a few orders',
[N+"mat_lzz_pX_extra/src/mat_lzz_pX_pmbasis_generic.cpp:mbasis_generic_onecolumn", N+"mat_lzz_pX_extra/src/mat_lzz_pX_pmbasis_generic.cpp:pmbasis_generic_onecolumn"])
p('C107','Storage of matrix polynomials, for all histories',
'For every sequence of calls that respects the documentation (objects are initialised before they are used and not used after they are cleared, a length set directly is at most the capacity, entries that are accessed exist, dimensions agree), no memory is accessed outside of an array, no coefficient matrix is used before it is initialised or after it is cleared, and no matrix or array is lost. At every moment an object holds exactly the first length coefficients and length <= alloc. Each call changes the content as specified and no other object; fit_length never loses data.',
'all sequences of calls on any number of objects, all dimensions, lengths, capacities and contents, including calls with the same object as source and destination',
'an error appears only for particular sequences of growing, shrinking, truncating and shifting, and usually without any visible effect; tests run a few sequences',
[S+"nmod_mat_poly_extra/nmod_mat_poly_mem.c:nmod_mat_poly_init_preinv", S+"nmod_mat_poly_extra/nmod_mat_poly_mem.c:nmod_mat_poly_init2_preinv", S+"nmod_mat_poly_extra/nmod_mat_poly_mem.c:nmod_mat_poly_set", S+"nmod_mat_poly_extra/nmod_mat_poly_mem.c:nmod_mat_poly_clear", S+"nmod_mat_poly_extra/nmod_mat_poly_mem.c:nmod_mat_poly_realloc", S+"nmod_mat_poly_extra/nmod_mat_poly_mem.c:nmod_mat_poly_fit_length", S+"nmod_mat_poly.h:_nmod_mat_poly_set_length", S+"nmod_mat_poly.h:_nmod_mat_poly_normalise", S+"nmod_mat_poly.h:nmod_mat_poly_truncate", S+"nmod_mat_poly_extra/nmod_mat_poly_shift.c:nmod_mat_poly_shift_left", S+"nmod_mat_poly_extra/nmod_mat_poly_set_from.c:nmod_mat_poly_set_trunc_from_poly_mat"])
p('C108','Sequences of powers modulo a polynomial, in blocks',
'For a polynomial a reduced modulo g, g(0) nonzero, and 1 <= m <= deg(g), gen_sequence(mats, a, g, m) gives the 2 ceil(deg(g)/m) + 1 matrices, from the highest power of a down to the power 0, whose entry (i, j) is the coefficient of degree j of x^i a^k mod g. gen_pows gives the list of t a^(s i) mod g, and gen_sequence_naive the same coefficients as gen_sequence, arranged by row and by the two digits of the exponent.',
'all fields, all g, a, t, all block sizes m, steps s and lengths, all values of the crossover below which NTL does not use the FFT',
'the algorithm switches on internal thresholds of NTL and on degrees of powers modulo g; random tests with a large modulus reach only one side of these switches',
[N+"mat_lzz_pX_extra/src/mat_lzz_pX_sequence.cpp:MulMod_local", N+"mat_lzz_pX_extra/src/mat_lzz_pX_sequence.cpp:gen_pows", N+"mat_lzz_pX_extra/src/mat_lzz_pX_sequence.cpp:mul_special", N+"mat_lzz_pX_extra/src/mat_lzz_pX_sequence.cpp:get_quos", N+"mat_lzz_pX_extra/src/mat_lzz_pX_sequence.cpp:format", N+"mat_lzz_pX_extra/src/mat_lzz_pX_sequence.cpp:gen_sequence", N+"mat_lzz_pX_extra/src/mat_lzz_pX_sequence.cpp:gen_sequence_naive"])
p('C109','Matrix reconstruction by interpolation',
'Given the values, at distinct points, of a strictly proper fraction N D^(-1) of m x m matrices, with D column reduced with column degrees e_j and nonsingular at the points, matrix_recon_interpolation returns an m x m matrix whose rows are a basis of the left denominators of the fraction (the vectors p such that p N D^(-1) is polynomial), in ordered weak Popov form with minimal pivot degrees, as soon as there are at least d_i + e_j points for all i and j, where d_i is the pivot degree of some denominator with pivot i. matrix_recon_interpolation_geometric does the same at points in geometric progression.',
'all fields, all sizes m, all fractions, all sets of points and progressions, all thresholds of the recursion',
'the claim is about the whole module of denominators, and depends on the number of points with respect to unknown degrees',
[N+"mat_lzz_pX_extra/src/mat_lzz_pX_sequence.cpp:matrix_recon_interpolation", N+"mat_lzz_pX_extra/src/mat_lzz_pX_sequence.cpp:matrix_recon_interpolation_geometric"])
p('C110','Memory of the objects for Chinese remaindering',
'Every program that initialises objects for Chinese remaindering and multimodular reduction (fmpz_multimod_naive_t, fmpz_CRT_naive_t, fmpz_multimod_CRT_t, nmod_multimod_CRT_t) with valid moduli, and clears each of them once, in any order, with any number of them alive at a time, never accesses memory outside of what is allocated, never frees a block twice, and has freed all memory at the end. Reducing any integer modulo all moduli, and recombining residues, with a live naive object only accesses live memory and leaves the heap as it was.',
'all sequences of init and clear calls on all variables, all numbers and values of the moduli, with and without AVX2',
'a test clears a few objects in one order; memory errors and leaks depend on the number of moduli, limbs and leaves, and on which code path init and clear take',
[S+"fmpz_extra/fmpz_multimod_naive_init.c:fmpz_multimod_naive_init", S+"fmpz_extra/fmpz_multimod_naive_clear.c:fmpz_multimod_naive_clear", S+"fmpz_extra/fmpz_CRT_naive_init.c:fmpz_CRT_naive_init", S+"fmpz_extra/fmpz_CRT_naive_clear.c:fmpz_CRT_naive_clear", S+"fmpz_extra/fmpz_multimod_naive_reduce.c:fmpz_multimod_naive_reduce", S+"fmpz_extra/fmpz_CRT_naive_combine.c:fmpz_CRT_naive_combine", S+"fmpz_extra/fmpz_CRT_naive_CRT.c:fmpz_CRT_naive_CRT", S+"fmpz_extra/fmpz_multimod_CRT_init.c:fmpz_multimod_CRT_init", S+"fmpz_extra/fmpz_multimod_CRT_clear.c:fmpz_multimod_CRT_clear", S+"nmod_extra/nmod_multimod_CRT_init.c:nmod_multimod_CRT_init", S+"nmod_extra/nmod_multimod_CRT_clear.c:nmod_multimod_CRT_clear"])
p('C111','Cancelling polynomials by approximant bases',
'For a sequence of polynomials, or of vectors of polynomials, and an order d, berlekamp_massey_pmbasis appends to gens, and keeps what was there, a basis of all polynomials of degree at most e = (number of terms)/2 in Y whose action on the sequence is zero modulo x^d on the first e entries; berlekamp_massey_pmbasis_hnf appends such a basis in which the polynomial t has degree exactly t in Y. When the sequence has a monic recurrence of degree at most e modulo x^d, these polynomials generate all polynomials that cancel the whole infinite sequence.',
'all sequences, numbers of terms, numbers of components, orders, previous contents of gens, and all other polynomials that cancel the sequence',
'that the result generates all cancelling polynomials, and cancels terms which were not given, is about infinitely many polynomials and terms',
[N+"lzz_pX_seq/src/lzz_pX_seq.cpp:berlekamp_massey_pmbasis", N+"lzz_pX_seq/src/lzz_pX_seq.cpp:berlekamp_massey_pmbasis_hnf"])
p('C112','Top right block of the inverse of a Sylvester matrix',
'For a Sylvester matrix of dimension n built from two polynomials, top_right_block_inverse(block, m) returns 0 if the matrix has no inverse, and otherwise returns 1 and sets block to the submatrix of the first m rows and the last m columns of the inverse, for every m from 0 to n; m > n is an error.',
'all primes, all pairs of polynomials, all states of the object, all block sizes, all entries of the block',
'the block comes from a formula for the displacement of the inverse with indices taken modulo n, which has to match the inverse at every position for every pair of degrees and every m',
[N+"structured_lzz_p/src/sylvester_lzz_p.cpp:top_right_block_inverse"])
p('C113',"Resultant of bivariate polynomials by Villard's algorithm",
'resultant_villard and resultant_villard_tdeg return 0 if the computation failed, and otherwise return 1 and set res to the resultant with respect to Y of the two polynomials, up to a constant. In particular they do not return 1 when the resultant is zero.',
'all primes, all pairs of bivariate polynomials, all random elements, all results of the calls meeting their contracts',
'a few random polynomials are generic: the points, the block size, the inverses at the points and the polynomials for which the reconstructed matrix does not have the resultant as determinant are not exercised',
[N+"lzz_pXY/src/lzz_pXY.cpp:resultant_villard", N+"lzz_pXY/src/lzz_pXY.cpp:resultant_villard_tdeg"])
with open('/verif/properties.jsonl','w') as f:
    for x in P: f.write(json.dumps(x)+"\n")
