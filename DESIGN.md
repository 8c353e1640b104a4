# Formal model of PML (vneiger/pml): design

The model is written in Lean 4 (with Mathlib for algebra) under `lean/Verif/`.
Each model file mirrors a group of functions of `/repo`; each definition cites
the file and lines it models.

## Conventions

* **Base ring.** FLINT's `nmod` arithmetic with a prime modulus is modelled by
  a field `K` (Mathlib `Field`), or by `ZMod p` / a commutative ring where the
  property needs less or more than a field. Word-level code is modelled on
  natural numbers with explicit reduction modulo 2^64 after each machine
  operation, so that a lost carry is visible in the model.
* **Polynomials.** `nmod_poly_t` is modelled by Mathlib's `Polynomial K`.
  `nmod_mat_poly_t` (a list of coefficient matrices) is modelled by a list or
  by its coefficient function, as stated in the model.
* **Matrices.** `Matrix (Fin m) (Fin n) _`, or functions of natural indices for
  in-place code on index ranges.
* **Loops.** `for` loops are folds or structural recursion; `while` loops are
  recursion on an explicit fuel, or well-founded recursion with the termination
  measure proved, as said at each definition. When fuel is used, the theorem
  shows that the fuel is never exhausted (termination).
* **External functions** of FLINT/NTL (e.g. `nmod_poly_mat_mul`, `nmod_poly_xgcd`,
  `nmod_mat_nullspace`, evaluation/interpolation at a geometric progression) are
  represented by their mathematical specification: either Mathlib's operation,
  or a parameter with its documented contract as a hypothesis.
* **Undefined behaviour** that matters for a property (out-of-bounds access,
  shift by >= width) is a distinct outcome in the model.

## Disagreements between the code and a property

When the code violates a property, the file holds a theorem stating the
violation for a concrete witness on the model of the code as it is, and a
theorem with suffix `_partial` for the largest part found to be true.
See section "Findings" at the end.

## Plan, property by property

| id | model | proof |
|----|-------|-------|
| C01 | words as Nat mod 2^64, block loop on lists | no-overflow invariant by induction on blocks |
| C02 | same, 0/1/2/3 limb kernels | same + modular reduction |
| C03 | bound computation on Nat | monotonicity of sums |
| C04 | recombination on words | negation by witness; partial under no-carry hypothesis |
| C05 | hi/lo accumulators on words | invariant hi*2^56+lo = sum |
| C06 | same | same |
| C07 | Newton iteration mod 2^64 with fuel | valuation doubling, termination in <= 7 steps |
| C08 | int arithmetic with UB outcome | induction; negation by witness |
| C09 | loops over q and k | loop invariants; cyclicity of units of Z/p |
| C10 | functions of Nat indices, fold of single moves | pointwise characterisation |
| C11 | functions of Nat indices | composition lemma; negation by witness |
| C12 | elimination loop on matrices over a field | loop invariant A = P L U Q |
| C13 | Crout loop | simulation with C12's loop |
| C14 | writes into L and U on index functions | pointwise; negations by witness |
| C15 | nullspace of FLINT by contract, then PML's transposition/expansion | linear algebra |
| C16 | same | same |
| C17 | lists of coefficients | coefficientwise; negation by witness |
| C18 | sums over index windows, Horner | induction |
| C19 | lists <-> polynomial entries | coefficientwise |
| C20 | lists | direct; negation by witness |
| C21 | iteration of mbasis on polynomial matrices | step lemma + induction on the order |
| C22 | same | pivot order argument |
| C23 | recursion of pmbasis | product of bases, well-founded induction |
| C24 | pairing sums | ring identity + induction |
| C25 | evaluation/interpolation with Vandermonde matrices | interpolation uniqueness |
| C26 | evaluation/interpolation contract of FLINT | distinct points from C09 |
| C27 | dispatch tree | case split, each precondition discharged |
| C28 | windows, truncations, transposed evaluation | coefficientwise |
| C29 | folds over entries | maximum specification |
| C30 | folds over entries | first/last argmax; negation by witness |
| C31 | boolean functions | equivalence; negations by witness |
| C32 | row-operation loop | invariant + termination measure |
| C33 | loop + sort | composition |
| C34 | outer loop over leading submatrices | determinant invariants |
| C35 | elimination loops | invariant + termination |
| C36 | normalisation loop | degree invariants |
| C37 | pmbasis, row selection, recursion on columns and on residuals | degree argument, induction on dimensions |
| C38 | same | degree bounds on kernel bases (Smith form), early exit, termination |
| C52 | transposes, mirrored rows | reindexing |
| C39 | approximant contract; lifting loop | induction |
| C40 | determinant contract | units of K[x]; negation by witness |
| C41 | checker | negation by witness; partial soundness |
| C42 | limb-level naive combine, leaves, straight-line program of the tree (`Verif/Crt`) | value of the limbs; sets of inputs tracked through the program; uniqueness |
| C43 | powers of two tables, 24-bit slices, limbs, signs (`Verif/Crt`) | table invariants, C02 for the limb dot product, sharper bound for the split dot product |
| C44 | primes, residues, modular products, CRT, symmetric lift (`Verif/Crt/MatModel`) | entry bound against the product of primes, uniqueness |
| C45 | cofactor sums, mixed radix digits (`Verif/WordCrt`) | CRT; negation for every odd modulus |
| C53 | high/low halves of words (`Verif/WordCrt`) | congruences; loop characterisation |
| C46 | row pairing | induction |
| C47 | oracle for the random generator (`Verif/Rand`) | degree constraints per entry; explicit generator for reachability |
| C54 | same | invariant of the fill loops |
| C55 | echelon fill loops (`Verif/Rand/ConstModel`) | loop invariants; rank from triangular independence |
| C56 | `tPlainMul2`, `tKar`, FFT wraparound (`Verif/Ntl/MiddleModel`) | induction on the Karatsuba recursion; cyclic convolution without overlap; word bounds for delayed reductions |
| C57 | subproduct tree, remainder tree, linear combination (`Verif/Ntl/CrtModel`) | induction on the tree; products of dual numbers `q_i + eps v_i` |
| C58 | same, with linear leaves | same, plus reversal and truncated inverses for the transposed maps |
| C59 | plain loop and Newton steps with wraparound products (`Verif/Ntl/SeriesModel`) | invariant a*x = b mod X^k; no aliasing in the part of the cyclic product that is read |
| C60 | recursion on halves; factorial formula (`Verif/Ntl/ShiftModel`) | induction; binomial theorem; negation for f = 0 |
| C61 | in-place loops on coefficient arrays | range by range; negation by witness |
| C62 | precomputation loops, table of transforms, chirp products (`Verif/Ntl/GeomModel`) | closed forms of the arrays; finite q-binomial theorem; invariant over histories of calls |
| C63 | loops on powers (`Verif/Ntl/OrderModel`) | loop invariants, order of units |
| C64 | prefix products | invariant |
| C65 | entry loops of mat_lzz_pX_utils.cpp, matrices as rows, cols, entries; vectors in `Verif/Ntl/VecUtils*` | loop-fill lemmas (Common/Loop); invariant of the exchanges for mirror |
| C66 | loops of mat_lzz_pX_arith.cpp; vectors and add_LeftShift in `Verif/Ntl/VecUtils*` | loop-fill lemmas; C61 for add_LeftShift |
| C67 | `Verif/Ntl/MatMul*` (naive, Waksman, transforms), `Verif/Ntl/MatEval*` (evaluation methods, chooser, dispatcher) | bilinear identities; buffers filled blockwise; interpolation uniqueness; even/odd parts; word bounds for 255-term slices |
| C68 | `Verif/Ntl/Three*`: reduction, two and three prime CRT, choice of the number of primes, `multiply_3_primes` on representatives | mixed-radix digits by congruences; coefficient bound for products; composed with C67's FFT product |
| C69 | `Verif/Ntl/MatMid*`: middle products (naive, FFT variants, dense, three primes, dispatcher), transposed product at geometric points | no wrap-around modulo X^N - 1; transposition principle for Vandermonde matrices; C56, C63, C65, C67, C68 composed |
| C70 | `Verif/Ntl/LMul*`: the five classes of left multipliers and `get_lmultiplier` | values at more points than needed restrict to values at fewer points (`roundUp` monotone); C67, C68 composed |
| C71 | `Verif/Ntl/Inv*`: the four algorithms of `inv_trunc` and their choice; entries of the output with their storage (length and stale coefficients) | Newton iteration in the ring of matrices modulo X^2k; no wrap-around for the transforms; left inverse is right inverse modulo X^m; induction on the list of degrees |
| C72 | `Verif/Ntl/Solve*`: `solve_DAC`, both algorithms, the choice, vectors; `inv_trunc`, `get_lmultiplier`, `middle_product` as parameters with the contracts of C71, C70, C69; representation of `u` (length, leading zeros) in the high precision algorithm | strong induction on the precision; loop invariant on A u and the last block of u |
| C73 | `Verif/Ntl/Div*`: `quo_rem` over a memory of matrices designated by addresses, `row_degree`; `solve_series`, `multiply` as parameters with the contracts of C72, C67 | reversal is multiplicative (`Polynomial.reflect_mul`); uniqueness by the leading coefficients of B (Q - Q') |
| C74 | `Verif/Ntl/Lift*`: the lifting step, the solver with its loop, the joining and collapsing of columns; the left multipliers, `middle_product`, `inv_trunc` as parameters with the contracts of C70, C69, C71 | power series inverse in Mathlib's `PowerSeries`; residues of degree less than d; loop invariant: the columns hold the residues of the first c steps |
| C75 | `Verif/Ntl/Parlin*`: the four functions with the storage of the polynomials of the outputs and rounded quotients; `multiply` as a parameter with the contract of C67 | rounding cannot change the ceiling of a quotient of integers below 2^53; pieces of a polynomial recombine; loop invariants over rows and columns |
| C76 | `Verif/Ntl/Mbasis*`, `Verif/Approx/KStep`: the functions with their permutations, coefficient matrices, flags and exchanges; NTL's `kernel` and `image` with their contracts (a basis of the left kernel; an echelon form), `middle_product` and `multiply` with those of C69 and C67 | a kernel basis with distinct pivots gives one step of the basis (`KStep`); invariant over the orders: generators, pivots, degrees, storage; the residual is the next coefficient of the product; composition of two bases |
| C77 | `Verif/Ntl/Det*`: the functions with their temporaries and buffers; NTL's `determinant` on constant matrices is `Matrix.det`; `pmbasis` is the model of C76, `multiply` and `middle_product` have the contracts of C67 and C69 | Laplace expansion along the first column; uniqueness of interpolation with the degree bound of the determinant; counting roots; the annihilating rows of an approximant basis are a kernel basis, which completes into a unimodular matrix, so the determinant of the product divides the determinant |
| C78 | `Verif/Ntl/Forms*`: each function with its loops and early returns, on rows and on columns; an access outside of the matrix and the dereference of the end of an empty shift are outcomes; `gauss` is the rank; `std::sort` is a sorting function | loop invariants shared with the forms of flint-extras (C29 to C31); rank of the leading matrix and independence; induction on the number of comparisons |
| C79 | `Verif/Ntl/Appbas*`: the loop with its remaining orders and indices, the removal of columns of the residual, the second call with shift minus row degrees and the normalization by the inverse of the leading matrix; the verification with its random point as an argument | invariant: the rows generate the approximants for the orders already processed and have their pivots on the diagonal (`Verif/Approx/Orders.lean`); Popov form from the degree of the determinant (`Verif/Approx/PopovCall.lean`); verification: determinant of a reduced matrix has degree the sum of the row degrees minus that of the shift, and a matrix of approximants with monomial determinant and full rank at zero is a basis |
| C80 | `Verif/Ntl/Intbas*`: the coefficient lists of the basis, the residuals, the rescaling of rows of the evaluations, the recursion with its offset in the vectors of evaluations and points, the evaluation objects of C58 and C62, the second call and normalization for Popov forms, the verification | invariant: the rows generate the interpolants for the points already processed and have diagonal pivots (`Verif/Approx/Interp.lean`: one step, composition of two bases, degree of the determinant = sum of the ranks of the evaluations, and conversely); for the updated residuals: they are the values of the current rows up to invertible scalings of rows, which is where distinct points are needed |
| C81 | `Verif/Ntl/Kerbas*`: both via_ functions, both variants of the recursion (one model, with the computation of the basis and of the residual as a parameter instantiated by `pmbasis` and `middle_product`, or `pmbasis_geometric`, `multiply` and `div`), the merge of the two sorted sets of rows, the verification with its random projections as arguments | a basis of the approximants or interpolants contains the kernel and has diagonal pivots (C76, C80), so that its rows of low degree are a kernel basis as soon as they have all the pivots of the kernel; the degree bounds of `Verif/Kernel` (sum of the pivot degrees of a kernel basis) give that; induction on the number of columns for the recursion, with a condition on the shift returned (exact up to a constant) for one column |
| C82 | `Verif/Ntl/Popov*`: popov_mbasis1 with the test of the expected pivots, the call of `image`, the inversion of the pivot block and the permutations; the two calls of `mbasis` or `pmbasis` with the shift computed from the first, the leading matrix and its inverse; the recursion of pmbasis_2x1 with `middle_product` and `multiply` under their contracts (C67, C72); the profiling code is not modelled | the reduced echelon form of a kernel basis gives the Popov basis at order 1 (the invariant of C76); the second call computes a basis whose leading matrix is invertible, the argument of C29; composition of bases for the recursion; uniqueness by taking the pivot of the difference of two rows |
| C83 | `Verif/Ntl/Struct*`: the constructors with the stored transforms, to_dense, the products with vectors and matrices on the Karatsuba path (model of C56), the FFT path (product modulo x^(2^k) - 1) and the dense path, the in-place reversal, the loops on chunks and the periodic copy; the crossover and the bound for dense products are parameters | the Karatsuba path by the main lemma of C56, the FFT path by the absence of wrap-around in the coefficients read; the circulant products by folding a product of polynomials and induction on the chunks; loop invariants for the reversal, the copies and the columns of the result |
| C84 | `Verif/Ntl/Like*`: the four classes, with the loops which fill the arrays of the circulant and triangular factors, to_dense as a sum of products, mul_right on vectors, the functions phi, Z_lzz_p and J_lzz_p; the factors are the models of C83 | the loops which turn the index give residues modulo the dimension; one generator gives a sum whose displacement telescopes; the displacement operators are one to one by induction on a row or column index |
| C85 | `Verif/Ntl/Cauchy*`: the loop of the denominators, the common inversion (model of C64), the powers of 1/rho, the products through the Toeplitz matrix of C83, to_dense with its divisions | loop invariant for the denominators with integer exponents; the Toeplitz index n - 1 + i - j reaches the exponent j - i; the diagonal factor is rho^(-i) |
| C86 | `Verif/Ntl/Sylv*`: all functions of `sylvester_lzz_p.cpp` except `top_right_block_inverse` (C112); XGCD is a parameter with the contract that NTL documents (shown to be satisfiable), the modular operations have the errors of NTL | Chinese remaindering and a degree bound for the right systems; for the left systems, the linear form f -> <v, f mod q> is a linear recurrent sequence on X^i, whose generating series is the quotient that the code computes; the inverse by the uniqueness of the matrix with given generators (C84) |
| C87 | `Verif/Multi/*`: every function of `nmod_vec_dot_product_multi.c`; `uv` does not overlap the inputs | invariant on each column, indexed by the number of rows treated; the three-limb kernel by the block bound of C01-C03 |
| C88 | `Verif/N32/*`: every function of `nmod32_vec/*.c` except `rand.c`; a register is the function giving its 64-bit lanes | invariant: the registers hold the partial dot product as `∑ (hi 2^56 + lo)`; no lane overflows; bounds of the header for the final combination |
| C89 | `Verif/Ntl/Bivar*`: the arithmetic of `lzz_pXY.cpp` on a memory of numbered variables, each a vector with a length and entries that survive beyond it; the univariate arithmetic is that of `F[X]` | one invariant for all loops that fill a vector, which tracks the entries not yet overwritten; coefficients of a value at `Y = X^D` by blocks of length `D` for the Kronecker substitution |
| C90 | `Verif/Ntl/BivarRes*`: `resultant` of `lzz_pXY.cpp`, on top of the evaluation at points in geometric progression of C62; the random draws are an arbitrary sequence | degree of a determinant of polynomials for the Sylvester matrix, compatibility of resultants with evaluation when the leading coefficients do not vanish, and uniqueness of interpolation |
| C91 | `Verif/Ntl/FftPoints*`: all of `lzz_pX_Multipoint_FFT.cpp`; NTL's FFT is a pair of functions of which only the values at the powers of a primitive root, in one of two orders, are known | bits of the reversed increment by induction on `k`; the order found by the constructor is the true one because `w^(n/4)` is not 1; sums reindexed by the reversal |
| C92 | `Verif/Ntl/StructX*`: the six files of `structured_lzz_pX` except `sylvester_lzz_pX.cpp`, over the model of bivariate polynomials of C89; NTL's FFT products are cyclic products of length `2^K`; the degrees left uninitialised by the default constructors are arbitrary; `long` arithmetic is exact | an invariant ties the prepared transforms to the reversed data; a product of Kronecker images is cut into blocks; folded blocks are cyclic products; the Toeplitz-like formula is proved from the displacement equation, which has one solution |
| C93 | `Verif/Ntl/SylvX*`: `sylvester_lzz_pX.cpp` lines 1-361 over the models of C89 and C92; `middle_product` is a parameter with a contract; aliased calls of `mul_left` go through a copy and are not separate; `long` arithmetic is exact | a product of Kronecker images is cut into blocks; the middle product is the matching part of the product by the reversed polynomial; `to_kronecker` succeeds exactly when the step exceeds the degree of the last entry; the displacement is computed entry by entry |
| C94 | `Verif/Ntl/NewtonX*`: `sylvester_lzz_pX.cpp` lines 363-505 over the models of C86, C92 and C93; `XGCD` and `middle_product` are parameters with contracts; `long` arithmetic is exact; the precision is not negative | M G = -U and H M = V^t modulo X^k determine the inverse modulo X^k through the displacement equation; one step is a Newton step for these two systems; the block lifting keeps the solutions modulo X^(i d) and their last blocks as invariants |
| C95 | `Verif/Ntl/Linsolve*`: `mat_lzz_pX_linsolve.cpp` lines 299-502 and `mat_lzz_pX_determinant.cpp` lines 287-292 over the models of C72, C78 and C81; `HalfGCD` is a parameter with a contract that Euclid's algorithm is proved to meet; draws are arbitrary; `nb_max` is -1 or 1 | the denominators of the solutions form an ideal, whose monic generator L divides the determinant; Cramer's rule bounds the degrees; the half gcd gives L / gcd(L, sum r_j y_j) exactly; the bad draws lie in one proper subspace for each irreducible factor of L; the pivot of a combination of rows in weak Popov form is the pivot of a row |
| C96 | `Verif/Ntl/Reduce*`: `mat_lzz_pX_reduction.cpp` lines 5-64 over the models of C71, C74 and C76; what is printed is left out, and so is the matrix without rows | lifting keeps a slice of the inverse starting beyond (n-1)d, so the remainder is strictly proper (by the adjugate); rows of the approximant basis whose pivot is in the first half have degree at most d, because a weak Popov form of pmat has (C32); such rows annihilate the remainder exactly, hence are in the row space; pivots of combinations of rows in weak Popov form give the converse |
| C97 | `Verif/Ntl/Seq{Model,Spec,Theory,Lemmas,Loop,Props}.lean`: `lzz_pX_seq.cpp` lines 9-40, 67-101, 121-145, 155-222 and 237-378 for a single sequence; reads of absent keys of a map and of entries outside of a vector are undefined behaviour; `inv_mod` and `mul_mod` modulo `x^d` by their contracts | invariant of the loop over s: for every t the polynomial f_t has leading coefficient x^t, and the table holds for each place one polynomial with the smallest valuation seen there; a minimality argument in the style of Berlekamp-Massey (a polynomial of smaller degree would give a combination of the table with a place and valuation that the table excludes); division by the generators, which have leading coefficients x^t, gives the generation of the annihilator |
| C98 | `Verif/Ntl/SeqCheckModel.lean`: `lzz_pX_seq.cpp` lines 42-65, 92-119, 130-137, 147-165, 224-235 and 380-430 | the length of the product is min(0, ...) where max is meant, so that nothing is compared; for vectors the sums over windows are truncated entries; the first loop of modified_kurakin multiplies by growing powers of x until an invertible entry is first, or all entries vanish |
| C99 | `Verif/Ntl/CLike{Spec,Model,Mul,Range}.lean`: `cauchy_like_geometric_lzz_p.cpp` lines 62-169, 290-388; `mul_right_sigma_UL` (lines 176-284), which is never called, is not modelled | invariants of the loops over the generators and the columns, with the products by Cauchy matrices of C85 |
| C100 | `Verif/Ntl/CLike{Spec,Model,Raw,Block,Rec,Props,Examples}.lean`, `Verif/Ntl/SweepTheory.lean`: `cauchy_like_geometric_lzz_p.cpp` lines 22-39, 420-994; `gauss` and `inv` of NTL on small matrices by their contracts, random vectors arbitrary | `SweepTheory`: the generators after the elimination of a leading block of size k are characterised by two linear relations (`Sweep`); one step of the direct algorithm, one block step and the recombination of the divide and conquer each compose two such eliminations (`Sweep.comp`), whose correctness follows from the displacement equation; the Schur complement keeps the generic rank profile, and the generators of the inverse are read on the first k rows |
| C101 | `Verif/Ntl/CLike{Model,Props,Examples}.lean`: `cauchy_like_geometric_lzz_p.cpp` lines 1004-1043 | C100 for the leading block; the rows after the rank are combinations of the first ones, so a vector that solves the first equations solves all of them if a solution exists |
| C102 | `Verif/Ntl/Mosaic{Model,Spec,Mul}.lean`: `mosaic_hankel_lzz_p.cpp` lines 20-305 and the same functions of `mosaic_toeplitz_lzz_p.cpp`; the accessors of `structured_lzz_p.h` | invariants of the loops over the blocks, with the products by one block of C83 |
| C103 | `Verif/Ntl/Mosaic{Model,Spec,Gens,Pre,Solve}.lean`: `mosaic_hankel_lzz_p.cpp` lines 310-594 and the same functions of `mosaic_toeplitz_lzz_p.cpp`; middle product by its contract (C56) | entrywise comparison of the displacement with the product of the generators, block by block; the displacement equation multiplied by powers of the points telescopes to the Cauchy-like form (`core_identity`) |
| C104 | `Verif/Ntl/Mosaic{Model,Solve,Examples}.lean`: `mosaic_hankel_lzz_p.cpp` lines 603-631 and the same function of `mosaic_toeplitz_lzz_p.cpp` | C103 for the reduction, C101 for the Cauchy-like system, and the invertibility of the two Vandermonde matrices |
| C105 | `Verif/Ntl/Mosaic{Model,Inv,Examples}.lean`: `mosaic_hankel_lzz_p.cpp` lines 648-724 and the same function of `mosaic_toeplitz_lzz_p.cpp` | C103 and C100; the displacement equation of the inverse is obtained from that of the matrix, and the generators are transported by the Vandermonde matrices; C90 for the object that is built |
| C106 | `Verif/Ntl/OneCol{Model,Spec,Theory,Loop,Props}.lean`: `mat_lzz_pX_pmbasis_generic.cpp` lines 2403-2550; `kernel` of NTL by its contract (`KerTop`), multiply (C67), partially linearized middle product (C75) | invariant of the loop: the residuals are the coefficients of the product of the current basis by the column, and the current basis is X^d plus terms of lower degree; genericity makes the leading residual invertible. Division with remainder by such a matrix gives the basis property; genericity passes to truncations and residuals |
| C107 | `Verif/MatPoly/{Memory,MemSpec,MemTheory,MemProps}.lean`: arrays of cells that are raw or hold a matrix; `nmod_mat_init`, `nmod_mat_clear`, `flint_malloc`, `flint_realloc`, `flint_free` with undefined behaviour and loss of memory as outcomes; all functions of `nmod_mat_poly_mem.c`, `_shift.c`, `_set_from.c`, `_rand.c`, `_arith.c` and the inline functions of the header that touch the storage (not `set_mod` and the plain accessors); random matrices are arbitrary | every function maps a consistent object to a consistent object whose content is given by the function of `Verif/MatPoly/Model.lean`; induction over the sequence of calls |
| C108 | `Verif/Ntl/BlockSeq{Spec,Model,Theory,Mul,Lemmas,Props,Example}.lean`: `MulMod_local`, `gen_pows`, `mul_special`, `get_quos`, `format`, both `gen_sequence` and `gen_sequence_naive` of `mat_lzz_pX_sequence.cpp`; the transforms of NTL are exact; whether NTL uses the FFT, and its crossover, are parameters (one flag stands for both the flag of the modulus and the one of the multiplier); the inverse of a matrix by NTL has a contract; `vandermonde` is as in C67; floating point `ceil` and `sqrt` are exact | quotients by g are windows of a product of reverses (power series inverse); the window is cut into blocks and computed by two matrix products; division by x modulo g for the next rows; every position of the result is written with the right value |
| C109 | `Verif/Ntl/Recon{Spec,Model,Props}.lean`: both functions, with the functions `pmbasis` and `pmbasis_geometric` of C80; `SetDims` of NTL keeps the rows of a matrix only if the number of columns does not change | a denominator with its numerator is an interpolant with the same pivot, since the numerator has smaller degree (D column reduced); a row of the basis of small degree is a denominator, since a polynomial with too many roots is zero; the pivots of the block then show that it generates all denominators |
| C110 | `Verif/CrtMem/{Spec,Model,Theory,Objects,Tree,Props,ReduceModel,ReduceProps}.lean`: a heap of named blocks with sizes; allocation, free and each access to an array in init and clear, and in reduce, combine and CRT of the naive objects, are steps, undefined outside of a live block; the size given to `aligned_alloc` must be a multiple of the alignment | each init adds exactly the blocks that its clear frees (temporary blocks are gone), by induction over the loops; the invariant that variables own disjoint live blocks and nothing else is live is kept by every call |
| C111 | `Verif/Ntl/{BmasSpec,BmasModel,BmasProps}.lean`: the Hankel and mosaic matrices are filled by the loops of the code, entries read outside of a vector are undefined; `pmbasis` is that of C76 | loop invariants for the matrices; the rows of the approximant basis of C76 are the polynomials; division by the monic recurrence for the whole sequence; with the shift i*d an entry above the diagonal would have negative degree |
| C112 | `Verif/Ntl/{SylvBlockModel,SylvBlockProps}.lean`: the function line by line, reading `s[i]` after the end of the coefficients is undefined; `InvTruncMul` is that of C59, the object is that of C86 | the truncated series give the polynomial parts of `s X^k / b` and `t X^k / a`, whose sum is zero for k < n and the inverse of the leading coefficients for k = n; the two convolutions of the code are then the coefficients of the solution of `F a + G b = X^k`, a column of the inverse |
| C113 | `Verif/Ntl/{VillardModel,VillardProps,VillardFail,VillardWrong}.lean`: the choice of the points is the loop of C90, the blocks are those of C112, the reconstruction is C109 and the determinant C95; `cbrt` is the integer cube root | invariant of the loop over the points with C112 at each of them, the resultant specialises since the leading coefficients do not vanish; for Y + X and Y the blocks are zero, their reconstructed denominator is a unit, and the determinant of C95 is 1 |
| C50 | same loops as C35 | rank of leading submatrices as an invariant |
| C51 | checker | exact characterisation; negation by witness |
| C48 | stable sort of (value,index) pairs | sortedness and permutation |

## Trusted base

* Lean's kernel, and the axioms `propext`, `Classical.choice`, `Quot.sound`
  (the only ones any theorem depends on; no axiom is added, and neither
  `native_decide` nor `bv_decide` is used).
* The faithfulness of the hand-written model with respect to the C/C++ text. Nothing
  is extracted from the sources; every definition cites the lines it models.
* The contracts of external functions, below. Each contract is a named `def` (a
  predicate on a function parameter), stated next to its use and shown
  satisfiable by a theorem or an `example`.

### What is modelled

| directory of `lean/Verif` | code of `/repo/flint-extras/src` (unless said otherwise) |
|---|---|
| `Word` | `nmod_vec_extra/nmod_vec_integer_dot_product.c`, `nmod_vec_dot_product.c` (unbalanced dot), `nmod_vec_2dot.c`, `nmod_vec_extra.h` (limb bound, `dot2_split`), `nmod32_vec/dot_split.c`: scalar code paths, word by word |
| `Multi` | `nmod_vec_extra/nmod_vec_dot_product_multi.c` |
| `N32` | `nmod32_vec/*.c` except `rand.c`, with the AVX2, AVX512 and IFMA code |
| `NmodExtra` | `nmod_extra/nmod_extra.c`, `nmod_find_root.c` |
| `WordCrt` | `nmod_extra/nmod_multimod_CRT_{init,reduce,CRT}.c`, with and without AVX2 (one lane) |
| `Crt` | `fmpz_extra/*.c`, `fmpz_mat_extra/fmpz_mat_mul_multimod_CRT.c`, `nmod_vec_extra/nmod_vec_primes.c` |
| `MatOps` | `nmod_mat_extra/nmod_mat_rotations.c`, the permutation and compact LU functions of `nmod_mat_pluq.c` |
| `Pluq` | `nmod_mat_extra/nmod_mat_pluq.c` |
| `Nullspace` | `nmod_mat_extra/left_nullspace.c` |
| `MatMul` | `nmod_mat_extra/nmod_mat_mul_2dot.c`, `nmod_mat_mul_newdot.c`, `nmod_mat_mul_pml` |
| `MatPoly` | `nmod_mat_poly.h`, `nmod_mat_poly_extra/{arith,shift,set_from}.c` |
| `Sort` | stable sort of `nmod_poly_mat_utils.c` and of `nmod_mat_poly_mbasis.c`, sorting permutations of rows and columns |
| `Mbasis`, `Pmbasis` | `nmod_mat_poly_mbasis.c`, `nmod_poly_mat_extra/approximant_basis.c` |
| `PolyMul` | `nmod_poly_mat_extra/mul.c`, `mul_waksman.c`, `mul_vandermonde.c`, `mul_geometric.c`, `mulmid.c` |
| `Forms` | `degrees_pivots_leadingmatrix.c`, `nmod_poly_mat_is_form.c`, inline functions of `nmod_poly_mat_forms.h` |
| `WeakPopov`, `Det` | `nmod_poly_mat_weak_popov.c`, `nmod_poly_mat_det.c` |
| `Hermite` | `nmod_poly_mat_hermite.c` |
| `Kernel` | `kernel.c` |
| `Dixon` | `nmod_poly_mat_dixon.c` |
| `Unimodular`, `Verification` | `nmod_poly_mat_is_unimodular.c`, `verification.c` |
| `Rand` | `nmod_vec_rand.c`, `nmod_poly_rand.c`, `randomisation.c`, `nmod_mat_rand.c` |
| `CrtMem` | `init` and `clear` of `fmpz_extra` and of `nmod_multimod_CRT_t`, `fmpz_multimod_naive_reduce`, `fmpz_CRT_naive_combine`, `fmpz_CRT_naive_CRT`: blocks of memory and accesses to them |
| `Ntl` | `/repo/ntl-extras`: see the header of each file of `lean/Verif/Ntl` and the plan rows C56 and following |

### What is not modelled

* Vectorised code paths (AVX2, AVX512) except where a row above says so.
* Input/output and printing (`*_io.c`), Maple and Sage bindings (`mapml`,
  `sagemath_extra`), tests, profiles, timings, tuning programs, `.bak` files.
* Memory management (allocation, `clear`, leaks), except the objects of C107 and
  C110 and where a finding names it; time and space complexity; threads (the code is sequential).
* Overflow of `slong` degrees, shifts and sizes: these are mathematical
  integers. Word-level residue arithmetic, on the contrary, is exact.
* The parts of `/repo/ntl-extras` not cited by a file of `lean/Verif/Ntl`.

### External functions, represented by their specification

* FLINT: arithmetic of `nmod`, `nmod_poly`, `nmod_mat`, `nmod_poly_mat` (sums,
  products, exact division, `divrem`, evaluation) as the operations of Mathlib;
  `nmod_mat_nullspace`, `nmod_mat_inv`, `nmod_mat_lu`, `nmod_mat_rank`,
  `nmod_mat_det`, `nmod_poly_mat_det`, `nmod_poly_mat_rank`, `nmod_poly_xgcd`,
  interpolation at a geometric progression, `n_invmod`, `n_nextprime`,
  `fmpz_multi_mod_precomp`, the program of `fmpz_multi_CRT_precompute`,
  `_nmod_vec_dot`, `_nmod_vec_dot2_split`, `NMOD_RED3`, the floating-point
  primitives of `machine_vectors.h`, `_perm_randtest`, `n_randint` (arbitrary).
* Compiler intrinsics for AVX2, AVX512 and IFMA (loads, masked loads, `mul_epu32`,
  `add_epi64`, shuffles, shifts, `madd52lo/hi`, `reduce_add`): lane by lane, after the
  Intel documentation (`Verif/N32/Model.lean`).
* C library: `qsort`.
* NTL: arithmetic of `zz_p`, `zz_pX` and `mat_zz_p`; `fftRep` (the residue of a
  polynomial modulo `X^(2^k) - 1`; for matrices, its values at distinct roots of
  unity, structure `FFTOk`), `FFTRoundUp`, `inv` of `mat_zz_p` (structure `InvOk`),
  `InvTrunc`, `InvMod`, `XGCD`, `HalfGCD` (structure `HgcdOK`), `MulMod` with `zz_pXModulus` and `zz_pXMultiplier`,
  `UpdateMap`, `MulTrunc`, `Vec::SetLength` (error for a negative length, entries kept), `resultant`,
  `Vec::swap` (error when only one length is fixed), tables of
  thresholds (arbitrary).

## Findings

Places where the code as it stands does not satisfy a property as stated, or
where the documentation is inaccurate. "Proved" means that a theorem of the
model exhibits the failure.

* **C04, C08, C11, C14, C17, C20**: see the theorems listed in `MANIFEST.json` for
  these properties (proved).
* **C10/C11/C14** `nmod_mat_rotate_columns_leftward` (line 126),
  `nmod_mat_permute_columns` composes the stored permutation on the number of
  rows (line 147), the FLINT >= 3.3 branch of `l_u_from_compactlu_zeroin` writes
  rows of U in L (line 74), `l_u_from_compactlu` misses row 0 of L (proved).
* **C17** `nmod_mat_poly_shift_left` with distinct arguments passes `length - n`
  (proved). **C20** `nmod_mat_poly_is_constant` tests `length == 0`;
  `nmod_mat_poly_one` on an empty matrix is not normalised (proved).
* **C21** `mbasis` with order 0 and a nonzero input reads beyond the input.
* **C24, C25, C28** Waksman and Vandermonde products are wrong when the output
  is also an input; the second Vandermonde variant aborts modulo 2 (proved).
* **C30, C31, C32** the sentinel for a zero vector in
  `_nmod_poly_vec_pivot_profile` is wrong for the orientations ROW_UPPER and
  COL_LOWER with a shift, which leads `weak_popov` out of bounds; `is_popov`
  for ROW_UPPER and `is_form` for HERMITE are wrong (proved).
* **C35** `uref_matrixgcd_iter`: the sign of the determinant is not negated for a
  row swap on a missed pivot, `pivind[rank]` may be overwritten (proved).
* **C36** `hnf_ur_revlex_xgcd_delayed_zero`: rows below a pivot found in the last
  column are never processed (proved).
* **C37** `kernel.h` asks for `nullity` rows in `ker`, but an m x m matrix is
  written in it.
* **C39** `dixon` with order 0 never ends (proved).
* **C40** `is_unimodular_randomized` takes both determinants at the first
  point (proved). **C41** only the degree of the determinant is tested (proved).
  **C51** generation is not tested (proved).
* **C45** with 4 primes outside the AVX2 branch the top limb is ignored, for
  every odd modulus (proved).
* **C46** the 2dot product is wrong beyond a bound on the inner dimension
  (proved); the test `n < (1L < 29)` of `nmod_mat_mul_pml` is a typo, harmless.
* **C47** `rand_popov` reads an uninitialised entry whose value is not used.
* **C56** `middle_product` delays reductions when sums of KARX products fit, but
  forms sums of dA + 1 products: signed overflow for some primes and sizes
  (proved).
* **C57** the subproduct tree of an empty vector never ends (proved).
* **C58** `zz_pX_Multipoint_General::t_evaluate` ignores `output_size`.
* **C60** `shift` of the zero polynomial in odd characteristic writes in an empty
  vector (proved). **C61** `add_LeftShift` returns a polynomial that is not
  normalised when b = 0 and deg a < k - 1 (proved); header and source disagree
  on whether c may be b.
* **C62** with one point `get_point(0)` is s*r instead of s, and `get_q`, `get_s` return 1
  (proved); `interpolate` and `t_evaluate` empty their output first, so the comment
  "val may alias f.rep" is wrong (proved); the constructor with d = 0 writes `x[0]` of
  an empty vector.
* **C63** with strong = false, `element_of_order` accepts zero and other non-units.
* **C65** `truncRow` and `truncCol` with a separate output leave its other rows or
  columns as they were (proved). `conv(Vec<Mat<zz_p>>, Mat<zz_pX>)` reads
  coefficients beyond the degree of an entry when degrees differ (proved).
  `IsConstant` is true on the zero matrix, although documented as "degree 0".
* **C66** `mul(a, a, a[0][0])` uses the scalar after overwriting it, on matrices and on vectors (proved).
* **C67** the row vector version of `multiply` ends with `c.swap(cmat[0])`, an error of
  NTL unless `c` has a fixed length (proved); `multiply_evaluate_geometric` gives
  a zero product the number of columns of `a` (proved); `multiply_transform_naive`
  of two zero matrices is 0 x 0 (proved); `multiply_evaluate_FFT_matmul3` uses an
  unallocated array when `a` has one column (proved); `multiply` drops `is_prime`
  when the output is aliased (proved); `multiply_naive` with no columns reads
  outside of the matrix (proved); Waksman needs 1/2 (proved): not available for an
  even composite modulus; `multiply_evaluate_dense` with a zero operand writes
  outside of its arrays.
* **C69** `middle_product_3_primes` counts `min(dA, dB) + 1` products per coefficient
  where `dA + 1` are added: for dA > dB too few primes may be used and the result
  is wrong, e.g. 30-bit p, n = 1, dA = 1, dB = 0 (proved). `middle_product` of a zero
  matrix calls itself with dA = -1, which the methods other than the naive one do
  not support (proved). It does not truncate a, nor does it reject larger degrees:
  the FFT then wraps around (proved); the methods document these bounds, the
  general function does not. `middle_product_evaluate_FFT_matmul3` has the defect
  of C67 with one column (proved); no column: reads outside of the matrix (proved).
* **C70** `mat_lzz_pX_lmultiplier_dense::multiply` has no test on the degree of `b`, unlike
  the other classes: a coefficient of degree more than `dB` is written out of bounds
  (proved). `get_lmultiplier` of a zero matrix, unless the prime is an FFT prime, builds
  a Vandermonde matrix with dA = -1 and writes out of bounds (proved). When p is at
  most deg a + dB <= 150 + dB the dense class is chosen without looking at p, and an
  error is raised for lack of points (proved).
* **C71** `newton_inv_trunc_FFT` and `newton_inv_trunc_geometric` lengthen the entries of
  `x` with `rep.SetLength(2k)` and write only the coefficients from `k` on. When `a` is
  a constant matrix, the naive algorithm called first has only written one coefficient:
  the coefficients 1 to thresh - 1 that are returned are those of the previous value
  of `x` (proved, with a wrong result for `a = [1]` and any `x` that has had a non-zero
  coefficient of degree 1).
* **C71** `newton_inv_trunc_geometric` compares the matrices `x` and `a`, not their
  addresses, and calls itself without passing `thresh`; for 0 x 0 matrices it calls
  itself forever (proved). With `thresh = 1` it evaluates polynomials of degree 1 with
  an object of length 1, which is an error (proved). `thresh = 0` loops forever for the
  geometric and middle product versions (proved).
* **C71** `inv_trunc` checks that the prime supports a transform of length
  `NextPowerOfTwo(m + 2)`: this is enough when the threshold is a power of two, as in
  the tables, and not in general (proved).
* **C72** `solve_series_low_precision` calls `middle_product` on the transpose of the
  solution modulo X^(prec/2). When this is zero (the low half of `b` is zero),
  `middle_product` accesses coefficients of index -1 (see C69): the call fails although
  the system has a solution (proved).
* **C72** `add_LeftShift(u, u, sol, shift)` leaves leading zeros when `sol` is zero
  (C61), and `trunc(u, u, prec)` of NTL does not remove them: `solve_series_high_precision`
  called on `[1]`, `[1]` and precision 3 returns the polynomial 1 with two coefficients,
  of degree 1 for NTL, different from 1 for `==` (proved).
* **C73** `quo_rem(Q, A, A, B)` stores the reversed quotient in `R` before `A` is used to
  compute the remainder: dividing `X` by 1 gives the remainder `1 - X`. `quo_rem(B, R, A, B)`
  gives `X - X^2` (both proved). The header does not exclude these calls.
* **C73** `quo_rem` reads `rdegA[0]` and `rdegB[0]` of vectors of length 0 when the matrices
  have no row (proved).
* **C74** `solve_series_high_order_lifting` calls `middle_product` on zero matrices, on which it
  fails (C69), when `b` is zero, and when the inverse of `A` is a polynomial matrix (for example
  for every unimodular `A` with an inverse of the same degree, as soon as `prec > 4 deg(A)`);
  both proved. It divides by zero when `b` has no column (proved).
* **C75** `column_partial_linearization` sets the length of the last piece of each entry to
  `deg(pmat[i][j]) - reached_deg + 1`, which is negative when the entry is short compared to its
  target degree: NTL then reports an error. So `right_parlin_multiply` fails on matrices with
  columns of entries of various degrees, and `right_parlin_middle_product` as soon as an entry
  of `b` is zero and `deg(a) < dA` (proved).
* **C75** `right_parlin_multiply(c, a, b, ...)` adds the product to what the entries of `c` store
  (`SetLength` and `+=`, without clearing): a wrong result when `c` is reused (proved).
* **C75** `column_partial_linearization_cdeg` on a matrix whose last column is zero gives this
  column no place, and then accesses it (proved).
* **C76** `mbasis_rescomp` (hence `mbasis` and `pmbasis`, for matrices with few columns) reads
  `coeffs_pmat[0]` of an empty vector when the order is 0 (proved).
* **C76** `mbasis_rescomp` and `mbasis_resupdate` build vectors of length `m-1`: for a matrix
  without rows, an error, while `mbasis_plain` returns the empty basis (proved).
* **C76** entries of `p_pivind` left by an earlier iteration take part in the search for
  collisions: useless echelonizations, but still correct results (covered by the theorems).
* **C76** for an even order `pmbasis` calls `middle_product` with a `dB` that may be smaller than
  the degree of its first argument. This is outside the range where `C69_three_primes_partial`
  is proved; `C69_fft` covers it.
* **C77** `determinant_generic_knowing_degree`: the header says that with the right degree `true`
  is returned if and only if `det` is the determinant up to a constant. Only the degree is
  checked: for a 5x5 matrix of determinant `(X+1)^2`, it returns `true` with `c*X^2` (proved,
  over every field and for every kernel basis NTL may return).
* **C77** the same function, when the left half of the columns is zero, calls `pmbasis` with an
  order that is not positive: out of bounds read or error (proved).
* **C77** `determinant_expansion_by_minors` leaves `det` unchanged when the dimension is 0 or at
  least 5, without any error (proved).
* **C77** `verify_determinant` with `up_to_constant` accepts `det = 0` for every matrix (proved).
* **C77** `determinant_via_evaluation_general` on the zero matrix: error, or endless loop for the
  dimension 1 (proved).
* **C78** `is_col_popov` (both versions): the last loop over the columns stops at `NumRows()`.
  With more rows than columns the function never returns true, and reads outside of the matrix
  on every matrix in column Popov form; so does `get_col_polmatform` (proved).
* **C78** with an empty shift (matrices without columns or rows) all shifted functions, and
  `amplitude`, dereference the end of the shift; the functions without shift are defined
  (proved).
* **C79** `approximant_basis`: its default argument for the shift is the empty vector, which
  is then read and written out of bounds (proved on a 1 x 1 matrix).
* **C79** `is_approximant_basis`: with its default argument `randomized = false` it always
  throws; `approximant_basis` for column-wise bases always throws (proved).
* **C79** `appbas_iterative` handles an order 0 as an order 1: for the matrix [1] and the order 0
  it returns [X] (proved; the documentation asks for positive orders).
* **C79** `popov_appbas_iterative` dereferences the end of a vector on a matrix without rows
  (proved).
* **C80** `is_interpolant_basis_geometric` throws as soon as an entry of the candidate has degree at
  least `order`, as its evaluation object is built for exactly `order` points: for instance on the
  basis [X - 1] for [1] at the point 1 (proved; general statement proved too).
* **C80** `is_interpolant_basis` accepts matrices which are not square, and with the form NONE it
  accepts singular matrices: a zero row counts for -1 in the sum of the row degrees (proved).
* **C80** With `randomized = true` both verifications always throw (proved).
* **C80** `pmbasis`, `popov_pmbasis`, `is_interpolant_basis` on a polynomial matrix do not end for an
  empty vector of points; evaluations without rows end in an error (proved).
* **C80** The verification sums the row degrees and the shift with `std::accumulate(..., 0)`, that is in
  `int`; the model uses unbounded integers.
* **C81** `kernel_basis` and `kernel_basis_zls_via_approximation` may return too few rows: on two
  identity matrices of size 3 one above the other, with the shift (0,0,0,0,0,30), the early exit
  `sum of the pivot degrees = sum of the row degrees` is taken with two rows of degree 0 and the
  third kernel vector is lost (proved, over every field).
* **C81** `kernel_basis_zls_via_approximation` does not return the shifted row degrees: the early exits
  forget to add `diff_shift`.  On a column of two ones with the shift (5,5) it returns 0 instead of 5
  (proved).
* **C81** `kernel_basis_zls_via_interpolation` throws when the order is at most the degree of the matrix,
  as `pmbasis_geometric` evaluates it with an object for `order` points: for instance a 6 x 3 matrix with
  row degrees (0,0,0,0,0,30), given as shift (proved).
* **C81** `is_kernel_basis` accepts a matrix without rows for every input, as it does not test generation
  (proved; a comment in the code says that the test is not implemented).
* **C82** `popov_mbasis1` returns NTL's kernel basis of a zero matrix as it is, and expects it to be the
  identity; it also expects the identity in the last columns when the pivots are there.  The first is a
  property of NTL's implementation and not of its documentation: with another basis the result is not
  in Popov form (proved).
* **C82** `popov_mbasis` and `popov_pmbasis` have undefined behaviour for order 0 when there are few columns
  (from C76; proved).
* **C82** `pmbasis_2x1` does not terminate for a threshold which is not positive (proved).
* **C83** `toeplitz_lzz_p` and `hankel_lzz_p` products add up products of representatives without reduction on the
  Karatsuba path, as `middle_product` does (C56): one row and 513 columns modulo 2^27 overflow (proved).
* **C83** `lower_triangular_toeplitz_lzz_p::to_dense` does not write the entries above the diagonal: entries of the
  output before the call stay there (proved).
* **C83** The products of `lower_triangular_toeplitz_lzz_p` and `circulant_column_lzz_p` with matrices, and `mul_left` of
  `circulant_row_lzz_p` with a matrix, have no body: the output is unchanged (proved).
* **C83** `circulant_column_lzz_p::mul_left` allocates as many coefficients as there are columns and writes as many as there
  are rows: it writes beyond the array when there are fewer columns than rows (proved).
* **C83** Circulant matrices: the constructors read the first or last entry of an empty vector; the product by a vector without
  entries reads before it (proved).
* **C83** The products of a `toeplitz_lzz_p` or `hankel_lzz_p` made by the constructor without argument ask for a vector of
  length -1 (proved to be an error).
* **C84** `to_dense` of the four classes adds to its output without clearing it: a matrix with the right number of columns and
  other contents gives a wrong result (proved).
* **C84** `mul_left` on vectors, and `mul_left` and `mul_right` on matrices, have an empty body in the four classes (proved).
* **C84** The constructors do not test that U and V have as many columns: columns of V are read out of bounds (proved).
* **C84** Without rows, the constructors of the classes plus divide by zero; without columns, their `mul_right` reads before an array; the
  classes minus are unusable without rows or without columns (proved).
* **C84** `hankel_like_plus_lzz_p::mul_right` does not test the length of the vector: a shorter one is read out of bounds, a longer one
  is accepted (proved).
* **C84** The functions `phi` write out of bounds for a matrix without rows or columns (proved).
* **C85** `cauchy_geometric_lzz_p::mul_left` multiplies as many entries as there are rows before the size of the input is tested: a
  shorter vector, or a matrix with fewer columns, is accessed out of bounds (proved).
* **C85** With columns and no row, the constructor writes `powers_irho[0]` of an empty vector; without rows and columns, the product
  with the empty vector is an error (proved).
* **C86** When one of the polynomials is a nonzero constant, the Sylvester matrix is triangular and invertible, but `prepare_inverse`,
  `solve`, `solve_transpose` and `inv` end in an error of NTL (modulus of degree 0), and `phi_plus_generators` writes `H[-1]` when it is
  the second one (proved).
* **C86** `sylvester_lzz_p::solve` and `solve_transpose` on vectors do not test the length of the input and read outside of a shorter one;
  `solve` on a matrix without column returns 1 even for a singular matrix (proved).
* **C87** `_nmod_vec_dot_product_multi_2_split26` has the lost carry of C04 in every column (proved with a 2 x 1 matrix of 39-bit entries;
  the header announces about 52 bits).
* **C88** `_nmod32_vec_dot_ifma_avx2/avx512` (marked unfinished) ignore the last `len mod 32` terms although the header speaks of multiples
  of 16, and overflow for multiples of 32 above 4096 (proved with `len = 4128`, `n = 1515531527`, all entries `n - 1`).
* **C88** `_nmod32_vec_mdot_msolve_native_avx2` does not terminate with `2^32` rows or more (32-bit row index).
* **C89** `shift_y(b, a, i)` has no `return` after its treatment of `&b == &a` (lzz_pXY.cpp:355-358): it goes on with the polynomial that is
  already shifted.  For `i > 0` the call always sets `a` to zero (proved); for `i < 0` it reads entries beyond the length it has just set
  (proved for a degree of at least `2|i|` in `Y`), which shifts twice in practice.
* **C89** `shift_y(b, a, -i)` ends in an error (negative length) when `i` is larger than the degree in `Y` plus one, in particular for every
  negative shift of the zero polynomial, although the quotient is zero (proved).
* **C89** `random_zz_pXY` does not normalise: with zero draws the result has a zero leading coefficient, `is_zero()` is false on the zero
  polynomial, and `mul` then writes out of bounds, for example in the product with the constant 1 (proved).
* **C89** `to_kronecker(out, a, stepX)` is documented as `a(X, X^(stepX+1))` without condition; it writes out of bounds when the last coefficient
  has a degree above `stepX`, and silently overwrites the high coefficients of another one (proved).
* **C90** `resultant(res, f, g)` is documented to return 0 on failure.  It ends in an NTL error instead when `a0 = 0` or `b0 = 0` is drawn or
  `a0` squared has a small order (proved); over a field with an odd number of elements, at most `2(2nd+2)`, it never returns 1 (proved).
* **C90** `resultant` reads `rep[-1]` when one of the polynomials is zero (proved: it never returns).
* **C90** The loop of `resultant` makes five attempts, but `if (nb == 5) return 0` discards the fifth even when it succeeds (proved).
* **C91** `zz_pX_Multipoint_FFT(1)` (and `get_FFT_points(1)`) evaluates `1L << (k-1)` with `k = 0` in `RevInc`, which is undefined (proved), and reads
  the table of length 1 at index 1 (lzz_pX_Multipoint_FFT.cpp:73).
* **C91** `t_evaluate(f, val, output_size)` of FFT points reads the table beyond its end when `output_size` exceeds the number of points (proved).
* **C92** `to_dense(Mat&)` of a lower triangular Toeplitz matrix does not write the zeros above the diagonal, and `to_dense(Mat&)` of a Toeplitz-like matrix
  adds to the output: both give a wrong matrix when the output already has the right number of columns and holds something else (proved).
* **C92** `circulant_row_lzz_pX(input, nrows)` reads `input[-1]` for an empty vector (proved).
* **C92** a Toeplitz-like matrix without rows refuses every product by a non-empty vector, and one without columns reads outside a vector (proved); the
  constructor reads outside the second generator when it has fewer columns than the first one (proved).
* **C93** the products by a Sylvester matrix over `K[X]` use the step `deg(A) + deg(F) + 1` where `deg(0) = -1`: when a part of the input is zero and the
  leading coefficient of `A` (or `B`) has full degree in `X`, `to_kronecker` writes one block too far (proved); this happens for all unit vectors when
  `A` and `B` do not depend on `X`. The truncated products never succeed for `s = 0` (proved).
* **C93** `phi_plus_generators` writes `H[-1]` when `B` has degree 0 in `Y` (proved), although the comment of line 359 cares for degree 0 of `A`.
* **C94** `newton_inv_trunc` inverts the Sylvester matrix of `A(0, Y)` and `B(0, Y)`: if a degree in `Y` drops at `x = 0` that matrix is smaller than the
  value at `x = 0` of the matrix to invert, which may still be invertible. The call then ends with a dimension error for `m >= 2`, and returns a
  matrix of the wrong dimension for `m <= 1` (proved; witness `A = 1 + Y + X Y^2`, `B = Y`).
* **C94** for `m = 0` `newton_inv_trunc` returns the inverse modulo `X`, as for `m = 1` (proved); `high_precision_inv_trunc` returns generators equal to 0.
* **C95** `linsolve_via_series` takes the random coefficients without checking them: if they are zero, or if the combination shares a factor with the
  denominator, the denominator returned is too small and `A u = den b` is false, without any sign of it (proved; the number of such draws is bounded).
* **C95** the header says that `u` may alias `b`. For a constant matrix the entries of `b` are overwritten while they are needed: the matrix that exchanges
  two entries sends `(1, 0)` to `(0, 0)` (proved).
* **C95** `determinant_via_linsolve` returns a monic divisor of the determinant; for `diag(1+X, 1+X)` no draw gives the determinant, even up to a constant (proved).
* **C95** `linsolve_via_kernel` returns 0 for some invertible matrices, contrary to the comment at lines 462-467: the matrix with rows `(1, X)`, `(0, 1)` and
  `b = (0, 1)` (proved).
* **C95** `linsolve_via_series` divides by zero for a matrix without rows (proved).
* **C96** `reduced_form_gjv` has undefined behaviour for every invertible constant matrix: `pmbasis` is called at order 0 and reads the first entry of an empty
  vector; the documentation says that the computation succeeds whenever `pmat(0)` is invertible (proved).
* **C96** `reduced_form_gjv` fails on unimodular matrices of degree `d` with `(n-2) d >= 2` whose inverse has degree at most `d+1`, when `middle_product` fails on
  zero matrices (proved; see C69).
* **C96** `reduced_form_gjv` prints dimensions and timings on the standard output, and computes a first truncated inverse that is not used (seen, not modelled).
* **C97** `kurakin` may return polynomials of degree `S.length() - 1` in `y` that do not cancel `S`: for the sequence `1` and `d = 1` it returns `1` (proved). The
  length of `S` has to be twice the degree of a recurrence, which is not documented.
* **C98** `check_cancel` for a sequence of polynomials returns `true` for all polynomials of degree at most `S.length()` in `y`, because the length of the product is
  computed as `min(0, ...)` in `mul` and `mulTrunc` (proved). It is the only check of `kurakin` in the tests. With a larger degree an error is raised (proved). The
  same holds for sequences of vectors with `d = -1`, the default (proved).
* **C98** `check_cancel` for a sequence of empty vectors returns `false` (proved).
* **C98** `modified_kurakin` reads outside of a vector for every sequence without an invertible entry, in particular for the zero sequence, and writes outside of a
  vector for `d = 0` (proved).
* **C98** `kurakin` for a sequence of vectors only does two steps of reduction per term, because of a leftover counter (seen, not modelled).
* **C99** both branches of `mul_right` on matrices call `mul_right_direct`; `mul_right_sigma_UL` is never called (seen, not modelled). The products do not test
  the size of their operand; a shorter one is read out of bounds (`C99_short_operand`).
* **C100** `invert_leading_principal_minor_grp` ignores its argument `thresh`: it is overwritten by 200 (line 973).
* **C100** With at least `thresh_alpha` generators, the leading minors inside of a block are not checked: for the matrix of rows (0, 1) and (1, 0) with `thresh_alpha = 2`
  the function returns 1, although the matrix does not have generic rank profile (proved; the inverse returned is right).
* **C100** From size 200, the rank is only checked with one random vector: if it is zero, a matrix of rank 1 is taken for a matrix of rank 0 (proved).
* **C100** If two of the first points of the rows (or of the columns) are equal, in particular for u = 0, the constructor succeeds but the function stops with an error
  (proved).
* **C100** Without generator, and with `thresh_alpha` at most 0 other than -1, the function does not end (proved).
* **C101** `solve_grp` stops with an error for the zero matrix, because it multiplies a vector by a Cauchy-like matrix without row (proved).
* **C102** The constructors read outside of the array for an array without row, or with an empty row of blocks (proved).
* **C103** If `element_of_order` gives 0, the reduction stops with an error (division by zero); `find_c` does not end if no random element is suitable (part of
  C103_reduction). If p / 10 is less than a dimension, `solve` and `inv` return 0 for every matrix (C104_small_field).
* **C104** `solve` does not check that the diagonal entries it draws are not zero: if they are, it can return 1 and a vector that is not a solution (proved).
* **C104** If the system has no solution, `solve` does not return 0: it reads outside of the empty vector of `solve_grp` (proved).
* **C104** A right-hand side that is too short is not rejected; `solve` reads outside of it (proved).
* **C106** `mbasis_generic_onecolumn` reads out of bounds if an entry of the column has fewer than n (order / n) coefficients, even if the column is generic (proved).
* **C106** At an order that is not a multiple of n the result is a basis at a smaller order; if order < n it is the identity (proved).
* **C106** `pmbasis_generic_onecolumn` halves the order without rounding to a multiple of n: at order 17 n, n >= 2, it never returns a basis for a generic column (proved).
* **C108** `MulMod_local` sets the upper product to 0 when NTL does not use the FFT ("todo: do this case"). `gen_sequence` then accesses memory outside of an array if this happens
  for all powers, in particular for small moduli (C108_small_fails), and gives wrong matrices if it happens for one of them (proved for every crossover from 1 on, C108_crossover_wrong).
* **C108** For deg(g) <= 2 m the remainder in the computation of the padding of `get_quos` is negative or zero, the padding covers the whole block and there is never a result (proved).
* **C109** `matrix_recon_interpolation` does not compare the number of points and of matrices: with more points than matrices it reads behind the end of the sequence
  (C109_more_points_undefined). For matrices that are not square, `SetDims(2*m, m)` discards their entries, and the result does not depend on them (C109_rectangular_lost).
  Both functions leave the argument `seq` changed.
* **C110** `nmod_multimod_CRT_init(C, p, 0)` means 4 primes, but the 4 is only given to the local variable: `C->num_primes` stays 0 and `nmod_multimod_CRT_clear` does not free
  the table (C110_default_leak, large modulus or no AVX2). `fmpz_multimod_CRT_init` with no moduli divides by zero (C110_no_moduli_undefined).
  `fmpz_CRT_naive_init` allocates `primes` but never writes it.
* **C111** `berlekamp_massey_pmbasis` and `berlekamp_massey_pmbasis_hnf` read `S[0]` of an empty sequence of vectors (C111_empty_undefined); with `d = 0` and at most three polynomials
  `pmbasis` reads an empty vector (C111_order_zero_undefined).
* **C112** `top_right_block_inverse` reads `s[dB-1-i]` and `t[dA-1-i]` of the polynomials given by XGCD, which may have fewer coefficients (C112_block_partial, second part): for
  `a = X^2` and `b = X^2 + 1` (C112_undefined) the call is undefined although the matrix is invertible. `coeff(s, dB-1-i)` would do.
* **C113** `resultant_villard` returns 1 with `res = 1` for `f = Y + X` and `g = Y`, whose resultant is `X` up to sign (C113_wrong, C113_wrong_result): the block of the inverse has to be
  generic, which is not checked. Both functions compute the block size `m = cbrt(...)` and divide by it: zero when both polynomials are constant in `Y`, for
  `resultant_villard_tdeg` already when the degrees in `Y` add up to 1 (C113_division_by_zero). They inherit the undefined reads of C112.
