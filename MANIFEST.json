{
 "claims": [
  {
   "property": "C01",
   "status": "proved",
   "theorems": [
    "Latte.Rational.c01_exact_arithmetic",
    "Latte.Rational.c01_myGCD_correct"
   ],
   "note": ""
  },
  {
   "property": "C02",
   "status": "proved",
   "theorems": [
    "Latte.Rational.c02_equality_decides",
    "Latte.Rational.c02_equality_int"
   ],
   "note": ""
  },
  {
   "property": "C03",
   "status": "proved",
   "theorems": [
    "Latte.Rational.c03_print_read",
    "Latte.Rational.c03_print_ofString"
   ],
   "note": ""
  },
  {
   "property": "C04",
   "status": "partial",
   "theorems": [
    "Latte.Rational.c04_zero_denominator_silently_accepted",
    "Latte.Rational.c04_division_by_zero_silent",
    "Latte.Rational.c04_division_by_rational_zero_silent",
    "Latte.Rational.c04_add_zero_denominator_stopped_partial"
   ],
   "note": "The code violates the property; the negation is proved for every numerator, and the part that holds (assertions in add/power)."
  },
  {
   "property": "C05",
   "status": "partial",
   "theorems": [
    "Latte.Rational.c05_division_by_copy",
    "Latte.Rational.c05_self_division_aliasing"
   ],
   "note": "Holds for unaliased arguments; the aliased call returns 1/denominator (proved)."
  },
  {
   "property": "C09",
   "status": "proved",
   "theorems": [
    "Latte.Heap.c09_heap_refines_bag",
    "Latte.Heap.c09_heap_no_spurious_failure"
   ],
   "note": "double weights with NaN are excluded by the strict-weak-order hypothesis."
  },
  {
   "property": "C06",
   "status": "proved",
   "theorems": [
    "Latte.RatVec.c06_scale_exact",
    "Latte.RatVec.c06_update_effect",
    "Latte.RatVec.c06_scale_minimal",
    "Latte.RatVec.c06_normalize"
   ],
   "note": "Positivity and minimality of the scale hold for entries in lowest terms and a scale not pre-set by the integer constructor."
  },
  {
   "property": "C07",
   "status": "proved",
   "theorems": [
    "Latte.RatVec.c07_constructRay"
   ],
   "note": "Also shows the division by zero for coinciding points."
  },
  {
   "property": "C08",
   "status": "partial",
   "theorems": [
    "Latte.Lists.c08_member_with_dimension",
    "Latte.Lists.c08_member_two_args_is_all",
    "Latte.Lists.c08_member_two_args_violated",
    "Latte.Lists.c08_isEqual_not_reflexive",
    "Latte.Lists.c08_isEqual_partial"
   ],
   "note": "The three-argument test is exact; the two-argument test and list equality violate the property for all lists with two distinct elements (proved)."
  },
  {
   "property": "C11",
   "status": "partial",
   "theorems": [
    "Latte.Shell.c11_quote_partial",
    "Latte.Shell.c11_empty_name_lost",
    "Latte.Shell.c11_single_quote_violated",
    "Latte.Shell.c11_injection"
   ],
   "note": "Exact for all non-empty names without a single quote; the violation is proved for every name with one and for the empty name."
  },
  {
   "property": "C10",
   "status": "partial",
   "theorems": [
    "Latte.Interp.c10_interpolation_exact",
    "Latte.Interp.c10_evaluate",
    "Latte.Interp.c10_degenerate_points_partial"
   ],
   "note": "Exactness proved in full; for degenerate points the code reads outside the matrix (proved), so the 'never a wrong answer' clause is violated."
  },
  {
   "property": "C12",
   "status": "proved",
   "theorems": [
    "Latte.Enum.c12_box_enumeration"
   ],
   "note": "Dimension zero (never used) excluded."
  },
  {
   "property": "C28",
   "status": "proved",
   "theorems": [
    "Latte.Knapsack.c28_bernoulli_table"
   ],
   "note": ""
  },
  {
   "property": "C29",
   "status": "proved",
   "theorems": [
    "Latte.Knapsack.c29_mobius_weights",
    "Latte.Knapsack.c29_mobius_requires_one",
    "Latte.Knapsack.c29_insertGCD"
   ],
   "note": ""
  },
  {
   "property": "C31",
   "status": "proved",
   "theorems": [
    "Latte.Knapsack.c31_binomial_exact",
    "Latte.Knapsack.c31_binomial_diverges"
   ],
   "note": ""
  },
  {
   "property": "C30",
   "status": "proved",
   "theorems": [
    "Latte.Knapsack.c30_findGCDs",
    "Latte.Knapsack.c30_entire_list",
    "Latte.Knapsack.c30_subsets_size"
   ],
   "note": "The subset method needs the documented assumption that the gcd of the whole list is one."
  },
  {
   "property": "C27",
   "status": "proved",
   "theorems": [
    "Latte.Residue.c27_power_exact",
    "Latte.Residue.c27_power_out_of_bounds",
    "Latte.Residue.c27_power_negative",
    "Latte.Residue.c27_choose_exact",
    "Latte.Residue.c27_choose_negative"
   ],
   "note": ""
  },
  {
   "property": "C26",
   "status": "proved",
   "theorems": [
    "Latte.Residue.c26_integrateLinFormSum",
    "Latte.Residue.resSum_eq_hsum",
    "Latte.Residue.computeResidue_spec",
    "Latte.Residue.c26_constant_form_dropped"
   ],
   "note": "Dimension below 1000 (size of a fixed array), m+d < 2^20 (array of Power_ZZ); the constant form with all values zero is excluded and shown to be dropped. Univariate tries are coefficient lists (C21-C23)."
  },
  {
   "property": "C15",
   "status": "proved",
   "theorems": [
    "Verif.Barvinok.facets_correct",
    "Verif.Barvinok.facets_singular",
    "Verif.Barvinok.dualize_correct"
   ],
   "note": "All dimensions, all non-singular integer ray matrices. NTL determinant/inv are Matrix.det/adjugate."
  },
  {
   "property": "C16",
   "status": "proved",
   "theorems": [
    "Verif.Barvinok.step_exact"
   ],
   "note": "For every NTL behaviour within the documented contracts of LLL, image and LatticeSolve; includes CheckOmega and ComputeOmega (the vector is proved non-zero with a positive coefficient)."
  },
  {
   "property": "C17",
   "status": "proved",
   "theorems": [
    "Verif.Barvinok.dfs_terminates_bounded",
    "Verif.Barvinok.dfs_unimodular"
   ],
   "note": "Termination is by strict decrease of the determinant, which the code asserts; a failed assertion is the outcome 'abort'. Depth bound proved."
  },
  {
   "property": "C18",
   "status": "proved",
   "theorems": [
    "Verif.Barvinok.dfs_exact_primal",
    "Verif.Barvinok.dfs_exact_dual",
    "Verif.Barvinok.dfs_lattice_exact",
    "Verif.Barvinok.single_exact_allPrimal",
    "Verif.Barvinok.single_exact_irrationalPrimal",
    "Verif.Barvinok.decomposition_exact_allPrimal",
    "Verif.Barvinok.dfs_exact_dual_lines"
   ],
   "note": "Exact at every point off the facet hyperplanes of input and delivered cones (not of intermediate ones); in primal mode exact at every lattice point. Triangulation itself is an input."
  },
  {
   "property": "C14",
   "status": "partial",
   "theorems": [
    "Verif.Smith.c14_steps",
    "Verif.Smith.c14_diagonalize_factorization",
    "Verif.Smith.c14_diagonalize_triangular",
    "Verif.Smith.c14_smith_partial",
    "Verif.Smith.c14_cosets",
    "Verif.Smith.c14_not_diagonal",
    "Verif.Smith.c14_not_factorization"
   ],
   "note": "Elimination and diagonalization: relation L*M*R=A and termination proved for every matrix. The final result of SmithNormalFormIlio violates the property (not diagonal, not L*M*R: witness); the contract the callers use (divisor chain, column divisibility, product, cosets) is proved for every non-singular matrix."
  },
  {
   "property": "C13",
   "status": "proved",
   "theorems": [
    "Verif.Piped.c13_points_exact",
    "Verif.Piped.c13_scalar_products",
    "Verif.Piped.c13_applies",
    "Verif.Piped.c13_applies_delivered",
    "Verif.Piped.c13_too_large"
   ],
   "note": "Any dimension, any non-singular rays with the facet data of C15, any rational vertex, index within INT_MAX (the code aborts beyond it). Uses the Smith form of C14 and the enumerator of C12; all cones delivered by the decomposition (primal and dual mode) meet the hypotheses."
  },
  {
   "property": "C19",
   "status": "proved",
   "theorems": [
    "Verif.Todd.c19_exponential",
    "Verif.Todd.c19_reciprocal",
    "Verif.Todd.c19_reciprocal_fails",
    "Verif.Todd.c19_todd_factor",
    "Verif.Todd.c19_todd_bernoulli",
    "Verif.Todd.c19_product",
    "Verif.Todd.c19_product_nil",
    "Verif.Todd.c19_evaluate_todd"
   ],
   "note": "All degrees; coefficients compared with Mathlib's formal power series."
  },
  {
   "property": "C20",
   "status": "proved",
   "theorems": [
    "Verif.ExpSubst.c20_residues_count",
    "Verif.ExpSubst.c20_compute",
    "Verif.ExpSubst.c20_count",
    "Verif.ExpSubst.negligible_finite"
   ],
   "note": "From decomposition to number, all dimensions. Hypothesis: the indicators of the vertex cones handed in add up to that of the point set up to functions with lines (discharged for polytopes by C65, where Brion's theorem is proved)."
  },
  {
   "property": "C42",
   "status": "proved",
   "theorems": [
    "Verif.ExpSubst.c42_restart",
    "Verif.ExpSubst.c42_first_generic",
    "Verif.ExpSubst.residueSum_notGeneric",
    "Verif.ExpSubst.c42_attempt",
    "Verif.ExpSubst.c42_total",
    "Verif.ExpSubst.c42_generic_vector_exists",
    "Verif.ExpSubst.c42_status"
   ],
   "note": ""
  },
  {
   "property": "C44",
   "status": "proved",
   "theorems": [
    "Verif.ExpSubst.c44_ehrhart"
   ],
   "note": ""
  },
  {
   "property": "C21",
   "status": "proved",
   "theorems": [
    "Verif.Trie.c21_store_is_map",
    "Verif.Trie.c21_coefficients"
   ],
   "note": "Any number of variables >= 1, any sequence of insertions, any coefficient ring."
  },
  {
   "property": "C22",
   "status": "proved",
   "theorems": [
    "Verif.Trie.c22_order_canonical",
    "Verif.Trie.c22_history_independent",
    "Verif.Trie.c22_empty_store_crashes"
   ],
   "note": "Iterating a store from which nothing was ever inserted dereferences NULL; proved as a separate theorem."
  },
  {
   "property": "C23",
   "status": "proved",
   "theorems": [
    "Verif.Trie.c23_windowed_product",
    "Verif.Trie.c23_product"
   ],
   "note": ""
  },
  {
   "property": "C24",
   "status": "proved",
   "theorems": [
    "Verif.Trie.c24_monomial",
    "Verif.Trie.c24_polynomial",
    "Verif.Trie.c24_cancelled_polynomial_crashes"
   ],
   "note": "A polynomial whose terms all cancelled makes the code dereference NULL (proved)."
  },
  {
   "property": "C45",
   "status": "partial",
   "theorems": [
    "Verif.Trie.c45_polynomial_histories_partial",
    "Verif.Trie.c45_set_to_zero_dangles",
    "Verif.Trie.c45_empty_product_cannot_be_printed"
   ],
   "note": "Proved for every history that does not set an object to the constant 0 and does not print an object whose terms vanished; those cases are proved to be violations."
  },
  {
   "property": "C46",
   "status": "partial",
   "theorems": [
    "Verif.Trie.c46_block_product_ignores_rest",
    "Verif.Trie.c46_block_product_wrong",
    "Verif.Trie.c46_block_product_partial"
   ],
   "note": "Violated whenever the first factor has more than one term (proved); correct for one term."
  },
  {
   "property": "C25",
   "status": "proved",
   "theorems": [
    "Verif.Trie.Text.c25_parse_print",
    "Verif.Trie.Text.c25_print_load"
   ],
   "note": "Polynomials whose terms do not all cancel (else printing dereferences NULL, see C45). Integer overflow of exponents is not modelled."
  },
  {
   "property": "C47",
   "status": "partial",
   "theorems": [
    "Verif.Trie.Text.c47_round_trip_partial",
    "Verif.Trie.Text.c47_parse_print_scales",
    "Verif.Trie.Text.c47_round_trip_violated",
    "Verif.Trie.Text.c47_load_scales"
   ],
   "note": "Holds for degrees up to one; the exact effect (factor degree!) and the violation for every sum with a term of degree >= 2 are proved."
  },
  {
   "property": "C43",
   "status": "partial",
   "theorems": [
    "Verif.Block.c43_monomial_blocks",
    "Verif.Block.c43_linear_form_blocks",
    "Verif.Block.c43_decompose_partial",
    "Verif.Block.c43_decompose_out_of_bounds"
   ],
   "note": "The stores are proved correct for any number of terms; decomposition is proved for at most 64 distinct monomials and proved to read outside the array for every term index from 64 on."
  },
  {
   "property": "C39",
   "status": "proved",
   "theorems": [
    "Latte.Lawrence.c39_updatePowers",
    "Latte.Lawrence.c39_assertion"
   ],
   "note": ""
  },
  {
   "property": "C48",
   "status": "proved",
   "theorems": [
    "Latte.Lawrence.c48_integratePolytope",
    "Latte.Lawrence.c48_findIntegral",
    "Latte.Lawrence.c48_simplex",
    "Latte.Lawrence.c48_constant_dropped"
   ],
   "note": "Hypothesis of the general theorems: the cones satisfy Lawrence's identity as rational functions (proved for every simplex here, and for every polytope in C56). The degree-0 form with zero vector is skipped by the code (proved as c48_constant_dropped)."
  },
  {
   "property": "C49",
   "status": "partial",
   "theorems": [
    "Latte.Lawrence.c49_search_ends_partial",
    "Latte.Lawrence.c49_search_diverges"
   ],
   "note": "Proved when (number of critical rays)*(n-1) < 100, once the draws have hit all hundred residues; a polytope (prism over a 101-gon) for which it cannot end is exhibited."
  },
  {
   "property": "C40",
   "status": "proved",
   "theorems": [
    "Verif.Valuation.c40_simplex_volume",
    "Verif.Valuation.c40_negative_height"
   ],
   "note": "Lebesgue measure of Mathlib; any dimension. A negative last coordinate gives a negative volume (proved example)."
  },
  {
   "property": "C50",
   "status": "proved",
   "theorems": [
    "Verif.Valuation.c50_integral_polynomial",
    "Verif.Valuation.c50_integral_forms",
    "Verif.Valuation.c50_integral_polynomial_homogenized"
   ],
   "note": "The triangulation engine is an arbitrary function assumed to return a triangulation; dimension < 1000 and degree + dimension < 2^20 (array sizes in the code). Lebesgue measure of Mathlib."
  },
  {
   "property": "C51",
   "status": "proved",
   "theorems": [
    "Verif.Valuation.c51_volume",
    "Verif.Valuation.c51_volume_homogenized"
   ],
   "note": "Same contract for the triangulation engine."
  },
  {
   "property": "C52",
   "status": "partial",
   "theorems": [
    "Verif.Valuation.c52_duplicate_monomials_abort",
    "Verif.Valuation.c50_integral_polynomial"
   ],
   "note": "The claim fails for every input with a repeated monomial (proved); without repetition C50 holds."
  },
  {
   "property": "C53",
   "status": "partial",
   "theorems": [
    "Verif.Valuation.c53_volume_after_integral",
    "Verif.Valuation.c53_integral_vertices_partial",
    "Verif.Valuation.c53_reuse_differs"
   ],
   "note": "Exact effect proved; claim holds for integral vertices, violated otherwise (witness)."
  },
  {
   "property": "C54",
   "status": "partial",
   "theorems": [
    "Verif.Valuation.c54_homogenized_cone_volume_zero",
    "Verif.Valuation.c54_witness"
   ],
   "note": "The claim is false: the cone method returns 0 for every homogenized input; nothing positive remains to be proved except for polytopes of volume 0."
  },
  {
   "property": "C55",
   "status": "proved",
   "theorems": [
    "Verif.Valuation.c55_volume"
   ],
   "note": "The engine is an arbitrary function assumed to decompose every tangent cone into simplicial cones. Lawrence's formula itself is proved (Verif/Measure/Lawrence.lean) for arbitrary polytopes with Mathlib's Lebesgue measure."
  },
  {
   "property": "C56",
   "status": "proved",
   "theorems": [
    "Verif.Valuation.c56_integral_polynomial",
    "Verif.Valuation.c56_integral_forms"
   ],
   "note": "Same contract for the engine; degree + dimension < 2^20. Termination of the perturbation search is C49."
  },
  {
   "property": "C57",
   "status": "proved",
   "theorems": [
    "Verif.Valuation.c57_volume_ends",
    "Verif.Valuation.c57_zero_draws"
   ],
   "note": "c57_zero_draws: no answer if the generator only returns 0 (the loop does not end)."
  },
  {
   "property": "C32",
   "status": "proved",
   "theorems": [
    "Verif.Periodic.c32_denotes",
    "Verif.Periodic.c32_stops_only_at_zero_power",
    "Verif.Periodic.c32_compare_sound",
    "Verif.Periodic.c32_compare_constant",
    "Verif.Periodic.c32_print_read",
    "Verif.Periodic.c32_text_denotes"
   ],
   "note": "Arbitrary programs over the operations; also the printed text denotes the same function."
  },
  {
   "property": "C58",
   "status": "partial",
   "theorems": [
    "Verif.Periodic.c58_other_operations_partial",
    "Verif.Periodic.c58_subtract_from_default_wrong",
    "Verif.Periodic.c58_times_default_null"
   ],
   "note": "The claim fails for subtraction from, and multiplication by, a default object (proved for all operands); the remaining cases are proved."
  },
  {
   "property": "C37",
   "status": "proved",
   "theorems": [
    "Verif.Gmp.c37_zz_to_mpz",
    "Verif.Gmp.c37_mpz_to_zz",
    "Verif.Gmp.c37_round_trips",
    "Verif.Gmp.c37_mpq",
    "Verif.Gmp.c37_vectors"
   ],
   "note": "NTL and GMP import/export primitives by their documented meaning."
  },
  {
   "property": "C38",
   "status": "proved",
   "theorems": [
    "Verif.Graph.c38_spanning_tree",
    "Verif.Graph.c38_connected",
    "Verif.Graph.c38_rejected",
    "Verif.Graph.c38_can_end"
   ],
   "note": ""
  },
  {
   "property": "C59",
   "status": "partial",
   "theorems": [
    "Verif.Graph.c59_disconnected",
    "Verif.Graph.c59_can_end_partial",
    "Verif.Graph.c59_too_many_edges_never_ends"
   ],
   "note": "Termination fails exactly when the edges do not fit (proved both ways)."
  },
  {
   "property": "C60",
   "status": "proved",
   "theorems": [
    "Verif.Graph.c60_linear",
    "Verif.Graph.c60_circle",
    "Verif.Graph.c60_wheel",
    "Verif.Graph.c60_wheel_offset_zero",
    "Verif.Graph.c60_checkerboard",
    "Verif.Graph.c60_petersen",
    "Verif.Graph.c60_nchoosek"
   ],
   "note": ""
  },
  {
   "property": "C34",
   "status": "partial",
   "theorems": [
    "Verif.Files.c34_nonnegative_rows_partial",
    "Verif.Files.c34_homogenized_off_by_one",
    "Verif.Files.c34_homogenized_last_out_of_bounds",
    "Verif.Files.c34_option_out_of_bounds"
   ],
   "note": "Proved for files read without homogenization; with homogenization the rows are about the wrong variable or written out of bounds (proved)."
  },
  {
   "property": "C35",
   "status": "proved",
   "theorems": [
    "Verif.Files.c35_write_read"
   ],
   "note": ""
  },
  {
   "property": "C36",
   "status": "proved",
   "theorems": [
    "Verif.Files.c36_round_trip",
    "Verif.Files.c36_foreign_ray",
    "Verif.Files.c36_duplicate_ray_never_printed"
   ],
   "note": "Distinct master rays, as in the property; with duplicate rays nothing is ever printed (proved)."
  },
  {
   "property": "C61",
   "status": "partial",
   "theorems": [
    "Verif.Files.c61_read_after_history",
    "Verif.Files.c61_read_after_update",
    "Verif.Files.c61_interrupted_reads_empty"
   ],
   "note": "Exact effect proved for every history and crash point; the claim fails before the first update (proved)."
  },
  {
   "property": "C62",
   "status": "partial",
   "theorems": [
    "Verif.Aggregate.c62_solutions_kept_partial",
    "Verif.Aggregate.c62_degenerate_rows_lost",
    "Verif.Aggregate.c62_tool_loses_rows",
    "Verif.Aggregate.c62_tool_rejects"
   ],
   "note": "Proved whenever some right-hand side and some coefficient are non-zero; fails otherwise, and for every run of the command-line tool (proved)."
  },
  {
   "property": "C33",
   "status": "partial",
   "theorems": [
    "Verif.Perturb.c33_order_preserved_partial",
    "Verif.Perturb.c33_order_reversed",
    "Verif.Perturb.c33_zero_coordinate_erases"
   ],
   "note": "Holds when every negative coordinate is dominated by an earlier positive one; otherwise violated (witnesses proved)."
  },
  {
   "property": "C41",
   "status": "proved",
   "theorems": [
    "Verif.Irrational.c41_equivalent_sound",
    "Verif.Irrational.c41_equivalent_exact",
    "Verif.Irrational.c41_irrational_exact"
   ],
   "note": "Exactness for primitive facet normals, which is what the code passes."
  },
  {
   "property": "C63",
   "status": "proved",
   "theorems": [
    "Verif.Irrational.c63_simplicial",
    "Verif.Irrational.c63_general",
    "Verif.Irrational.c63_single_lattice_exact",
    "Verif.Irrational.c63_allPrimal_lattice_exact"
   ],
   "note": "The LP solver (general cones) and the triangulation are arbitrary functions with a contract."
  },
  {
   "property": "C64",
   "status": "proved",
   "theorems": [
    "Verif.Irrational.c64_irrational_below_estimate",
    "Verif.Irrational.c64_no_exception_if_deep_enough",
    "Verif.Irrational.c64_no_exception",
    "Verif.Irrational.c64_triangulation_walls",
    "Verif.Irrational.c64_general_below_estimate",
    "Verif.Irrational.c64_general_no_exception",
    "Verif.Irrational.goodSteps_of_shortestRow"
   ],
   "note": "Both estimates (known determinant; longest ray, via Hadamard). The floating-point logarithms of the estimate are taken in exact arithmetic (hypothesis EstimateOk)."
  },
  {
   "property": "C65",
   "status": "proved",
   "theorems": [
    "Verif.Brion.c65_count_dual",
    "Verif.Brion.c65_count_irrationalPrimal",
    "Verif.Brion.c65_count_irrationalAllPrimal",
    "Verif.Brion.c65_total_dual",
    "Verif.Brion.c65_total_dual_dim_le_four",
    "Verif.Brion.c65_total_dual_shortest",
    "Verif.Brion.c65_total_irrationalPrimal",
    "Verif.Brion.c65_total_irrationalAllPrimal"
   ],
   "note": "The vertices and triangulations computed by external libraries are inputs constrained by a specification (all vertices listed; simplicial cones with disjoint interiors covering the cone). Brion's theorem and the duality it needs are proved."
  },
  {
   "property": "C66",
   "status": "partial",
   "theorems": [
    "Verif.Barvinok.c17_vector_exists",
    "Verif.Barvinok.c17_step_large",
    "Verif.Barvinok.c17_step_dim_le_four",
    "Verif.Barvinok.c17_step_shortest",
    "Verif.Barvinok.reduces_satisfiable",
    "Verif.Barvinok.shortestRow_satisfiable"
   ],
   "note": "With NTL's documented contract of LLL (unimodular transformation to a basis reduced with delta = 1) the assertion never fails in dimension at most 4, and in every dimension n for determinants d with (4/3)^(n(n-1)/2) < d^2. Missing: smaller determinants in dimension 5 and above, where the code relies on the exhaustive search with coefficients -5..4; there it is proved only if the basis starts with a shortest vector. The existence of a suitable vector is proved in every dimension (Minkowski)."
  },
  {
   "property": "C67",
   "status": "partial",
   "theorems": [
    "Verif.Preprocess.c67_lattice_points",
    "Verif.Preprocess.c67_reported_count",
    "Verif.Preprocess.c67_ends",
    "Verif.Preprocess.c67_no_inequalities",
    "Verif.Preprocess.c67_not_bounded",
    "Verif.Preprocess.c67_project_up",
    "Verif.Preprocess.c67_project_up_cone",
    "Verif.Preprocess.c67_ncard",
    "Verif.Preprocess.c67_total_count",
    "Verif.Preprocess.c67_violated_point",
    "Verif.Preprocess.Ex.c67_violated_point_example",
    "Verif.Preprocess.Ex.c67_violated_dependent",
    "Verif.Preprocess.Ex.c67_violated_dilation",
    "Verif.Preprocess.Ex.c67_violated_point_dilation",
    "Verif.Preprocess.c67_violated_project_up",
    "Verif.Preprocess.c67_violated_many_equations"
   ],
   "note": "Proved for all inputs whose equations are independent or integrally solvable (fewer equations than variables; undilated, or integrally solvable equations, for reported counts); the remaining cases are false of the code and refuted by theorems."
  },
  {
   "property": "C68",
   "status": "proved",
   "theorems": [
    "Verif.Preprocess.ihermite_ends",
    "Verif.Preprocess.ihermite_spec",
    "Verif.Preprocess.latticeBasis_basis"
   ],
   "note": "Termination, unimodularity, echelon form and kernel basis for every matrix."
  },
  {
   "property": "C69",
   "status": "proved",
   "theorems": [
    "Verif.Brion.c69_dual",
    "Verif.Brion.c69_irrationalPrimal",
    "Verif.Brion.c69_irrationalAllPrimal",
    "Verif.Brion.c69_total_dual",
    "Verif.Brion.c69_total_irrationalPrimal",
    "Verif.Brion.c69_total_irrationalAllPrimal",
    "Verif.Brion.isEhrhart_unique",
    "Verif.Brion.c69_rejects",
    "Verif.Brion.c69_rejects_primal",
    "Verif.Brion.c69_tight",
    "Verif.Brion.c69_tight_tangent",
    "Verif.Brion.c69_tight_again",
    "Verif.ExpSubst.c69_once",
    "Verif.ExpSubst.c69_restart",
    "Verif.ExpSubst.c69_attempt",
    "Verif.ExpSubst.c69_generic_exists",
    "Verif.ExpSubst.c69_ends",
    "Verif.Regular.c69_triangulated",
    "Verif.Regular.c69_triangulated_total"
   ],
   "note": "Vertices and triangulations are inputs constrained by a specification, as in C65."
  },
  {
   "property": "C70",
   "status": "partial",
   "theorems": [
    "Verif.PolySubst.c70_total_dual",
    "Verif.PolySubst.c70_total_dual_dim_le_four",
    "Verif.PolySubst.c70_total_dual_shortest",
    "Verif.PolySubst.c70_total_irrationalPrimal",
    "Verif.PolySubst.c70_total_irrationalAllPrimal",
    "Verif.PolySubst.c70_answer",
    "Verif.PolySubst.c70_ends",
    "Verif.PolySubst.c70_attempt",
    "Verif.PolySubst.c70_total_error",
    "Verif.PolySubst.c70_precision_violated",
    "Verif.PolySubst.term_spec",
    "Verif.PolySubst.acceptPoly_iff"
   ],
   "note": "Proved for decompositions with at most 5*10^9 terms (lattice points of parallelepipeds); a condition on the input alone is given with C71. Beyond that the claim is false of the code (constant precision 10^10, whose comment says 100 billion): c70_precision_violated."
  },
  {
   "property": "C71",
   "status": "proved",
   "theorems": [
    "Verif.Brion.c71_barvinok",
    "Verif.Brion.c71_polynomial",
    "Verif.Brion.c71_always",
    "Verif.Brion.dfs_size",
    "Verif.Brion.single_size"
   ],
   "note": "The polynomial bound needs a shortest vector in the maximum norm at every step, which LLL only guarantees approximately; the unconditional bound is c71_always."
  },
  {
   "property": "C72",
   "status": "proved",
   "theorems": [
    "Verif.PolySubst.c72_total_dual",
    "Verif.PolySubst.c72_total_dual_shortest",
    "Verif.PolySubst.c72_total_irrationalPrimal",
    "Verif.PolySubst.c72_total_irrationalAllPrimal",
    "Verif.PolySubst.c72_total_projected",
    "Verif.PolySubst.c72_run",
    "Verif.PolySubst.c72_run_projected",
    "Verif.PolySubst.c72_number",
    "Verif.PolySubst.c72_vector",
    "Verif.PolySubst.c72_search_ends",
    "Verif.PolySubst.c72_not_unimodular",
    "Verif.PolySubst.c72_not_unimodular_projected",
    "Verif.PolySubst.delivered_nonempty",
    "Verif.PolySubst.tenPow_large"
   ],
   "note": "The list of cones must be non-empty (count reports empty polytopes before); noGsPerC*noCones must fit into an int."
  },
  {
   "property": "C73",
   "status": "partial",
   "theorems": [
    "Verif.Series.c73_total",
    "Verif.Series.c73_answer",
    "Verif.Series.c73_total_dim_le_three",
    "Verif.Series.c73_total_shortest",
    "Verif.Series.c73_degree_zero_violated",
    "Verif.Series.series_accept",
    "Verif.Series.series_reject",
    "Verif.Series.nonneg_height",
    "Verif.Series.residueFunctionSingle_spec",
    "Verif.Series.heights_count",
    "Verif.Series.generic_exists",
    "Verif.Series.trace_list"
   ],
   "note": "Proved for degree at least one and at most 5*10^9 cones (with C71 a condition on the input alone); degree zero is refuted. For degree one the program only reports the number of lattice points of the polytope (its coefficient 0 is left at 0). The triangulation of the dual of the cone over the polytope is an input constrained by a specification."
  },
  {
   "property": "C74",
   "status": "proved",
   "theorems": [
    "Verif.Series.c74_expand",
    "Verif.Series.c74_expand_all",
    "Verif.Series.c74_quotient",
    "Verif.Series.c74_power_zero",
    "Verif.Series.taylor_spec",
    "Verif.Series.coneExpression_spec"
   ],
   "note": "Exponents of powers must not be zero and denominators must not vanish at 0 (the program loops or stops otherwise)."
  },
  {
   "property": "C75",
   "status": "partial",
   "theorems": [
    "Verif.Regular.c75_cddlib",
    "Verif.Regular.c75_cddlib_no_error",
    "Verif.Regular.c75_cddlib_generic",
    "Verif.Regular.c75_generic_count",
    "Verif.Regular.c75_fortytwo",
    "Verif.Regular.c75_fortytwo_generic",
    "Verif.Regular.c75_cddlib_hangs",
    "Verif.Regular.c75_fortytwo_degenerate",
    "Verif.Regular.c75_bias_zero",
    "Verif.Regular.c75_square",
    "Verif.Regular.c75_square_biased",
    "Verif.Regular.c75_square_violation",
    "Verif.Regular.c75_square_hangs",
    "Verif.Regular.heightsOk_of_pointed",
    "Verif.Regular.ddOk_satisfiable",
    "Verif.Regular.rayAlgOk_satisfiable",
    "Verif.Regular.lindepOk_satisfiable"
   ],
   "note": "cddlib: every result is a triangulation, but the recursion need not end (refuted by c75_cddlib_hangs; it ends for generic heights). 4ti2: always ends, but with equal or linear heights the cone is handed over undivided (refuted by c75_fortytwo_degenerate)."
  },
  {
   "property": "C76",
   "status": "proved",
   "theorems": [
    "Verif.Regular.c75_count",
    "Verif.Regular.c75_count_total",
    "Verif.Regular.c75_count_inequalities",
    "Verif.Regular.c76_poly_count",
    "Verif.Regular.c76_poly_total",
    "Verif.Regular.c75_assertion",
    "Verif.Regular.normalRays_tight",
    "Verif.Regular.vertexList_exists",
    "Verif.Regular.triangulateCone_ok"
   ],
   "note": "Dual mode with the exponential substitution, and with the default (polynomial) substitution when the decomposition has at most 5*10^9 terms; prescribed heights excluded. Facet enumeration (cddlib, 4ti2) and lattice reduction by contract; the list of vertices is an input constrained by a specification."
  },
  {
   "property": "C77",
   "status": "partial",
   "theorems": [
    "Verif.Optimize.c77_maximize_partial",
    "Verif.Optimize.c77_minimize_partial",
    "Verif.Optimize.c77_fractional",
    "Verif.Optimize.c77_minimize_fractional",
    "Verif.Optimize.c77_minimize_sign",
    "Verif.Optimize.c77_no_lattice_points",
    "Verif.Optimize.c77_rounding",
    "Verif.Optimize.c77_rounding_stops",
    "Verif.Optimize.c77_fractional_example",
    "Verif.Optimize.c77_minimize_sign_example",
    "Verif.Optimize.roundingOk_of_dyadic",
    "Verif.Optimize.tools_exist",
    "Verif.Optimize.lpOk_satisfiable",
    "Verif.Optimize.countOk_satisfiable"
   ],
   "note": "The full statement is refuted: a fractional optimum of the LP relaxation stops the program with status 1 (count on an empty polytope fails), minimization prints the wrong sign when the first check succeeds, 150-bit rounding gives a wrong optimum. cdd as LP solver and the program count are contracts."
  },
  {
   "property": "C78",
   "status": "proved",
   "theorems": [
    "Verif.Digging.c78_empty",
    "Verif.Digging.c78_add",
    "Verif.Digging.c78_pop",
    "Verif.Digging.c78_pop_empty",
    "Verif.Digging.c78_top",
    "Verif.Digging.c78_history"
   ],
   "note": "Both classes have the same code; a tree of nodes with parent and child pointers is modelled as a binary tree addressed by the bits of the position."
  },
  {
   "property": "C79",
   "status": "partial",
   "theorems": [
    "Verif.Digging.c79_optimal",
    "Verif.Digging.c79_empty",
    "Verif.Digging.c79_perturbed_partial",
    "Verif.Digging.c79_reversed",
    "Verif.Digging.c79_reversed_example",
    "Verif.Digging.c79_ends",
    "Verif.Digging.c79_equations",
    "Verif.Digging.c79_equations_empty",
    "Verif.Digging.EquExample.equations_example",
    "Verif.Digging.c79_single_partial",
    "Verif.Digging.c79_single_number_example",
    "Verif.Digging.c79_single_zero",
    "Verif.Digging.c79_single_ends",
    "Verif.Digging.c79_single_empty",
    "Verif.Digging.c79_single_empty_example"
   ],
   "note": "Proved without perturbation; with perturbation if the factor exceeds nine times the 1-norm distance to every other integer point. The remaining cases are false of the code and refuted by theorems (reversed optimum; number, emptiness and zero products with the option single). Vertices, triangulations, lattice reduction and LP vertex are inputs constrained by specifications."
  },
  {
   "property": "C80",
   "status": "partial",
   "theorems": [
    "Verif.Products.c80_integral_partial",
    "Verif.Products.c80_integral_homogenized_partial",
    "Verif.Products.c80_zero_aborts",
    "Verif.Products.c80_zero_integral",
    "Verif.Products.c80_repeated_factor",
    "Verif.Products.c80_zero_coefficient",
    "Verif.Products.c80_constants_added",
    "Verif.Products.c80_constant_factor_refused",
    "Verif.Products.c80_right",
    "Verif.Products.c80_parse",
    "Verif.Products.load_products"
   ],
   "note": "Proved for pairwise different factors and non-zero integrals over the simplices; the rest of the statement is false of the code and refuted by theorems. The triangulation engine is a contract as in C50; the text of the integrand is not parsed."
  },
  {
   "property": "C81",
   "status": "proved",
   "theorems": [
    "Verif.TopK.c81_topK",
    "Verif.TopK.c81_NminusK",
    "Verif.TopK.c81_quasi_polynomial",
    "Verif.TopK.IsQuasi.unique",
    "Verif.TopK.c81_returns",
    "Verif.TopK.c81_returns_coprime",
    "Verif.TopK.c81_runs_exist",
    "Verif.TopK.c81_second_call",
    "Verif.TopK.c81_common_divisor",
    "Verif.TopK.c81_common_divisor_exception"
   ],
   "note": "For a new object and weights of gcd 1 (the documented assumption). Without these two conditions the answers are wrong, shown by theorems. Periodic functions and sums of monomials are represented by what they denote (C32, C45, C46, C58)."
  },
  {
   "property": "C82",
   "status": "partial",
   "theorems": [
    "Verif.GenFile.c82_rat_text",
    "Verif.GenFile.c82_rat_skips",
    "Verif.GenFile.c82_maple_text",
    "Verif.GenFile.c82_rat_run",
    "Verif.GenFile.c82_maple_run",
    "Verif.GenFile.c82_rat_dual",
    "Verif.GenFile.c82_maple_dual",
    "Verif.GenFile.c82_rat_irrationalPrimal",
    "Verif.GenFile.c82_rat_run_projected",
    "Verif.GenFile.c82_maple_run_projected",
    "Verif.GenFile.c82_equations",
    "Verif.GenFile.c82_dilated",
    "Verif.GenFile.c82_violated_dilation",
    "Verif.GenFile.IsGenFun.formal",
    "Verif.GenFile.IsGenFun.unique",
    "Verif.GenFile.Reads.unique",
    "Verif.GenFile.triangle_files",
    "Verif.GenFile.Dilation.undilated_files",
    "Verif.GenFile.Dilation.dilated_file_wrong"
   ],
   "note": "Proved for every dilation without equations and for dilation 1 with equations; with equations and another dilation factor the code is wrong (c82_dilated says what is written, c82_violated_dilation that it is not the generating function). Vertices, triangulations and lattice reduction by contract as in C65."
  },
  {
   "property": "C83",
   "status": "partial",
   "theorems": [
    "Verif.Ti2.c83_assert",
    "Verif.Ti2.c83_cones",
    "Verif.Ti2.c83_flag",
    "Verif.Ti2.c83_unbounded_partial",
    "Verif.Ti2.c83_count",
    "Verif.Ti2.c83_report_partial",
    "Verif.Ti2.c83_total",
    "Verif.Ti2.c83_empty_violation",
    "Verif.Ti2.raysOk_satisfiable",
    "Verif.Ti2.generates"
   ],
   "note": "4ti2 by contract (extreme rays and lineality basis of a cone given by a matrix and sign conditions), shown satisfiable. Missing: empty polyhedra, where the code is wrong (c83_empty_violation)."
  },
  {
   "property": "C84",
   "status": "partial",
   "theorems": [
    "Verif.Ti2.c84_dualize",
    "Verif.Ti2.c84_sets",
    "Verif.Ti2.c84_ends_partial",
    "Verif.Ti2.c84_subspace",
    "Verif.Ti2.tightFacets_compute",
    "Verif.Ti2.c84_twice",
    "Verif.Ti2.c84_swap",
    "Verif.Ti2.c84_allPrimal",
    "Verif.Ti2.c84_count_allPrimal",
    "Verif.Ti2.c84_dependent_violation"
   ],
   "note": "With 4ti2 for the general case, by contract. Missing: as many dependent rays as coordinates, where the code fails an assertion. Dualization with the program cdd is C90."
  },
  {
   "property": "C85",
   "status": "partial",
   "theorems": [
    "Verif.Approx.c85_cones",
    "Verif.Approx.c85_irrationalPrimal_partial",
    "Verif.Approx.c85_irrationalAllPrimal",
    "Verif.Approx.c85_ends",
    "Verif.Approx.approxData_spec",
    "Verif.Approx.c85_not_primitive_wrong",
    "Verif.Approx.c85_known_facets_undefined",
    "Verif.Approx.c85_orthogonal_vector"
   ],
   "note": "All-primal: proved. The default (primal) variant: proved for pieces without known facets and with primitive rays; otherwise the code is wrong, shown by theorems. The double weights only decide the order, over which the theorems quantify. Lattice reduction, vertices and triangulations by contract as in C65. Overflow of the heap with its fixed 100000 places is an assertion."
  },
  {
   "property": "C86",
   "status": "partial",
   "theorems": [
    "Verif.Empty.c86_decides",
    "Verif.Empty.c86_never_rejects_feasible",
    "Verif.Empty.c86_nonnegative_first_exits",
    "Verif.Empty.c86_undefined",
    "Verif.Empty.c86_order_matters",
    "Verif.Empty.cddOk_satisfiable",
    "Verif.Empty.lp_solutions"
   ],
   "note": "Proved when the nonnegativity section is not followed by the linearity section; otherwise the code always exits (c86_nonnegative_first_exits). cdd by contract, shown satisfiable. Files are token lists with at most one section of each kind."
  },
  {
   "property": "C87",
   "status": "partial",
   "theorems": [
    "Verif.Files.c87_rows",
    "Verif.Files.c87_read",
    "Verif.Files.c87_same_inequalities",
    "Verif.Files.c87_equations_lost",
    "Verif.Files.c87_equation_example"
   ],
   "note": "Proved for files without equations; equations are silently turned into inequalities (c87_equations_lost). Numbers n or n/d as the constructor of RationalNTL reads them. Not modelled: files without a line begin."
  },
  {
   "property": "C88",
   "status": "partial",
   "theorems": [
    "Verif.CddV.c88_cones",
    "Verif.CddV.c88_few_vertices",
    "Verif.CddV.c88_unbounded",
    "Verif.CddV.c88_count",
    "Verif.CddV.c88_total",
    "Verif.CddV.c88_allPrimal",
    "Verif.CddV.c88_count_allPrimal",
    "Verif.CddV.c88_unbounded_violation",
    "Verif.CddV.c88_halfline_violation",
    "Verif.CddV.cddOk_satisfiable"
   ],
   "note": "Proved for bounded polyhedra; for unbounded ones the code is wrong (c88_unbounded_violation says what it does). cdd by contract (vertices, directions, adjacency in either form), shown satisfiable for every list of inequalities. Status partial because the property fails for unbounded polyhedra."
  },
  {
   "property": "C89",
   "status": "partial",
   "theorems": [
    "Verif.Vrep.c89_redundant",
    "Verif.Vrep.c89_cones",
    "Verif.Vrep.c89_count",
    "Verif.Vrep.c89_total",
    "Verif.Vrep.c89_allPrimal",
    "Verif.Vrep.c89_count_allPrimal",
    "Verif.Vrep.c89_one_row",
    "Verif.Vrep.c89_one_row_violation",
    "Verif.Vrep.c89_direction_violation",
    "Verif.Vrep.vrep_of_cdd",
    "Verif.Vrep.adjacencyOk_satisfiable",
    "Verif.Vrep.exists_inequalities"
   ],
   "note": "Proved for convex hulls with interior points (c89_redundant and c89_cones for all). Missing: lower-dimensional convex hulls, and one point with a leading entry other than 1, and points with directions, where the code is wrong (c89_one_row_violation, c89_direction_violation). cddlib by contract, shown satisfiable for all points."
  },
  {
   "property": "C90",
   "status": "partial",
   "theorems": [
    "Verif.Vrep.c90_dualize",
    "Verif.Vrep.c90_sets",
    "Verif.Vrep.c90_twice",
    "Verif.Vrep.c90_lines_violation",
    "Verif.Vrep.c90_one_ray_violation",
    "Verif.Vrep.coneCddOk_satisfiable"
   ],
   "note": "Proved for rays that span the space; otherwise the code is wrong (c90_lines_violation), or stops with an assertion if there are as many rays as coordinates (C84). cdd by contract, shown satisfiable."
  },
  {
   "property": "C91",
   "status": "partial",
   "theorems": [
    "Verif.Whole.c91_count",
    "Verif.Whole.c91_total",
    "Verif.Whole.c91_unbounded",
    "Verif.Whole.c91_cones",
    "Verif.Whole.c91_default",
    "Verif.Whole.c91_default_total",
    "Verif.Whole.countFile_finish",
    "Verif.Whole.tools_satisfiable",
    "Verif.Whole.tokens_text",
    "Verif.Whole.read_text",
    "Verif.Whole.sols_matrix"
   ],
   "note": "Proved for all integer systems with bounded solution set (also empty), any dimension (c91_count; c91_total for at least one variable), with --exp and, if no decomposition has more than 5*10^9 terms (C70), without options (c91_default, c91_default_total). The file has the sections linearity and nonnegative in this order (the other order is wrong, C86). Nonempty unbounded systems: no number other than 0 is reported, but 0 is (c91_unbounded, c88_unbounded_violation). Missing: the other options of count, rational coefficients. All external tools by contract; tools_satisfiable shows that the contracts can be met together."
  },
  {
   "property": "C92",
   "status": "partial",
   "theorems": [
    "Verif.Whole.c92_ehrhart",
    "Verif.Whole.c92_rejects",
    "Verif.Whole.c92_total",
    "Verif.Whole.c92_point_violation",
    "Verif.Whole.c92_rows",
    "Verif.Whole.c92_text",
    "Verif.Whole.c92_printed"
   ],
   "note": "Proved for all integer systems with bounded solution set and at least one variable; external tools by contract as in C91. Status partial because single points get no polynomial (c92_point_violation)."
  },
  {
   "property": "C93",
   "status": "partial",
   "theorems": [
    "Verif.Whole.c93_volume",
    "Verif.Whole.c93_total",
    "Verif.Whole.c93_generic_exists",
    "Verif.Whole.c93_lattice_volume",
    "Verif.Whole.c93_lattice_total",
    "Verif.Whole.c93_no_answer",
    "Verif.Whole.latticeVolume_unique",
    "Verif.Whole.latticeVolume_full",
    "Verif.Whole.tools_satisfiable_strict"
   ],
   "note": "Proved for all integer systems with bounded solution set and at least one variable, of any dimension, with no method option and with --cone-decompose. Missing: --triangulate alone and the options that read vertices or linear forms. External tools by contract as in C91, for lower-dimensional polytopes also that dd_MatrixCanonicalize makes implicit equations explicit (CanonicalizeStrict, shown satisfiable)."
  },
  {
   "property": "C94",
   "status": "partial",
   "theorems": [
    "Verif.Whole.c94_monomials",
    "Verif.Whole.c94_linear_forms",
    "Verif.Whole.c94_plf_total",
    "Verif.Whole.c94_zero_aborts",
    "Verif.Whole.c94_products",
    "Verif.Whole.c94_products_total",
    "Verif.Whole.c94_first_line",
    "Verif.Whole.c94_triangulation_uses",
    "Verif.Whole.tools_satisfiable_uses"
   ],
   "note": "Proved for all full-dimensional polytopes, all options of the three kinds of integrands; an answer need not be printed: the search of the cone method can go on for ever (c49_search_diverges), and the method with products is ended by an assertion if the integral of a monomial over a simplex is zero (c94_zero_aborts). Missing: --triangulate alone, integrands with repeated monomials (C52), lower-dimensional polytopes (the code does not transform the integrand). External tools by contract as in C91, and triangulations use only the rays of the cone (proved for the methods modelled, c94_triangulation_uses)."
  },
  {
   "property": "C95",
   "status": "partial",
   "theorems": [
    "Verif.Whole.c95_unweighted",
    "Verif.Whole.c95_monomials",
    "Verif.Whole.c95_linear_forms",
    "Verif.Whole.c95_total",
    "Verif.Whole.c95_bad_option",
    "Verif.Whole.c95_dualizations",
    "Verif.Whole.c95_zero_weight",
    "Verif.Whole.tools_satisfiable"
   ],
   "note": "Proved up to the script, for all full-dimensional polytopes. Missing: what Maple does with it; polytopes of lower dimension (the weight is not transformed to the new variables); weights with repeated monomials (C52) and the zero weight, for which the program reads a null pointer (c95_zero_weight). External tools by contract as in C91, dualization as in C84, C90."
  },
  {
   "property": "C96",
   "status": "partial",
   "theorems": [
    "Verif.Options.c96_count",
    "Verif.Options.c96_total",
    "Verif.Options.c96_unbounded",
    "Verif.Options.countFile_default",
    "Verif.Options.contracts_satisfiable",
    "Verif.Options.movers_satisfiable",
    "Verif.Options.solverOk_satisfiable"
   ],
   "note": "Proved for all bounded systems with at least one variable and for the nonempty unbounded ones with 4ti2. External tools by contract as in C91, 4ti2 as in C83, the linear programs of the irrational variants by contract (an optimal solution; shown satisfiable). Missing: vertices from lrs, --vrep, the options of the approximation mode and of dilation."
  },
  {
   "property": "C97",
   "status": "partial",
   "theorems": [
    "Verif.Options.c97_count",
    "Verif.Options.c97_total",
    "Verif.Options.c97_no_integer_point_violation",
    "Verif.Options.c97_example_violation",
    "Verif.Options.countDilated_one",
    "Verif.Options.fileRowsDilated_eq"
   ],
   "note": "Proved for all bounded systems with at least one variable whose affine hull contains an integer point, or without solutions; otherwise the code is wrong (c97_no_integer_point_violation, with a file in c97_example_violation). Contracts as in C96."
  },
  {
   "property": "C98",
   "status": "partial",
   "theorems": [
    "Verif.Boundary.c98_vector",
    "Verif.Boundary.c98_avoids",
    "Verif.Boundary.c98_total",
    "Verif.Boundary.c98_completed",
    "Verif.Boundary.c98_covers",
    "Verif.Boundary.c98_not_a_triangulation_violation",
    "Verif.Boundary.c98_covers_met",
    "Verif.Boundary.twoRays_total",
    "Verif.Boundary.lllOk_exists"
   ],
   "note": "Proved: the vector, the determinants, the facets avoided, the end of the search, covering by the completed cones if the vector is interior. The code does not make sure that it is (c98_not_a_triangulation_violation). LLL by contract. Missing: the triangulation of the facets (4ti2, C39), disjointness of the interiors of the completed cones, the dualizations that make rays primitive (C84, C90)."
  },
  {
   "property": "C99",
   "status": "proved",
   "theorems": [
    "Verif.Hypersimplex.c99_points",
    "Verif.Hypersimplex.c99_number",
    "Verif.Hypersimplex.c99_kneser",
    "Verif.Hypersimplex.c99_edge",
    "Verif.Hypersimplex.c99_symmetric",
    "Verif.Hypersimplex.c99_zero_violation",
    "Verif.Hypersimplex.c99_kneser_zero_violation",
    "Verif.Hypersimplex.generatePoints_four_two",
    "Verif.Hypersimplex.kneser_five_two",
    "Verif.Hypersimplex.path_edges"
   ],
   "note": "Proved as stated, for all sizes; overflow of int in numbers of points and vertices is not modelled."
  },
  {
   "property": "C100",
   "status": "proved",
   "theorems": [
    "Verif.Topcom.c100_read",
    "Verif.Topcom.c100_all_violation",
    "Verif.Topcom.c100_all_exit",
    "Verif.Topcom.square_read"
   ],
   "note": "Reading is proved as stated for all triangulations and surrounding texts; the file is supposed to have been opened; calling the external program is not modelled."
  },
  {
   "property": "C101",
   "status": "proved",
   "theorems": [
    "Verif.Hilbert.c101_sound",
    "Verif.Hilbert.c101_generates",
    "Verif.Hilbert.c101_hilbert",
    "Verif.Hilbert.c101_ends",
    "Verif.Hilbert.c101_shared",
    "Verif.Hilbert.runCones_one",
    "Verif.Hilbert.c101_unimodular_violation",
    "Verif.Hilbert.c101_zero_violation",
    "Verif.Hilbert.c101_hangs",
    "Verif.Hilbert.c101_dependent_violation",
    "Verif.Hilbert.contract_satisfiable",
    "Verif.Hilbert.wedge_file"
   ],
   "note": "Proved as stated, with --no-triang-file, without --output-subcones, and with no reduction; c101_shared is about several runs for lists of cones (files of cones or of subcones). zsolve and the engine for triangulations by contract, shown satisfiable for every list of rays; the enumeration is the model of C13 and C15."
  },
  {
   "property": "C102",
   "status": "proved",
   "theorems": [
    "Verif.Hilbert.Heights.c102_pull",
    "Verif.Hilbert.Heights.c102_range",
    "Verif.Hilbert.Heights.c102_file",
    "Verif.Hilbert.Heights.c102_length",
    "Verif.Hilbert.Heights.c102_file_violation",
    "Verif.Hilbert.Heights.c102_empty_violation",
    "Verif.Hilbert.Heights.pull_example",
    "Verif.Hilbert.Heights.file_example"
   ],
   "note": "Proved as stated, for all lists and vectors."
  },
  {
   "property": "C103",
   "status": "proved",
   "theorems": [
    "Verif.Barvinok.c103_vector",
    "Verif.Barvinok.c103_avoids",
    "Verif.Barvinok.c103_exact",
    "Verif.Barvinok.c103_step_fails",
    "Verif.Barvinok.c103_never_gives_up",
    "Verif.Barvinok.c103_triangulation",
    "Verif.Barvinok.c103_single_exact",
    "Verif.Barvinok.c103_example",
    "Verif.Barvinok.avRun"
   ],
   "note": "Proved as stated, for simplicial cones with their facets in place (Wf); c103_triangulation and c103_single_exact start from the simplicial cones of a triangulation. Failed assertions and giving up with exit(1) are one outcome (abort) of the model; the build with HAVE_EXPERIMENTS is modelled. In dual mode 'exact' is about the cones the recursion worked with (workRays), as for C18."
  }
 ]
}