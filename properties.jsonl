{"id": "C01", "title": "Exact rational arithmetic stays in lowest terms", "statement": "Starting from any fractions with non-zero denominators, every sequence of rational constructors, additions, subtractions, multiplications, divisions by non-zero values, integer powers and sign changes yields exactly the mathematical rational result, stored with positive denominator and gcd(numerator, denominator)=1.", "quantifier": "all integers as numerators/denominators (denominators non-zero), all finite sequences of operations", "why_tests_cant": "The domain is unbounded (arbitrary-precision integers / arbitrary sizes); a finite suite samples it.", "anchors": ["code/latte/rational.cpp: RationalNTL::canonicalize, add, mult, div, power, changeSign, operator+,-,*,/", "code/latte/rational.h: class RationalNTL"]}
{"id": "C02", "title": "Rational equality decides value equality", "statement": "Comparing two rationals produced by the public operations (or a rational with an integer) returns true exactly when they denote the same number; != is its negation.", "quantifier": "all pairs of values reachable through the API", "why_tests_cant": "The domain is unbounded (arbitrary-precision integers / arbitrary sizes); a finite suite samples it.", "anchors": ["code/latte/rational.cpp: RationalNTL::operator==, operator!="]}
{"id": "C03", "title": "Rational text round-trip", "statement": "Printing a rational and reading the text back (stream extraction or string constructor), followed by any character that is not a digit, space or '/', gives the same rational and leaves the rest of the stream unread.", "quantifier": "all rationals in lowest terms, all continuations of the stream", "why_tests_cant": "The domain is unbounded (arbitrary-precision integers / arbitrary sizes); a finite suite samples it.", "anchors": ["code/latte/rational.cpp: operator<<, operator>>, RationalNTL::readNumber, RationalNTL::RationalNTL(const string&), str"]}
{"id": "C04", "title": "A zero denominator is never silently turned into a number", "statement": "Creating a rational with denominator zero, or dividing by zero, must not yield an ordinary finite value. (The code violates this: x/0 becomes x.)", "quantifier": "all integers as numerator", "why_tests_cant": "Every numerator must be considered; the failure is silent.", "anchors": ["code/latte/rational.cpp: RationalNTL::canonicalize, RationalNTL::div"]}
{"id": "C05", "title": "Dividing a rational by itself in place gives one", "statement": "For a non-zero rational x, the in-place division of x by x yields 1. (Argument aliasing breaks this for non-integers: the result is 1/denominator.)", "quantifier": "all non-zero rationals, aliased and non-aliased argument", "why_tests_cant": "Aliased and unaliased calls differ only for some values.", "anchors": ["code/latte/rational.cpp: RationalNTL::div(const RationalNTL&)"]}
{"id": "C06", "title": "Scaling a rational vector to integers is exact and minimal", "statement": "Scaling a rational vector with non-zero denominators returns an integer vector u and a positive scale s with u_i/s = v_i for every i, and s is the least positive common denominator of the reduced entries; later reads return the cached result consistently with the current entries after any sequence of entry updates.", "quantifier": "all rational vectors of any length, all sequences of updates", "why_tests_cant": "The domain is unbounded (arbitrary-precision integers / arbitrary sizes); a finite suite samples it.", "anchors": ["code/latte/rational.cpp: rationalVector::compute_integer_scale, scaleRationalVectorToInteger, canonicalizeRationalVector, scalarMultiplication, set_entry"]}
{"id": "C07", "title": "Edge direction is the primitive integer vector from v to w", "statement": "For two distinct rational points v and w the constructed ray is the unique primitive integer vector that is a positive multiple of w-v.", "quantifier": "all pairs of distinct rational vectors of any dimension", "why_tests_cant": "The domain is unbounded (arbitrary-precision integers / arbitrary sizes); a finite suite samples it.", "anchors": ["code/latte/rational.cpp: constructRay"]}
{"id": "C08", "title": "Vector-list membership and list equality", "statement": "Asking whether a vector is in a list answers yes exactly if some element equals it; two lists compare equal exactly when they have the same set of elements. (The two-argument overload answers 'all elements equal it'.)", "quantifier": "all vectors and all finite lists", "why_tests_cant": "Lists of length 0 and 1 and uniform lists hide the defect.", "anchors": ["code/latte/ramon.cpp: isVectorInListVector (both), isEqual"]}
{"id": "C09", "title": "Priority queue returns the minimum under any operation history", "statement": "After any sequence of insert / pop / freeze / bulk insert / thaw / change-top operations, pop and top return an element of least weight among those present and the multiset of stored elements changes by exactly the operation performed.", "quantifier": "all operation histories, all weights in any total preorder, heaps of any size", "why_tests_cant": "Histories are unbounded.", "anchors": ["code/latte/heap.cpp: heap_insert_*, heap_pop, heap_freeze, heap_thaw, heap_top, heap_change_top_intweight, percolate_down_*, bubble_up_*"]}
{"id": "C10", "title": "Polynomial interpolation is exact", "statement": "Feeding d+1 points with pairwise distinct abscissae of a polynomial of degree <= d and solving returns exactly its coefficients; with fewer distinct abscissae the solver never returns a wrong answer.", "quantifier": "all degrees, all rational points", "why_tests_cant": "The domain is unbounded (arbitrary-precision integers / arbitrary sizes); a finite suite samples it.", "anchors": ["code/latte/interpolation/PolynomialInterpolation.cpp: addPoint, GE, solve, evaluatePoly, isSingular"]}
{"id": "C11", "title": "Shell quoting yields exactly one word equal to the argument", "statement": "Quoting a file name and letting a POSIX shell split the result yields exactly one word, identical to the name. (Violated for names containing a single quote and for the empty name.)", "quantifier": "all strings", "why_tests_cant": "An attacker-chosen or unlucky name is outside any finite suite.", "anchors": ["code/latte/latte_system.cpp: shell_quote"]}
{"id": "C12", "title": "Box enumeration visits each tuple exactly once", "statement": "Repeatedly asking for the next combination for upper bounds n_1..n_k yields every integer tuple with 0 <= x_i <= n_i (after the bound decrement, < n_i) exactly once and then the end marker forever.", "quantifier": "all dimensions and all positive bounds", "why_tests_cant": "Number of tuples is a product of unbounded factors.", "anchors": ["code/latte/genFunction/IntCombEnum.cpp: getNext, getNextInternal, decrementUpperBound"]}
{"id": "C13", "title": "Fundamental parallelepiped enumeration is exact", "statement": "For a simplicial cone with a rational vertex, the enumerated lattice points are exactly the integer points of the (half-open, shifted) fundamental parallelepiped spanned by the rays at the vertex, each listed once, and their number is |det|.", "quantifier": "all dimensions, all linearly independent integer rays, all rational vertices", "why_tests_cant": "The domain is unbounded (arbitrary-precision integers / arbitrary sizes); a finite suite samples it.", "anchors": ["code/latte/genFunction/piped.cpp: PointsInParallelepipedGenerator, pointsInParallelepiped, GeneratePoint"]}
{"id": "C14", "title": "Smith-form elimination preserves the lattice", "statement": "Row/column elimination that diagonalizes an integer matrix returns transformation matrices that are invertible over the integers and satisfy L*A*R = D at every step.", "quantifier": "all integer square matrices, all intermediate states", "why_tests_cant": "The domain is unbounded (arbitrary-precision integers / arbitrary sizes); a finite suite samples it.", "anchors": ["code/latte/genFunction/matrix_ops.cpp: diagonalizationIn, eliminationRow, eliminationCol, SmithNormalFormIlio"]}
{"id": "C15", "title": "Facet normals of a simplicial cone are dual to its rays", "statement": "For linearly independent rays the computed facet normals f_j are primitive integer vectors with <ray_i,f_j> = 0 for i != j and <ray_j,f_j> < 0, the recorded divisors are these products, and the recorded determinant is the determinant of the rays; hence a point is in the cone iff all products with facet normals are <= 0.", "quantifier": "all dimensions, all non-singular integer ray matrices", "why_tests_cant": "The domain is unbounded (arbitrary-precision integers / arbitrary sizes); a finite suite samples it.", "anchors": ["code/latte/dual.cpp: computeDetAndFacetsOfSimplicialCone, dualizeCone"]}
{"id": "C16", "title": "One Barvinok step is an exact signed decomposition", "statement": "Replacing one ray of a simplicial cone at a time by a non-zero short vector gives cones with coefficients such that the signed sum of their indicator functions equals the indicator of the original at every point that lies on no facet hyperplane of any of them.", "quantifier": "all dimensions, all cones, all vectors in the span, all generic points", "why_tests_cant": "The domain is unbounded (arbitrary-precision integers / arbitrary sizes); a finite suite samples it.", "anchors": ["code/latte/barvinok/barvinok.cpp: barvinokStep, CheckOmega, computeAndCheckDeterminants"]}
{"id": "C17", "title": "Barvinok recursion terminates with index-bounded cones", "statement": "Whenever every step yields cones of strictly smaller index, the decomposition terminates and every delivered cone has index at most the requested bound (and non-zero).", "quantifier": "all cones, all bounds >= 1, every short-vector oracle satisfying the checked condition", "why_tests_cant": "Depth is unbounded.", "anchors": ["code/latte/barvinok/barvinok.cpp: barvinok_DFS, deliver_cone, barvinok_Single"]}
{"id": "C18", "title": "Whole signed decomposition is exact", "statement": "The signed sum of the indicators of all delivered cones equals the indicator of the input cone at every generic point, for the whole recursion.", "quantifier": "all cones, all bounds, every oracle, all generic points", "why_tests_cant": "The domain is unbounded (arbitrary-precision integers / arbitrary sizes); a finite suite samples it.", "anchors": ["code/latte/barvinok/barvinok.cpp: barvinok_DFS, barvinokDecomposition_Single"]}
{"id": "C19", "title": "Todd / exponential Taylor coefficients are exact", "statement": "The truncated series returned for e^{at}, for the reciprocal of a series, for t/(1-e^{-t}) and for products agree with the exact formal power series coefficients up to the requested order.", "quantifier": "all orders, all rational parameters", "why_tests_cant": "The domain is unbounded (arbitrary-precision integers / arbitrary sizes); a finite suite samples it.", "anchors": ["code/latte/todd/todd-expansion.cpp, todd/*.cpp: taylor_exponential, taylor_reciprocal, taylor_for_todd, taylor_product, evaluate_todd"]}
{"id": "C20", "title": "Exponential residue gives the lattice point count", "statement": "If the signed cones with their parallelepiped points represent the generating function of a finite set of integer points, then for every direction not orthogonal to a ray the sum of the per-cone residues equals the number of points.", "quantifier": "all dimensions, finite sets, signed unimodular-or-not cone lists, all generic directions", "why_tests_cant": "The domain is unbounded (arbitrary-precision integers / arbitrary sizes); a finite suite samples it.", "anchors": ["code/latte/ExponentialSubst.cpp: computeExponentialResidueWeights, computeExponentialResidue, Exponential_Single_Cone_Parameters"]}
{"id": "C21", "title": "Sparse polynomial store is the finite map of summed coefficients", "statement": "After inserting any list of terms into the polynomial store, the coefficient reported for each exponent vector is the sum of the inserted coefficients for it.", "quantifier": "all insertion sequences, all variable counts, exponents of any size", "why_tests_cant": "Burst thresholds and histories interact; unboundedly many histories.", "anchors": ["code/latte/integration/burstTrie.h: BurstTrie, BurstContainer; integration/burstTrie.hpp"]}
{"id": "C22", "title": "Term iteration is ordered, complete and duplicate-free", "statement": "Iterating over the polynomial store yields each stored exponent vector exactly once in increasing lexicographic order and then signals the end.", "quantifier": "all insertion sequences", "why_tests_cant": "As above; iterator state depends on the whole trie shape.", "anchors": ["code/latte/integration/iterators.hpp, burstTrie.h: BTrieIterator, BurstTrieIterator"]}
{"id": "C23", "title": "Polynomial multiplication with degree window is the truncated product", "statement": "Multiplying two stored polynomials with per-variable minimum and maximum exponents gives exactly the terms of the product polynomial within the window.", "quantifier": "all polynomials, all windows", "why_tests_cant": "The domain is unbounded (arbitrary-precision integers / arbitrary sizes); a finite suite samples it.", "anchors": ["code/latte/integration/multiply.h, GeneralMonomialSum.h: BTrieMultiplier, multiply"]}
{"id": "C24", "title": "A monomial is rewritten exactly as powers of linear forms", "statement": "Decomposing c*x^M with |M|=m>0 gives linear forms l_k with rational coefficients c_k such that sum c_k l_k(x)^m / m! equals c*x^M as polynomials.", "quantifier": "all exponent vectors, all coefficients, all numbers of variables", "why_tests_cant": "The domain is unbounded (arbitrary-precision integers / arbitrary sizes); a finite suite samples it.", "anchors": ["code/latte/integration/PolyTrie.cpp: decompose; integration/PolyRep.cpp: _decompose"]}
{"id": "C25", "title": "Polynomial text round-trip", "statement": "Printing a stored polynomial (list of [coefficient,[exponents]]) and parsing the text gives back the same polynomial.", "quantifier": "all non-empty polynomials", "why_tests_cant": "The domain is unbounded (arbitrary-precision integers / arbitrary sizes); a finite suite samples it.", "anchors": ["code/latte/integration/PolyTrie.cpp: printMonomials, loadMonomials, parseMonomials"]}
{"id": "C26", "title": "Integral of a power of a linear form over a simplex", "statement": "For a simplex s_0..s_d with normalised volume v and a form l with coefficient c and power m, the returned value is c*v*h_m(<l,s_0>,...,<l,s_d>)*m!-free scaling m!/(m+d)! of the complete homogeneous symmetric polynomial, both when the values <l,s_i> are distinct (regular) and when they repeat (residue case).", "quantifier": "all dimensions, simplices, forms and powers (form not vanishing on all vertices)", "why_tests_cant": "The domain is unbounded (arbitrary-precision integers / arbitrary sizes); a finite suite samples it.", "anchors": ["code/latte/integration/newIntegration.cpp: update, integrateLinFormSum; integration/residue.cpp: computeResidue"]}
{"id": "C27", "title": "Integer power and binomial helpers are exact", "statement": "The integer power helper returns a^b and the binomial helper returns C(a,b) within their supported exponent ranges; outside the array bound the power helper's behaviour is undefined.", "quantifier": "all integers a, all exponents", "why_tests_cant": "The domain is unbounded (arbitrary-precision integers / arbitrary sizes); a finite suite samples it.", "anchors": ["code/latte/integration/residue.cpp: Power_ZZ, AChooseB"]}
{"id": "C28", "title": "Bernoulli numbers of the knapsack solver are exact", "statement": "For every k the computed table B[0..k] consists of the Bernoulli numbers (first kind).", "quantifier": "all k", "why_tests_cant": "The domain is unbounded (arbitrary-precision integers / arbitrary sizes); a finite suite samples it.", "anchors": ["code/latte/top-knapsack/TopKnapsack.cpp: BernoulliFirstKind::setBernoulli"]}
{"id": "C29", "title": "Moebius weights implement inclusion-exclusion", "statement": "For a gcd-closed list containing 1, the computed weights satisfy: for every positive r, the sum of the weights of the list elements divisible by r is 1 if r divides some element of the list and 0 otherwise; and every weight is computed.", "quantifier": "all finite lists of positive integers containing 1", "why_tests_cant": "The domain is unbounded (arbitrary-precision integers / arbitrary sizes); a finite suite samples it.", "anchors": ["code/latte/top-knapsack/TopKnapsack.cpp: MobiusList::computeMobius, insertGCD"]}
{"id": "C30", "title": "Both gcd enumeration methods agree with the definition", "statement": "The dynamic-programming enumeration collects exactly the gcds of sublists with at least N+1-k elements; the subset enumeration collects exactly the same set when the gcd of the whole list is one.", "quantifier": "all lists of positive integers, all k", "why_tests_cant": "The domain is unbounded (arbitrary-precision integers / arbitrary sizes); a finite suite samples it.", "anchors": ["code/latte/top-knapsack/TopKnapsack.cpp: everyGCDFromEntireList, everyGCDFromSubsets, findGCDs"]}
{"id": "C31", "title": "Knapsack binomial helper", "statement": "For 0 <= k <= n the helper returns the binomial coefficient; for k > n it never returns.", "quantifier": "all n, k", "why_tests_cant": "The domain is unbounded (arbitrary-precision integers / arbitrary sizes); a finite suite samples it.", "anchors": ["code/latte/top-knapsack/TopKnapsack.cpp: TopKnapsack::binomial"]}
{"id": "C32", "title": "Step-function expressions denote what was computed", "statement": "The value at every integer time t of the expression tree built by add, subtract, times, div, pow on periodic functions equals the corresponding arithmetic on the values of the operands; comparing with a constant is sound.", "quantifier": "all expression histories, all t", "why_tests_cant": "The domain is unbounded (arbitrary-precision integers / arbitrary sizes); a finite suite samples it.", "anchors": ["code/latte/top-knapsack/PeriodicFunction.cpp"]}
{"id": "C33", "title": "Cost perturbation preserves the order of the original objective", "statement": "If the original objective strictly favours a ray direction, so does the perturbed objective. (Violated: rays with a large negative coordinate make the scaling factor negative.)", "quantifier": "all costs, all cones, all random choices", "why_tests_cant": "Depends on every random draw.", "anchors": ["code/latte/ConeInfo.cpp: Calculate_Pertubation"]}
{"id": "C34", "title": "Non-negativity keyword adds exactly x_i >= 0", "statement": "Requesting non-negativity of variable i adds one inequality whose solution set is x_i >= 0 and leaves the other rows and the linearity set unchanged.", "quantifier": "all matrices, all indices, homogenised or not", "why_tests_cant": "The domain is unbounded (arbitrary-precision integers / arbitrary sizes); a finite suite samples it.", "anchors": ["code/latte/ReadLatteStyle.cpp: add_nonnegativity, ReadLatteStyleMatrix"]}
{"id": "C35", "title": "LattE matrix file round-trip", "statement": "Writing a matrix with a linearity set in LattE format and reading it gives the same matrix and linearity set.", "quantifier": "all rational matrices, all linearity sets", "why_tests_cant": "The domain is unbounded (arbitrary-precision integers / arbitrary sizes); a finite suite samples it.", "anchors": ["code/latte/ReadLatteStyle.cpp: WriteLatteStyleMatrix, ReadLatteStyleMatrix"]}
{"id": "C36", "title": "Subcone file round-trip", "statement": "Writing subcones of a master cone to a subcone file and reading them back gives cones with the same sets of rays in the same order.", "quantifier": "all master cones with distinct rays, all lists of subcones", "why_tests_cant": "The domain is unbounded (arbitrary-precision integers / arbitrary sizes); a finite suite samples it.", "anchors": ["code/latte/ReadSubcones.cpp: SubconePrintingConeConsumer, IncrementalVectorFileWriter, ReadSubcones"]}
{"id": "C37", "title": "Big-integer library conversion is lossless", "statement": "Converting an arbitrary-precision integer between the two bignum libraries and back yields the same integer, sign included.", "quantifier": "all integers", "why_tests_cant": "The domain is unbounded (arbitrary-precision integers / arbitrary sizes); a finite suite samples it.", "anchors": ["code/latte/latte_gmp.cpp: convert_ZZ_to_mpz, convert_mpz_to_ZZ"]}
{"id": "C38", "title": "Random graph generator always yields a connected simple graph", "statement": "For every sequence of random draws the spanning tree built has size-1 edges and connects all vertices, and edge insertion keeps the edge list duplicate-free.", "quantifier": "all sizes, all random sequences", "why_tests_cant": "Random schedule space is unbounded.", "anchors": ["code/latte/buildPolytopes/GraphMaker.cpp: makeRandomSpanningTree, addEdgeInOrder, makeRandomConnectedGraph"]}
{"id": "C39", "title": "Merging equal factors preserves the Lawrence term", "statement": "Combining repeated linear factors of a term's denominator (adding exponents) leaves the product unchanged, leaves pairwise distinct factors, and moves the pole factor to the front.", "quantifier": "all terms", "why_tests_cant": "The domain is unbounded (arbitrary-precision integers / arbitrary sizes); a finite suite samples it.", "anchors": ["code/latte/valuation/Perturbation.cpp: LinearLawrenceIntegration::updatePowers"]}
{"id": "C40", "title": "Simplex volume from the homogenised determinant", "statement": "For a simplicial cone over a polytope at height one, the returned volume is |det|/(product of the heights * n!), and equals the volume of the simplex.", "quantifier": "all dimensions, all rational simplices", "why_tests_cant": "The domain is unbounded (arbitrary-precision integers / arbitrary sizes); a finite suite samples it.", "anchors": ["code/latte/valuation/PolytopeValuation.cpp: findVolumeUsingDeterminant"]}
{"id": "C41", "title": "Integer-equivalence check of shifted vertices is sound", "statement": "If the check accepts replacing the vertex of a cone, both shifted cones contain the same integer points.", "quantifier": "all cones, all pairs of rational vertices", "why_tests_cant": "The domain is unbounded (arbitrary-precision integers / arbitrary sizes); a finite suite samples it.", "anchors": ["code/latte/Irrational.cpp: assertConesIntegerEquivalent, isConeIrrational"]}
{"id": "C42", "title": "Failed random direction leaves no trace", "statement": "If a random direction turns out not to be generic, the computation restarts and the final answer equals that of a run whose first direction was generic.", "quantifier": "all sequences of directions, all points of failure", "why_tests_cant": "Point of failure ranges over the whole run.", "anchors": ["code/latte/barvinok/barvinok.cpp: barvinokDecomposition_List; ExponentialSubst.cpp: InitializeComputation"]}
{"id": "C43", "title": "Block storage of polynomials agrees with the finite map", "statement": "Inserting any terms into the block-based polynomial store sums coefficients per exponent vector, at any number of terms; and decomposing it touches only allocated entries. (The latter fails beyond one block.)", "quantifier": "all insertion sequences", "why_tests_cant": "Needs more terms than a block; unbounded.", "anchors": ["code/latte/integration/PolyRep.cpp: _insertMonomial, _decompose; integration/blockReps.h"]}
{"id": "C44", "title": "Ehrhart coefficients from the exponential substitution count every dilation", "statement": "For signed simplicial cones with facet data whose vertices move along integer directions, the coefficients accumulated by the exponential Ehrhart consumer, for any vector not orthogonal to a ray, form a polynomial whose value at every integer N for which the moved cones represent a finite lattice point set is exactly the number of its points.", "quantifier": "all dimensions, all lists of cones, all generic vectors, all dilation factors", "why_tests_cant": "The polynomial must be right at infinitely many dilations.", "anchors": ["code/latte/ExponentialEhrhart.cpp: Exponential_Ehrhart_Parameters::InitializeComputation, ConsumeCone", "code/latte/ExponentialSubst.cpp"]}
{"id": "C45", "title": "Polynomial objects behave like polynomials through any history", "statement": "Any finite history of construction, term insertion, addition, in-place scaling, copying, multiplication and setting to a constant on polynomial-sum objects leaves each object denoting the polynomial computed by the same history of mathematical operations, and never touches freed memory. (Setting an object to the constant 0 leaves it with a pointer to freed storage.)", "quantifier": "all histories", "why_tests_cant": "Histories are unbounded.", "anchors": ["code/latte/integration/GeneralMonomialSum.h: GeneralMonomialSum (insertMonomial, setToConstant, multiply, add, copy, destroyMonomials)"]}
{"id": "C46", "title": "Block-storage multiplication computes the full product", "statement": "Multiplying two polynomials with the block-storage overload inserts into the result the product of every term of the first factor with every term of the second. (It uses only the first term of the first factor.)", "quantifier": "all pairs of polynomials, all windows", "why_tests_cant": "First factors with a single term hide the defect.", "anchors": ["code/latte/integration/multiply.h: multiply(..., _monomialSum&, ...)"]}
{"id": "C47", "title": "Text round-trip of sums of powers of linear forms", "statement": "Printing a sum of powers of linear forms and reading the text back gives the same sum. (Printing emits the stored coefficient c*d!, reading multiplies by d! again, so the value is scaled by d! for each term of degree d.)", "quantifier": "all sums of powers of linear forms of any degree", "why_tests_cant": "Degrees 0 and 1 hide the factor.", "anchors": ["code/latte/integration/PolyTrie.cpp: printLinForms, parseLinForms, insertLinForm, loadLinForms"]}
{"id": "C48", "title": "Lawrence integration does not depend on the random direction", "statement": "Given the tangent cones of a polytope and a power of a linear form, the Lawrence integration returns the value of the polynomial that Lawrence's formula determines, for every linear form including those orthogonal to rays, for every sequence of random perturbations drawn and for every history of the container the forms are read from; for a simplex the value is the integral.", "quantifier": "all dimensions, all cone lists, all linear forms and degrees, all random draws", "why_tests_cant": "The random draws and the set of degenerate linear forms are infinite.", "anchors": ["code/latte/valuation/PolytopeValuation.cpp: findIntegralUsingLawrence", "code/latte/valuation/Perturbation.cpp: LinearPerturbationContainer, LinearLawrenceIntegration"]}
{"id": "C49", "title": "The search for a perturbation ends", "statement": "For every polytope with pointed tangent cones the search for a direction resolving all zero denominators ends for some sequence of random draws, and whenever it ends the direction found resolves them all. (Fails: the moment-curve and small-magnitude steps can reject forever while the numbers drawn come from a bounded range.)", "quantifier": "all polytopes, all forms, all draw sequences", "why_tests_cant": "Non-termination is not observable by a test.", "anchors": ["code/latte/valuation/Perturbation.cpp: LinearPerturbationContainer::findPerturbation, tryCurrentPerturbation, tryNoPerturbation"]}
{"id": "C50", "title": "Integral by triangulation is the Lebesgue integral", "statement": "For a polytope given by its rational vertices (tangent cones) or by homogeneous points, and a polynomial or a sum of powers of linear forms, the integral reported by the triangulation method is the Lebesgue integral over the convex hull of the vertices, whatever the dilation needed to clear denominators, provided the triangulation engine returns a triangulation.", "quantifier": "all dimensions below 1000, all polytopes, all polynomials with distinct monomials, all sums of powers of linear forms, all triangulations", "why_tests_cant": "The domain is unbounded (arbitrary-precision integers / arbitrary sizes); a finite suite samples it.", "anchors": ["code/latte/valuation/PolytopeValuation.cpp: findIntegral, findIntegralPolynomialToLinearForms, findIntegralUsingTriangulation, dilatePolytopeVertexRays, dilatePolytopeOneCone, dilatePolynomialToLinearForms, dilateLinearForms, convertToOneCone"]}
{"id": "C51", "title": "Volume by triangulation is the Lebesgue volume", "statement": "The volume reported by the triangulation method is the Lebesgue volume of the convex hull of the vertices, for either input format.", "quantifier": "all dimensions, all polytopes, all triangulations", "why_tests_cant": "The domain is unbounded (arbitrary-precision integers / arbitrary sizes); a finite suite samples it.", "anchors": ["code/latte/valuation/PolytopeValuation.cpp: findVolume, findVolumeUsingDeterminant, convertToOneCone, triangulatePolytopeCone"]}
{"id": "C52", "title": "A polynomial may be entered with repeated monomials", "statement": "Entering a monomial several times is the same as entering it once with the sum of the coefficients when integrating. (Fails: integration aborts on an assertion about the number of terms.)", "quantifier": "all polynomials, all polytopes, both methods", "why_tests_cant": "Only inputs with repetitions show it, for every polytope.", "anchors": ["code/latte/valuation/PolytopeValuation.cpp: dilatePolynomialToLinearForms", "code/latte/integration/PolyTrie.cpp: insertMonomial"]}
{"id": "C53", "title": "A valuation object can be asked several questions", "statement": "The answers of a valuation object do not depend on the questions asked before. (Fails: an integral leaves the polytope dilated by the common denominator of its vertices.)", "quantifier": "all histories of requests", "why_tests_cant": "Histories; integral vertices hide it.", "anchors": ["code/latte/valuation/PolytopeValuation.cpp: findIntegral, findVolume, dilatePolytopeVertexRays"]}
{"id": "C54", "title": "Both volume methods agree on homogenized input", "statement": "For a polytope given by homogeneous points, the cone method reports the same volume as the triangulation method. (Fails: it reports 0.)", "quantifier": "all polytopes, all random draws", "why_tests_cant": "The domain is unbounded (arbitrary-precision integers / arbitrary sizes); a finite suite samples it.", "anchors": ["code/latte/valuation/PolytopeValuation.cpp: PolytopeValuation, triangulatePolytopeVertexRayCone, findVolumeUsingLawrence"]}
{"id": "C55", "title": "Volume by cone decomposition is the Lebesgue volume", "statement": "For a polytope given by its tangent cones with rational vertices, whatever random vectors the cone-decomposition method draws, a volume it reports is the Lebesgue volume of the polytope, provided the engine decomposes each tangent cone into simplicial cones.", "quantifier": "all dimensions, all full-dimensional polytopes (simple or not), all decompositions, all random draws", "why_tests_cant": "The domain is unbounded (arbitrary-precision integers / arbitrary sizes); a finite suite samples it.", "anchors": ["code/latte/valuation/PolytopeValuation.cpp: findVolume, findVolumeUsingLawrence, triangulatePolytopeVertexRayCone"]}
{"id": "C56", "title": "Integral by cone decomposition is the Lebesgue integral", "statement": "For a polytope given by its tangent cones with rational vertices and a polynomial or a sum of powers of linear forms, whatever random perturbations the cone-decomposition method draws, an integral it reports is the Lebesgue integral over the polytope; in particular it agrees with the triangulation method.", "quantifier": "all dimensions, all full-dimensional polytopes, all decompositions, all polynomials with distinct monomials, all sums of powers of linear forms, all random draws", "why_tests_cant": "The domain is unbounded (arbitrary-precision integers / arbitrary sizes); a finite suite samples it.", "anchors": ["code/latte/valuation/PolytopeValuation.cpp: findIntegral, findIntegralUsingLawrence, dilatePolytopeVertexRays", "code/latte/valuation/Perturbation.cpp"]}
{"id": "C57", "title": "The volume search by random vectors ends", "statement": "For every polytope whose cone decomposition has fewer than 10000 rays there is a vector in the range of the random generator such that the volume computation returns as soon as a round draws it, whatever was drawn before.", "quantifier": "all polytopes with fewer than 10000 rays, all draw histories", "why_tests_cant": "Termination over all random histories is not testable.", "anchors": ["code/latte/valuation/PolytopeValuation.cpp: findVolumeUsingLawrence"]}
{"id": "C58", "title": "Default periodic functions behave as zero in both implementations", "statement": "In the build without shared pointers, a periodic function that was created and never assigned behaves as the constant 0 in every operation. (Fails: subtracting from it yields the subtrahend itself, multiplying by it dereferences a null pointer.)", "quantifier": "all periodic functions, all operations", "why_tests_cant": "The failing operand is special but the other operand is arbitrary.", "anchors": ["code/latte/top-knapsack/PeriodicFunction.cpp: add, subtract, times (raw-pointer variant)"]}
{"id": "C59", "title": "Random disconnected graph generator", "statement": "For four or more vertices and every sequence of random draws, a graph delivered by the disconnected-graph generator is simple, has exactly the number of edges asked for and is not connected; and the generator can always finish. (Fails: it never ends if more edges are asked for than two cliques can hold.)", "quantifier": "all sizes, all edge counts, all draw sequences", "why_tests_cant": "Random histories; non-termination is not observable by a test.", "anchors": ["code/latte/buildPolytopes/GraphMaker.cpp: makeRandomDisconnectedGraph"]}
{"id": "C60", "title": "Graph families are the graphs they are named after", "statement": "The generated linear, circle, wheel, checkerboard and Petersen graphs have exactly the edges of the path, cycle, wheel, grid and generalized Petersen graph, each listed once; the binomial helper returns the binomial coefficient.", "quantifier": "all sizes", "why_tests_cant": "The domain is unbounded (arbitrary-precision integers / arbitrary sizes); a finite suite samples it.", "anchors": ["code/latte/buildPolytopes/GraphMaker.cpp: makeLinearGraph, makeCircleGraph, makeCircleWithCenter, makeCheckerboard, makePetersenFunGraph, nchoosek"]}
{"id": "C61", "title": "Interrupted subcone files", "statement": "A subcone file left by a process stopped at any point is either rejected by the reader or delivers the cones written so far. (Fails: until the number of vectors is updated for the first time, the reader silently takes the file for a complete empty one.)", "quantifier": "all histories of writes and updates, all crash points", "why_tests_cant": "Crash points and histories.", "anchors": ["code/latte/ReadSubcones.cpp: IncrementalVectorFileWriter, InputVectorFile"]}
{"id": "C62", "title": "Aggregating equations keeps the non-negative integer solutions", "statement": "Replacing chosen rows of a system by a single aggregated equation with slack variables keeps exactly the non-negative integer solutions, each with exactly one value of the slack variables. (Fails for degenerate data, and the command-line tool either rejects its input or loses all the chosen rows.)", "quantifier": "all systems with non-negative integer data in the chosen rows, all choices of rows", "why_tests_cant": "The domain is unbounded (arbitrary-precision integers / arbitrary sizes); a finite suite samples it.", "anchors": ["code/latte/aggregation/aggregate.cpp"]}
{"id": "C63", "title": "Irrationalization keeps the lattice points", "statement": "Moving the vertex of a cone by the irrationalizer always succeeds; the moved cone contains exactly the same lattice points as the cone at its original vertex, and no lattice point lies on a facet hyperplane of the moved cone. Decomposing the moved cone into primal cones therefore counts every lattice point of the original cone exactly once, without any dualization.", "quantifier": "all dimensions, all simplicial cones, all pointed cones given by facets and an optimal LP solution, all rational vertices, all lattice points", "why_tests_cant": "The domain is unbounded (arbitrary-precision integers / arbitrary sizes); a finite suite samples it.", "anchors": ["code/latte/Irrational.cpp: irrationalizeCone, computeConeStabilityCube_simplicial, computeConeStabilityCube_general, simplifyConeStabilityCube", "code/latte/barvinok/barvinok.cpp: barvinok_Single, barvinokDecomposition_List"]}
{"id": "C64", "title": "The irrationalized vertex stays irrational in the decomposition", "statement": "For every cone produced by the recursive decomposition within the depth for which the vertex was moved, no lattice point lies on a facet hyperplane; so the decomposition throws the not-irrational exception only if it goes deeper than the estimate, which cannot happen if every step reduces the determinant as Minkowski's theorem promises.", "quantifier": "all dimensions, all simplicial cones, all rational vertices, all runs of the recursion, all short-vector choices", "why_tests_cant": "The domain is unbounded (arbitrary-precision integers / arbitrary sizes); a finite suite samples it.", "anchors": ["code/latte/Irrational.cpp: irrationalizeCone, estimate_barvinok_depth", "code/latte/barvinok/barvinok.cpp: barvinok_DFS, checkConeIrrational"]}
{"id": "C65", "title": "The count is the number of lattice points, from inequalities to number", "statement": "For a polytope given by inequalities together with its vertices, every triangulation of its tangent (or dual) cones, every choice of short vectors and every random vector, a number returned by the counting program (dual, irrational primal or irrational all-primal method) is the number of integer points of the polytope; with short vectors as promised the dual method does return a number as soon as the random generator delivers a generic vector, and such vectors exist.", "quantifier": "all dimensions, all polytopes with rational vertices, all triangulations, all decompositions, all random draws", "why_tests_cant": "The domain is unbounded (arbitrary-precision integers / arbitrary sizes); a finite suite samples it.", "anchors": ["code/latte/count.cpp", "code/latte/barvinok/barvinok.cpp", "code/latte/barvinok/dec.cpp", "code/latte/ExponentialSubst.cpp", "code/latte/Irrational.cpp: irrationalizeCones"]}
{"id": "C66", "title": "A decomposition step always finds a short vector", "statement": "Whenever a simplicial cone with index greater than one is decomposed, a vector is found that makes the index of every new cone strictly smaller, so the assertion of the decomposition step never stops the program; and the new indices satisfy the bound that keeps the recursion shallow.", "quantifier": "every dimension, every simplicial cone of index > 1, every behaviour of the lattice reduction within its documented contract", "why_tests_cant": "the claim is about all lattices; random tests meet only lattices whose reduced bases are much better than the worst case", "anchors": ["code/latte/barvinok/barvinok.cpp:barvinokStep", "code/latte/barvinok/ComputeOmega.cpp:ComputeOmega"]}
{"id": "C67", "title": "Eliminating the equations of a polyhedron keeps its lattice points", "statement": "Projecting out the equations returns inequalities in fewer variables together with an affine map that is a bijection between the integer points of the new polyhedron and those of the original (dilated) one; the objective changes by a constant; a number of lattice points that is written instead is the right one; solutions and cones projected up again lie in the original polyhedron. (Fails: as many equations as variables together with an inequality always give 0; dependent equations without integer solution are not noticed; dilation is ignored in the integrality test and when projecting up; more equations than variables read out of bounds.)", "quantifier": "all dimensions, all numbers of equations and inequalities, all integer data, all dilation factors", "why_tests_cant": "The domain is unbounded (arbitrary-precision integers / arbitrary sizes); a finite suite samples it.", "anchors": ["code/latte/preprocess.cpp: preprocessProblem, ihermite, ProjectingUp", "code/latte/ProjectUp.cpp: ProjectUp2", "code/latte/ReadPolyhedron.cpp: projectOutVariables"]}
{"id": "C68", "title": "Integer kernel of a matrix", "statement": "For every integer matrix, of any shape and rank, the echelon form is reached after finitely many steps by unimodular row operations and column exchanges, and the rows of the transformation beyond the rank are a lattice basis of the integer solutions of the homogeneous equations.", "quantifier": "all shapes, all ranks, all integer entries", "why_tests_cant": "The domain is unbounded (arbitrary-precision integers / arbitrary sizes); a finite suite samples it.", "anchors": ["code/latte/preprocess.cpp: ihermite, preprocessProblem, preprocessProblem_hack", "code/latte/top-knapsack/TopKnapsack.cpp: findLatticeBasis"]}
{"id": "C69", "title": "Ehrhart polynomials, from inequalities to coefficients", "statement": "For an integral polytope given by inequalities and its vertices, the coefficients returned in Ehrhart mode (dual, irrational primal or irrational all-primal method) are those of the unique polynomial whose value at every positive integer t is the number of integer points of the t-fold dilation, whatever random vectors were tried and however often the computation was restarted; a polytope with a non-integral vertex is rejected and no integral one is; the facets taken from the tight inequalities are the right ones although vertices are moved to the origin in between.", "quantifier": "all dimensions, all integral polytopes, all dilation factors, all triangulations, all decompositions, all random draws", "why_tests_cant": "The domain is unbounded (arbitrary-precision integers / arbitrary sizes); a finite suite samples it.", "anchors": ["code/latte/count.cpp", "code/latte/ExponentialEhrhart.cpp", "code/latte/dual.cpp: computeTightInequalitiesOfCones", "code/latte/barvinok/dec.cpp", "code/latte/Irrational.cpp: irrationalizeCones"]}
{"id": "C70", "title": "The default counting method (polynomial substitution) returns the number of lattice points", "statement": "With the default method of the counting program, a number that is returned is the number of integer points of the polytope, although every term is rounded down to ten decimal digits: the rounding errors never reach one half. It does not depend on the random vector, nor on how often the computation was restarted because a vector was orthogonal to a ray, and the program ends in the first round whose vector is not. (Fails: the precision is a constant, nothing counts the terms; it is enough for up to 5 billion terms, and a decomposition with 10 billion terms is exhibited on which the answer is wrong.)", "quantifier": "all dimensions, all polytopes, all triangulations, all decompositions, all random draws, every number of terms", "why_tests_cant": "The domain is unbounded (arbitrary-precision integers / arbitrary sizes); a finite suite samples it.", "anchors": ["code/latte/Residue.cpp: Residue_Single_Cone", "code/latte/barvinok/dec.cpp: decomposeAndComputeResidue, Standard_Single_Cone_Parameters::ConsumeCone, barvinokDecomposition_List"]}
{"id": "C71", "title": "The decomposition into cones is polynomially small in fixed dimension", "statement": "A simplicial cone of determinant d in dimension n is decomposed into at most n^t cones and to depth at most t as soon as the number of bits of d is at most (n/(n-1))^t, hence into at most n times (number of bits)^(n(n-1)) cones, if the lattice reduction delivers a shortest vector; and into at most n^(d-1) whatever it delivers.", "quantifier": "all dimensions, all simplicial cones, all three methods, all lattice reductions, all orders of the recursion", "why_tests_cant": "the claim is about the growth over all inputs; running times of tests show nothing about it", "anchors": ["code/latte/barvinok/barvinok.cpp: barvinokStep, barvinok_DFS, barvinok_Single, barvinokDecomposition_Single"]}
{"id": "C72", "title": "Counting with all cones in memory returns the number of lattice points", "statement": "When all cones are kept in memory (count --memsave=no), the number returned is the number of integer points of the polytope, however many cones there are (the working precision grows with their number), whatever path the deterministic search for a vector takes, whatever random vectors are drawn afterwards and whatever translation of the exponents is chosen; the vector finally used is not orthogonal to any ray although its scalar products are only updated incrementally; the computation ends at the latest when such a vector is drawn. If equations were eliminated, the computation takes place in the original coordinates and the number is that of the original (dilated) polytope. Cones that are not unimodular are rejected, never miscounted.", "quantifier": "all dimensions, all non-empty polytopes with or without equations, all triangulations, all decompositions with fewer than 2^31 rays in total, all random draws", "why_tests_cant": "The domain is unbounded (arbitrary-precision integers / arbitrary sizes); a finite suite samples it.", "anchors": ["code/latte/Residue.cpp: Residue", "code/latte/barvinok/dec.cpp: decomposeCones, Collecting_Single_Cone_Parameters", "code/latte/genFunction/piped.cpp: computePointsInParallelepipeds", "code/latte/ProjectUp.cpp: ProjectUp2", "code/latte/count.cpp"]}
{"id": "C73", "title": "The Ehrhart series (count --ehrhart-taylor) lists the numbers of lattice points of the dilations", "statement": "For every non-empty bounded polytope with integral inequalities and every N, the first coefficients of the Ehrhart series printed by the program are the numbers of integer points of the dilations 0, 1, ..., N of the polytope, although every cone contributes a rounded number; they do not depend on the random vectors, on the number of restarts, on the triangulation or on what the memory pool of expression nodes was used for before; the program ends as soon as a vector is drawn that is not orthogonal to a ray at height zero. (Fails: N = 0 writes beyond the end of the arrays; the precision is a constant, sufficient for up to 5 billion cones.)", "quantifier": "all dimensions, all polytopes, all N, all triangulations of the cone over the polytope, all decompositions, all random draws", "why_tests_cant": "The domain is unbounded (arbitrary-precision integers / arbitrary sizes); a finite suite samples it.", "anchors": ["code/latte/ResSingle.cpp: ResidueFunction_Single_Cone", "code/latte/PolyTree.cpp", "code/latte/barvinok/dec.cpp: decomposeAndComputeResidue", "code/latte/count.cpp"]}
{"id": "C74", "title": "Expanding expressions into power series", "statement": "Expanding an expression built from monomials, sums, products, powers and quotients in a pool of shared nodes delivers the coefficients of its value up to the requested degree; quotients are exact up to scaling and rounding down; the result does not depend on what was expanded before, on which subexpressions are shared, on stored intermediate results or on earlier uses of the pool. (A power with exponent zero never returns.)", "quantifier": "all expressions (directed acyclic graphs of any size), all degrees, all histories of expansions", "why_tests_cant": "The domain is unbounded (arbitrary-precision integers / arbitrary sizes); a finite suite samples it.", "anchors": ["code/latte/PolyTree.cpp: PolyTree_Node::Taylor_Expansion, T_Node::Taylor_Expansion, Node_Controller"]}
{"id": "C75", "title": "Triangulating a cone delivers a triangulation", "statement": "Asked to triangulate a full-dimensional cone (not a non-simplicial subdivision), with cddlib or 4ti2, with random, biased, Delone or prescribed heights, the program ends and hands over simplicial cones spanned by rays of the cone, which cover it exactly and whose interiors do not overlap; 'Lower-dimensional cone in polyhedral subdivision' never happens; heights without n+1 lifted rays on a hyperplane suffice, and all but a fraction C(N,n+1)/maxHeight of the draws are of this kind. (Where the heights drawn are linear, 4ti2 hands over the cone undivided and cddlib may recurse for ever.)", "quantifier": "all dimensions, all lists of rays that span the space, all heights, all random draws, all results of the facet enumeration", "why_tests_cant": "The domain is unbounded (arbitrary-precision integers / arbitrary sizes); a finite suite samples it.", "anchors": ["code/latte/triangulation/RegularTriangulationWithCddlib.cpp: triangulate_cone_with_cddlib, cone_from_ray_set", "code/latte/triangulation/RegularTriangulationWith4ti2.cpp: triangulate_cone_with_4ti2, lindep_heights_p", "code/latte/triangulation/RegularTriangulation.cpp", "code/latte/triangulation/triangulate.cpp: triangulateCone"]}
{"id": "C76", "title": "Counting, with triangulation, from inequalities and vertices to the number", "statement": "From the inequalities of a polytope and the list of its vertices, with the cones at the vertices triangulated anew in every round with random heights, decomposed and summed up, a number that is returned is the number of integer points, whatever the random heights, the facet enumeration and the random vectors are; in a round in which all cones are triangulated and the vector is generic, it is returned.", "quantifier": "all dimensions, all polytopes, all random heights and vectors, all numbers of rounds, both triangulation methods", "why_tests_cant": "The domain is unbounded (arbitrary-precision integers / arbitrary sizes); a finite suite samples it.", "anchors": ["code/latte/barvinok/barvinok.cpp: barvinokDecomposition_Single", "code/latte/barvinok/dec.cpp: barvinokDecomposition_List", "code/latte/triangulation/triangulate.cpp: triangulateCone", "code/latte/dual.cpp: computeTightInequalitiesOfCones"]}
{"id": "C77", "title": "Integer optimization by binary search", "statement": "latte-maximize bbs (latte-minimize bbs) prints the greatest (least) value of a linear function on the integer points of a polytope and the number of integer points with this value, after a number of counts logarithmic in the range of values. (It does so for maximization when the greatest value on the polytope itself is an integer and 150-bit rounding does no harm, e.g. for dyadic vertices. Otherwise it stops with status 1, minimization prints the negated value whenever an integer point attains the least value on the polytope, and rounding can give a wrong optimum.)", "quantifier": "all polytopes given by equations and inequalities, all linear functions, all optimal solutions the LP solver may return", "why_tests_cant": "The domain is unbounded (arbitrary-precision integers / arbitrary sizes); a finite suite samples it.", "anchors": ["code/latte/binarySearchIP.cpp: binarySearch, OptimalCheck, OptimalCheckEqu, createLatteFile, createLatteFileEqu, createCddIneLPFile2", "code/latte/CheckEmpty.cpp: CheckEmpty", "code/latte/countDriver.cpp: main", "code/latte/maximize.cpp", "code/latte/minimize.cpp"]}
{"id": "C78", "title": "The pointer-based priority queues of the optimizer", "statement": "After any sequence of insertions and removals, in any order and with equal keys, the queues used by the integer optimizer (of exponent vectors and of cones) hold exactly the items inserted and not removed; a removal returns an item with the greatest key; the test whether the greatest key equals a given value answers correctly, also for the empty queue; no insertion or removal follows a null pointer; removing from an empty queue is reported.", "quantifier": "all item types, all keys, all histories of insertions and removals", "why_tests_cant": "The domain is unbounded (arbitrary-precision integers / arbitrary sizes); a finite suite samples it.", "anchors": ["code/latte/ConeInfo.cpp: Vector_Heap::Add_Heap, Pop_Top_Heap, Check_Top_Heap, Restore_Up, Restore_Down, ConeInfo_Heap::Add_Heap, Pop_Top_Heap, Check_Top_Heap", "code/latte/ConeInfo.h"]}
{"id": "C79", "title": "Integer optimization by digging", "statement": "latte-maximize and latte-minimize print an integer point of the polytope at which the linear function is greatest (least), its value and, if the function was not perturbed, the number of such points; a polytope without integer points is reported as such; the program ends whatever the random draws, the cancellations between cones and the equal keys in the queues are, provided the hash table is large enough. With the option single the same is achieved from the cone at one LP-optimal vertex. (Fails: when the function is orthogonal to a ray it is perturbed with a factor computed from signed ray coordinates; if that is negative the worst point is reported as the best. With single: the number counts points of the cone outside the polytope; a polytope without integer points is never noticed and the program runs for ever; a function orthogonal to a ray stops the program. A hash table smaller than the number of values of a level hangs.)", "quantifier": "all dimensions, all polytopes, all linear functions, all unimodular decompositions, all random draws, all hash functions and table sizes", "why_tests_cant": "The domain is unbounded (arbitrary-precision integers / arbitrary sizes); a finite suite samples it.", "anchors": ["code/latte/IntegralHull.cpp: SolveIP", "code/latte/ConeInfo.cpp: ConeInfo, Calculate_Next_Highest_Term, Integer_Hash_Table, Vector_Heap, ConeInfo_Heap", "code/latte/maximize.cpp", "code/latte/minimize.cpp", "code/latte/vertices/cdd.cpp: CopyListCones"]}
{"id": "C80", "title": "Integrals of sums of products of powers of linear forms", "statement": "The number returned for a sum of products of powers of linear forms is the Lebesgue integral of the sum over the polytope, for every polytope with rational vertices given by tangent cones or homogeneous points, every triangulation, every number of products, factors and degrees. (True for products of pairwise different factors of positive degree with a non-zero coefficient, and single constants, when no product has integral zero over a simplex of the triangulation. Fails: an integral zero over one simplex stops the program; equal factors of a product are added instead of multiplied; the coefficient 0 is dropped, the other factors are integrated; constants in a product are added, or refused next to other factors.)", "quantifier": "all dimensions, all rational polytopes, all triangulations, all sums of products, all exponents", "why_tests_cant": "The domain is unbounded (arbitrary-precision integers / arbitrary sizes); a finite suite samples it.", "anchors": ["code/latte/integration/newIntegration.cpp: integrateLinFormProducts", "code/latte/valuation/PolytopeValuation.cpp: findIntegral(linFormProductSum), findIntegralProductsUsingTriangulation, dilateLinearForms", "code/latte/integration/consumers.h: FormProductLoadConsumer", "code/latte/integration/PolyTrie.cpp: parseLinFormProducts"]}
{"id": "C81", "title": "Top coefficients of the Ehrhart quasi-polynomial of a knapsack", "statement": "For positive weights with greatest common divisor 1, a new object of the knapsack class returns from its calls for the first k+1 coefficients, or for one coefficient, periodic functions whose values are the coefficients of the quasi-polynomial counting the ways to write t as a sum of multiples of the weights, for every t, with both methods of finding the gcds and whatever the random vectors are; such a quasi-polynomial exists and its coefficients are determined; the call returns if the search for short vectors succeeds and some random vector is generic. (A second call on the same object adds to the answer of the first; weights with a common divisor are answered wrongly by the default method.)", "quantifier": "all numbers of weights, all weights, all k, all t, all random draws, all results of LLL", "why_tests_cant": "The domain is unbounded (arbitrary-precision integers / arbitrary sizes); a finite suite samples it.", "anchors": ["code/latte/top-knapsack/TopKnapsack.cpp: coeff_topK, coeff_NminusK, coeff, E, findLatticeBasis, findLatticeBasisInv, findVertex, findUnimodularCones, findResidue, expandNonperiodicPart, expandPeriodicPart, expandExponentialPart, expandF1Case, packageAnswer", "code/latte/top-knapsack/TopKnapsack.h"]}
{"id": "C82", "title": "The generating function files are the generating function of the lattice points", "statement": "count --multivariate-generating-function and count without memory saving write, for every non-empty bounded polytope given by inequalities and, if any, equations, arithmetic expressions (in the file .rat, and after gF:= in the file .maple) whose value, under the usual precedence of +, *, / and ^, is the sum of the monomials x^p over the integer points p of the polytope, at every point with non-zero coordinates of any field of characteristic zero where no denominator vanishes, and hence as a rational function; the expression determines the set of points; the text does not depend for this on the triangulation, the decomposition or the stopping determinant. (Fails when equations are present and a dilation factor other than 1 is given: the file describes the points translated by a multiple of the particular solution of the equations.)", "quantifier": "all dimensions, all polytopes, all equations, all dilation factors, all triangulations and decompositions, all evaluation points in all fields of characteristic zero", "why_tests_cant": "The domain is unbounded (arbitrary-precision integers / arbitrary sizes); a finite suite samples it.", "anchors": ["code/latte/genFunction/maple.cpp: writeTermToFile, writeTermOfGeneratingFunctionToFile, createGeneratingFunctionAsMapleInput, GeneratingFunctionWritingConeConsumer::ConsumeCone", "code/latte/count.cpp", "code/latte/ProjectUp.cpp: ProjectUp, ProjectUp2, ProjectingUpConeTransducer", "code/latte/ReadPolyhedron.cpp: projectOutVariables"]}
{"id": "C83", "title": "Vertex cones with 4ti2", "statement": "With the option for vertex cones by 4ti2, for every list of inequalities b + a\u00b7x >= 0 that leaves no line: exactly one cone is made for every vertex of the polyhedron, its facets are the primitive outer normals of the inequalities that are equations at the vertex, and they generate the normal cone; a non-empty polyhedron is reported as unbounded exactly if it is unbounded; the number of lattice points reported in dual mode is the number of integer points satisfying the inequalities, and it is reported once a triangulation succeeds and a random vector is generic; if the inequalities leave a line, the program stops with a failed assertion. (Fails for empty polyhedra: if the inequalities, made homogeneous, have a common direction, an empty polyhedron is reported as unbounded.)", "quantifier": "all dimensions, all lists of inequalities, all results of 4ti2 that meet its contract, all random draws", "why_tests_cant": "The domain is unbounded (arbitrary-precision integers / arbitrary sizes); a finite suite samples it.", "anchors": ["code/latte/VertexConesWith4ti2.cpp: computeVertexConesWith4ti2", "code/latte/latte_4ti2.cpp: rays_to_4ti2_VectorArray", "code/latte/cone_consumer.cpp: CollectingConeConsumer", "code/latte/ReadPolyhedron.cpp: matrixToVerticesOrCones", "code/latte/count.cpp"]}
{"id": "C84", "title": "Dualization of cones", "statement": "Dualizing a cone that is given by rays makes the rays facets and gives as rays the extreme rays, each once, and as subspace a basis of the lineality space, of the cone of all vectors with non-positive scalar product with the old rays; this cone is generated by them and the old cone is described by them as inequalities and equations; the subspace is empty exactly if the rays span the space; dualizing again gives the old cone back with its facets and equations; a cone with known facets is dualized by exchanging rays and facets. Vertex cones from 4ti2 dualized twice, as for the irrational all-primal decomposition, have as rays the extreme rays of the tangent cone at the vertex, and the count made with them is right. (Fails for a cone with as many rays as coordinates that are linearly dependent: an assertion stops the program.)", "quantifier": "all dimensions, all cones given by rays, all results of 4ti2 that meet its contract", "why_tests_cant": "The domain is unbounded (arbitrary-precision integers / arbitrary sizes); a finite suite samples it.", "anchors": ["code/latte/dual.cpp: dualizeCone, dualizeCones, computeDetAndFacetsOfSimplicialCone", "code/latte/DualizationWith4ti2.cpp: dualizeCone_with_4ti2, listVectors_from_VectorArray", "code/latte/count.cpp"]}
{"id": "C85", "title": "The bounds of the approximation mode", "statement": "count --approximate shows, in every round of its loop, two rational numbers that enclose the number of lattice points of the polytope, whatever the random vector is and in whatever order the cones are refined; the loop ends, and if it ends regularly both final bounds are the number of lattice points; it ends otherwise only if the vector is orthogonal to a ray met or an assertion fails (no short vector, more than 100000 cones waiting). (Proved for the all-primal variant; in the default variant it fails: rows of the input with a common divisor give wrong bounds, simplicial vertex cones with known inequalities read beyond the end of a vector, and a vector orthogonal to a ray is not replaced.)", "quantifier": "all dimensions, all polytopes, all vectors, all orders of refinement, all bounds for the index, all numbers of rounds", "why_tests_cant": "The domain is unbounded (arbitrary-precision integers / arbitrary sizes); a finite suite samples it.", "anchors": ["code/latte/ExponentialApprox.cpp: ConeApproximationData, Write_Exponential_Sample_Formula_Single_Cone_Parameters::ConsumeCone, EvaluateCone, ShowStats, decomposeAndWriteExponentialSampleFormula", "code/latte/count.cpp", "code/latte/triangulation/triangulate.cpp: triangulateCone"]}
{"id": "C86", "title": "The test for emptiness", "statement": "For every LattE file of inequalities with integer entries, with or without a list of equations and a list of nonnegative variables in either order: if the polyhedron is not empty the test passes; if it is empty and its conditions, made homogeneous, leave no direction, then 0 is written to the file numOfLatticePoints and an exception ends the program. (Fails: if the list of nonnegative variables comes before the list of equations, the number of rows in the file for cdd is too small and the program ends with status 1 for every polyhedron; no rows, or an equation listed too often, access memory outside of arrays.)", "quantifier": "all dimensions, all lists of inequalities, equations and nonnegative variables in both orders, all results of cdd that meet its contract", "why_tests_cant": "The domain is unbounded (arbitrary-precision integers / arbitrary sizes); a finite suite samples it.", "anchors": ["code/latte/CheckEmpty.cpp: CheckEmpty", "code/latte/ReadPolyhedron.cpp"]}
{"id": "C87", "title": "Conversion of inequalities from cdd format", "statement": "convertCDD_ine_to_latte writes, for every cdd file of inequalities with rational entries, whatever stands before begin and after the rows, a LattE file with the same number of rows and columns, from which the LattE reader reads integral rows that are the rows of the input times the least positive integer that makes them integral; the polyhedron is the same. (Fails for files with a linearity line: the equations become inequalities without notice.)", "quantifier": "all sizes, all rational matrices, all white space, all preambles", "why_tests_cant": "The domain is unbounded (arbitrary-precision integers / arbitrary sizes); a finite suite samples it.", "anchors": ["code/latte/convertCDD_ine_to_latte.cpp: main", "code/latte/rational.cpp: RationalNTL", "code/latte/ReadLatteStyle.cpp: ReadLatteStyleMatrix"]}
{"id": "C88", "title": "Vertex cones from cdd, the default way", "statement": "For every bounded polyhedron given by inequalities, whichever order cdd lists the vertices in and whichever of its two forms it lists adjacent vertices in, the default computation of vertex cones returns one cone for each vertex; its rays are primitive integer vectors, the extreme rays of the tangent cone, each once. With at most one vertex, the program ends and the number it wrote is the number of integer points. Counting with these cones gives the number of integer points, with the default and with the all-primal decomposition. (Fails for unbounded polyhedra: the program reports the number 0, or none, with status 0, instead of saying that there are infinitely many points.)", "quantifier": "all dimensions, all lists of inequalities, all results of cdd that meet its contract, all triangulations and random vectors", "why_tests_cant": "The domain is unbounded (arbitrary-precision integers / arbitrary sizes); a finite suite samples it.", "anchors": ["code/latte/vertices/cdd.cpp: computeVertexCones, readCddExtFile, readCddEadFile, readCddEadFileFromVrep", "code/latte/ReadPolyhedron.cpp", "code/latte/count.cpp"]}
{"id": "C89", "title": "Input by vertices", "statement": "count --vrep, for every list of rational points whose convex hull has interior points: if some point is redundant (repeated, or in the convex hull of the others) the program stops; otherwise it makes one cone for each point, with the point as vertex, whose rays are primitive and are the extreme rays, each once, of the cone of directions into the convex hull; the number reported is the number of integer points of the convex hull, with the default and the all-primal decomposition and with either program for dualization, and it is reported once a triangulation succeeds and a random vector is generic; inequalities and list of vertices of the same polytope give the same cones. With exactly one point and leading entry 1 the number written is right. (Fails for exactly one point given with another leading entry, and if directions are given along with points: the number reported is 0.)", "quantifier": "all dimensions, all lists of rational points, all results of cddlib that meet its contract, all triangulations and random vectors", "why_tests_cant": "The domain is unbounded (arbitrary-precision integers / arbitrary sizes); a finite suite samples it.", "anchors": ["code/latte/vertices/cdd.cpp: computeVertexConesFromVrep, computeVertexConesFromExtFile, compute_adjacency, createCddExtFile2, readCddExtFile, readCddEadFileFromVrep", "code/latte/ReadPolyhedron.cpp: read_polyhedron_hairy", "code/latte/count.cpp"]}
{"id": "C90", "title": "Dualization of cones with cdd", "statement": "With the program cdd as dualization method, for every cone given by rays that span the space: the old rays become facets, and the new rays are the extreme rays up to positive factors, each once, of the cone of all vectors with non-positive scalar product with the old rays, which they generate and by which the old cone is described; dualizing again gives the old cone with its facets. (Fails for rays that do not span the space, unless there are as many as coordinates: the line linearity in cdd's answer is skipped, so lines are taken for rays and the new rays do not generate the dual cone.)", "quantifier": "all dimensions, all cones given by rays, all results of cdd that meet its contract", "why_tests_cant": "The domain is unbounded (arbitrary-precision integers / arbitrary sizes); a finite suite samples it.", "anchors": ["code/latte/dual.cpp: dualizeCone_with_cdd, dualizeCone, dualizeCones"]}
{"id": "C91", "title": "The number of integer points of the polyhedron in a file", "statement": "For every system of equations and inequalities with integer coefficients whose solutions (if any) form a bounded set, count --exp, and count without options if the decompositions have at most 5*10^9 terms, on the text of its LattE file ends with the number of integer solutions if it ends with a number: through the test for emptiness, the reading of the file, the removal of redundant rows, the elimination of the equations, the vertex cones, the triangulation, the decomposition into unimodular cones and the residue. It does end with that number once triangulations succeed, a random vector is generic and the numbers of rounds suffice. (Fails for nonempty unbounded polyhedra: often the program reports 0 with status 0.)", "quantifier": "all dimensions, all integer systems with entries and numbers of rows in the range of int where the code uses int, all results of the external programs that meet their contracts, all triangulations and random vectors", "why_tests_cant": "The domain is unbounded (arbitrary-precision integers / arbitrary sizes); a finite suite samples it.", "anchors": ["code/latte/count.cpp: main", "code/latte/ReadPolyhedron.cpp: read_polyhedron_hairy, PolyhedronFromHrepMatrix, polyhedronRedundancyCheck, projectOutVariables, matrixToVerticesOrCones", "code/latte/latte_cddlib.cpp: cddlib_matrix_to_equations_and_inequalities", "code/latte/CheckEmpty.cpp", "code/latte/LattE_matrix.cpp"]}
{"id": "C92", "title": "The Ehrhart polynomial of the polytope in a file", "statement": "For every system of equations and inequalities with integer coefficients whose solutions form a bounded set: if count --ehrhart-polynomial prints a polynomial for the text of its LattE file, then all vertices are integral and for every t >= 1 the value of the polynomial at t is the number of integer points of the t-fold dilation; if some vertex is not integral, no polynomial is printed; if all vertices are integral and there is more than one solution, the polynomial is printed once triangulations succeed, a random vector is generic and the numbers of rounds suffice. (Fails for a single integer point: instead of the polynomial 1, a count is reported.)", "quantifier": "all dimensions, all integer systems with entries and numbers of rows in the range of int where the code uses int, all dilation factors, all results of the external programs that meet their contracts, all triangulations and random vectors", "why_tests_cant": "The domain is unbounded (arbitrary-precision integers / arbitrary sizes); a finite suite samples it.", "anchors": ["code/latte/count.cpp: main", "code/latte/ReadPolyhedron.cpp", "code/latte/vertices/cdd.cpp: computeVertexCones, computeTightInequalitiesOfCones", "code/latte/ExponentialEhrhart.cpp: decomposeAndComputeEhrhartPolynomial"]}
{"id": "C93", "title": "The volume of the polytope in a file", "statement": "For every system of equations and inequalities with integer coefficients whose solutions (if any) form a bounded set: all answers that integrate --valuation=volume, or with --cone-decompose, prints for the text of its LattE file are the volume of the polytope (if it has lower dimension: the volume in coordinates for the integer points of its affine hull, which does not depend on the choice of coordinates), two answers without and one answer with --cone-decompose; the program never stops because the two methods disagree; answers are printed if there are at least two solutions and an integer point in the affine hull, once the triangulations succeed and a random vector with entries below 10000 is not orthogonal to finitely many nonzero vectors. (No answer is printed for a single point or if the affine hull contains no integer point.)", "quantifier": "all dimensions, all integer systems with entries and numbers of rows in the range of int where the code uses int, both methods, all results of the external programs that meet their contracts, all triangulations and random vectors", "why_tests_cant": "The domain is unbounded (arbitrary-precision integers / arbitrary sizes); a finite suite samples it.", "anchors": ["code/latte/valuation/valuation.cpp: mainValuationDriver, computeVolume, polyhedronToCones", "code/latte/valuation/PolytopeValuation.cpp: findVolume, convertToOneCone, triangulatePolytopeCone, triangulatePolytopeVertexRayCone, findVolumeUsingLawrence", "code/latte/ReadPolyhedron.cpp", "code/latte/triangulation/triangulate.cpp"]}
{"id": "C94", "title": "Integrals over the polytope in a file", "statement": "For every system of inequalities with integer coefficients (and nonnegative variables) whose solutions form a bounded set with interior points, and every polynomial, or sum of powers of linear forms, with rational coefficients in a file: all answers that integrate --valuation=integrate --monomials=INTEGRAND, or --linear-forms=INTEGRAND, prints are the integral of the function over the polytope, one answer for each method that runs (triangulation, cone decomposition and, for polynomials, products of linear forms; with --cone-decompose or --polynomial-as-plf only that method); the same holds for sums of products of powers of linear forms with --product-linear-forms=INTEGRAND, with one method; the program never stops because methods disagree; with --polynomial-as-plf it prints the answer if the polytope lies in the orthant and the triangulation succeeds, with --product-linear-forms if also the linear forms have nonnegative coefficients. (Fails: for the function x on the segment from -1 to 1, whose integral is zero, the program is ended by an assertion without an option and with --polynomial-as-plf, always.)", "quantifier": "all dimensions below 1000, all integer systems with entries and numbers of rows in the range of int where the code uses int, all polynomials without repeated monomials and all sums of powers of linear forms with degree plus dimension below 2^20, all methods, all results of the external programs that meet their contracts, all triangulations and random vectors", "why_tests_cant": "The domain is unbounded (arbitrary-precision integers / arbitrary sizes); a finite suite samples it.", "anchors": ["code/latte/valuation/valuation.cpp: mainValuationDriver, computeIntegral, computeIntegralPolynomial, computeIntegralLinearForm, processUserInput", "code/latte/valuation/PolytopeValuation.cpp: findIntegral, findIntegralPolynomialToPLF, findIntegralProductLinearForm, dilatePolytopeVertexRays", "code/latte/integration/PolyTrie.cpp: loadMonomials, loadLinForms, loadLinFormProducts, parseLinFormProducts", "code/latte/integration/consumers.h: FormProductLoadConsumer"]}
{"id": "C95", "title": "The script for the top coefficients of the Ehrhart quasi-polynomial", "statement": "For every system of inequalities with integer coefficients (and nonnegative variables) whose solutions form a bounded set with interior points, and every weight (none, a polynomial, a sum of powers of linear forms in a file): the Maple script that integrate --valuation=top-ehrhart writes for the text of its LattE file, read as nested lists of rational numbers, lists simplicial cones and powers of linear forms such that for every real dilation factor the indicator functions of the cones at the dilated vertices add up to the indicator function of the dilated polytope modulo indicator functions of sets with lines, and the powers of linear forms add up to the weight at every point; the call in the script is the one for the given number of coefficients, kind of dilations and save file. A number of coefficients other than -1 or a positive number is rejected. If the triangulations go through a script is written.", "quantifier": "all dimensions, all integer systems with entries and numbers of rows in the range of int where the code uses int, all nonzero weights, all options, both dualization methods, all results of the external programs that meet their contracts, all triangulations", "why_tests_cant": "The domain is unbounded (arbitrary-precision integers / arbitrary sizes); a finite suite samples it.", "anchors": ["code/latte/top-ehrhart/TopEhrhart.cpp: computeTopEhrhartPolynomial", "code/latte/valuation/valuation.cpp: computeTopEhrhart, mainValuationDriver", "code/latte/integration/PolyTrie.cpp: decompose, loadMonomials, loadLinForms", "code/latte/dual.cpp: dualizeCone"]}
{"id": "C96", "title": "Counting with other options, from a file", "statement": "For every system of equations and inequalities with integer coefficients whose solutions (if any) form a bounded set, and every combination of --compute-vertex-cones=cdd or 4ti2 with --dual, --irrational-primal or --irrational-all-primal: a number that count --exp reports for the text of its LattE file is the number of integer solutions, the same for all combinations; it is reported once the triangulations succeed, a random vector is generic and the numbers of rounds suffice. With 4ti2 this holds for unbounded systems as well: a number is reported only if there is no integer solution, and it is 0.", "quantifier": "all dimensions, all integer systems with entries and numbers of rows in the range of int where the code uses int, all combinations of these options, all results of the external programs that meet their contracts, all triangulations, linear programs and random vectors", "why_tests_cant": "The domain is unbounded (arbitrary-precision integers / arbitrary sizes); a finite suite samples it.", "anchors": ["code/latte/count.cpp: main", "code/latte/ReadPolyhedron.cpp: read_polyhedron_hairy, matrixToVerticesOrCones", "code/latte/Irrational.cpp: irrationalizeCones, irrationalizeCone", "code/latte/vertices/4ti2.cpp", "code/latte/vertices/cdd.cpp"]}
{"id": "C97", "title": "Counting dilations, from a file", "statement": "For every system of equations and inequalities with integer coefficients whose solutions form a bounded set and have an integer point in their affine hull (for example: have interior points), or that has no solutions, every factor t >= 1 and every combination of the options of C96: a number that count --exp --dilation=t reports for the text of its LattE file is the number of integer points of the t-fold dilation; it is reported once the triangulations succeed, a random vector is generic and the numbers of rounds suffice. With t = 1 the program is the one without this option. (Fails if there is a solution but no integer point in the affine hull: then 0 is reported for every factor, though dilations can have integer points.)", "quantifier": "all dimensions, all integer systems with entries and numbers of rows in the range of int where the code uses int, all factors, all combinations of these options, all results of the external programs that meet their contracts, all triangulations, linear programs and random vectors", "why_tests_cant": "The domain is unbounded (arbitrary-precision integers / arbitrary sizes); a finite suite samples it.", "anchors": ["code/latte/ReadPolyhedron.cpp: projectOutVariables, ReadPolyhedronData", "code/latte/preprocess.cpp: dilateListVector, preprocessProblem", "code/latte/count.cpp: main"]}
{"id": "C98", "title": "Boundary triangulation of a cone", "statement": "For every list of boundary cones with independent rays, as many as the dimension minus one: a vector that the search for an interior vector finds is not zero, the determinants found along with it are those of the rays of each boundary cone followed by the vector, and if such a determinant is not zero, no facet of the completed cone through the vector has a normal vector with last coordinate zero; the cones delivered are the full-dimensional ones among the completed cones. The search ends if only zero lies in the span of every boundary cone and the last unit vector is in no span of all but one of the rays of a boundary cone. If the boundary cones triangulate the boundary and the vector is interior, the cones delivered lie in the cone and cover it. (Fails: the vector found need not be interior, so the cones delivered need not triangulate the cone.)", "quantifier": "all dimensions, all lists of boundary cones, all results of the lattice reduction that meet its contract", "why_tests_cant": "The domain is unbounded (arbitrary-precision integers / arbitrary sizes); a finite suite samples it.", "anchors": ["code/latte/triangulation/BoundaryTriangulation.cpp: alpha_basis, singularity_avoiding, construct_interior_vector, complete_boundary_triangulation_of_cone_with_subspace_avoiding_facets"]}
{"id": "C99", "title": "Points of hypersimplices and edge polytopes, Kneser graphs", "statement": "For 1 <= k <= d the points made for the hypersimplex are, each once and with a one in front, the vectors of length d with entries zero and one that add up to k; there are d over k of them. For 1 <= k < n, k <= (n+1)/2 the Kneser graph made has one vertex for each subset with k elements of a set with n elements, exactly the pairs of disjoint subsets are edges, and each edge is listed once. For every simple graph the points of the edge polytope are the e_u + e_v, and those of the symmetric edge polytope the e_u - e_v and e_v - e_u, for the edges, each once. (Fails for k = 0: the vector (0,1,0,...,0) is listed in dimension two and above, and the Kneser graph is made with vertices out of range.)", "quantifier": "all dimensions, all numbers of ones, all simple graphs", "why_tests_cant": "The domain is unbounded (arbitrary-precision integers / arbitrary sizes); a finite suite samples it.", "anchors": ["code/latte/buildPolytopes/BuildHypersimplexEdgePolytope.cpp: addToPoints, generatePoints", "code/latte/buildPolytopes/GraphMaker.cpp: makeKneserGraph", "code/latte/buildPolytopes/BuildGraphPolytope.cpp: findEdgePolytope, findSymmetricEdgePolytope", "code/latte/buildPolytopes/BuildPolytope.cpp: addPoint"]}
{"id": "C100", "title": "Reading triangulations of TOPCOM", "statement": "Whenever TOPCOM writes a triangulation (with at least one simplex) as a list of lists of indices of rays, in its format and behind any text without braces, the cones delivered are those with the rays with these indices, in the same order, and reading stops right behind the triangulation. (Fails: the function for all triangulations never returns, whatever TOPCOM writes; if TOPCOM writes triangulations in its format, the program always ends with status 1.)", "quantifier": "all lists of rays, all triangulations with indices in the range of int, all texts before and after; for what fails, all texts", "why_tests_cant": "The domain is unbounded (arbitrary-precision integers / arbitrary sizes); a finite suite samples it.", "anchors": ["code/latte/triangulation/TriangulationWithTOPCOM.cpp: read_TOPCOM_triangulation, triangulate_cone_with_TOPCOM, all_triangulations_of_cone_with_TOPCOM"]}
{"id": "C101", "title": "Hilbert bases from rays", "statement": "For every list of rays and all options modelled, whenever hilbert-from-rays ends normally: the file lists lattice points of the cone, each once; every lattice point of the cone is a sum of vectors of the file and rays read; every element of the Hilbert basis is in the file or is one of the rays read. The same holds for the files of several runs together, if the subcones they are given cover the cone. With the default limits the program ends, if cones with as many rays as coordinates have independent rays. (Fails: rays that are in the Hilbert basis need not be in the file, for example for unimodular cones, where it is empty; with enumeration of parallelepipeds the zero vector is listed; with a limit for the number of facets not above the number of coordinates a simplicial cone that is not unimodular is subdivided for ever; cones with as many rays as coordinates, but dependent ones, end the program with a failed assertion.)", "quantifier": "all dimensions, all lists of integer rays, all limits, all results of zsolve (which can reach its limit of time at any call) and of the engine for triangulations that meet their contracts, all recursion depths", "why_tests_cant": "The domain is unbounded (arbitrary-precision integers / arbitrary sizes); a finite suite samples it.", "anchors": ["code/latte/normalize/normalize.cpp: handle_cone, insert_hilbert_basis_element, enumerate_simplicial_cone_with_latte, RecursiveNormalizer, normalize_main", "code/latte/normalize/ReductionTest.cpp: NoReductionTest", "code/latte/dual.cpp: computeDetAndFacetsOfSimplicialCone", "code/latte/genFunction/piped.cpp: pointsInParallelepiped"]}
{"id": "C102", "title": "Prescribed heights for the triangulation", "statement": "--triangulation-pull-rays of hilbert-from-rays with a nonempty list of different numbers of rays, separated by commas, gives height 1 to the first ray, 1000 times as much to each further ray as to the one before, and 0 to all others; a number that is not one of a ray ends the program with status 1. --triangulation-height-vector with a file in the format of 4ti2 gives the heights in the file, if there are as many as rays, and otherwise ends the program with status 1. (Fails: a file that ends with the last number, without a line feed, ends the program; for an empty list a value that was never set is used.)", "quantifier": "all numbers of rays, all lists of numbers in the range of int, all vectors of integers of any size, all texts behind them", "why_tests_cant": "The domain is unbounded (arbitrary-precision integers / arbitrary sizes); a finite suite samples it.", "anchors": ["code/latte/normalize/normalize.cpp: sscan_comma_separated_list, height_vector_from_pull_list, read_4ti2_vector, check_stream, normalize_main"]}
{"id": "C103", "title": "Avoiding singularities", "statement": "With --avoid-singularities (programs built with the experimental code): every short vector used has a last coordinate that is not zero, and among the vectors LLL offers outside this subspace it is the one of least norm; there always is one. So if no ray given to the recursion has last coordinate zero, no ray it works with has. The cones produced are an exact signed decomposition as without the option, the recursion ends, and all indices are within the bound asked for or at most 200000. In the primal modes a cone of index at most 200000 never makes the program give up. A step fails only if the vector found replaces some ray without a smaller index.", "quantifier": "all dimensions, all simplicial cones, all behaviours of NTL within its contract, all bounds on the index, all recursion depths", "why_tests_cant": "The domain is unbounded (arbitrary-precision integers / arbitrary sizes); a finite suite samples it.", "anchors": ["code/latte/barvinok/SubspaceAvoidingDecomposition.cpp: ComputeShortVectorAvoidingSubspace", "code/latte/barvinok/barvinok.cpp: barvinokStep, barvinok_DFS"]}
