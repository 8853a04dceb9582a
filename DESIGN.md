# Formal model of LattE (latte-int/latte) in Lean 4

## Layout

* `lean/Verif/<Topic>/Model.lean` – executable, total transcriptions of the C++ functions; every definition cites file and lines.
* `lean/Verif/<Topic>/Spec.lean` (or the head of `Props.lean`) – small independent specification vocabulary.
* `lean/Verif/<Topic>/Lemmas.lean` – proofs.
* `lean/Verif/<Topic>/Props.lean` – the property theorems, each with a non-vacuity `example`.
* `MANIFEST.json` – property → theorem names. `seeded/LOG.jsonl` – wrong-program experiments.

## Trusted base

* Lean 4.33.0 kernel; axioms used: at most `propext`, `Classical.choice`, `Quot.sound`. No own axioms, no compiled evaluation in proofs.
* The transcription C++ → Lean was done by hand. Common conventions:
  * `ZZ` (NTL) and `mpz_class` are Lean `Int`; NTL's `/` on `ZZ` is floor division (`Int.fdiv`, equal to `Int.ediv` for positive divisors), `%` is `Int.fmod`/`emod` accordingly; `GCD` is `Int.gcd` (non-negative).
  * `mpq_class` is `ℚ`.  Machine `int` is `Int`/`Nat` unless an overflow is the point of the property; each model comment says so.
  * Undefined behaviour, failed `assert`, `abort`/`exit` and thrown exceptions are explicit outcomes (`Option.none` or a result type), never silently totalised when the property concerns them.
  * Heap-allocated singly linked lists are Lean lists; memory management (`delete`) is not modelled unless aliasing matters (e.g. in-place division by itself).
  * Loops become structural/well-founded recursion; potentially diverging loops take fuel and the theorem shows that enough fuel exists.
* Third-party code (NTL, GMP, cddlib, 4ti2, LiDIA, the LLL reduction) is not modelled; where its result matters it is an arbitrary parameter with the contract stated as an explicit hypothesis of the theorem.

## Plan per property

| id | model | proof |
|----|-------|-------|
| C01,C02,C04,C05 | pair of Ints, `canonicalize`, all operators incl. aliased `div` | invariant (den>0, gcd=1) + refinement to ℚ; negations with witnesses for C04,C05 |
| C03 | list of chars streams, `readNumber`, `>>`, `<<` | round-trip by induction on digits |
| C06,C07 | vectors as lists of (num,den), cache flag | refinement to ℚ, lcm minimality, gcd |
| C08 | lists of integer vectors | decision logic; negation for the two-argument overload |
| C09 | array heap with comparison in a linear preorder | heap invariant by induction over operations, permutation of contents |
| C10 | Gauss–Jordan on `[A|b]` | row-equivalence invariant; Vandermonde uniqueness |
| C11 | quoting function + POSIX word splitter restricted to quotes/backslash/blank/metacharacters | round-trip; witnesses for the defects |
| C12 | enumerator state machine | refinement to the mixed-radix odometer |
| C13 | SNF data as parameter (contract), generation of points | bijection lattice/sublattice ↔ box, reduction mod rays |
| C14 | elementary operations on `Matrix` | invariant L·A·R = D, unit determinants |
| C15 | adjugate based facets | matrix identities |
| C16–C18 | cones as ray matrices + coefficient, DFS | sign identity (Cramer), well-founded recursion on |det| |
| C19 | truncated series as lists | coefficientwise equality with `PowerSeries` |
| C20 | weights, residues | formal Laurent/exponential argument |
| C21–C23 | burst trie with ranges, containers, iterator | refinement to finitely supported maps |
| C24 | odometer over subvectors | polarization identity |
| C25 | char-level printer and parser | round-trip |
| C26 | regular/irregular formulas | partial fractions, complete homogeneous symmetric polynomial |
| C27,C31 | loops | induction |
| C28 | recursion | equality with Mathlib's `bernoulli` |
| C29,C30 | lists of gcds | gcd-closure, inclusion–exclusion |
| C32 | expression trees | denotation |
| C33 | scaling factor loop | inequality; negation with witness |
| C34,C35,C36 | matrices and token streams | round-trip, decision logic |
| C37 | byte lists | positional notation round-trip |
| C38 | random draws as an oracle list | connectivity invariant |
| C39 | list of (factor, exponent) | product invariant |
| C40 | determinant formula | change of variables for the Lebesgue measure of a simplex or definition via Mathlib |
| C41 | floor comparison | decision logic over ℚ |
| C42 | state monad with failure | restart equivalence |
| C43 | block list | refinement, bounds as explicit outcome |
| C44 | Ehrhart weights | polynomial identity from C20 in a moving vertex |
| C45,C46 | object histories | refinement to `MvPolynomial`, freed storage as explicit outcome |
| C47 | char-level printer/parser | exact effect (factor degree!), violation |
| C48,C39 | Lawrence terms, perturbation, residues | Laurent expansion; polynomial identity; limit ε → 0 |
| C49 | search loop over draws | counting roots of a moment curve; divergence witness |
| C50,C51 | valuation object, dilation, stores, simplex integrals | Dirichlet integral over the corner simplex, change of variables, additivity over a triangulation (engine = arbitrary function with a contract) |
| C52 | term counters of the stores | exact count of delivered terms, abort for every repetition |
| C53,C54 | state of the valuation object | exact effect of the first request; witnesses |
| C55,C56 | cone-decomposition volume and integral end to end | Lawrence's formula proved for arbitrary polytopes: generic-height triangulation (Measure/Fan, Polytope), Laplace integral of simplicial cones, uniqueness of rational functions (Measure/Decomp), partial fractions |
| C57 | random search of the volume loop | avoidance of fewer than 10000 hyperplanes by a vector with entries in 0..9999, induction on the rounds |
| C58 | raw-pointer variant with explicit null | case analysis; violations for all operands |
| C59,C60 | edge lists, draws as oracle list | connectivity/simple-graph specification over ℕ, induction on rounds |
| C61 | writer histories as lists of operations, character-level file | exact content after any history, reader run on it |
| C62 | scan, lambda, new matrix | Kannan's lemma (positional notation with base λ), both directions, uniqueness of slacks |
| C33 | scaling loop | inequality |M⟨c,r⟩| > |noise|; negation with witness |
| C41,C63 | stability cube, simplification, irrationalizer over ℚ | interval arithmetic on facet functionals |
| C64 | recursion tree of `barvinok_DFS` with depth, estimate as a parameter with contract | growth of facet entries per level (Cramer bound), bit length of the denominators |
| C65 | the composition: list of vertices with tangent/normal cones, triangulations as arbitrary lists meeting a specification, `irrationalizeCones`, decomposition, residues, restart loop | Farkas/duality and Brion's theorem proved from scratch over ℚ (indicator functions modulo functions with lines), then C16–C20, C42, C63 |
| C66 | `ComputeOmega` (both attempts), `barvinokStep`; LLL by its contract `Reduced` (Gram–Schmidt data with δ = 1) | Minkowski's theorem from Mathlib, growth of the Gram–Schmidt norms, Hermite's argument for dimension ≤ 4; every lattice has a reduced basis (Barvinok/Exists.lean), so the contract is satisfiable |
| C67 | `preprocessProblem` (both branches), `checkListVector`, `ProjectingUp`, `ProjectUp2` in Preprocess/Model.lean; equations and inequalities as integer rows; end of program as outcome; the LLL reduction of `generators` is not modelled (its result is not used by the callers) | forward substitution finds the coordinates of an integer solution; determinant test ⇔ integral solvability for full rank; lattice basis gives the bijection; composed with C65 in Preprocess/EndToEnd.lean |
| C68 | `ihermite` with its pivoting and column exchanges | loop invariant (U unimodular, S = U·A·P, echelon, rank); termination by (columns left, column zero, pivot size) |
| C69 | `count.cpp` Ehrhart branch (integrality test, move to the origin), `computeTightInequalitiesOfCones`, `Exponential_Ehrhart_Parameters`, retry loop | cones translated by `N·ehrhart_vertex`; vertices of dilations; Brion (C65) for every dilation; counting residues (C44); restart as in C42 |
| C70 | `Residue_Single_Cone` (sign flips, truncated series in integers, division loop, rounding), `decomposeAndComputeResidue`, consumer and retry loop | arrays = coefficients of power series in s for x = 1+s; contribution = floor of 10^10 × constant coefficient of the exact term; homomorphism from the generating functions (C20) gives the exact sum; error < number of terms; Brion (C65); counterexample beyond 5·10⁹ terms |
| C71 | `barvinok_DFS` and its callers (as C16) | height of the recursion by determinant^((n-1)^t) < 2^(n^t), induction on the height; polynomial bound by Bernoulli's inequality |
| C72 | `Residue`, `decomposeCones`, `computePointsInParallelepipeds`, `ProjectUp2`, as run by `count --memsave=no` | invariant of the incremental scalar products; the Brion identity multiplied by a power of the variable (translation); precision by strong induction on the number of cones; lifting by transposing the basis; combined with C13, C65, C67, C71 |
| C73 | `ResidueFunction_Single_Cone`, `decomposeAndComputeResidue` with the dual approach (`count --ehrhart-taylor=N`) | the expression of a cone denotes a coefficient of a power series in `s` over power series in `t` (C74, recursion of the quotient); generating functions of functions on the lattice graded by height (Hahn series), cancellation of the denominators; invariants of the recursion for sign, vertex and index; rounding as in C70; degree 0 refuted |
| C74 | `PolyTree_Node`, `T_Node`, `Node_Controller` | value of a node as an inductive relation over the pool; induction on it with the invariant that clean nodes hold right results; array loops against the ring of power series |
| C75 | `triangulateCone`, `triangulate_cone_with_cddlib`, `triangulate_cone_with_4ti2`, height functions; facet enumeration (cddlib, 4ti2) and rank test are parameters with a contract in terms of faces | lower facets of the lifted cone correspond to vertices of `{l : r·l ≤ w_r}`; their tight rays cover the cone (descent to a vertex) and overlap only in the boundary; recursion by gluing subdivisions; counting of non-generic heights by a linear dependency. Violations: endless recursion, undivided cone |
| C76 | `barvinokDecomposition_Single` with its assertion, `barvinokDecomposition_List` with triangulation in every round | C75 discharges the hypothesis "triangulation" of C65; the tight inequalities generate the normal cones (C69); finiteness and rationality of vertices shown |
| C77 | `binarySearch` with its LP and LattE files, `RR` arithmetic as rational numbers rounded to 150 bits; cdd and `count` by contract (an empty polytope makes `count` fail) | the files mean the stated polyhedra; invariant of the bisection (lower end accepted, upper end rejected), number of rounds by the binary logarithm; dyadic numbers are not rounded; counterexamples with a rational optimum, a minimum attained by a lattice point, and a vertex (1/3, 5/3) whose value 0 is computed as 2^-149 |
| C78 | `Vector_Heap` and `ConeInfo_Heap` (ConeInfo.cpp): the tree of nodes with the path to the last node given by the binary digits of the count, sift up and sift down | heap order and shape invariant preserved; contents as a multiset; every history by induction (`Verif/Digging/Heap.lean`) |
| C79 | `SolveIP`, `ConeInfo`, `Integer_Hash_Table` and the drivers of `latte-maximize`/`latte-minimize` without and with equations and with the option `single`; vertices, triangulations, lattice reduction and LP vertex by contract, random draws and the hash function arbitrary | the cones of a level are the coefficients of the rational generating function along the cost, one level per round (formal Laurent series in one variable with coefficients in the group ring); the invariant of the heap of cones: the levels already produced; termination by well-foundedness of the values below the start; violations by theorems and concrete runs (`Verif/Digging`) |
| C80 | `integrateLinFormProducts`, `findIntegralProductsUsingTriangulation`, `findIntegral(linFormProductSum)` and the loading of products, on the stored sums, iterators and windowed multiplication of `Verif/Trie`; the triangulation engine by contract | the truncated multivariate geometric series of each vertex as a store agreeing with a polynomial up to the exponents wanted; the coefficient looked for is that of a complete homogeneous polynomial; Lebesgue integral over a simplex by the polarization of the power formula; then triangulation, dilation and linearity as in C50; violations by theorems (`Verif/Products`) |
| C81 | `TopKnapsack` from `set` to `packageAnswer` in TopK/Model.lean: gcds, weights and Bernoulli numbers of C28–C30, `ihermite` of C68, Barvinok's decomposition of C16–C18 in dual mode, residues as lists of terms in ε and x with the windowed multiplication; a specification of ways and quasi-polynomials (TopK/Ways.lean, Quasi.lean) | generating function and partial fractions over ℂ in exponential coordinates: residues at roots of unity sum to the count; weights select each root once up to the order needed; the sum over `f`-th roots is a lattice box sum, which Barvinok's identity modulo lines turns into cone series over Laurent series in ε; the truncated products agree with the series in the window (Agree, Expand, Residue); quasi-polynomial coefficients are unique |
| C82 | genFunction/maple.cpp and the two file-writing paths of count.cpp in GenFile/Model.lean, on the decomposition and projecting up of C72; a separate reader (lexer, grammar with precedences, values in a field) in GenFile/Reader.lean | the text of a term is an expression with the value of the monomial, composed to cones and lists of cones; the reader is unambiguous; values: the homomorphism from Laurent polynomials into the field applied to Brion's identity with cleared denominators; different sets have different rational functions, hence the violation for dilated polytopes with equations (`Verif/GenFile`) |
| C83 | `computeVertexConesWith4ti2`, the consumer and the parts of count.cpp around it in Ti2/Model.lean; 4ti2's `RayAlgorithm` is a function with a contract in Ti2/Spec.lean (every extreme ray once, a basis of the lineality space) | every vector of a cone is a combination of extreme rays (support reduction), the contract is satisfiable for all matrices (Ti2/Exists); the extreme rays of the homogenization with positive first coordinate are the vertices; slack zero = tight; the others give recession directions, boundedness by the coefficients being at most 1; counting by C75 (`Verif/Ti2`) |
| C84 | `dualizeCone`, `dualizeCones`, `dualizeCone_with_4ti2` and the dualizations of the all-primal variant in Ti2/Model.lean | lifting by slack variables is an isomorphism from the polar cone to the cone given to 4ti2; simplicial case from C15; polarity from Farkas; counting by C65 (`Verif/Ti2`) |
| C85 | `ExponentialApprox.cpp` in Approx/Model.lean; the order of the heap is an arbitrary function | every lattice point of a half-open parallelepiped has its scalar product between the bounds, hence its powers and the weighted sums; the cones done and on the heap keep adding up to the polyhedron (C16 step, C63/C64 general position); Brion and the residue theorem (C20, C65) turn the sum of values into the count; the loop ends by the weight (n+1)^index (`Verif/Approx`) |
| C86 | `CheckEmpty.cpp` in Empty/Model.lean: both passes over the tokens of the file, the file for cdd, the decision from the words of cdd's result | the rows of the file for cdd have the same solutions and directions as the user's conditions (Empty/Props.lean); cdd by contract, with nothing assumed if both the LP and its dual are infeasible; the number of rows announced is wrong exactly if the last section is `linearity` and there is a `nonnegative` one |
| C87 | `convertCDD_ine_to_latte.cpp` in Files/Convert.lean, on characters: lines up to `begin`, sizes, words, fractions, common denominator, output | the parsing of printed numbers (C03), the fold computes the least common multiple of the denominators, the text written is that of C35 and is read back by C35's theorem; the preamble does not influence the output, hence equations are lost |
| C88 | `computeVertexCones`, `readCddExtFile`, `readCddEadFile(FromVrep)` in CddV/Model.lean: characters of the vertex file where the code looks at them, tokens of the adjacency file, inverted lists | an edge of a polytope at v is an extreme ray of the tangent cone at v and vice versa (CddV/Edges.lean), so the differences to adjacent vertices generate the cone and each extreme ray comes once; `constructRay` (C07) makes it primitive; counting by C75, all-primal by C84; the contract is met for every list of inequalities (Primal.lean) |
| C89 | `computeVertexConesFromVrep` with the readers of CddV, `count --vrep` in both modes in Vrep/Model.lean | Weyl's theorem (convex hull = inequalities, Vrep/Weyl.lean) reduces to C88's argument on edges; full-dimensional hulls have spanning tangent cones, then dualization and C65/C76 |
| C90 | `dualizeCone_with_cdd`, `dualizeCone` with cdd in Vrep/Model.lean; rows normalized by the C06 model | the polar of spanning rays has no lines, so all rows are extreme rays up to positive factors; polarity as in C84; a linear form that is 1 on the lines refutes the other case |
| C91 | `countFile` in Whole/Model.lean: the models of CheckEmpty (C86), of the file reader (C35), of `cddlib_matrix_to_equations_and_inequalities` on rational rows (C37), of the elimination of equations (C67), of the vertex cones from cdd (C88) and of counting (C75) put together; `dd_MatrixCanonicalize` by contract | the text of a problem is read back as its rows (decimal round trip, C01's parser); the canonical matrix has the same solutions, and irredundant, independent rows are what C67 asks for; bounded solution sets stay bounded under the elimination; then C88, with the exponential substitution (C75) or the default one (C70, Regular/Poly.lean). Weyl/Carathéodory triangulations show that the contracts can be met |
| C92 | `ehrhartFile` in Whole/Ehrhart.lean: the stages of C91 up to the inequalities (Whole/Rows.lean), vertex cones (C88), tight inequalities, translation to the origin, dualization, triangulation, decomposition and Todd polynomials (C69, Regular/Ehrhart.lean) put together | the elimination of equations gives affine coordinates that are a bijection on real points and on lattice points (`Coordinates`), hence on integer points of all dilations and on vertices; then C69 for triangulated cones |
| C93 | `volumeFile` in Whole/Volume.lean: the stages of C91 up to the inequalities (Whole/Rows.lean), vertex cones (C88), then `computeVolume` with the models of both methods of `PolytopeValuation` (C51, C55) and the triangulations of C75 as engine | the cones of C88 are tangent cones in the sense of C55 and their vertices span the polytope (Krein–Milman); subdivisions of full dimension into cones with as many rays as coordinates are triangulations in the sense of C50/C55 (overlaps are null sets, Valuation/Bridge.lean); lower dimension (Whole/VolumeLattice.lean): the elimination gives lattice coordinates, any two of which differ by a unimodular affine map, so that the volume is well defined; `dd_MatrixCanonicalize` makes implicit equations explicit (contract), hence interior points |
| C94 | `integralFile` in Whole/Integral.lean: the stages of C93 up to the vertex cones, the text of the integrand (C25, C47), then `computeIntegral` with the models of the three methods of `PolytopeValuation` (C50, C56, C80) and `findIntegralPolynomialToPLF` | the cone over the dilated polytope is triangulated into full-dimensional simplices with its own rays (contract; proved for the methods of C75), so C50 and C80 apply to the one list of points the program makes; the product made of a monomial has its value; all methods that return return the integral, so the comparison succeeds; in the orthant no integral of a monomial over a simplex is zero, so the assertion of C80 holds |
| C95 | `topFile` in Whole/TopEhrhart.lean: the stages of C93 up to the vertex cones, the text of the weight (C25, C47), then TopScript/Model.lean: triangulation of the vertex cones in the dual, dualizing back, decomposition of the weight (C24) and the text of the script | the text is read back by a reader for nested lists written from the syntax alone (TopScript/Spec.lean, Text.lean); the dual triangulation with `polar_sum`, Brion's theorem for real dilations (`brion_dilated`), the weight with C21, C24; the run of Maple is not modelled |
| C96 | `countFile` in Options/Model.lean: the stages of C92 up to the rows of inequalities, then the vertex cones with cdd or 4ti2, tight inequalities as facets, dual cones or both rays and facets with moved vertices, triangulation, decomposition, residue | the three variants are joined with Brion's theorem through the facts about vertex cones of C83, C88 (Stage.lean); irrational all-primal needs an interior point, which the contract of the redundancy removal gives; `countFile_default` says that the default options give the program of C91; linear programs by contract, which elimination of variables shows satisfiable (Solver.lean) |
| C97 | `countDilated` in Options/Dilation.lean: as C96, with the dilation factor in `preprocessProblem` or `dilateListVector` | the factor comes last: the rows are those of C92 with dilated constants (`fileRowsDilated_eq`); these describe the dilated polyhedron, bounded and with an interior point, so C96 applies; integer points by the coordinates of C92 |
| C98 | `construct`, `complete` in Boundary/Model.lean: completion to a basis, columns of alpha and F from the adjugate, the search over integer combinations of the LLL basis (tuples of C12) | products with the adjugate are determinants with a replaced row (Cramer); a 2x2 system for the facets avoided; a generic vector exists and is a combination of the unimodular basis, so the search ends; covering by the ray through a point from the new ray to the boundary |
| C99 | `addToPoints` in Hypersimplex/Model.lean on lists with assignments, `makeKneserGraph` in Kneser.lean, the edge polytopes in Edge.lean | induction on the depth: a call for a point that ends with m ones and z zeros lists all arrangements of these, by the position of the first one; bijection to the subsets with k elements; lists of pushed pairs as in C60 |
| C100 | `readTriangulation` and `allTriangulations` in Topcom/Model.lean on lists of characters with the flag of the stream, on top of the model of `>>` in Files/Stream.lean | induction on the indices of a simplex and on the simplices; a round of the loop over all triangulations consumes characters and delivers cones, so the loop only ends in the error branch |
| C101 | `handle` and `run` in Hilbert/Model.lean with the recursion of subdivisions, on top of the models of C13 and C15; zsolve, 4ti2 and cdd are functions that also get the number of calls before | induction on the depth with an invariant of the file; points of a simplicial cone are the point of the parallelepiped with the fractional parts plus multiples of rays; a sum that is irreducible is one of its summands |
| C102 | `scanList`, `heightVector`, `readVector` in Hilbert/Heights.lean on lists of characters, on top of the model of `>>` in Files/Stream.lean | induction on the lists; the last occurrence of a ray determines its height |
| C103 | `shortAvoiding`, `avoidStep`, `dfsAvoid` in Barvinok/Avoid.lean, on top of the model of C16–C18; LLL is an arbitrary parameter with contract | invariant of the search for the least norm; a unimodular matrix has no zero column; induction on the determinant as for C18 with the invariant that the rays avoid the subspace |

All properties are expressible in the model; real-time behaviour, floating point approximations (`RR`, `double`) and memory consumption are not.


## Modelled, by source file

| file (code/latte) | functions modelled | modules |
|---|---|---|
| rational.cpp/.h | all arithmetic, I/O, canonicalisation, rationalVector scaling, cache flags | Rational, RatVec |
| vertices/cdd etc. | not modelled (third party) | |
| ConeInfo.cpp (heap), genFunction/IntCombEnum.cpp, cone.cpp/vertices list helpers | heap insert/pop, enumeration, list operations | Heap, Enum, Lists |
| latte_system.cpp | shell_quote | Shell |
| interpolation | Gauss–Jordan solver and polynomial interpolation | Interp |
| barvinok/barvinok.cpp, dec.cpp, dual.cpp, Cone.cpp | decomposition, facets, dualisation; LLL is an arbitrary parameter with contract | Barvinok |
| genFunction/matrix_ops.cpp (Smith form), latticePoints (PointsInParallelepiped) | Smith normal form, enumeration of lattice points | Smith, Piped |
| todd/* | Todd polynomials, Taylor expansion | Todd |
| ExponentialSubst.cpp, ExponentialEhrhart.cpp | weights, residues, Ehrhart coefficients, restart | ExpSubst |
| integration/burstTrie.h, iterators, multiply.h, PolyTrie.cpp, GeneralMonomialSum.h | stores, iteration, multiplication, decomposition, text formats, object histories | Trie |
| integration/PolyRep.cpp, blockReps.h | block stores, decomposition | Block |
| integration/newIntegration.cpp, residue.cpp | integrateLinFormSum, update, computeResidue | Residue |
| top-knapsack/TopKnapsack.cpp | Bernoulli numbers, Möbius list, gcd enumeration, binomials (Knapsack); object, lattice basis, vertex, cones, residues, expansions, answer (TopK); not: printing, Driver.cpp | Knapsack, TopK |
| valuation/Perturbation.cpp, PolytopeValuation.cpp (Lawrence) | perturbation, residues, Lawrence integration | Lawrence |
| valuation/PolytopeValuation.cpp | constructor formats, dilations, integrals and volumes, state of the object; `triangulateCone` is an arbitrary function | Valuation (geometry in Measure) |
| top-knapsack/PeriodicFunction.cpp | both implementations, text output, a reader of the text as specification | Periodic |
| gmp_ntl conversions (latte_gmp.cpp) | ZZ ↔ mpz, mpq, vectors | Gmp |
| buildPolytopes/GraphMaker.cpp | graph families, random graphs | Graph |
| ReadLatteStyle.cpp, ReadSubcones.cpp | matrix files, nonnegative keyword, subcone files, writer histories (istream extraction by its documented meaning, cddlib sets as finite sets) | Files |
| Irrational.cpp | stability cubes, simplification, new vertex, checks (LP solver and logarithms by contract) | Irrational |
| count.cpp 382–461, 702, Irrational.cpp `irrationalizeCones` | vertex cones to number, three methods; vertices and triangulations are inputs meeting a specification | Brion (Duality, Vertices, Cones: mathematics; Count: model) |
| ConeInfo.cpp (Calculate_Pertubation) | perturbation of the cost vector, draws as a list | Perturb |
| Residue.cpp (Residue_Single_Cone, Residue), barvinok/dec.cpp (decomposeAndComputeResidue, decomposeCones) | default substitution of `count`: series in integers, division loop, rounding, restart | PolySubst |
| preprocess.cpp (ihermite, preprocessProblem), ProjectUp.cpp | elimination of equations | Preprocess |
| PolyTree.cpp, ResSingle.cpp, barvinok/dec.cpp (dual approach) | expression pool, Taylor expansion of expressions, residue of a cone, retry loop | Series |
| triangulation/RegularTriangulation*.cpp (heights, cddlib, 4ti2), triangulation/triangulate.cpp | regular triangulations, choice of the method; the versions with the external program cdd, TOPCOM and the experimental boundary/special triangulations are not modelled | Regular |
| binarySearchIP.cpp, maximize.cpp and minimize.cpp (option bbs) | files, bisection, printed values; cdd, `count` by contract | Optimize |
| IntegralHull.cpp (SolveIP), ConeInfo.cpp (heaps, hash table, cone iterators), maximize.cpp and minimize.cpp (digging), vertices/cdd.cpp (CopyListCones) | integer optimum, number of optimal points, single-cone mode | Digging |
| genFunction/maple.cpp, count.cpp 472–497 and 640–655 | the files `.rat` and `.maple` as texts; not: opening of the files, what a run that stops early leaves in `.rat` | GenFile |
| VertexConesWith4ti2.cpp, DualizationWith4ti2.cpp, latte_4ti2.cpp `rays_to_4ti2_VectorArray`, dual.cpp 142–218, count.cpp 354–371, 396–457, 547–554 | vertex cones and dualization; not: 4ti2 itself, determinants of the cones | Ti2 |
| ExponentialApprox.cpp 32–228, 345–410, count.cpp 297–307, 563–578 | bounds and the refinement loop; not: the double weights (any order), the statistics other than the bounds, the sampling code disabled by the preprocessor | Approx |
| CheckEmpty.cpp | everything; not: the state of a stream after a failed read, files that cannot be opened | Empty |
| convertCDD_ine_to_latte.cpp | everything except the command line | Files/Convert |
| vertices/cdd.cpp (computeVertexCones, readCddExtFile, readCddEadFile, readCddEadFileFromVrep) | the vertex cones from cdd's files and what happens with at most one vertex or directions; not: the program cdd, the timing and the removal of files | CddV |
| vertices/cdd.cpp (computeVertexConesFromVrep, compute_adjacency, createCddExtFile2), dual.cpp 70–146, count.cpp for `--vrep` | input by vertices, dualization with cdd; not: cddlib and cdd, reading of the matrix by cddlib, dilation (not implemented for this input) | Vrep |
| count.cpp, ReadPolyhedron.cpp (read_polyhedron_hairy, PolyhedronFromHrepMatrix, polyhedronRedundancyCheck, projectOutVariables, matrixToVerticesOrCones), latte_cddlib.cpp 101–122 | the way from the text of a LattE file to the number, for `--exp` and without options, and to the coefficients for `--ehrhart-polynomial`; not: cddlib's canonical form (contract), other options, statistics files | Whole |
| valuation.cpp 18–70, 379–944 (the path for --valuation=volume with a LattE file of inequalities), 947–1005, 1131–1144; PolytopeValuation.cpp 85–150, 1091–1162, 1183–1269, 1380–1443; triangulate.cpp 100–189 | the way from the text of a LattE file to the volumes printed (C93); the loop over draws ends with failure when the given draws are used up; printing and timing are not modelled | Whole/Volume.lean, Whole/VolumeLattice.lean, Valuation/Bridge.lean |
| valuation.cpp 79–288, 808–817, 1146–1180; PolytopeValuation.cpp 919–1012 (with 183–197, 364–378, 400–575, 833–917, 1023–1085 modelled for C50, C56, C80) | the way from the text of a LattE file and of an integrand to the integrals printed (C94); each method runs on its own copy of the polytope; an ended search for a perturbation or an assertion ends the program; printing and timing are not modelled | Whole/Integral.lean, Whole/IntegralMain.lean, Whole/IntegralFile.lean |
| valuation.cpp 290–325; PolyTrie.cpp 326–441; consumers.h 68–95 | the same for sums of products of powers of linear forms, with the parser of their text (C94, `c80_parse`) | Products/Text.lean, Whole/IntegralProducts.lean |
| top-ehrhart/TopEhrhart.cpp 11–22, 33–232, 242–257; valuation.cpp 326–365 | the Maple script for the top Ehrhart coefficients, from the files to the text of the script (C95); the system call of Maple (234) is not modelled | TopScript/*, Whole/TopEhrhart.lean |
| count.cpp 354–373, 402–461, 547–578; ReadPolyhedron.cpp 293–330; Irrational.cpp 217–350 | the options for vertex cones and decomposition, joined from the file to the number (C96) | Options/* |
| ReadPolyhedron.cpp 173–175, 740–797; preprocess.cpp 213–221 | the option for dilation, joined from the file to the number (C97) | Options/Dilation.lean |
| triangulation/BoundaryTriangulation.cpp 61–213, 254–304 | alpha_basis, singularity_avoiding, construct_interior_vector, completion of the boundary cones (C98); not the dualizations in between, not 216–251 (facets by cddlib, 4ti2) | Boundary/Model.lean |
| buildPolytopes/BuildHypersimplexEdgePolytope.cpp, buildPolytopes/BuildGraphPolytope.cpp, GraphMaker.cpp 176–233, BuildPolytope.cpp 43–47 | points of hypersimplices and edge polytopes, Kneser graphs (C99) | Hypersimplex/Model.lean, Kneser.lean, Edge.lean |
| triangulation/TriangulationWithTOPCOM.cpp 116–153, 192–213 | reading triangulations that the programs of TOPCOM write (C100) | Topcom/Model.lean |
| normalize/normalize.cpp 72–149, 192–361, 711–727, 758–764, 811–815, normalize/ReductionTest.cpp 45–55 | Hilbert bases from rays (C101); not modelled: reading the input, the format of files of triangulations and subcones (see ReadSubcones.cpp), statistics | Hilbert/Model.lean, Subcones.lean |
| normalize/normalize.cpp 463–539, 628–638, 730–746 | prescribed heights (C102) | Hilbert/Heights.lean |
| barvinok/SubspaceAvoidingDecomposition.cpp; barvinok.cpp 348–363, 479–490 | short vectors outside a subspace, emergency index (C103) | Barvinok/Avoid.lean, AvoidEntry.lean |
| newIntegration.cpp (integrateLinFormProducts), PolytopeValuation.cpp (products), consumers.h (FormProductLoadConsumer) | integrals of products of powers of linear forms; text not parsed | Products |
| aggregation/aggregate.cpp | scan, Kannan aggregation, command-line tool | Aggregate |

Not modelled: command-line drivers, timers, temporary files and child processes, cddlib/4ti2/LiDIA/NTL internals, floating point code, the LLL algorithm itself (arbitrary parameter), memory deallocation except where a property is about it.

## Defects of the code established by theorems

C04/C05 (zero denominators, aliased division), C08 (two-argument list comparison), C10, C11 (shell quoting), C14 (result need not be diagonal when ...; see module), C26 (constant linear form of positive degree), C27 (array bound), C31 (divergence), C43 (decomposition of block store reads out of bounds from term 64), C45 (setToConstant(0) leaves a dangling pointer; empty product cannot be printed), C46 (block multiplication uses only the first term), C47 (linear-form text scaled by degree!), C48 (constant linear form dropped), C49 (perturbation search need not end), C52 (repeated monomials abort the integration), C53 (an integral leaves the object dilated), C54 (cone method on homogenized input reports volume 0), C33 (negative ray coordinates give a wrong scaling factor), C34 (homogenized non-negativity off by one and out of bounds), C36 (duplicate master rays: nothing is printed), C58 (default periodic functions), C59 (never ends if the edges do not fit), C61 (interrupted subcone file read as empty), C62 (aggregation tool loses its rows).

C67 (elimination of equations): a zero-dimensional affine hull together with an inequality always reports 0; dependent equations skip the integrality test; with `--dilation` the integrality test looks at the undilated right-hand side and projecting up uses the undilated particular solution; more equations than variables read beyond the rows of a matrix.

C70 (default counting method): the precision 10^10 is a constant (its comment says 100 billion), so with 10^10 or more terms the rounding errors can change the answer.

C73/C74 (Ehrhart series): `--ehrhart-taylor=0` makes the computation read and write past its arrays (`c73_degree_zero_violated`); a power node with exponent 0 never returns from expansion (`c74_power_zero`); the constant precision is the same as in C70. Observations outside the theorems: the expression node for -1 is taken from the pool before the loop over cones, so `Reset` would hand it out again if several cones were passed to one call (not reachable from `count`); `Residue_Single_Cone` counts `cones->latticePoints` instead of the current cone's.

C75 (triangulations): with the 4ti2 method, the default, a cone for whose rays equal or linearly dependent heights are drawn is handed over undivided although a triangulation was asked for, and the assertion in `barvinokDecomposition_Single` stops the program (`c75_fortytwo_degenerate`, `c75_assertion`; with `--triangulation-bias=0` always, `c75_bias_zero`); with cddlib and `--triangulation-max-height=1` the recursion never ends for a non-simplicial cone with rays on a hyperplane (`c75_cddlib_hangs`).

C77 (`latte-maximize bbs`, `latte-minimize bbs`): the first check counts the lattice points with value ⌈LP optimum⌉; if the LP optimum is fractional this polytope is empty, `CheckEmpty` throws, `count` returns status 1 and `system_with_error_check` ends the program (`c77_fractional`); minimization prints the negated optimum when the first check succeeds (`c77_minimize_sign`); the LP values are computed with 150-bit floating point numbers and rounded up, so that an exact integer value can be taken for the next integer, and the printed optimum is wrong (`c77_rounding`) or the program stops (`c77_rounding_stops`); without lattice points a value is printed with 0 solutions (`c77_no_lattice_points`).

C79 (`latte-maximize`, `latte-minimize`): the factor by which a cost orthogonal to a ray is multiplied before noise is added is computed from the signed ray coordinates; if it is negative the worst lattice point is reported as the optimum (`c79_reversed`, run on a tetrahedron in `c79_reversed_example`). With the option `single`, the number of optimal points counts points of the vertex cone outside of the polytope (`c79_single_partial` says what it counts, `c79_single_number_example`), a polytope without lattice points makes the program run for ever because the check is skipped (`c79_single_empty`, `c79_single_empty_example`), and a cost orthogonal to a ray ends it with status 1 (`c79_single_zero`). A hash table with fewer places than the values of one level makes the search for a free place run for ever (`Verif/Digging/Examples.lean`).

C80 (products of powers of linear forms): if a product has integral 0 over one full-dimensional simplex of the triangulation, `assert(found == true)` stops the program (`c80_zero_aborts`, `c80_zero_integral`: ∫ x over [-1,1]); equal factors are merged by the store, so `x·x` is integrated as `2x` (`c80_repeated_factor`); with coefficient 0 the first factor is not stored and the others are integrated (`c80_zero_coefficient`); constants of one product are added (`c80_constants_added`).

C81 (knapsacks): `coeffsNminusk.resize(k+1)` does not clear, so a second call on the same object returns the sum of both answers (`c81_second_call`). With the default gcd method the gcd of all weights is taken to be 1 without being computed; the weights 2, 2 get the leading coefficient 1/4 (`c81_common_divisor`), whereas the other method throws (`c81_common_divisor_exception`). The random vectors are drawn from [-499,499]ⁿ; if none of them is generic the loop does not end (`c81_returns` needs a generic one).

C82 (generating function files): the cones are put into the original coordinates with the particular solution `p` of the equations, not `dilation · p` (ReadPolyhedron.cpp:776–792), so with equations and dilation ≠ 1 the files describe the lattice points translated by (1 − dilation)·p (`c82_dilated`, `c82_violated_dilation`, `Dilation.dilated_file_wrong`: x = 1, 0 ≤ y ≤ 1, dilation 2). Not reached by the modelled runs, but wrong in the writer itself: a cone with coefficient 0 writes nothing between two signs `+`, a cone without rays writes `/()`, an empty list of cones is dereferenced (`mapleFile`).

C83 (vertex cones with 4ti2): the flag `unbounded` is set by a ray of the homogenization at infinity also if the polyhedron is empty; for cdd-style input, where emptiness is not checked before, `count --compute-vertex-cones=4ti2` then reports an unbounded polyhedron instead of 0 (`c83_empty_violation`: x ≥ 0, −1 − x ≥ 0, y ≥ 0).

C84 (dualization): a cone with exactly as many rays as coordinates is taken to be simplicial; if the rays are dependent the assertion `det != 0` fails (`c84_dependent_violation`).

C85 (approximation mode): `ConsumeCone` does not divide the rays by their gcd as `barvinok_Single` does, so rows of the input with a common divisor give wrong bounds (`c85_not_primitive_wrong`); a simplicial vertex cone whose facets are known is only swapped and its empty `facet_divisors` read (`c85_known_facets_undefined`); `NotGenericException` is not caught (`c85_orthogonal_vector`); irrationality is not checked; the heap has a fixed size.


C86 (test for emptiness): `hold` is added to the number of rows only if the last keyword of the file was `nonnegative`, but the rows are always written; with `nonnegative` before `linearity` cdd gets a malformed file and the program exits with status 1 (`c86_nonnegative_first_exits`, `c86_order_matters`: x + y = 1, x, y ≥ 0). A repeated index in `linearity` can overflow `equs`; a file without rows reads `entries[0]` (`c86_undefined`). Not modelled: several sections of the same kind (the last one wins here, whereas ReadLatteStyle.cpp uses them all) and fractions (read by ReadLatteStyle.cpp, not by this function).


C87 (conversion from cdd format): the `linearity` line of the cdd file stands before `begin` and is skipped, so every equation becomes an inequality (`c87_equations_lost`, `c87_equation_example`: x = 1/2 becomes 2x ≥ 1).


C88 (vertex cones with cdd): if cdd lists a direction, `readCddExtFile` writes the number 0 (or nothing, if there is one row only) and exits with status 0: every unbounded polyhedron is reported to have no integer points (`c88_unbounded_violation`, `c88_halfline_violation`). With exactly one vertex the program exits in the same function, before anything else asked for (Ehrhart polynomials, generating functions, volumes) is done.

C89 (input by vertices): with exactly one row the leading entry is skipped, so the row `2 1` (the point 1/2) is reported as one integer point (`c89_one_row_violation`).

C90 (dualization with cdd): the line `linearity` stands before `begin` and is skipped, so lines are taken for rays (`c90_lines_violation`, `c90_one_ray_violation`).

C89 (input by vertices): with points and directions the number reported is 0 (`c89_direction_violation`).

C91 (from the file to the number): a nonempty unbounded system whose equations do not already force "not bounded" is reported to have 0 points (`c91_unbounded` lists the possible ends).

C92: `count --ehrhart-polynomial` prints no polynomial for a polytope that is a single integer point (`c92_point_violation`): computeVertexCones writes a count and exits.

C93: `integrate --valuation=volume` prints no volume for a single point (computeVertexCones exits with a count) and none for a polytope whose affine hull contains no integer point, such as 2x = 1, 0 <= y <= 1 (the elimination exits with count 0) (`c93_no_answer`).

C94: `integrate --valuation=integrate --monomials` on the segment from -1 to 1 with the polynomial x (integral zero) is always ended by the assertion of the product method, also without any option, although the other methods have found the answer (`c94_zero_aborts`).

C95: with the zero polynomial as weight `integrate --valuation=top-ehrhart` never writes a script: the loop of `decompose` uses the first term of the iterator without a test (`c95_zero_weight`). By reading: the name of the save file and of the script directory are put into Maple strings without escaping; for a polytope of lower dimension the weight keeps its number of variables and the assertion on the number of variables ends the program.

C97: `count --dilation=t` reports 0 for every t if a nonempty polytope has no integer point in its affine hull (for example 2x = 1, 0 <= y <= 1 with t = 2, which has three integer points): the equations are solved for integers before the dilation (`c97_no_integer_point_violation`, `c97_example_violation`).

C98: the vector that `construct_interior_vector` finds need not be in the interior of the cone, and signs of the determinants are ignored: the cones delivered for the cone generated by (1,0) and (1,1) do not contain the point (2,1) (`c98_not_a_triangulation_violation`). (Compiled only with HAVE_EXPERIMENTS.)

C99: for k = 0 `addToPoints` takes the index -1 for `not found` and lists unit vectors (`c99_zero_violation`); `makeKneserGraph` for k = 0 writes out of range of the vector of edges (`c99_kneser_zero_violation`).

C100: `all_triangulations_of_cone_with_TOPCOM` reads until the stream is not good, but the stream is good after the last triangulation, and the next attempt to read one ends the program with status 1: the function never returns (`c100_all_violation`, `c100_all_exit`). (Compiled only with HAVE_TOPCOM_BIN.)

C101: hilbert-from-rays does not write the rays of unimodular cones (`c101_unimodular_violation`) or of enumerated ones (`wedge_file`), writes the zero vector if it enumerates (`c101_zero_violation`), subdivides simplicial cones for ever if `--max-facets` is at most the dimension (`c101_hangs`), and fails an assertion for as many dependent rays as coordinates (`c101_dependent_violation`).

C102: `read_4ti2_vector` checks that the stream is good behind the last number, so a file without a line feed at the end is rejected (`c102_file_violation`); an empty list of rays, or a comma at the end, makes `sscan_comma_separated_list` use a variable without a value (`c102_empty_violation`).

C103: without `--enable-experiments` the option `--avoid-singularities` is accepted and ends with status 1 at the first cone that has to be decomposed. With it, a step that does not lower all indices ends the program with status 1 if the index is greater than 200000, although another vector might do; up to that index the cone is delivered undecomposed, so the index bound asked for is not kept.

By reading only (not modelled): `ComputeOmega` counts 10^m rounds in an `int`, which overflows for m >= 10.
