# Formal model of pishleback/Rust-Computational-Algebra (algebraeon) in Lean 4

## Layout

* `lean/Verif/Model/*.lean`  — the model: one Lean definition per Rust function, each with a comment
  citing the file and lines it models and every simplification made.
* `lean/Verif/Spec/*.lean`   — small specifications (what a table/dictionary/matrix *denotes*, in Mathlib terms) that the
  theorems are stated with; they do not call the model's algorithms.
* `lean/Verif/Proofs/*.lean` — helper lemmas (no property is stated here).
* `lean/Verif/Props/*.lean`  — for each property: a small independent specification (usually Mathlib
  notions), the property theorem, and an `example` showing that a concrete non-trivial case meets its hypotheses.
* `properties.jsonl`, `MANIFEST.json` — the property list and which theorem settles which property.
* `seeded/LOG.jsonl` — mutation log (wrong programs against the theorems).

## Modelling conventions

* `usize`, `Natural` → `Nat`; `Integer` → `Int`; `Rational` → `ℚ`. Overflow of `usize` is not modelled (indices
  are bounded by vector lengths in all modelled code), except where a subtraction may underflow: those are either
  shown not to underflow or modelled as a panic.
* `Vec<T>` → `List T`; `BTreeSet<usize>` → strictly sorted `List Nat` or `Finset Nat`, `HashSet`/`HashMap` iteration
  order → an arbitrary oracle/choice function over which theorems quantify.
* `&mut self` → state returned. `Result`/`Option` stay data. `panic!`, `unwrap` on `None`, failed `assert!`/`debug_assert!`
  and out-of-range indexing → `none`. (The crate is modelled as built with debug assertions; the theorems prove `some`, so they
  also cover release builds.)
* loops → structural or well-founded recursion (termination is then part of what is proved). Loops whose termination
  is not provable for all inputs (Todd–Coxeter, Pollard rho, generic gcd loops) use `partial_fixpoint` on `Option`
  (divergence = `none`); theorems then either prove that the call returns, or say "whenever it returns".
* A ring *structure* (a Rust trait object carrying the operations) → a dictionary record (`SemiRingOps`, `RingOps`, `DomainOps`,
  `FavOps`, `GcdOps`, `BezoutOps`, `EucOps`, …). Theorems about generic code are quantified over all dictionaries which `Models` a
  map `v : α → R` into a Mathlib ring: i.e. the primitive operations implement that ring's. Elements may have many
  representations; `equal` decides `v a = v b`. Concrete structures (ℕ, ℤ, ℚ, ℤ/n, polynomials, matrices, …) are modelled as
  concrete dictionaries and proved to be `Models`.
* A property the code violates keeps its full statement in `properties.jsonl`; the negation is proved on a concrete reachable input
  (`…_wrong`, `…_violated`) and what does hold is proved in a theorem ending in `_partial`.
* External crates: `malachite` arithmetic (`+`,`*`,`/`,`%`, `div_mod`, `mod_pow`, `bits`, …) is trusted to be exact integer
  arithmetic; `itertools::permutations`/`multi_cartesian_product` are modelled by the corresponding list functions;
  `rayon` parallel map is modelled as `map` (its result order is defined to be the input order).

### Simplifications by area (each also stated in the comment on the definition)

* Tables (`Model/Table`): the accessors `m`, `i` are total (default 0 out of range; the invariant shows in-range use); hash iteration
  order is an arbitrary oracle; `ptr::eq` of two group references is assumed to hold where the Rust asserts it.
* Group trait (`Model/GroupTrait`): `elem_to_idx` HashMap → first index in the list.
* Isomorphism search (`Model/Iso`): `usize::MAX` is a parameter `umax`; the memo struct's decrement is truncated subtraction.
* Todd–Coxeter: `HashMap` → association list; the fresh-name counter is explicit; `permEntry` state not threaded.
* IsoRep: order of map keys arbitrary, environment (oracles) per call path.
* Rings: primitive operations of a dictionary are total functions; `reduce` in quotient rings is totalised (with `C42_no_panic`).
* Polynomials: coefficient `List`s; `leading_coeff().unwrap()` defaults where the surrounding code has just tested non-zero.
* Matrices: storage with strides and flags is modelled as in the code; `join_rows`'s search for the block is replaced by a range test;
  reduced Hermite form takes the Euclidean xgcd.

## Trusted base

* Lean 4.33.0 kernel and the standard axioms `propext`, `Classical.choice`, `Quot.sound` (no others; no
  `native_decide`, no `bv_decide`, no own axioms).
* Faithfulness of the hand-written model (the code is not executed here).
* Not modelled: floating point (`as_f64`), `Display`/`Debug` formatting, the `drawing` crate, performance, memory, threads,
  and the following modules.
* Not modelled yet: `number/algebraic/complex/*` (isolation of complex roots), `number/algebraic/poly_tools.rs` beyond the three polynomials of
  roots, the factoring over number fields by symmetric root polynomials in `number/anf/number_field.rs`, the embeddings of number fields (`all_complex_embeddings`) in `number/anf/embedded_anf.rs`, the splitting into generalized eigenspaces and the change of basis of `jordan_algorithm` in `linear/matrix.rs`, `refine_to_partial_simplicial_complex` and the functions built on
  it, `isolatebf0` (used by tests only) and `string_repr` of truncated p-adic numbers.

## Violated properties found (negation proved)

C05 (`k = n` combination missing), C10 (unsized cycle conversion panics), C17 (empty set accepted as subgroup), C25 (product with
Trivial), C26 (Todd–Coxeter loses edges), C38 (`int_pow(0, negative) = Some(0)`), C39 (lcm not normalised), C43 (`pow` forgets the unit;
`check_invariants` misses repeated primes), C46 (trivial group underflow), C52 (`reversed` with trailing zeros), C56 (`gcd(0,0)` panics),
C57 (sign of resultant), C58/C59 (positive characteristic), C62 (common content dropped), C64/C73 (zero panics), C78 (offset not
tested), C79 (bases/hyperplanes over rings that are not fields), C80 (`From<Integer>` of negative numbers), C83/C86 (non-prime finite
fields; `SquarefreeFactored::pow` forgets the unit), C88/C89 (sign of the factorization of `(x^2-x-1)^2`), C90 (unit of repeated factors, zero
panics), C93 (`factors()` of a Hensel factorization with one factor is not normalised). C98 (sign: the quotient `-1` left over by the subset search is dropped),
C99, C100 (inherit C88, C90), C101 (`smith_algorithm`: a column swap written for a row swap, a swap of a column with itself, and the
final fiddling does not make the entries divide each other), C102, C103 (inherit its panics), C108, C111 (zero terms change the degree, the variables and the division error), C109 (homogenizing with a
variable that occurs), C112 (renaming with a map that is not injective leaves repeated monomials). C114 (`is_symmetric` is false for zero terms with other variables), C116 (repeated variables panic), C125 (`origin` of the empty space panics). C138 (one-sided range beyond the bound on the roots panics). Later ones are listed in the table. C157 (`all_padic_roots` panics on polynomials that are not primitive), C158 (debug assertion of `refine` fails for numbers with a non-integral derivative), C160 (negatives of numbers of odd degree compare as different), C163 (`add_rat` can give a ball with centre zero, which cannot be refined, and balls that are refined to wrong digits), C164, C165 (rational sums and products of irrational numbers are lost), C169 (integral bases: prime factors above 2^64 of the discriminant cause a panic), C182 (`aks_primality_test(112)` panics in debug builds: the search for `s` ends one step early on equality). C183 (the leading coefficient of a polynomial that is not monic is
dropped by the factoring over a number field by the reduced ring), C188 (factoring over the rational numbers first loses the exponents), C189 (lattices of matrices of different shapes compare as equal), C191 (`all_roots_unique` panics on the zero polynomial; the eigenvalues of the empty matrix panic), C192 (`jordan_algorithm` builds too many vectors).

## Plan per property

| id | modelled | how proved |
|----|----------|-----------|
| C01–C02 | `PartitionIterator` as a state machine (`next`), run to exhaustion | state invariant → the iterator's remaining output equals a recursively defined list; that list characterised by membership, `Nodup`, sortedness |
| C03 | `subsets`, `subsets_vec` | induction on k; membership iff; `Nodup`; lexicographic `Pairwise`; length = `Nat.choose` |
| C04–C05 | state machine `new/next/exclude` | representation invariant, refinement to "sorted list of remaining combinations"; induction over op lists |
| C06–C10 | `Permutation` (list with canonical reduction), `C2`, cycles | abstraction to `Equiv.Perm ℕ`; sign vs `Equiv.Perm.sign` |
| C11–C12 | `nat_pow`, worklist closure | bits induction; worklist invariant |
| C13–C25, C45–C47 | composition-table groups, presentations | tables ↔ Mathlib `Group (Fin n)`; closure algorithms by invariants |
| C26 | Schreier graph | invariant relating the graph to the coset action; partial_fixpoint |
| C27–C37 | naturals | induction / loop invariants; Mathlib number theory |
| C38–C44, C48–C49 | generic ring code on dictionaries; ℕ, ℤ, ℚ, quotient rings, factored elements | `Models` hypotheses, transported to Mathlib rings |
| C50–C64 | `polynomial_ring.rs` | lists denote Mathlib polynomials; the subresultant theorem is proved from scratch |
| C65–C73 | `matrix.rs` storage, arithmetic, Hermite algorithm and its uses | `Mat.Denotes` a Mathlib `Matrix`; loop invariants with unimodular transforms |
| C74–C79 | `subspace.rs` lattices | denote submodules / affine sets of matrices |
| C80–C82 | `Modulo<N>`, `QuaternaryField`, integers mod p as finite field structures | `FinFieldOps.Models`: presents a Mathlib finite field |
| C83 | monic / squarefree factorization over finite fields | invariant on multiplicities of irreducible factors; violated over non-prime fields (p-th roots of coefficients are not taken) |
| C84 | Berlekamp | kernel = fixed space of Frobenius; separating element; generic find-factor loop |
| C85 | distinct degree | invariant: remaining factors have degree ≥ i; `x^(q^i) - x` |
| C86 | Cantor–Zassenhaus, `factor` | `rand` is an arbitrary stream: soundness for every stream, termination for every `FairStream` (streams proved to exist) |
| C87 | `polynomial/quotient.rs` | coordinates w.r.t. the power basis of `AdjoinRoot` |
| C88 | Yun's algorithm (reduction to the squarefree case) | invariant: f = H b^i with H, b, d described by multiplicities; violated in the unit (`Factored::pow` forgets it), counterexample over the integers evaluated for every correct squarefree factoring |
| C89 | Kronecker's method | interpolation points = candidate divisors; search is exhaustive for every UFD of characteristic 0 with finitely many units |
| C90 | factoring over a field of fractions | exact formula for the unit; violated for repeated factors |
| C91 | trying all monic factors over a finite field | exhaustive search + generic find-factor loop |
| C92–C95 | `polynomial/hensel_lifting.rs` as a tree with Bézout data; debug checks are part of the model | `CongMod` (coefficientwise congruence); tree invariant `Valid`; linear and quadratic steps by the division with remainder by monic polynomials; uniqueness by induction on the exponent |
| C96–C97 | `mignotte_factor_coefficient_bound`, `cauchys_root_bound` | Mathlib's Mahler measure and Cauchy bound |
| C98 | `berlekamp_zassenhaus.rs`: primes, modular factorization, lifting, `MemoryStack`, the `d-1` test with wrapping 64-bit arithmetic, the subset search with its combinations iterator; `rand p` is the stream of random elements used at the prime p | modular factors ↔ divisors (`Is`, `Real`); invariant of the search; minimality of found subsets gives irreducibility; the `d-1` test never rejects a true factor; termination because all large primes are good. Violated in the sign |
| C99 | the naive version | same, exhaustive search over all subsets |
| C100 | `factor` of rational polynomials | composition of C90 and C98 |
| C101 | `smith_algorithm` with all its loops and debug assertions, as written (wrong swap included) | invariant `s = u m v`; measure for the clearing loop only where it is needed; a lattice argument shows every diagonal entry divides the last; kernel-evaluated counterexamples |
| C102 | `presentation_matrix`, `characteristic_polynomial` | determinant of the diagonal form, both sides monic |
| C103 | `minimal_polynomial` | division of matrix polynomials by the characteristic matrix; the last invariant factor generates the annihilator |
| C104 | Gram–Schmidt, conjugation a parameter | loop invariant over rows and columns; panic iff a linear relation |
| C105 | LQ/QR, square root an oracle with a contract | loop invariant on the scaled rows |
| C106 | multipoly.rs: monomials, `add`, `mul`, `neg`, `equal`, `reduce`; hash order an oracle | denotation in `MvPolynomial ℕ R`; canonical forms are unique |
| C107 | `evaluate` | homomorphism, term by term |
| C108 | `degree`, `free_vars`, `as_constant`, `split_by_degree`, `evaluate_var_zero`, `has_all_vars_parts` | coefficients of the denotation of a filtered list; counterexamples with zero terms |
| C109 | `homogenize` | degree of each monomial; injectivity of homogenization away from the variable |
| C110 | `expand` | loop invariant on the coefficient vector |
| C111 | `div` through univariate division over a structure of the same kind, depth-bounded; bound proved sufficient | transfer of univariate division along the denotation; induction on the number of variables |
| C112 | `apply_map_vars` | `rename`; counterexamples for non-injective maps |
| C113 | both monomial orders | first differing exponent |
| C114 | `is_symmetric` with its generating permutations | a transposition of neighbours and a full cycle generate; transfer to permutations of `Fin n`; counterexample with a zero term |
| C115 | `elementary_symmetric` over the `subsets_vec` model of C04 | recursion of `Multiset.esymm` |
| C116 | the mutually recursive expression procedure, depth-bounded (bound proved sufficient), final debug assertion included | the classical induction on (number of variables, degree); uniqueness from Mathlib's injectivity of `esymmAlgHom`; counterexample with repeated variables |
| C117 | vectors with their space identifiers, arithmetic, comparison, conversion to and from stored matrices | coordinatewise; `Mat.Denotes` for matrices |
| C118 | `determinant`, `rank`, `are_points_affine_independent` over the matrix model of C58ff. | correctness of determinant and row echelon rank; affine independence by differences to the first point |
| C119 | `Simplex::new` (sorting) and the lists of faces | invariance of affine independence under permutation and sublists; order of combinations |
| C120 | `OrientedSimplex` with `flip` and reference point | the determinant is an affine functional vanishing exactly on the span |
| C121 | `intersect_line` with its debug assertions | sign of an affine functional along a segment |
| C122 | `EmbeddedAffineSubspace`: span, embed, unembed, extend | affine map given by a basis; column solve of the matrix model |
| C123 | pivots of the echelon form choose the points | pivot columns span |
| C124 | hyperplanes through all but one of the completing points | infimum of affine spans of an affinely independent family |
| C125 | `origin` | violated for the empty space: counterexample theorem |
| C126 | geometry/src/simplexes/convex_hull.rs in Model/ConvexHull; histories `Built` in Spec/ConvexHull | Invariant `HullInv` (Proofs/HullInv): the interior is a set of full simplices whose boundary chain mod 2 is the set of facets, each facet supports all vertices; proved for both kinds of extension (HullExtend, HullRaise, HullInside, HullOutside) |
| C127 | as C126 | A set of simplices with that invariant covers its hull (HullComplete: a segment from inside cannot leave without crossing a facet); properness in HullProper |
| C128 | as C126; relative boundary in Spec/Convex | Proofs/HullBoundary, HullRel: a point where a facet function vanishes is in a facet |
| C129 | as C126 | Proofs/HullSem |
| C130 | as C126 | Proofs/HullSem |
| C131 | as C126 | Sections (Proofs/HullSection): the section of a hull is the hull of the wireframe points on the hyperplane; HullCut, HullMeet |
| C132 | as C126 | Proofs/HullWire |
| C133 | geometry/src/simplexes/simplicial_complex.rs `new_labelled` and simplex_collection.rs in Model/Complex, regions and complexes in Spec/Complex | Proofs/Complex: exact result of the two loops, invariant of the recorded cofaces |
| C134 | `as_simplicial_complex` in Model/Complex | Proofs/Complex2: the invariant of C126 gives that full simplices meet in faces (a chain-mod-2 and support argument), so faces form a complex; facets make up the relative boundary |
| C135 | boolean_opperations.rs `venn` in Model/Complex | Proofs/Complex3: extending the overlap keeps the faces of the overlap, so both triangulations contain the same pieces of it |
| C136 | boolean_opperations.rs raw operations in Model/Complex | Proofs/Complex4: induction on the loops with C135. Not modelled: `simplify`, `refine_to_partial_simplicial_complex` and the operations built on it, the private overlap check of disjoint unions, `interior_and_boundary` |
| C137 | partial_simplicial_complex.rs `closure` in Model/Complex | Proofs/Complex4 with C133 |
| C138 | `Model/RealRoots` (real/polynomial.rs, isolation, list of the stack) | Descartes' rule of signs, Vincent's theorem with a root-separation width (`Proofs/Descartes`, `Vincent`, `SignVar`), loop invariant of the bisection (`CollinsAkritas`), shrinking loop (`RealShrink`), Cauchy bound; partial: one-sided ranges beyond the bound panic (`C138_wrong`, `C138_domain` says exactly when) |
| C139 | same | corollary of C138; the number of intervals is the number of roots in `Polynomial.roots` |
| C140 | `RootIv.refine`, `SqRoots.refine`, `refineAll` | intermediate value theorem; the choice of `simplest_rational_in_open_interval` is an oracle |
| C141 | `Model/RealAlg` (real/mod.rs `cmp_mut`, `cmp_rat_mut`, `refine`) | loop ends by the width of the intervals; equality by irreducible polynomials and the wide bounds (`Proofs/RealAlgCmp`) |
| C142 | `RealAlg.neg` | affine change of the polynomial (`RealAlgAffine`) |
| C143 | `RealAlg.inv` | reversed polynomial (`RealAlgInv`) |
| C144 | `RealAlg.add`, `identify` | C152 with converging interval sums; partial: `root_sum_poly` is a parameter with spec `OpPolyOk` |
| C145 | `RealAlg.mul` | same; violated when an interval contains zero (`C145_mul_wrong`, for every prodPoly) |
| C146 | `RealAlg.div` | from C143, C145 |
| C147 | `ARoot.refine`, `refineTo` | intermediate value theorem |
| C148 | `ARoot.check` | spec implies each test |
| C149 | `allRealRoots`, `toRealRoots`, `getRealRoot` | C138/C139, factor selection by sign change (`RealAlgGet`, `RealAlgAll`) |
| C150 | `realRoots`, `rootsIrreducible` | same; violated: wide bounds (`C150_range_wrong`) |
| C151 | `nthRoot` | `RealAlgNth` |
| C152 | `identify` | `RealAlgIdentify`: candidates other than the root are eventually excluded |
| C153 | Model/PolyTools: root_sum_poly and root_product_poly over the model of multivariate polynomials (evaluate, homogenize, expand, resultant, as_constant, primitive squarefree part). Proof: the division of Model/MultiPoly is exact on well-formed polynomials, so the subresultant sequence is the one over ℤ[variables] (transfer along a homomorphism of structures); expansions are unique; the resultant at a complex number vanishes exactly at common roots. | Props/RealAlg |
| C154 | Model/Padic: `natVal`, `intVal`, `ratVal`, `Valu` | the loop computes Mathlib's `padicValNat`; order and sums compared with the p-adic norm |
| C155 | `ratTruncate`, `Trunc.digits`, `Trunc.rationalValue` | extended Euclid gives the inverse of the denominator modulo p^n; uniqueness of the truncation |
| C156 | `isolate`, `isolate0`, `isorefine`, `isorefine1`, `criticalPairs`, `normalization` | Newton polygon: the valuation of a root is a critical value; normalization moves roots to units; induction over the search with Hensel's lemma; the discriminant bounds the depth |
| C157 | `allPadicRoots`, `rootsIrreducible` | factorization into irreducible factors (oracle `FacOk`), multiset of roots; negation for constant factors |
| C158 | `PRoot.refine`, `refine`, `refine0Loop`, `refine0Impl` | invariant: the ball isolates the root and Newton's method converges; the first step already satisfies the Hensel test |
| C159 | `PRoot.truncate`, `PAlg.truncate` | C158 and C155 |
| C160 | `PRoot.equal`, `PAlg.equal` | irreducible polynomials with a common root are associated; truncations separate the roots |
| C161 | `PRoot.neg` | composition with an affine map |
| C162 | `PRoot.mulRat` | composition with an affine map, scaling of the Newton condition |
| C163 | `PRoot.addRat`, `refine0Impl` | composition with an affine map; the centre zero has no valuation, so refinement panics; where Newton's test fails the digit search can leave the root (root of x^4+24x+96 plus 1) |
| C164 | `PRoot.add`, `PAlg.add`, `candLoop`, `sumBall` (Model/Padic) | embedding of the algebraic p-adic numbers into ℂ turns `OpPolyExact` into a statement about p-adic roots; loop invariant `CandOk`, separation of the roots; negation: a rational candidate has a ball of radius zero and is dropped in the first round |
| C165 | `PRoot.mul`, `prodBall` | the same; for units the (multiplied) valuations of the ball are 0 |
| C166 | `PRoot.inv`, `invBall`, `PAlg.inv`, `PAlg.div` | the same with the reversed polynomial |
| C167 | number_field.rs trace_form_matrix and discriminant over the matrix and quotient-polynomial models | entries by `pqTrace` (C106), determinant by the Hermite determinant; identified with Mathlib's `Algebra.traceMatrix` and `Algebra.discr` on `AdjoinRoot f` |
| C168 | number_field.rs is_algebraic_integer, integral_multiple, quotient.rs min_poly | the minimal polynomial is Mathlib's `minpoly`; integrality by `minpoly.isIntegrallyClosed_eq_field_fractions`; degree ≤ 2 total |
| C169 | number_field.rs compute_integral_basis, the search loop as a `partial_fixpoint` | invariant: integral elements spanning a full lattice; if the search finds nothing, an element outside the lattice has a multiple of prime index, whose square divides the discriminant; each step divides the discriminant by a square, so the loop ends |
| C170 | Model/Golay: `Vector24` as a bit mask | bit-level lemmas; sets `Finset (Fin 24)`, matrices through `Mat.Rep` |
| C171 | Model/Golay: `fromRowBasisMatrix`, table as an association list | the words of weight 8 of a [24,12,8] code form a Steiner system S(5,8,24): existence by counting cosets (2^12 cosets, patterns of weight at most 4), uniqueness by the minimum distance |
| C172 | Model/Golay: `completeOctad` | lookup in the table of C171 |
| C173 | Model/Golay: `completeSextet`, hash order an oracle | invariant over the five rounds: the parts found are disjoint and any two form a codeword |
| C174 | Model/Golay: `orderings` (via the permutations of C123) | the lexicographic arrangements are the permutations |
| C175 | Model/Golay: the three literals | kernel evaluation of all 4096 words of each code, then C171 |
| C176 | Model/Golay: `modularPermutation` | C06 for the fixed size permutations |
| C177 | Model/Golay: `completeLabelling` with all its assertions | self-orthogonality: octads that meet a foursome in three points meet every other one in one point; parity of their intersections forces the labels |
| C178 | Model/Golay: `mogIsomorphism` | the labels give eleven words of the code in array coordinates; the twelfth is an octad with 64 possible shapes, all but one excluded by a word of weight below 8 (kernel evaluation of a table of witnesses) |
| C179 | Model/Aks: the whole of `aks_primality_test` (`none` = panic or endless loop, the inner primality test a parameter) | Fermat and Frobenius in the group algebra of `ZMod r` over `ZMod n`; coefficients compared through the injective packing |
| C180 | Model/Aks; `primalityTest` with the depth of recursion as fuel | Bernstein's argument: the set of good exponents, a family of products counted by binomials, and a small relation between `p` and `n/p` modulo `r` (Minkowski's theorem for a hexagon, by a shortest vector; a pigeonhole argument on explicit integer points when `r - 1 = 3M² + 1`); `r = 3` by evaluation of the remaining congruences for all `n < 2^20` in the kernel |
| C181 | Model/Aks: `aksEncode`, `aksMul`, `aksPow` with the debug assertion | base-`2^cs` digits, `2^(cs r) = 1` gives cyclic convolution, `n² r < 2^cs` excludes carries; compared in `AdjoinRoot (X^r - 1)` |
| C182 | Model/Aks: `aksGrow`, `aksShrink`, `aksTests` | the products of binomials are unbounded in `s`; loop invariant `2^(k+1) ≤ s + 1`; counterexample 112 evaluated |
| C183 | `reducedRing` and its parts (Model/AnfFactor.lean): rows of `L = K[x]/(p)` over the rational numbers, the random search (oracle), the linear systems; rational factoring is a parameter with the contract `RatFactorOk` | The rows are coordinates in the basis `θ^j x^i`; full rank makes `ℚ[y] → L` surjective with kernel `(q)`; a factor `qi` of `q` and the monic polynomial found define the same maximal ideal by counting dimensions; the product by degrees |
| C184 | Model/AnfFactor (`rationalFirst`, `anfFactor`), with the Yun loop of Model/PolyFactor.lean | a run of Yun with the partial squarefree step is a run with a total one that extends it (`yunLoop_mono`), to which `factorizeYun_assoc` applies; degree one: every step returns |
| C185 | Model/InterpolateLinear: the Vandermonde matrix written entry by entry, the right hand side, `col_solve` | loop invariants on the entries written; `BezoutOps.Models.colSolve`; uniqueness of Lagrange interpolation |
| C186 | Model/EmbeddedAnf (`asPolyExpr`); the complex algebraic numbers are the fields of `AlgOps`, whose contract is `AlgOps.Sound` | evaluation at the generator is an embedding of the number field; the target is in the field exactly when one of the linear factors of its minimal polynomial has it as a root; the coefficient lists of the factors are reduced, so their leading coefficient is the list `[1]` up to zeros |
| C187 | Model/EmbeddedAnf (`anfPair`, `anfMulti`); the stream of rational numbers is a parameter | partial correctness of the search, C186 for every step; invariant of the fold over the list; degrees of composita bounded by products of degrees; the search ends because the field of two numbers has finitely many subfields and two combinations with the same field recover both numbers |
| C188 | Model/AnfFactor (`rationalFirst`, `rationalLoop`) | the rational factors are distinct, monic and irreducible, so their product is squarefree, separable and squarefree over every number field; negation from there |
| C189 | Model/Lattice (`latEqual`, `latContainsSub`) | the comparison only reads the joined rows; reshaping is a linear equivalence that keeps the rows |
| C190 | `Model/Eigen.lean` over the matrix and lattice models | the matrix operations denote `(A - x)^k`, then kernel correctness (C74), transposition (C75) |
| C191 | `Model/Eigen.lean`; `ClosureOps.Sound` states what factoring and `all_roots_list` must do | distinct monic irreducibles over a perfect field share no root and are separable, so roots of the square-free part are simple and multiplicity equals the exponent; `charpoly` from C102 |
| C192 | `Model/Eigen.lean`: the closure of `jordan_algorithm` for one generalized eigenspace (the splitting into generalized eigenspaces and the final change of basis are not modelled) | chains by induction over the loops; the counterexample by kernel evaluation of the lattice operations over the rationals |
