{"id": "C01", "title": "Sized integer partitions are enumerated exactly", "statement": "predicated_partitions_sized(n,x,P) terminates and yields exactly the non-decreasing lists of x positive integers with sum n all of whose entries satisfy P; no list is yielded twice; they come in lexicographic order.", "quantifier": "every n, every x, every predicate P on usize", "why_tests_cant": "The domain is infinite; the existing tests print or count a handful of sizes.", "anchors": ["sets/src/partition.rs: PartitionIterator::next, predicated_partitions_sized, partitions_sized"]}
{"id": "C02", "title": "Partitions with zeros and partitions of any size", "statement": "predicated_partitions_sized_zero(n,x,P) yields exactly the non-decreasing lists of x naturals with sum n all satisfying P, once each; predicated_partitions(n,P) yields exactly the non-empty non-decreasing lists of positive integers satisfying P with sum n, once each (so nothing for n=0).", "quantifier": "every n, x, P", "why_tests_cant": "The domain is infinite; the existing tests print or count a handful of sizes.", "anchors": ["sets/src/partition.rs: predicated_partitions_sized_zero, predicated_partitions, partitions"]}
{"id": "C03", "title": "subsets(n,k) lists every k-subset once in lexicographic order", "statement": "subsets(n,k) returns exactly the strictly increasing length-k lists with entries below n, without repetition, in lexicographic order; there are binomial(n,k) of them. subsets_vec(items,k) returns the corresponding selections of items.", "quantifier": "every n, k, every item vector", "why_tests_cant": "Only subsets(5,3).len() is tested.", "anchors": ["sets/src/subset.rs: subsets, subsets_vec"]}
{"id": "C04", "title": "Lexicographic combination iterator with removals, under every call history", "statement": "For a fresh LexicographicCombinationsWithRemovals::new(n,k) with k<n and any interleaving of next() and exclude(a) (a<n), each next() returns the lexicographically smallest k-subset of 0..n that is lexicographically after everything already returned or skipped and that contains no element excluded so far, and returns None exactly when none is left; no call panics.", "quantifier": "every n, k with k<n, every finite history of next/exclude calls", "why_tests_cant": "The number of interleavings is unbounded; two fixed histories are tested.", "anchors": ["sets/src/combinations.rs: LexicographicCombinationsWithRemovals::{new,exclude,next}"]}
{"id": "C05", "title": "Combination iterator covers the k = n case", "statement": "new(n,n) should yield the single subset {0,..,n-1}. (The code sets finished when k >= n, so it yields nothing: recorded as a violated property with a proof of the negation.)", "quantifier": "every n", "why_tests_cant": "A boundary value no test uses.", "anchors": ["sets/src/combinations.rs: LexicographicCombinationsWithRemovals::new"]}
{"id": "C06", "title": "Permutation::new accepts exactly the permutations; equality is equality of functions", "statement": "Permutation::new(v) succeeds iff v is a rearrangement of 0..len(v) and then call(x)=v[x] for x<len(v) and call(x)=x otherwise; two permutations built by the API compare equal (and hash equal) iff they agree as functions on all usize.", "quantifier": "every vector; every pair of permutations, including ones written with different lengths", "why_tests_cant": "Trailing fixed points give infinitely many representations of one permutation.", "anchors": ["groups/src/permutation.rs: Permutation::new, reduced, call"]}
{"id": "C07", "title": "Permutations form a group under the API operations", "statement": "compose(a,b).call(x)=a.call(b.call(x)); inverse undoes call on both sides; identity.call(x)=x; all results are again valid canonical permutations, so associativity, identity and inverse laws hold as equalities of values.", "quantifier": "all permutations a,b,c of any sizes", "why_tests_cant": "Universally quantified algebraic laws.", "anchors": ["groups/src/permutation.rs: impl Group for Permutation"]}
{"id": "C08", "title": "Permutation sign is the sign homomorphism", "statement": "sign(p) is Flip iff p is an odd permutation; sign(compose(a,b)) = sign(a) composed with sign(b); sign of a transposition is Flip.", "quantifier": "all permutations of all sizes", "why_tests_cant": "Three examples of size 3 are tested.", "anchors": ["groups/src/permutation.rs: Permutation::sign", "groups/src/examples/c2.rs", "groups/src/examples/symmetric.rs: sign"]}
{"id": "C09", "title": "Disjoint cycle decomposition reconstructs the permutation", "statement": "disjoint_cycles terminates; the returned cycles have length >= 2, are pairwise disjoint, contain exactly the moved points, each cycle is c -> p(c) -> ... -> c, so composing them gives p; cycle_shape is the sorted list of orbit sizes >= 2.", "quantifier": "all permutations", "why_tests_cant": "The corresponding test is commented out.", "anchors": ["groups/src/permutation.rs: disjoint_cycles, cycle_shape"]}
{"id": "C10", "title": "Converting a cycle to a permutation", "statement": "Permutation::from(Cycle c) is the permutation sending each entry of c to the next and fixing everything else. Holds for the fixed-size Permutation<N>; for the unsized Permutation the conversion panics on every non-empty cycle (n is max instead of max+1): recorded as violated with a proof.", "quantifier": "every duplicate-free cycle", "why_tests_cant": "No test converts a cycle with the unsized type.", "anchors": ["groups/src/permutation.rs: From<Cycle>", "groups/src/examples/symmetric.rs: From<Cycle<N>>, new_from_cycles"]}
{"id": "C11", "title": "Group exponentiation is repeated composition", "statement": "nat_pow(g,n) equals the n-fold composition of g; int_pow(g,n) equals it for n>=0 and the inverse of the |n|-fold composition for n<0; Pow for every integer width agrees.", "quantifier": "every group, element and exponent of any size", "why_tests_cant": "Binary exponentiation over unbounded exponents.", "anchors": ["groups/src/group.rs: Group::nat_pow, int_pow, compose_list, Pow"]}
{"id": "C12", "title": "Generated finite subgroup tables are the generated subgroup", "statement": "When it terminates, generated_finite_subgroup_table(gens) lists each element of the subgroup generated by gens exactly once with identity at index 0, mul and inv tables agree with compose and inverse of the elements; generated_finite_subgroup returns exactly the same set; for a finite ambient group they terminate.", "quantifier": "every group with decidable equality, every generator list", "why_tests_cant": "Worklist algorithm over arbitrary groups and generator lists.", "anchors": ["groups/src/group.rs: generated_finite_subgroup_table, generated_finite_subgroup"]}
{"id": "C13", "title": "A composition table is accepted iff it is a group", "statement": "Group::new(n,ident,inv,mul) returns Ok iff the data has the right shape and satisfies the group axioms on {0..n-1}; otherwise Err; check_state never panics on malformed shapes.", "quantifier": "every n and every table", "why_tests_cant": "All tables of all sizes.", "anchors": ["groups/src/composition_table/group.rs: Group::check_state, Group::new"]}
{"id": "C14", "title": "Element order", "statement": "order(x) terminates for every valid group and x<n, and returns the least k>=1 with x^k = identity; Err iff x>=n.", "quantifier": "every valid group table, every x", "why_tests_cant": "Unbounded loop over arbitrary groups.", "anchors": ["groups/src/composition_table/group.rs: Group::order, mul_many"]}
{"id": "C15", "title": "Direct products and cyclic groups are groups", "statement": "direct_product_structure(G,H) is a valid group of size |G||H| and the index pairing i+j*|G| is an isomorphism with the product; cyclic_group_structure(n) for n>=1 is a valid abelian group isomorphic to Z/n.", "quantifier": "all valid group tables G,H; all n>=1", "why_tests_cant": "All groups and sizes.", "anchors": ["groups/src/composition_table/group.rs: direct_product_structure, examples::cyclic_group_structure"]}
{"id": "C16", "title": "Conjugacy classes", "statement": "conjugacy_classes() is a valid partition of the group whose blocks are exactly the conjugacy classes, whatever order the hash set is iterated in; conjugacy_class(x) returns the class of x. is_abelian() (uncached) is true iff the group commutes.", "quantifier": "every valid group table, every hash iteration order", "why_tests_cant": "HashSet iteration order is randomised per process.", "anchors": ["groups/src/composition_table/group.rs: compute_conjugacy_classes, conjugacy_class, compute_is_abelian"]}
{"id": "C17", "title": "Generated subgroup is the smallest subgroup containing the generators", "statement": "generated_subgroup() terminates and returns exactly the subgroup generated by the subset; is_subgroup() is true iff the (non-empty) subset is a subgroup. is_subgroup() also answers true for the empty subset: recorded as violated there.", "quantifier": "every valid group, every subset", "why_tests_cant": "All groups and subsets.", "anchors": ["groups/src/composition_table/subset.rs: generated_subgroup, is_subgroup, left_mul, right_mul"]}
{"id": "C18", "title": "Normal closure is the smallest normal subgroup containing the subset", "statement": "normal_closure() returns exactly the normal closure; is_normal_subgroup() is true iff conjugation-closed.", "quantifier": "every valid group, every subset", "why_tests_cant": "All groups.", "anchors": ["groups/src/composition_table/subset.rs: normal_closure", "groups/src/composition_table/subgroup.rs: is_normal_subgroup"]}
{"id": "C19", "title": "Cosets partition the group", "statement": "left_cosets()/right_cosets() terminate for every subgroup and return a valid partition whose blocks are exactly gH (Hg), all of size |H|, so size()*|H| = |G|; for a normal subgroup both are the same partition.", "quantifier": "every valid group, every subgroup, every hash iteration order", "why_tests_cant": "Randomised iteration order; all groups.", "anchors": ["groups/src/composition_table/subgroup.rs: left_cosets, right_cosets"]}
{"id": "C20", "title": "Quotient groups and subgroup groups are groups", "statement": "For a normal subgroup N, quotient_group() is a valid group of order |G|/|N| and the lookup map G -> G/N is a surjective homomorphism with kernel N; Subgroup::to_group is a valid group embedded in G.", "quantifier": "every valid group and (normal) subgroup", "why_tests_cant": "All groups.", "anchors": ["groups/src/composition_table/partition.rs: Congruence::quotient_group", "groups/src/composition_table/normal_subgroup.rs", "groups/src/composition_table/subgroup.rs: to_group"]}
{"id": "C21", "title": "All subgroups are found, each once", "statement": "subgroups() returns every subgroup exactly once, each with a set that generates it; normal_subgroups() returns every normal subgroup exactly once with a set whose normal closure it is.", "quantifier": "every valid group, every hash iteration order and parallel schedule", "why_tests_cant": "Completeness of a closure search over all groups.", "anchors": ["groups/src/composition_table/group.rs: subgroups_impl, subgroups, normal_subgroups"]}
{"id": "C22", "title": "Partition validation and equality", "statement": "PartitionState::check_state is Ok iff classes are a partition of the elements into non-empty blocks and lookup is the block index map; from_subsets succeeds iff the given sets form a partition; == holds iff the two partitions have the same blocks (as an equivalence relation).", "quantifier": "every list of sets, every pair of valid partitions", "why_tests_cant": "All partitions.", "anchors": ["groups/src/composition_table/partition.rs: check_state, from_subsets, PartialEq"]}
{"id": "C23", "title": "Generating sets and homomorphism extension", "statement": "generating_set() returns generators and, for each element, a word evaluating to it, whatever elements are randomly chosen; generated_homomorphism(images) returns Some(f) iff the assignment extends to a homomorphism, and then f is that homomorphism.", "quantifier": "every valid group pair, every image assignment, every random choice", "why_tests_cant": "Randomised choices, all groups.", "anchors": ["groups/src/composition_table/generating_set.rs: try_find_generating_set, generated_homomorphism, small_generating_set"]}
{"id": "C24", "title": "find_isomorphism is sound and complete", "statement": "find_isomorphism(G,H) returns Some(f) only if f is an isomorphism with the stated inverse, and None only if G and H are not isomorphic.", "quantifier": "every pair of valid groups, every random choice", "why_tests_cant": "Completeness means exhausting the search space for all groups.", "anchors": ["groups/src/composition_table/homomorphism.rs: find_isomorphism, to_isomorphism, check_state"]}
{"id": "C25", "title": "Isomorphism classes: product, recognition and reconstruction", "statement": "The product of isomorphism classes denotes the direct product: to_group(a*b) is isomorphic to to_group(a) x to_group(b) (violated: Trivial * X returns Trivial; proved). from_group(G) returns a class to which G belongs; to_group(c) of a class without Unknown returns a group of that class; so rebuilding a recognised group gives an isomorphic group.", "quantifier": "all isomorphism classes", "why_tests_cant": "The Trivial case is never exercised by from_group.", "anchors": ["groups/src/composition_table/iso_rep.rs: Mul, to_group"]}
{"id": "C26", "title": "Todd-Coxeter coset enumeration", "statement": "When enumerate_cosets terminates it returns the number of cosets of the subgroup in the presented group and the generators' action on them, with index 0 the subgroup itself.", "quantifier": "every presentation and subgroup generator list for which it halts", "why_tests_cant": "Correctness of coset collapse for every presentation.", "anchors": ["groups/src/free_group/todd_coxeter.rs: SchreierGraph, enumerate_cosets_impl, into_finite_group"]}
{"id": "C27", "title": "Factorial, binomials and powers of naturals", "statement": "factorial(n)=n!; choose(a,b) and choose_usize(a,b) equal the binomial coefficient, 0 when b>a; pow(x,n)=x^n.", "quantifier": "all naturals", "why_tests_cant": "Unbounded naturals.", "anchors": ["rings/src/number/natural/functions.rs: factorial, choose, choose_usize, pow"]}
{"id": "C28", "title": "Integer roots", "statement": "nth_root_floor(x,n) for n>=1 terminates and returns the largest r with r^n <= x; nth_root_ceil the least r with x <= r^n; n=0 panics.", "quantifier": "all x and n>=1", "why_tests_cant": "Tested for x,n<10 only.", "anchors": ["rings/src/number/natural/functions.rs: nth_root_floor, nth_root_ceil, sqrt_floor, sqrt_ceil"]}
{"id": "C29", "title": "Natural gcd", "statement": "gcd(x,y) is the greatest common divisor, with gcd(0,0)=0.", "quantifier": "all naturals", "why_tests_cant": "Unbounded naturals.", "anchors": ["rings/src/number/natural/functions.rs: gcd"]}
{"id": "C30", "title": "Perfect power test", "statement": "is_power_test(n) returns Power(a,k) only with a^k=n, k prime, and returns No only if n (>=2) is not a k-th power for any k>=2.", "quantifier": "all naturals", "why_tests_cant": "Completeness for unbounded n depends on the exponent bound.", "anchors": ["rings/src/number/natural/functions.rs: is_power_test, bitcount"]}
{"id": "C31", "title": "Prime generator", "statement": "PrimeGenerator yields 2,3,5,... : after k calls it has produced exactly the k smallest primes in order; each call terminates.", "quantifier": "every number of calls", "why_tests_cant": "Unbounded stream.", "anchors": ["rings/src/number/natural/primes.rs: PrimeGenerator"]}
{"id": "C32", "title": "Trial-division primality", "statement": "try_divisors_primality_test(n) returns Prime iff n is prime, Composite iff n>=2 is not prime, and Zero/One for 0/1.", "quantifier": "all naturals", "why_tests_cant": "Unbounded naturals.", "anchors": ["rings/src/number/natural/primes.rs: try_divisors_primality_test"]}
{"id": "C33", "title": "Miller-Rabin never rejects a prime", "statement": "miller_rabin_primality_test(n,bases) returns Composite only if n is composite, never declares a composite prime, and is inconclusive otherwise; for an odd prime n and bases in [2,n-2] it is always inconclusive.", "quantifier": "all n, all base lists", "why_tests_cant": "Soundness for every n and base.", "anchors": ["rings/src/number/natural/primes.rs: miller_rabin_primality_test"]}
{"id": "C34", "title": "Factorization of naturals", "statement": "factor(0) is None; for n>=1, whenever factor(n) returns, the result is the prime factorization of n: every key is prime, every exponent positive, and the product is n (given a correct primality test above 10^6).", "quantifier": "all n", "why_tests_cant": "Unbounded; Pollard rho path not covered by tests.", "anchors": ["rings/src/number/natural/factor.rs: factor, Factorizer, Factored::expand"]}
{"id": "C35", "title": "Euler totient from a factorization", "statement": "euler_totient of the factorization of n equals the number of residues coprime to n.", "quantifier": "all n>=1", "why_tests_cant": "Unbounded.", "anchors": ["rings/src/number/natural/factor.rs: Factored::euler_totient"]}
{"id": "C36", "title": "Primitive root test", "statement": "is_primitive_root(x) on the factorization of n returns NonUnit iff gcd(x,n)!=1, Yes iff x generates the unit group mod n, No otherwise.", "quantifier": "all n>=1, all x", "why_tests_cant": "All moduli.", "anchors": ["rings/src/number/natural/factor.rs: Factored::is_primitive_root"]}
{"id": "C37", "title": "Primality test", "statement": "primality_test/aks_primality_test answer Composite only for composites and Prime only for primes.", "quantifier": "all naturals", "why_tests_cant": "Unbounded; heavy number theory.", "anchors": ["rings/src/number/natural/primes.rs: primality_test, aks_primality_test, is_prime"]}
{"id": "C38", "title": "Ring powers and integer embeddings", "statement": "nat_pow(a,n)=a^n, from_nat/from_int are the canonical maps from N/Z, sum/product are the sum/product, int_pow(a,n) is a^n for invertible a and None for a non-zero non-unit with n<0; all for every ring. (int_pow(0,n<0) returns Some(0): recorded.)", "quantifier": "every (semi)ring, element, exponent", "why_tests_cant": "Generic code over all rings.", "anchors": ["rings/src/structure/structure.rs: nat_pow, from_nat, from_int, int_pow, sum, product"]}
{"id": "C39", "title": "Euclidean gcd and extended gcd", "statement": "euclidean_gcd terminates and returns the favourite associate of a greatest common divisor; euclidean_xgcd returns (g,a,b) with g = a*x+b*y and g that same gcd.", "quantifier": "every Euclidean domain, all x,y", "why_tests_cant": "Generic over domains.", "anchors": ["rings/src/structure/structure.rs: euclidean_gcd, euclidean_xgcd, gcd_list, lcm, lcm_list"]}
{"id": "C40", "title": "xgcd_list gives Bezout coefficients", "statement": "xgcd_list(elems) returns (g, coeffs) with as many coefficients as elements, sum coeffs*elems = g, and g a gcd of all the elements (favourite associate).", "quantifier": "every Bezout domain, every list", "why_tests_cant": "Divide and conquer over arbitrary lists.", "anchors": ["rings/src/structure/structure.rs: xgcd_list"]}
{"id": "C41", "title": "Integer division, associates and units", "statement": "Integer div returns Ok(q) iff b!=0 and a=q*b, DivideByZero iff b=0, NotDivisible otherwise; quorem is floor division; factor_fav_assoc gives unit*|a|; divisible, are_associate, is_unit agree with the ring-theoretic notions.", "quantifier": "all integers", "why_tests_cant": "Unbounded.", "anchors": ["rings/src/number/integer/mod.rs", "rings/src/structure/structure.rs: divisible, are_associate, is_unit"]}
{"id": "C42", "title": "Quotient ring arithmetic", "statement": "In QuotientStructure(R,m) with m != 0, equal is congruence mod m, add/mul/neg are compatible with it, and (field case, m irreducible) div returns the quotient for every non-zero divisor and DivideByZero otherwise.", "quantifier": "every Euclidean domain, modulus, elements", "why_tests_cant": "Generic.", "anchors": ["rings/src/structure/quotient.rs"]}
{"id": "C43", "title": "Factored-element arithmetic", "statement": "expand(mul(a,b)) = expand(a)*expand(b) and expand(pow(a,k)) = expand(a)^k for factored elements whose factors are favourite associates; equal(a,b) iff they denote the same factorization. (pow violates this: it does not raise the unit; proved.)", "quantifier": "every unique factorization domain, all factored elements", "why_tests_cant": "Generic.", "anchors": ["rings/src/structure/factorization.rs: Factored::{expand,mul,mul_mut,pow,equal}"]}
{"id": "C44", "title": "Divisor enumeration", "statement": "divisors() lists every divisor of the factored element up to units exactly once, and count_divisors() is its length.", "quantifier": "all factored elements", "why_tests_cant": "Generic.", "anchors": ["rings/src/structure/factorization.rs: divisors, count_divisors"]}
{"id": "C45", "title": "Symmetric and alternating composition tables", "statement": "all_permutations(n) yields every permutation of 0..n exactly once; symmetric_composition_table(n) terminates with a valid group table with n! elements isomorphic to the symmetric group, and alternating_composition_table(n) with one isomorphic to the alternating group; the i-th element of the table corresponds to the i-th returned permutation.", "quantifier": "every n, every enumeration order", "why_tests_cant": "n is unbounded and the table grows as n!.", "anchors": ["groups/src/permutation.rs: all_permutations, symmetric_composition_table, alternating_composition_table", "groups/src/group.rs: generated_finite_subgroup_table"]}
{"id": "C46", "title": "small_generating_set", "statement": "small_generating_set(attempts) with attempts > 0 returns a generating set with correct words, no larger than the first one found. (Violated for the trivial group: with two or more attempts size()-1 underflows and the call panics; proved.)", "quantifier": "every valid group, every number of attempts, every random choice", "why_tests_cant": "Random choices; the trivial group is never tested.", "anchors": ["groups/src/composition_table/generating_set.rs: small_generating_set"]}
{"id": "C47", "title": "Presentation builder", "statement": "Group elements built with identity, mul, inv, pow and two-sided relations denote what they say in every group: the stored relation words have the value of the expression, add_relation imposes exactly rel = 1, add_two_sided_relation exactly rel1 = rel2; a new generator is always distinct from all earlier ones.", "quantifier": "every sequence of builder calls, every group and all values of the generators", "why_tests_cant": "Any sequence of builder calls, interleaved with other presentations sharing the global counter.", "anchors": ["groups/src/free_group/todd_coxeter.rs: FinitelyGeneratedGroupElement, FinitelyGeneratedGroupPresentation, translate_generator_expression"]}
{"id": "C48", "title": "Generated elements, absolute value, rationals", "statement": "generate_distinct_elements never repeats an element in characteristic zero and yields exactly the images of the integers; abs is the absolute value; the rationals present Q as a field; numerator/denominator are the reduced fraction; as_base_ring returns the integer exactly when the rational is one; floor/ceil/round are the greatest integer below, least above, and an integer within 1/2.", "quantifier": "every characteristic-zero ring, every ordered ring, every rational", "why_tests_cant": "Unbounded inputs, generic rings.", "anchors": ["rings/src/structure/structure.rs: generate_distinct_elements, abs, as_base_ring", "rings/src/number/rational.rs"]}
{"id": "C49", "title": "Factoring by repeated splitting; integer factorization", "statement": "factorize_by_find_factor with a sound splitting procedure terminates and returns the factorization into a unit and distinct irreducible favourite associates that expands to the element; factor on integers returns sign times distinct positive primes whenever it returns (None for 0), and is_irreducible decides irreducibility.", "quantifier": "every UFD structure, splitting procedure and non-zero element; all integers", "why_tests_cant": "Generic code, unbounded recursion.", "anchors": ["rings/src/structure/factorization.rs: factorize_by_find_factor", "rings/src/number/integer/mod.rs: factor", "rings/src/structure/structure.rs: is_irreducible"]}
{"id": "C50", "title": "Polynomial ring laws", "statement": "Polynomials over any coefficient semiring/ring form the polynomial ring: equal ignores trailing zeros and compares coefficients, zero/one/add/mul/neg are those of the polynomial ring, and results of add, mul and scalar multiplication have no trailing zeros.", "quantifier": "every coefficient structure, every vector of coefficients (reduced or not)", "why_tests_cant": "Generic code over every coefficient ring and unbounded degree.", "anchors": ["rings/src/polynomial/polynomial.rs: PolynomialStructure add, mul, neg, equal, reduce_poly"]}
{"id": "C51", "title": "Evaluation and composition", "statement": "evaluate(p, x) is the value of p at x, compose(p, q) is p(q); evaluation respects sums, products and composition.", "quantifier": "every coefficient structure, polynomials and points", "why_tests_cant": "Unbounded degree, generic ring.", "anchors": ["rings/src/polynomial/polynomial.rs: evaluate, compose"]}
{"id": "C52", "title": "Degree, coefficients and derivative", "statement": "coeff, degree (None iff zero), num_coeffs, leading_coeff, as_constant, is_monic, var, var_pow, constant_var_pow, mul_var_pow, mul_scalar and derivative return the mathematical notions for every vector of coefficients; reversed(p) is x^deg(p) p(1/x).", "quantifier": "every coefficient structure and vector of coefficients", "why_tests_cant": "Unreduced representations and all degrees.", "anchors": ["rings/src/polynomial/polynomial.rs: coeff, degree, num_coeffs, leading_coeff, as_constant, is_monic, var_pow, derivative, reversed"]}
{"id": "C53", "title": "Polynomial division", "statement": "try_quorem over an integral domain returns DivideByZero iff the divisor is zero, the unique quotient and remainder of smaller degree iff they exist, NotDivisible otherwise; div is exact division; neither panics.", "quantifier": "every integral domain structure and all polynomials", "why_tests_cant": "Completeness of NotDivisible ranges over all candidate quotients.", "anchors": ["rings/src/polynomial/polynomial.rs: try_quorem, div_impl, div"]}
{"id": "C54", "title": "Pseudo-remainder", "statement": "pseudorem(a, b) is None iff b = 0, an error iff deg a < deg b, and otherwise the remainder r with lc(b)^(deg a - deg b + 1) a = Q b + r, deg r < deg b; it never panics.", "quantifier": "every integral domain and all polynomials", "why_tests_cant": "Generic domain, unbounded degree.", "anchors": ["rings/src/polynomial/polynomial.rs: pseudorem"]}
{"id": "C55", "title": "Favourite associates, content and units of polynomials", "statement": "factor_fav_assoc on polynomials meets its contract; factor_primitive splits a nonzero polynomial into content and primitive part, is_primitive decides primitivity, all_units lists the units of the polynomial ring.", "quantifier": "every coefficient structure and polynomial", "why_tests_cant": "Generic.", "anchors": ["rings/src/polynomial/polynomial.rs: factor_fav_assoc, factor_primitive, is_primitive, primitive_part, all_units"]}
{"id": "C56", "title": "Subresultant gcd", "statement": "subresultant_gcd never panics (all divisions in the pseudo-remainder subresultant sequence are exact) and returns the gcd up to a scalar of the fraction field.", "quantifier": "every integral domain, all pairs of polynomials", "why_tests_cant": "Exactness of the divisions is the subresultant theorem; it must hold for every pair.", "anchors": ["rings/src/polynomial/polynomial.rs: pseudo_remainder_subresultant_sequence, subresultant_gcd"]}
{"id": "C57", "title": "Resultant", "statement": "resultant(a, b) never panics, is the determinant of the Sylvester matrix of a and b, and vanishes iff a and b have a common factor over the fraction field.", "quantifier": "every integral domain, all pairs of nonzero polynomials", "why_tests_cant": "Sign and exactness for all degree patterns.", "anchors": ["rings/src/polynomial/polynomial.rs: resultant"]}
{"id": "C58", "title": "Discriminant", "statement": "discriminant(p) of a nonconstant polynomial over a domain is its discriminant; constants and zero give an error.", "quantifier": "every integral domain and polynomial", "why_tests_cant": "All degrees and characteristics.", "anchors": ["rings/src/polynomial/polynomial.rs: discriminant"]}
{"id": "C59", "title": "Squarefreeness test", "statement": "is_squarefree(p) tells whether p is squarefree over the field of fractions.", "quantifier": "every integral domain and polynomial", "why_tests_cant": "All polynomials and coefficient rings.", "anchors": ["rings/src/polynomial/polynomial.rs: is_squarefree"]}
{"id": "C60", "title": "Lagrange interpolation", "statement": "interpolate_by_lagrange_basis through points with distinct abscissas returns the interpolating polynomial of degree below the number of points, or None and then no polynomial over the ring interpolates; over a field it always succeeds.", "quantifier": "every integral domain, every list of points", "why_tests_cant": "Unbounded number of points; nonexistence quantifies over all polynomials.", "anchors": ["rings/src/polynomial/polynomial.rs: interpolate_by_lagrange_basis"]}
{"id": "C61", "title": "Polynomials over a field are Euclidean", "statement": "Over a field, norm/quorem make polynomials a Euclidean domain, gcd returns the monic gcd and xgcd Bezout coefficients.", "quantifier": "every field structure and all polynomials", "why_tests_cant": "Generic, unbounded.", "anchors": ["rings/src/polynomial/polynomial.rs: norm, quorem, gcd, xgcd"]}
{"id": "C62", "title": "Gcd of polynomials over a gcd domain", "statement": "gcd_by_primitive_subresultant(a, b) never panics and returns a gcd of a and b in the polynomial ring.", "quantifier": "every gcd domain and all polynomials", "why_tests_cant": "Gauss's lemma for every pair.", "anchors": ["rings/src/polynomial/polynomial.rs: gcd_by_primitive_subresultant"]}
{"id": "C63", "title": "Primitive squarefree part", "statement": "In characteristic zero, primitive_squarefree_part(f) never panics and is primitive, squarefree, and has the same irreducible factors of positive degree as f.", "quantifier": "every gcd domain of characteristic zero, every polynomial", "why_tests_cant": "All multiplicity patterns.", "anchors": ["rings/src/polynomial/polynomial.rs: primitive_squarefree_part"]}
{"id": "C64", "title": "Clearing denominators", "statement": "factor_primitive_fof(p) writes a polynomial over the field of fractions as a scalar times a primitive polynomial over the base ring, without panicking.", "quantifier": "every field of fractions of a gcd domain, every polynomial", "why_tests_cant": "Generic; all denominators.", "anchors": ["rings/src/polynomial/polynomial.rs: factor_primitive_fof, primitive_part_fof"]}
{"id": "C65", "title": "Matrix storage", "statement": "A matrix is a rectangle of entries with an optional transposed flag: construct/from_rows/at/at_mut/get_row/get_col/transpose/flip/submatrix/apply_map read and write exactly the entry they name, at panics-free inside and an error outside, and transposing swaps indices.", "quantifier": "every matrix in storage order or flipped, every index", "why_tests_cant": "Storage flag, sizes and indices are unbounded.", "anchors": ["rings/src/linear/matrix.rs: Matrix, at, at_mut, transpose, submatrix, get_row, get_col"]}
{"id": "C66", "title": "Matrix arithmetic", "statement": "equal, add, neg, mul, scalar multiplication, nat_pow, dot and trace of matrices compute the matrix sum, negative, product, multiple and power over the ring; sums and products of incompatible shapes are reported as dimension mismatch, never as a result.", "quantifier": "every ring, every pair of shapes and all matrices", "why_tests_cant": "All sizes and all rings.", "anchors": ["rings/src/linear/matrix.rs: MatrixStructure add, mul, mul_scalar, nat_pow"]}
{"id": "C67", "title": "Joining matrices", "statement": "join_rows stacks blocks vertically, join_cols horizontally and join_diag block-diagonally: each entry of the result is the entry of the block that covers it, and zero outside the diagonal blocks.", "quantifier": "every list of blocks of compatible shapes", "why_tests_cant": "Any number of blocks of any sizes, including empty ones.", "anchors": ["rings/src/linear/matrix.rs: join_rows, join_cols, join_diag"]}
{"id": "C68", "title": "Determinant", "statement": "det_naive (by permutations) and det (small sizes naively, otherwise by Hermite reduction over a Bezout domain) compute the determinant; a non-square matrix is reported as NotSquare.", "quantifier": "every ring (naive) or Bezout domain, every matrix", "why_tests_cant": "All sizes.", "anchors": ["rings/src/linear/matrix.rs: det_naive, det"]}
{"id": "C69", "title": "Elementary row operations", "statement": "Each elementary operation applied to the rows (columns) of a matrix equals left (right) multiplication by its elementary matrix, and the determinant reported for the operation is the determinant of that matrix.", "quantifier": "every operation, every matrix", "why_tests_cant": "All sizes and indices.", "anchors": ["rings/src/linear/matrix.rs: ElementaryOpp, apply, det"]}
{"id": "C70", "title": "Hermite normal form", "statement": "row_hermite_algorithm(A) over a Bezout domain terminates with (H, U, det U, pivots): H = U A, U invertible with the reported determinant, H in row echelon form with the reported pivots, each pivot being the preferred associate; the row span is unchanged. The column version is its transpose.", "quantifier": "every Bezout domain, every matrix", "why_tests_cant": "Loops over all columns and rows with gcd steps; all sizes.", "anchors": ["rings/src/linear/matrix.rs: row_hermite_algorithm, col_hermite_algorithm"]}
{"id": "C71", "title": "Rank", "statement": "rank(A) is the rank of A over any field containing the ring.", "quantifier": "every Bezout domain, every matrix", "why_tests_cant": "All sizes.", "anchors": ["rings/src/linear/matrix.rs: rank"]}
{"id": "C72", "title": "Reduced Hermite form and inverse", "statement": "row_reduced_hermite_algorithm(A) over a Euclidean domain returns H = U A with U invertible, H in echelon form and every entry above a pivot reduced modulo the pivot; inv(A) returns the inverse exactly when A is square and invertible, and the correct error otherwise.", "quantifier": "every Euclidean domain, every matrix", "why_tests_cant": "All sizes.", "anchors": ["rings/src/linear/matrix.rs: row_reduced_hermite_algorithm, inv"]}
{"id": "C73", "title": "Primitive part of a matrix", "statement": "factor_primitive writes a non-zero matrix as the gcd of its entries times a primitive matrix (None for zero); factor_primitive_fof does so over a field of fractions, without panicking.", "quantifier": "every gcd domain, every matrix", "why_tests_cant": "All sizes and entries.", "anchors": ["rings/src/linear/matrix.rs: factor_primitive, primitive_part, factor_primitive_fof"]}
{"id": "C74", "title": "Kernels and linear systems", "statement": "row_kernel/col_kernel return exactly the vectors killed by the matrix; row_solve/col_solve return a solution over the ring when one exists and None otherwise, never panicking on well-shaped input; the solution lattices are exactly the sets of solutions.", "quantifier": "every Bezout domain, every matrix and right hand side", "why_tests_cant": "Correctness over the ring (not just its field of fractions) for all sizes and entries.", "anchors": ["rings/src/linear/matrix.rs: row_kernel, col_kernel, row_solve, col_solve, row_solution_lattice, col_solution_lattice"]}
{"id": "C75", "title": "Linear lattices", "statement": "from_span, from_basis, zero, row_span and col_span build the lattice spanned by the given matrices (from_basis rejects dependent lists); rank is its rank and basis_matrices a basis; take_nonzero_point gives a nonzero element if there is one; transpose transposes; contains_point, contains_sublattice and equal decide membership, inclusion and equality.", "quantifier": "every Bezout domain, every lattice and matrix", "why_tests_cant": "Infinite sets, all dimensions.", "anchors": ["rings/src/linear/subspace.rs: LinearLatticeStructure from_span, from_basis, zero, rank, basis_matrices, take_nonzero_point, transpose, contains_point, contains_sublattice, equal", "rings/src/linear/matrix.rs: row_span, col_span"]}
{"id": "C76", "title": "Sum and intersection of linear lattices", "statement": "sum is the smallest lattice containing all the given ones, intersect is their intersection, for lists of any length including empty ones.", "quantifier": "every Bezout domain, every list of lattices", "why_tests_cant": "Infinite sets, lists of any length.", "anchors": ["rings/src/linear/subspace.rs: sum, sum_pair, intersect, intersect_pair, metamatrix_row_sum, metamatrix_row_intersection"]}
{"id": "C77", "title": "Affine lattices", "statement": "An affine lattice denotes the empty set or a translate of a linear lattice: from_offset_and_linear_lattice, contains_point, take_point, sum (all sums of elements), intersect (the intersection, empty when disjoint), row_affine_span and col_affine_span (all affine combinations) compute exactly these sets.", "quantifier": "every Bezout domain, every list of affine lattices", "why_tests_cant": "Infinite sets; includes the Chinese remainder theorem for all moduli.", "anchors": ["rings/src/linear/subspace.rs: AffineLatticeStructure from_offset_and_linear_lattice, contains_point, sum, intersect, intersect_pair, take_point", "rings/src/linear/matrix.rs: row_affine_span, col_affine_span"]}
{"id": "C78", "title": "Inclusion and equality of affine lattices", "statement": "contains_sublattice and equal decide inclusion and equality of affine lattices.", "quantifier": "every Bezout domain, every two affine lattices", "why_tests_cant": "Infinite sets.", "anchors": ["rings/src/linear/subspace.rs: AffineLatticeStructure contains_sublattice, equal"]}
{"id": "C79", "title": "Extending bases and hyperplanes", "statement": "For lattices a in b, extension_basis returns elements of b that extend the basis of a to a basis of b; as_hyperplane_intersection returns lattices of corank one whose intersection is the given lattice.", "quantifier": "every Bezout domain, every lattice", "why_tests_cant": "All dimensions and lattices.", "anchors": ["rings/src/linear/subspace.rs: extension_basis, as_hyperplane_intersection"]}
{"id": "C80", "title": "Modulo<N> is the ring of integers modulo N", "statement": "For every N > 0 the operations of Modulo<N> are those of Z/N; for a prime N (exactly the primes below 1000 are implemented) it is the field with N elements, division never panics, all_units lists each unit once; conversions give the residue class.", "quantifier": "every N, all elements, every converted number", "why_tests_cant": "168 fields and all pairs of elements; conversions have an infinite domain.", "anchors": ["rings/src/number/finite_fields/modulo.rs: Modulo, xgcd, modulo, impl_field"]}
{"id": "C81", "title": "QuaternaryField is the field with four elements", "statement": "The tables of QuaternaryField form a field isomorphic to GF(4).", "quantifier": "all elements", "why_tests_cant": "The isomorphism with the abstract field is not a test.", "anchors": ["rings/src/number/finite_fields/quaternary_field.rs: QuaternaryField"]}
{"id": "C82", "title": "Integers modulo a prime form a finite field structure", "statement": "The quotient field of the integers by a prime of either sign presents the field with |p| elements; all_elements lists every element exactly once.", "quantifier": "every prime, every finite field structure", "why_tests_cant": "Infinitely many primes.", "anchors": ["rings/src/number/integer/modulo.rs", "rings/src/structure/structure.rs: FiniteFieldStructure::all_elements"]}
{"id": "C83", "title": "Monic and squarefree factorization over a finite field", "statement": "factorize_monic splits off the leading coefficient; factorize_squarefree returns monic, squarefree, pairwise coprime, non-constant factors with distinct positive exponents whose product is the polynomial.", "quantifier": "every finite field, every non-zero polynomial", "why_tests_cant": "All polynomials over all finite fields.", "anchors": ["rings/src/number/finite_fields/polynomial.rs: factorize_monic, factorize_squarefree"]}
{"id": "C84", "title": "Berlekamp's algorithm", "statement": "For a squarefree polynomial over a finite field find_factor_by_berlekamps_algorithm returns Irreducible exactly for irreducible polynomials and otherwise two proper factors; factorize_berlekamps returns the factorization into irreducible polynomials.", "quantifier": "every finite field, every squarefree polynomial", "why_tests_cant": "All polynomials over all finite fields.", "anchors": ["rings/src/number/finite_fields/polynomial.rs: find_factor_by_berlekamps_algorithm, factorize_berlekamps"]}
{"id": "C85", "title": "Distinct degree factorization", "statement": "factorize_distinct_degree terminates without failing an assertion and returns coprime monic squarefree polynomials with the same product, each labelled with the common degree of its irreducible factors.", "quantifier": "every finite field, every squarefree factorization", "why_tests_cant": "All polynomials over all finite fields.", "anchors": ["rings/src/number/finite_fields/polynomial.rs: factorize_distinct_degree"]}
{"id": "C86", "title": "Cantor-Zassenhaus and factor over finite fields", "statement": "For every stream of random elements, if factorize_cantor_zassenhaus returns then it returns the factorization into irreducible polynomials; it returns on every stream in which all words occur again and again; factor therefore factors every polynomial.", "quantifier": "every finite field, every polynomial, every random stream", "why_tests_cant": "Infinitely many polynomials and random streams.", "anchors": ["rings/src/number/finite_fields/polynomial.rs: factorize_cantor_zassenhaus", "rings/src/number/finite_fields/modulo.rs: factor"]}
{"id": "C87", "title": "Quotients of polynomial rings as algebras", "statement": "For a modulus of positive degree over a field: to_col_vector and from_col_vector are inverse in the quotient, the multiplication matrices represent multiplication, trace and norm are the algebra trace and norm.", "quantifier": "every field, every modulus, every elements", "why_tests_cant": "All fields, moduli and elements.", "anchors": ["rings/src/polynomial/quotient.rs: col_multiplication_matrix, to_col_vector, from_col_vector, trace, norm"]}
{"id": "C88", "title": "Reduction of polynomial factoring to the squarefree case (Yun)", "statement": "For every nonzero polynomial over a UFD of characteristic zero, given a correct algorithm for primitive squarefree polynomials, Yun's algorithm terminates without panicking and returns pairwise distinct normalised irreducible factors with positive exponents and a unit whose product is the polynomial.", "quantifier": "every UFD of characteristic zero, every nonzero polynomial, every correct squarefree factoring", "why_tests_cant": "All polynomials and rings; the code gets the unit wrong only for particular repeated factors.", "anchors": ["rings/src/polynomial/factoring.rs: factorize_using_primitive_sqfree_factorize_by_yuns_algorithm"]}
{"id": "C89", "title": "Kronecker's factoring method", "statement": "factorize_by_kroneckers_method returns None exactly for zero; otherwise it terminates without panicking with the factorization into irreducibles. Its search step reports Irreducible exactly for irreducible polynomials and otherwise a proper factorization.", "quantifier": "every UFD of characteristic zero with finitely many units, every polynomial", "why_tests_cant": "Irreducibility is a claim about all possible factorizations; termination about all inputs.", "anchors": ["rings/src/polynomial/factoring.rs: find_factor_primitive_by_kroneckers_algorithm, factorize_by_kroneckers_method"]}
{"id": "C90", "title": "Factoring over a field of fractions", "statement": "Factoring a polynomial over the field of fractions of a UFD through its primitive part returns None for zero and otherwise a factorization into monic irreducible polynomials whose product with the unit is the polynomial.", "quantifier": "every field of fractions, every polynomial, every correct factoring over the base ring", "why_tests_cant": "All polynomials; errors appear only for repeated non-monic factors and for zero.", "anchors": ["rings/src/polynomial/factoring.rs: factorize_by_factorize_primitive_part"]}
{"id": "C91", "title": "Factoring over a finite field by trying all factors", "statement": "factorize_by_trying_all_factors returns None for zero, and otherwise terminates without panicking with the factorization into monic irreducibles; its search step is exact.", "quantifier": "every finite field, every polynomial", "why_tests_cant": "All fields and polynomials; irreducibility quantifies over all factors.", "anchors": ["rings/src/polynomial/factoring.rs: find_factor_by_trying_all_factors, factorize_by_trying_all_factors"]}
{"id": "C92", "title": "Creating Hensel factorizations", "statement": "HenselFactorization::new succeeds on a nonempty list of monic non-constant polynomials, pairwise coprime modulo the prime p, whose product with the leading coefficient of h is h modulo p^n (n = 1 when Bezout coefficients are to be lifted) and p does not divide the leading coefficient; the result passes check, has modulus p^n and factors congruent to the given ones. It panics on an empty list, a non-monic factor, h = 0, a wrong product, and non-coprime factors.", "quantifier": "every Euclidean domain, prime, exponent, polynomial and list of factors", "why_tests_cant": "All factor trees and rings; Bezout identities must hold at every node.", "anchors": ["rings/src/polynomial/hensel_lifting.rs: HenselFactorization::new, new_impl, check, factors, modulus"]}
{"id": "C93", "title": "Linear Hensel lifting", "statement": "Any number of linear lifts of a valid Hensel factorization succeed; each raises the exponent of the modulus by one, keeps h, and the factors stay monic and congruent to the old ones modulo the old modulus, with lc(h) times their product congruent to h modulo the new modulus. The lifted factors are unique modulo the new modulus.", "quantifier": "every valid factorization over a Euclidean domain, every number of lifts", "why_tests_cant": "Unbounded number of lifts and sizes of the factor tree.", "anchors": ["rings/src/polynomial/hensel_lifting.rs: linear_lift, compute_lift_factors, factors"]}
{"id": "C94", "title": "Quadratic Hensel lifting", "statement": "Any number of quadratic lifts of a valid Hensel factorization with lifted Bezout coefficients succeed; each doubles the exponent of the modulus, keeps h, and the factors stay monic and congruent to the old ones modulo the old modulus, with lc(h) times their product congruent to h modulo the new modulus. dont_lift_bezout_coeffs keeps the factorization.", "quantifier": "every valid factorization over a Euclidean domain, every number of lifts", "why_tests_cant": "Unbounded number of lifts and sizes of the factor tree.", "anchors": ["rings/src/polynomial/hensel_lifting.rs: quadratic_lift, dont_lift_bezout_coeffs, compute_lift_factors"]}
{"id": "C95", "title": "From a modular factorization to a Hensel factorization", "statement": "into_hensel_factorization of a factorization modulo p of a non-constant polynomial h whose leading coefficient is not divisible by p returns None when some factor is repeated, and otherwise a valid Hensel factorization of h modulo p with factors congruent to the given ones.", "quantifier": "every Euclidean domain with a prime p, every polynomial, every valid factorization into monic polynomials", "why_tests_cant": "All factorizations; pairwise coprimality of irreducibles is a statement about all factors.", "anchors": ["rings/src/polynomial/hensel_lifting.rs: into_hensel_factorization"]}
{"id": "C96", "title": "Bound for the coefficients of factors", "statement": "mignotte_factor_coefficient_bound returns None exactly for the zero polynomial and otherwise a natural number that is at least the absolute value of every coefficient of every polynomial dividing the argument.", "quantifier": "every integer polynomial, every factor of it, every coefficient", "why_tests_cant": "The claim is about all factors of all polynomials; it rests on Mahler measure.", "anchors": ["rings/src/number/integer/polynomial.rs: mignotte_factor_coefficient_bound"]}
{"id": "C97", "title": "Bound for the complex roots", "statement": "cauchys_root_bound returns None exactly for constant polynomials and otherwise a rational number greater than the absolute value of every complex root.", "quantifier": "every integer polynomial, every complex root", "why_tests_cant": "All polynomials and all complex roots.", "anchors": ["rings/src/number/integer/polynomial.rs: cauchys_root_bound"]}
{"id": "C98", "title": "Factoring integer polynomials", "statement": "factor of an integer polynomial (Berlekamp\u2013Zassenhaus with the d-1 test, lifting and subset search) returns None for zero and otherwise terminates and returns pairwise different normalised irreducible polynomials with positive exponents whose product with the unit is the polynomial.", "quantifier": "every integer polynomial whose degree fits in a machine word, every correct integer factoring function, every fair sequence of random field elements", "why_tests_cant": "All polynomials and all random choices; completeness of the search (irreducibility of what is returned) and soundness of the machine-arithmetic d-1 test cannot be seen on examples.", "anchors": ["rings/src/number/integer/berlekamp_zassenhaus.rs: factorize_by_berlekamp_zassenhaus_algorithm, factor_by_try_all_subsets, DMinusOneTest, MemoryStack", "rings/src/number/integer/polynomial.rs: factor"]}
{"id": "C99", "title": "Naive Berlekamp\u2013Zassenhaus", "statement": "factorize_by_berlekamp_zassenhaus_algorithm_naive returns None for zero and otherwise terminates and returns a valid factorization of the polynomial; the underlying search says 'irreducible' exactly for irreducible polynomials.", "quantifier": "every integer polynomial, every correct integer factoring function, every fair sequence of random field elements", "why_tests_cant": "All polynomials, all subsets of modular factors, all random choices.", "anchors": ["rings/src/number/integer/berlekamp_zassenhaus.rs: factorize_by_berlekamp_zassenhaus_algorithm_naive, find_factor_primitive_sqfree_by_berlekamp_zassenhaus_algorithm_naive"]}
{"id": "C100", "title": "Factoring rational polynomials", "statement": "factor of a rational polynomial returns None for zero and otherwise pairwise different monic irreducible polynomials and a constant whose product is the polynomial.", "quantifier": "every rational polynomial whose degree fits in a machine word, every fair sequence of random field elements", "why_tests_cant": "All polynomials and all random choices.", "anchors": ["rings/src/number/rational.rs: factor", "rings/src/polynomial/factoring.rs: factorize_by_factorize_primitive_part"]}
{"id": "C101", "title": "Smith normal form", "statement": "For a matrix m over a B\u00e9zout domain, smith_algorithm returns (u, s, v, k) with s = u m v, u and v invertible, s diagonal with favourite-associate entries each dividing the next, and k the number of non-zero diagonal entries.", "quantifier": "all B\u00e9zout domains with terminating divisor chains, all matrices of all shapes", "why_tests_cant": "the tests check three or four small integer matrices; the claim is about all matrices over all rings", "anchors": ["rings/src/linear/matrix.rs: smith_algorithm"]}
{"id": "C102", "title": "Characteristic polynomial", "statement": "For a square matrix over a field, characteristic_polynomial returns det(x - m); for a non-square matrix it returns the NotSquare error.", "quantifier": "all fields, all matrices", "why_tests_cant": "tests compare a few fixed matrices", "anchors": ["rings/src/linear/matrix.rs: characteristic_polynomial, presentation_matrix"]}
{"id": "C103", "title": "Minimal polynomial", "statement": "For a square matrix over a field, minimal_polynomial returns the monic polynomial of least degree that annihilates the matrix; for a non-square matrix it returns the NotSquare error.", "quantifier": "all fields, all matrices", "why_tests_cant": "minimality quantifies over all polynomials, and the claim over all matrices", "anchors": ["rings/src/linear/matrix.rs: minimal_polynomial, presentation_matrix"]}
{"id": "C104", "title": "Gram-Schmidt orthogonalisation", "statement": "gram_schmidt_row_orthogonalization_algorithm returns a lower unitriangular l and q = l m with pairwise orthogonal rows (columns in the column version), and panics only when the rows (columns) other than the last one are linearly dependent.", "quantifier": "all fields with a conjugation, all matrices", "why_tests_cant": "orthogonality must hold for every matrix, and the panics depend on a linear relation no finite set of tests covers", "anchors": ["rings/src/linear/matrix.rs: gram_schmidt_row_orthogonalization_algorithm, gram_schmidt_col_orthogonalization_algorithm, inner_product"]}
{"id": "C105", "title": "LQ and QR decompositions", "statement": "With square roots available, lq_decomposition_algorithm returns for every matrix with independent rows a lower triangular invertible l and q = l m with orthonormal rows, and panics on dependent rows; qr_decomposition_algorithm is the column version.", "quantifier": "all fields with a conjugation and square roots of norms, all matrices", "why_tests_cant": "must hold for every matrix over every such field", "anchors": ["rings/src/linear/matrix.rs: lq_decomposition_algorithm, qr_decomposition_algorithm"]}
{"id": "C106", "title": "Multivariate polynomial arithmetic", "statement": "Adding, multiplying and negating multivariate polynomials, constants and variables give the ring operations of R[x, y, ...]; == on the results is equality of polynomials; sums and products contain no zero term, have each monomial once and their terms in lexicographic order, whatever order hash maps are visited in.", "quantifier": "all commutative coefficient rings, all polynomials in any number of variables, all hash map orders", "why_tests_cant": "ranges over all polynomials and over all hash orders, which change from run to run", "anchors": ["rings/src/polynomial/multipoly.rs: add, mul, neg, equal, reduce, var, var_pow, constant"]}
{"id": "C107", "title": "Multivariate evaluation", "statement": "evaluate returns the value of the polynomial at the given values, and panics exactly when a variable that occurs has no value.", "quantifier": "all coefficient rings, polynomials and (partial) assignments", "why_tests_cant": "must hold for every polynomial and every assignment", "anchors": ["rings/src/polynomial/multipoly.rs: evaluate"]}
{"id": "C108", "title": "Degree, variables and parts of multivariate polynomials", "statement": "degree is the total degree (None for zero), free_vars are the variables of the polynomial, as_constant recognises constants, split_by_degree lists the homogeneous components, evaluate_var_zero substitutes zero, has_all_vars_parts keeps the terms with all given variables.", "quantifier": "all coefficient rings, all polynomials, all hash map orders", "why_tests_cant": "must hold for every polynomial", "anchors": ["rings/src/polynomial/multipoly.rs: degree, free_vars, as_constant, split_by_degree, evaluate_var_zero, has_all_vars_parts"]}
{"id": "C109", "title": "Homogenization", "statement": "homogenize with a new variable returns a homogeneous polynomial of the same total degree that gives the polynomial back when the variable is set to one.", "quantifier": "all coefficient rings, polynomials and variables", "why_tests_cant": "must hold for every polynomial", "anchors": ["rings/src/polynomial/multipoly.rs: homogenize"]}
{"id": "C110", "title": "Expansion in one variable", "statement": "expand writes a multivariate polynomial as a polynomial in x with coefficients free of x; evaluating it at x gives the polynomial back.", "quantifier": "all coefficient rings, polynomials and variables", "why_tests_cant": "must hold for every polynomial", "anchors": ["rings/src/polynomial/multipoly.rs: expand"]}
{"id": "C111", "title": "Multivariate division", "statement": "Over an integral domain, dividing multivariate polynomials returns the exact quotient when there is one, NotDivisible when there is none and DivideByZero for a zero divisor; the recursion over the variables ends, whichever main variable the hash set yields.", "quantifier": "all integral domains, all polynomials, all hash map orders", "why_tests_cant": "non-divisibility quantifies over all quotients, and the main variable is chosen by the hash order", "anchors": ["rings/src/polynomial/multipoly.rs: div"]}
{"id": "C112", "title": "Renaming variables", "statement": "apply_map_vars returns the polynomial with its variables renamed, comparable with ==, and panics exactly when a variable that occurs has no image.", "quantifier": "all polynomials and variable maps", "why_tests_cant": "must hold for every map of variables", "anchors": ["rings/src/polynomial/multipoly.rs: apply_map_vars"]}
{"id": "C113", "title": "Monomial orders", "statement": "lexicographic_order and graded_lexicographic_order are strict total orders on monomials that multiplication respects and in which 1 comes last, with the usual descriptions by exponents and degrees.", "quantifier": "all monomials in any number of variables", "why_tests_cant": "the order laws quantify over all triples of monomials", "anchors": ["rings/src/polynomial/multipoly.rs: lexicographic_order, graded_lexicographic_order, Monomial::mul"]}
{"id": "C114", "title": "is_symmetric decides symmetry", "statement": "For distinct variables, is_symmetric(vars, p) is true exactly when p uses no variable outside vars and every permutation of vars leaves p unchanged, although only one or two permutations are tried.", "quantifier": "all coefficient rings, all lists of variables, all polynomials", "why_tests_cant": "a test can only try small symmetric groups; that a transposition and a cycle suffice is a group-theoretic fact about all n", "anchors": ["rings/src/polynomial/symmetric.rs: is_symmetric"]}
{"id": "C115", "title": "elementary_symmetric returns the elementary symmetric polynomial", "statement": "elementary_symmetric(k, vars) is the sum of all products of k of the variables: homogeneous of degree k, 1 for k = 0, 0 for k beyond the number of variables, symmetric, and the coefficient of T^(n-k) in the product of the T + x.", "quantifier": "all coefficient rings, all k, all lists of variables", "why_tests_cant": "infinitely many numbers of variables and degrees", "anchors": ["rings/src/polynomial/symmetric.rs: elementary_symmetric"]}
{"id": "C116", "title": "as_elementary_symmetric_polynomials is the fundamental theorem", "statement": "For distinct variables, as_elementary_symmetric_polynomials(vars, p) returns None exactly when p is not symmetric; otherwise it terminates without panicking and returns new variables and the unique polynomial in them that gives p when the elementary symmetric polynomials are substituted for them.", "quantifier": "all integral domains, all lists of variables, all polynomials, all orders of the hash maps", "why_tests_cant": "termination and exact division at every step of a doubly recursive procedure, for all polynomials and numbers of variables", "anchors": ["rings/src/polynomial/symmetric.rs: as_elementary_symmetric_polynomials, as_elementary_symmetric_polynomials_unchecked, as_elementary_symmetric_polynomials_impl, as_elementary_symmetric_polynomials_homogeneous_impl"]}
{"id": "C117", "title": "Vectors are the vectors of affine space", "statement": "Vectors of a space of dimension d with ordered-field coordinates are added, negated, subtracted and scaled coordinatewise, compared lexicographically, and turned into rows and columns of matrices and back without loss; combining vectors of two different spaces panics.", "quantifier": "all ordered fields, all dimensions, all vectors", "why_tests_cant": "infinitely many dimensions, fields and coordinates", "anchors": ["geometry/src/coordinates.rs: Vector", "geometry/src/ambient_space.rs: rows_from_vectors, vectors_from_rows, vector_from_row, common_space", "geometry/src/simplexes/mod.rs: Ord for Vector"]}
{"id": "C118", "title": "determinant, rank and affine independence of points", "statement": "determinant is the determinant of the matrix of the vectors (and panics unless it is square), rank is the dimension of their span, and are_points_affine_independent is true exactly for affinely independent points.", "quantifier": "all ordered fields, all dimensions, all lists of vectors", "why_tests_cant": "the code goes through the echelon form of arbitrary matrices", "anchors": ["geometry/src/ambient_space.rs: determinant, rank, are_points_affine_independent"]}
{"id": "C119", "title": "Simplices", "statement": "Simplex::new accepts exactly the affinely independent lists of points; two simplices are equal exactly if they have the same vertices; skeleton(k), facets, facet(k), ridges and sub_simplices list exactly the faces of the given dimension, once each, and all of them are valid simplices.", "quantifier": "all ordered fields, all dimensions, all simplices and k", "why_tests_cant": "exponentially many faces in every dimension", "anchors": ["geometry/src/simplexes/simplex.rs: Simplex"]}
{"id": "C120", "title": "Oriented simplices classify the points on either side of a hyperplane", "statement": "new_with_positive_point succeeds exactly for a hyperplane simplex and a reference point off the hyperplane; classify_point is neutral exactly on the hyperplane, positive exactly on the side of the reference point and negative on the other; flip swaps the sides; oriented_facets of a full-dimensional simplex are its facets oriented inwards.", "quantifier": "all ordered fields, all dimensions, all oriented simplices and points", "why_tests_cant": "sign of a determinant for every configuration of points in every dimension", "anchors": ["geometry/src/simplexes/simplex.rs: OrientedSimplex, oriented_facet, oriented_facets"]}
{"id": "C121", "title": "Intersecting an oriented hyperplane with a segment", "statement": "intersect_line never panics, reports on which sides the end points are, and reports an intersection exactly if they are strictly on different sides; the reported point is on the hyperplane and strictly between the end points.", "quantifier": "all ordered fields, dimensions, hyperplanes and segments", "why_tests_cant": "division by a difference of determinants and two debug assertions, for all configurations", "anchors": ["geometry/src/simplexes/simplex.rs: OrientedHyperplane::intersect_line"]}
{"id": "C122", "title": "Embedded affine subspaces", "statement": "new_affine_span succeeds exactly for affinely independent points; embed_point is an injective affine map onto their affine span; unembed_point is its inverse and None exactly outside the span; the same for simplices; extend_dimension_by_point_unsafe adds one dimension compatibly with the embeddings.", "quantifier": "all ordered fields, dimensions, subspaces and points", "why_tests_cant": "linear systems of every size", "anchors": ["geometry/src/affine_subspace.rs: EmbeddedAffineSubspace"]}
{"id": "C123", "title": "Affine span of dependent points", "statement": "new_affine_span_linearly_dependent never panics, whatever the points are, and returns an embedded subspace with exactly the affine span of the points.", "quantifier": "all ordered fields, dimensions and lists of points, with repetitions", "why_tests_cant": "depends on pivots of matrices of every size", "anchors": ["geometry/src/affine_subspace.rs: new_affine_span_linearly_dependent"]}
{"id": "C124", "title": "A subspace is the intersection of its hyperplanes", "statement": "as_hyperplane_intersection returns None exactly for the empty subspace, and otherwise as many oriented hyperplanes as the codimension, whose intersection is the subspace.", "quantifier": "all ordered fields, dimensions and subspaces", "why_tests_cant": "all dimensions and positions", "anchors": ["geometry/src/affine_subspace.rs: as_hyperplane_intersection"]}
{"id": "C125", "title": "origin of a space", "statement": "origin() returns the zero vector of a non-empty space and None for the empty space.", "quantifier": "all spaces", "why_tests_cant": "quantifies over all spaces; the code panics on the empty one", "anchors": ["geometry/src/ambient_space.rs: origin"]}
{"id": "C126", "title": "Convex hull operations never panic", "statement": "After any history of constructions (from a list of points or from a simplex), extensions by points, intersections with a side of a hyperplane and intersections with other hulls of the same space, every further such operation returns a hull of the same space: no assertion, no internal consistency check and no unwrap fails.", "quantifier": "every ordered field, every dimension, every history, every order of iteration over the hash sets", "why_tests_cant": "histories, coordinates, dimensions and hash iteration orders are unbounded; degenerate positions are infinitely many", "anchors": ["geometry/src/simplexes/convex_hull.rs: ConvexHull::new, from_simplex, extend_by_point, intersect_with_oriented_hyperplane, intersect, check"]}
{"id": "C127", "title": "The interior simplices triangulate the hull", "statement": "After any history, the embedded interior simplices of a convex hull are affinely independent, have as many vertices as the affine dimension of the hull, are pairwise different, cover exactly the set the history stands for (the convex hull of the points, intersected as asked), and any two meet exactly in the simplex of their common vertices.", "quantifier": "every ordered field, dimension, history and hash iteration order", "why_tests_cant": "equality of infinite point sets for all inputs", "anchors": ["geometry/src/simplexes/convex_hull.rs: ConvexHull::embedded_interior_simplexes, extend_by_point"]}
{"id": "C128", "title": "The facets of a hull are its boundary", "statement": "After any history, the embedded facet simplices are affinely independent with one vertex less than the affine dimension, pairwise different, and cover exactly the relative boundary of the set the history stands for.", "quantifier": "every ordered field, dimension, history and hash iteration order", "why_tests_cant": "equality of infinite point sets for all inputs", "anchors": ["geometry/src/simplexes/convex_hull.rs: ConvexHull::embedded_facet_simplexes"]}
{"id": "C129", "title": "Dimension and emptiness of a hull", "statement": "After any history, affine_span_dimension is 0 for the empty set and otherwise one more than the dimension of the affine span of the set; is_empty tells whether the set is empty.", "quantifier": "every ordered field, dimension and history", "why_tests_cant": "all histories, including intersections that degenerate", "anchors": ["geometry/src/simplexes/convex_hull.rs: affine_span_dimension, is_empty"]}
{"id": "C130", "title": "Defining points of a hull", "statement": "After any history, defining_points gives distinct points of the set whose convex hull is the set, among them every extreme point; for a hull made of a list of points they are points of the list.", "quantifier": "every ordered field, dimension, history and hash iteration order", "why_tests_cant": "all histories", "anchors": ["geometry/src/simplexes/convex_hull.rs: defining_points"]}
{"id": "C131", "title": "Intersections of hulls", "statement": "The intersection of a hull with a side of a hyperplane covers exactly the points of the hull in that closed half space (or on the hyperplane), the intersection of two hulls covers exactly the common points, and hulls of different spaces are rejected.", "quantifier": "every ordered field, dimension, pair of histories, hyperplane, side and hash iteration order", "why_tests_cant": "equality of infinite point sets for all pairs of inputs, also degenerate ones", "anchors": ["geometry/src/simplexes/convex_hull.rs: ConvexHullWireframe::intersect_with_oriented_hyperplane, ConvexHull::intersect_with_oriented_hyperplane, ConvexHull::intersect_mut, ConvexHull::intersect"]}
{"id": "C132", "title": "Wireframe of a hull", "statement": "After any history, the wireframe can be computed; its points and edges lie in the set, turning it back into a hull gives a hull of the same set, and the section of the set with any hyperplane is the convex hull of the points of the hyperplane on the wireframe.", "quantifier": "every ordered field, dimension, history, hyperplane and hash iteration order", "why_tests_cant": "all histories and all hyperplanes", "anchors": ["geometry/src/simplexes/convex_hull.rs: ConvexHullWireframe::from_convex_hull, into_convex_hull"]}
{"id": "C133", "title": "The simplicial complex constructor checks closure", "statement": "Building a labelled simplicial complex from valid, distinct simplices of one space never panics: it fails with the null-simplex error exactly when a null simplex is present, with the not-closed error exactly when there is no null simplex and some face is missing, and otherwise keeps simplices and labels unchanged, every simplex recording exactly the simplices it is a proper face of.", "quantifier": "every ordered field, dimension at least one, finite collection of valid distinct simplices, iteration order", "why_tests_cant": "a missing face can be of any dimension in a complex of any size, and the hash order decides where the loop stops", "anchors": ["geometry/src/simplexes/simplicial_complex.rs: new_labelled", "geometry/src/simplexes/partial_simplicial_complex.rs: try_as_simplicial_complex"]}
{"id": "C134", "title": "The complex of a convex hull is a triangulation with correct labels", "statement": "After any history of a convex hull, as_simplicial_complex returns a simplicial complex whose closed simplices meet in common faces, whose region is the convex set, where the simplices labelled Boundary are exactly the relative boundary and those labelled Interior exactly the relative interior.", "quantifier": "every ordered field, dimension, history of hull operations, hash iteration order", "why_tests_cant": "the triangulation depends on the insertion history and the hash order, and the claim is about all points of the hull", "anchors": ["geometry/src/simplexes/convex_hull.rs: as_simplicial_complex"]}
{"id": "C135", "title": "The Venn decomposition of two simplices", "statement": "Simplex::venn never panics on two simplices of one space; its pieces form a partial simplicial complex, and the pieces labelled Left, Middle, Right cover exactly the first open simplex minus the second, the intersection, and the second minus the first.", "quantifier": "every ordered field, dimension at least one, pair of valid simplices of any dimensions, hash iteration order", "why_tests_cant": "the relative positions of two simplices are unboundedly many, and correctness needs the two triangulations of the overlap to agree", "anchors": ["geometry/src/simplexes/boolean_opperations.rs: venn"]}
{"id": "C136", "title": "Boolean operations on disjoint unions are set operations", "statement": "subtract_raw, intersection_raw and union_raw of simplicial disjoint unions never panic, return disjoint unions, and the regions (per label, or per pair of labels) are the set difference, intersection and union of the regions of the arguments.", "quantifier": "every ordered field, dimension at least one, pair of valid disjoint unions with any labels, hash iteration order", "why_tests_cant": "the claim is about all points of regions made of any number of simplices in any position", "anchors": ["geometry/src/simplexes/boolean_opperations.rs: subtract_raw, intersection_raw, union_raw"]}
{"id": "C137", "title": "The closure of a partial complex adds exactly the missing faces", "statement": "closure never panics; the result contains exactly the non-null faces of the simplices of the argument, simplices that were there keep their label and added ones have none, and it is a simplicial complex when the argument is a partial one.", "quantifier": "every ordered field, dimension at least one, collection of valid distinct simplices, hash iteration order", "why_tests_cant": "the unwrap inside closure is safe only because the face set is closed for every collection", "anchors": ["geometry/src/simplexes/partial_simplicial_complex.rs: closure"]}
{"id": "C138", "title": "Isolation of the real roots of a squarefree polynomial is complete, correct and terminates", "statement": "For every nonzero squarefree integer polynomial and every range with optional ends that may be included or not, real_roots_squarefree returns without panicking a list of intervals in increasing order which isolate exactly the real roots of the polynomial in the range, one root per interval, and the result passes check_invariants.", "quantifier": "every integer polynomial, every pair of optional rational ends, both inclusion flags", "why_tests_cant": "termination of Collins-Akritas bisection needs the distance between the (complex) roots of an arbitrary polynomial, completeness needs Descartes' rule of signs for every polynomial", "anchors": ["rings/src/number/algebraic/real/polynomial.rs: real_roots_squarefree, isolate_real_roots_by_collin_akritas, sign_variations, check_invariants"]}
{"id": "C139", "title": "all_real_roots_squarefree finds each real root once", "statement": "On every nonzero squarefree integer polynomial all_real_roots_squarefree returns intervals that isolate every real root, and as many intervals as there are real roots.", "quantifier": "every nonzero squarefree integer polynomial", "why_tests_cant": "the bound on the roots and the bisection must work for every polynomial", "anchors": ["rings/src/number/algebraic/real/polynomial.rs: all_real_roots_squarefree, real_roots_squarefree"]}
{"id": "C140", "title": "Refining isolating intervals keeps the roots and converges", "statement": "refine and refine_all on a list of intervals which isolate some roots never panic, keep isolating the same roots in the same order with intervals inside the old ones at most two thirds as wide, so repeated refinement makes them arbitrarily narrow.", "quantifier": "every polynomial, list of isolating intervals, index, and every choice of the rational inside the middle third", "why_tests_cant": "the claim is about any number of refinements of any isolating list, and the halving point is chosen by another library", "anchors": ["rings/src/number/algebraic/real/polynomial.rs: refine, refine_all", "rings/src/number/algebraic/bisection_gen.rs: new_between_middle, next"]}
{"id": "C141", "title": "Comparison of real algebraic numbers is the order of the reals and terminates", "statement": "For every two real algebraic numbers, cmp, eq and cmp_mut end and return the order of the real numbers they stand for, and the in-place refinements made by cmp_mut do not change the numbers.", "quantifier": "every pair of representations, with any polynomials, bounds and any choice of the bisection points", "why_tests_cant": "the loop refines until the isolating intervals separate; that it ends and decides equality depends on every pair of numbers however close", "anchors": ["rings/src/number/algebraic/real/mod.rs: RealAlgebraicRoot::cmp_mut, cmp_rat_mut, RealAlgebraic::cmp_mut, Ord, PartialEq"]}
{"id": "C142", "title": "Negation of real algebraic numbers", "statement": "neg of every real algebraic number is a well-formed number standing for the negative.", "quantifier": "every representation", "why_tests_cant": "the polynomial, the direction flag and four bounds must all be mirrored consistently for every number", "anchors": ["rings/src/number/algebraic/real/mod.rs: neg, neg_mut"]}
{"id": "C143", "title": "Inverse of real algebraic numbers", "statement": "inv of a nonzero real algebraic number returns a well-formed number standing for the inverse; inv of zero returns the error DivideByZero.", "quantifier": "every representation of every real algebraic number", "why_tests_cant": "refinement until the interval leaves zero must end for every number, and the reversed polynomial with swapped bounds must isolate the right root", "anchors": ["rings/src/number/algebraic/real/mod.rs: inv, try_to_rational, refine"]}
{"id": "C144", "title": "Addition of real algebraic numbers", "statement": "add of every two real algebraic numbers ends with a well-formed number standing for the sum.", "quantifier": "every pair of representations", "why_tests_cant": "the root of the sum polynomial is found by interval refinement among arbitrarily close candidates", "anchors": ["rings/src/number/algebraic/real/mod.rs: add, add_rat", "rings/src/number/algebraic/poly_tools.rs: root_sum_poly", "rings/src/number/algebraic/real/polynomial.rs: identify_real_root"]}
{"id": "C145", "title": "Multiplication of real algebraic numbers", "statement": "mul of every two real algebraic numbers ends with a well-formed number standing for the product.", "quantifier": "every pair of representations", "why_tests_cant": "interval multiplication must enclose the product for every sign and every width of the two intervals", "anchors": ["rings/src/number/algebraic/real/mod.rs: mul, mul_rat, mul_pos_rat", "rings/src/number/algebraic/poly_tools.rs: root_product_poly, root_rat_mul_poly"]}
{"id": "C146", "title": "Division of real algebraic numbers", "statement": "div by zero is the error DivideByZero; div by any other real algebraic number ends with a well-formed number standing for the quotient.", "quantifier": "every pair of representations", "why_tests_cant": "it composes inverse and multiplication for every pair of numbers", "anchors": ["rings/src/number/algebraic/real/mod.rs: div, inv, mul"]}
{"id": "C147", "title": "Refinement of a real algebraic number keeps the number and converges", "statement": "refine ends, stands for the same number, keeps polynomial and wide bounds and shrinks the interval to at most two thirds inside the old one; refine_to_accuracy ends for every positive accuracy with an interval that narrow containing the number.", "quantifier": "every representation, every accuracy, every choice of the bisection point", "why_tests_cant": "termination for every accuracy and number", "anchors": ["rings/src/number/algebraic/real/mod.rs: refine, refine_to_accuracy"]}
{"id": "C148", "title": "check_invariants accepts every well-formed real algebraic number", "statement": "check_invariants returns Ok on every representation that stands for a real number.", "quantifier": "every representation", "why_tests_cant": "the check compares irreducibility, signs and bounds of arbitrary values; a wrongly rejected value would panic in debug builds", "anchors": ["rings/src/number/algebraic/real/mod.rs: check_invariants"]}
{"id": "C149", "title": "all_real_roots returns exactly the real roots with multiplicity", "statement": "For every nonzero integer polynomial all_real_roots ends and returns well-formed real algebraic numbers standing for exactly its real roots, each as often as its multiplicity; get_real_root turns each isolating interval of a primitive squarefree polynomial into the root in it.", "quantifier": "every nonzero integer polynomial", "why_tests_cant": "completeness and multiplicities over all polynomials", "anchors": ["rings/src/number/algebraic/real/polynomial.rs: all_real_roots, real_roots, real_roots_irreducible, to_real_roots, get_real_root, get_wide_interval"]}
{"id": "C150", "title": "real_roots in a range returns exactly the roots in the range", "statement": "For every nonzero integer polynomial and every range, real_roots returns well-formed numbers standing for exactly the roots in the range with multiplicity, and comparing them gives the order of the roots.", "quantifier": "every nonzero polynomial, every pair of optional ends, both inclusion flags", "why_tests_cant": "the wide bounds of the results must separate them from roots outside of the range, for every polynomial and range", "anchors": ["rings/src/number/algebraic/real/polynomial.rs: real_roots, real_roots_irreducible, get_wide_interval"]}
{"id": "C151", "title": "nth_root is the nonnegative root, an error for negative numbers", "statement": "For every n >= 1 and every nonnegative real algebraic number nth_root returns the nonnegative number whose n-th power it is; for negative numbers and n >= 2 it returns an error; n = 0 panics.", "quantifier": "every representation, every n", "why_tests_cant": "the root is selected among the isolated roots by comparison, for every number and every n", "anchors": ["rings/src/number/algebraic/real/polynomial.rs: nth_root"]}
{"id": "C152", "title": "identify_real_root finds the root the intervals converge to", "statement": "For every nonzero integer polynomial with a real root and every sequence of intervals around this root that shrinks to it, identify_real_root ends and returns this root.", "quantifier": "every polynomial, root, interval generator", "why_tests_cant": "an unbounded loop whose end depends on the distance of the roots", "anchors": ["rings/src/number/algebraic/real/polynomial.rs: identify_real_root"]}
{"id": "C153", "title": "root_sum_poly and root_product_poly have exactly the sums and products as roots", "statement": "For two nonzero integer polynomials p and q, root_sum_poly(p, q) returns a primitive squarefree polynomial whose complex roots are exactly the numbers x + y with p(x) = 0 and q(y) = 0, and root_product_poly(p, q) returns one whose complex roots are exactly the products x * y, including the product zero.", "quantifier": "all pairs of nonzero integer polynomials, all iteration orders of the hash maps used by multivariate polynomial arithmetic", "why_tests_cant": "The result is a resultant of bivariate polynomials of arbitrary degree; a test checks a few pairs, and degenerate cases (zero roots, constant polynomials, leading coefficients that vanish) are easily missed.", "anchors": ["rings/src/number/algebraic/poly_tools.rs: root_sum_poly, root_product_poly"]}
{"id": "C154", "title": "p-adic valuations", "statement": "For a prime p, the p-adic valuation of a natural number, an integer or a rational number is infinite exactly for zero and otherwise the exponent of p in it (numerator minus denominator); the order on valuations is the opposite of the order of the p-adic absolute values, the sum of valuations is the valuation of the product and the difference that of the quotient.", "quantifier": "all primes p, all naturals, integers and rationals", "why_tests_cant": "unbounded primes and numbers", "anchors": ["rings/src/number/algebraic/padic/valuation.rs: padic_nat_valuation, padic_int_valuation, padic_rat_valuation, Valuation"]}
{"id": "C155", "title": "p-adic digits of rational numbers", "statement": "truncate(q, c) of a rational number always returns; its rational value is congruent to q modulo p^c, its digits are base-p digits, one for each power between the valuation of q and c, the first of them not zero, and there are none exactly if p^c divides q. Two rational numbers have the same truncation exactly if they are congruent modulo p^c.", "quantifier": "all primes p, rationals q and integers c", "why_tests_cant": "unbounded primes, numbers and precision", "anchors": ["rings/src/number/algebraic/padic/mod.rs: PAdicRational::truncate, Truncated::digits, Truncated::rational_value"]}
{"id": "C156", "title": "Isolation of p-adic roots", "statement": "isolate(p, f) of an irreducible integer polynomial of degree at least two returns balls each of which contains exactly one root of f in the field of p-adic numbers, every p-adic root is in exactly one of them, and different balls belong to different roots.", "quantifier": "all primes p, all irreducible integer polynomials of degree at least 2", "why_tests_cant": "infinitely many polynomials and primes; the roots are in a completion that no test can compute with exactly", "anchors": ["rings/src/number/algebraic/padic/isolate.rs: isolate, isolate0, isorefine, isorefine1, balancable_pairs, is_critical, normalization"]}
{"id": "C157", "title": "All p-adic roots of a polynomial", "statement": "all_padic_roots of a nonzero integer polynomial returns values that stand for exactly its roots in the p-adic numbers, each as often as its multiplicity. (Violated: it panics for every polynomial that is not primitive.)", "quantifier": "all primes p, all nonzero integer polynomials", "why_tests_cant": "infinitely many polynomials and primes", "anchors": ["rings/src/number/algebraic/padic/mod.rs: all_padic_roots, all_padic_roots_irreducible"]}
{"id": "C158", "title": "Refinement of p-adic numbers", "statement": "Refining a p-adic algebraic number to n digits returns, keeps the number and its polynomial and makes the error at most p^-n. (Violated with debug assertions: the assertion after each step fails for some numbers that are not integral.)", "quantifier": "all primes, numbers and precisions", "why_tests_cant": "any number of Newton or search steps", "anchors": ["rings/src/number/algebraic/padic/mod.rs: PAdicAlgebraicRoot::refine", "rings/src/number/algebraic/padic/isolate.rs: refine, refine0, refine0_impl"]}
{"id": "C159", "title": "p-adic digits of algebraic numbers", "statement": "Truncating a p-adic algebraic number modulo p^n, where the refinement succeeds (always without debug assertions, and for integral numbers), gives a rational number congruent to it modulo p^n with the right digits, and does not change the number.", "quantifier": "all primes, numbers and precisions", "why_tests_cant": "unbounded precision", "anchors": ["rings/src/number/algebraic/padic/mod.rs: PAdicAlgebraicRoot::truncate, PAdicAlgebraic::truncate"]}
{"id": "C160", "title": "Equality of p-adic algebraic numbers", "statement": "equal says whether two p-adic algebraic numbers are the same number. (Violated: the negative of a number of odd degree is reported as different from the same number obtained from its polynomial.)", "quantifier": "all primes and pairs of numbers", "why_tests_cant": "infinitely many numbers", "anchors": ["rings/src/number/algebraic/padic/mod.rs: equal_mut, PartialEqStructure::equal, neg"]}
{"id": "C161", "title": "Negation of p-adic algebraic numbers", "statement": "The negative of a p-adic algebraic number stands for the negative number.", "quantifier": "all primes and numbers", "why_tests_cant": "infinitely many numbers", "anchors": ["rings/src/number/algebraic/padic/mod.rs: neg"]}
{"id": "C162", "title": "Products of p-adic algebraic numbers with rational numbers", "statement": "The product of a p-adic algebraic number with a rational number, on either side, returns and stands for the product.", "quantifier": "all primes, numbers and rationals", "why_tests_cant": "infinitely many numbers", "anchors": ["rings/src/number/algebraic/padic/mod.rs: mul_rat, SemiRingStructure::mul"]}
{"id": "C163", "title": "Sums of p-adic algebraic numbers with rational numbers", "statement": "The sum of a p-adic algebraic number and a rational number has an irreducible polynomial and a ball that isolates the sum, and can be used like any other number. (Violated: the sum with minus the centre of the ball panics when it is refined.)", "quantifier": "all primes, numbers and rationals", "why_tests_cant": "infinitely many numbers", "anchors": ["rings/src/number/algebraic/padic/mod.rs: add_rat", "rings/src/number/algebraic/padic/isolate.rs: refine"]}
{"id": "C164", "title": "Sum of p-adic algebraic numbers", "statement": "Adding two p-adic algebraic numbers gives a value that stands for their sum; it never panics, loops for ever or returns a different root.", "quantifier": "every prime p and every pair of p-adic algebraic numbers", "why_tests_cant": "The result is selected among the roots of a resultant by overlapping balls; whether the right one survives depends on the precision of every ball and on all other roots, which a few examples do not exercise.", "anchors": ["rings/src/number/algebraic/padic/mod.rs:add_mut", "rings/src/number/algebraic/padic/mod.rs:overlap"]}
{"id": "C165", "title": "Product of p-adic algebraic numbers", "statement": "Multiplying two p-adic algebraic numbers gives a value that stands for their product; it never panics, loops for ever or returns a different root.", "quantifier": "every prime p and every pair of p-adic algebraic numbers", "why_tests_cant": "As for sums: the selection depends on all roots of a resultant and on the precision of every ball.", "anchors": ["rings/src/number/algebraic/padic/mod.rs:mul_mut", "rings/src/number/algebraic/padic/mod.rs:overlap"]}
{"id": "C166", "title": "Inverse and quotient of p-adic algebraic numbers", "statement": "The inverse of a nonzero p-adic algebraic number stands for the inverse, division by it for the quotient, and inverting or dividing by zero is the error 'divide by zero'.", "quantifier": "every prime p and every pair of p-adic algebraic numbers", "why_tests_cant": "The inverse is selected among the roots of the reversed polynomial; the claim is about all polynomials and all precisions.", "anchors": ["rings/src/number/algebraic/padic/mod.rs:inv_mut", "rings/src/number/algebraic/padic/mod.rs:div"]}
{"id": "C167", "title": "Trace forms and discriminants of number fields", "statement": "For a number field Q[x]/(f) of degree n and n of its elements, trace_form_matrix returns the matrix of the traces of their products and discriminant its determinant, which is not zero exactly when the elements are a basis; another number of elements is refused.", "quantifier": "every rational polynomial of positive degree, every list of elements", "why_tests_cant": "There are infinitely many fields and lists of elements; the tests compute a few fixed discriminants.", "anchors": ["rings/src/number/anf/number_field.rs: trace_form_matrix, discriminant"]}
{"id": "C168", "title": "Algebraic integers", "statement": "is_algebraic_integer says whether an element of a number field is an algebraic integer, and integral_multiple returns an algebraic integer that is a nonzero integer multiple of its argument, and is the argument up to sign when that is already an algebraic integer.", "quantifier": "every irreducible rational polynomial, every element of its number field", "why_tests_cant": "All fields and elements; integrality is an existential statement about monic integer polynomials.", "anchors": ["rings/src/number/anf/number_field.rs: is_algebraic_integer, integral_multiple", "rings/src/polynomial/quotient.rs: min_poly"]}
{"id": "C169", "title": "Integral bases", "statement": "compute_integral_basis returns, for every number field, a list of elements such that the algebraic integers of the field are exactly their integer combinations, with unique coefficients.", "quantifier": "every irreducible rational polynomial, every sound primality test used to factor discriminants", "why_tests_cant": "All number fields, and maximality quantifies over all algebraic integers of the field; termination needs the argument that the discriminant shrinks.", "anchors": ["rings/src/number/anf/number_field.rs: compute_integral_basis"]}
{"id": "C170", "title": "Subsets of 24 points", "statement": "Vector24 values behave as subsets of 24 points: from_points is the set of the listed points (panic iff one is 24 or more), points lists the elements increasingly, contains and weight are membership and cardinality, + & | are symmetric difference, intersection and union, and into_row/col/mat and from_row/col/mat are mutually inverse conversions to 1x24, 24x1 and 4x6 indicator matrices, with None exactly for other shapes.", "quantifier": "all lists of points, all vectors, all matrices over the field with two elements", "why_tests_cant": "2^24 vectors and unboundedly many lists and stored forms (transposed, flipped) of matrices", "anchors": ["combinatorics/src/linear_codes/binary_golay_code.rs: Vector24::{new, zero, from_points, points, contains, into_row, from_row, into_col, from_col, into_mat, from_mat, weight}, Add, BitAnd, BitOr"]}
{"id": "C171", "title": "Construction of extended binary Golay codes", "statement": "from_row_basis_matrix (and from_col_basis_matrix for columns) never panics: it succeeds iff the matrix is 12x24, its rows are independent and every non-zero word of their span has weight at least 8; otherwise the error names the first failing condition. The internal assertion that the table has 42504 entries always holds.", "quantifier": "all matrices over the field with two elements, of all shapes and stored forms", "why_tests_cant": "there are 2^288 matrices; the assertion depends on a counting theorem about Steiner systems", "anchors": ["combinatorics/src/linear_codes/binary_golay_code.rs: ExtendedBinaryGolayCode::{from_row_basis_matrix, from_col_basis_matrix}"]}
{"id": "C172", "title": "complete_octad finds the unique octad through five points", "statement": "For every constructed code and every set of five points, complete_octad returns the only codeword of weight 8 that contains the five points (no panic); for every other number of points it panics.", "quantifier": "all codes the constructor can return and all vectors", "why_tests_cant": "there are 24!/|M24| such codes (about 2.5 * 10^15)", "anchors": ["combinatorics/src/linear_codes/binary_golay_code.rs: ExtendedBinaryGolayCode::complete_octad"]}
{"id": "C173", "title": "complete_sextet finds the unique sextet of four points", "statement": "For every constructed code, every four points and every iteration order of the hash set, complete_sextet returns six disjoint foursomes, any two of which form a codeword, the first being the given one (no panic, all internal assertions hold); every sextet containing the given foursome has the same six foursomes; for every other number of points it panics.", "quantifier": "all codes, all vectors, all iteration orders of the hash set in each round", "why_tests_cant": "the iteration order is random and the number of codes is astronomically large", "anchors": ["combinatorics/src/linear_codes/binary_golay_code.rs: ExtendedBinaryGolayCode::complete_sextet"]}
{"id": "C174", "title": "Orderings of a sextet", "statement": "orderings lists the rearrangements of the six foursomes, exactly once for each of the 720 permutations of the indices.", "quantifier": "all sextets", "why_tests_cant": "holds for every sextet, not only for the sampled ones", "anchors": ["combinatorics/src/linear_codes/binary_golay_code.rs: UnorderedSextet::orderings"]}
{"id": "C175", "title": "The built-in codes are extended binary Golay codes", "statement": "ebgc_wiki, ebgc_qr11 and ebgc_mog do not panic and construct the row spans of their literals, which have dimension 12 and minimum weight 8.", "quantifier": "all 4096 words of each of the three codes", "why_tests_cant": "it is a statement about all words; together with C171-C173 it covers all uses of the built-in codes", "anchors": ["combinatorics/src/linear_codes/binary_golay_code.rs: ebgc_from_string, ebgc_wiki, ebgc_qr11, ebgc_mog"]}
{"id": "C176", "title": "Modular permutations", "statement": "modular_permutation(f) is Ok iff f is a bijection of the residues modulo N, and then it is the permutation i -> f(i).", "quantifier": "all N and all functions f on the residues", "why_tests_cant": "infinitely many N and functions", "anchors": ["combinatorics/src/modular_permutations.rs: modular_permutation"]}
{"id": "C177", "title": "complete_labelling labels every sextet consistently", "statement": "For every constructed code, every ordered sextet of it, every point x of the first foursome, different points y, z of the second, w of the third and each of the four labels alpha, complete_labelling succeeds (all internal assertions hold): each foursome gets each of the four labels exactly once, x and y get 0, z gets 1 and w gets alpha. It panics if a point is not in its foursome or y = z.", "quantifier": "all codes the constructor can return, all ordered sextets, all points, all labels", "why_tests_cant": "about 10^15 codes, each with 1771*720 ordered sextets and 4*12*4*4 choices", "anchors": ["combinatorics/src/linear_codes/binary_golay_code.rs: ExtendedBinaryGolayCode::complete_labelling"]}
{"id": "C178", "title": "mog_isomorphism maps the code onto the miracle octad generator", "statement": "For every labelling that complete_labelling returns, mog_isomorphism does not panic and returns two mutually inverse permutations; the first sends the point with label row r of foursome c to c + 6r and maps the code exactly onto the row span of the matrix of ebgc_mog. So the pipeline complete_sextet, complete_labelling, mog_isomorphism identifies every extended binary Golay code with the standard one.", "quantifier": "all codes, sextets, labellings and iteration orders of the hash set", "why_tests_cant": "it contains the uniqueness theorem of the extended binary Golay code", "anchors": ["combinatorics/src/linear_codes/binary_golay_code.rs: SextetLabelling::mog_isomorphism, ebgc_mog"]}
{"id": "C179", "title": "The AKS test calls no prime composite", "statement": "aks_primality_test answers Composite only for composite numbers, Zero only for 0 and One only for 1, and every prime for which it returns gets the answer Prime, no matter what the primality test used to factor r-1 answers.", "quantifier": "all naturals n, all behaviours of the inner primality test, debug and release builds", "why_tests_cant": "Unbounded inputs; the claim rests on Frobenius modulo x^r-1 and on the packed big-integer arithmetic never overflowing a digit.", "anchors": ["rings/src/number/natural/primes.rs: aks_primality_test"]}
{"id": "C180", "title": "The AKS test's answers are right", "statement": "Every answer returned by aks_primality_test is right: Prime exactly for primes, Composite exactly for composite numbers, Zero for 0 and One for 1, if the primality test used for the prime factors of r-1 above 10^6 calls only primes prime. Once r is found no such assumption is needed.", "quantifier": "all naturals n", "why_tests_cant": "A composite number that passes would be astronomically large; correctness needs Bernstein's counting argument, with the code's own rounding of sqrt(phi/3).", "anchors": ["rings/src/number/natural/primes.rs: aks_primality_test"]}
{"id": "C181", "title": "Packed polynomial arithmetic of the AKS test", "statement": "With coeff_size bits per coefficient, the big-integer multiplication modulo 2^(coeff_size*r)-1 followed by coefficient reduction is multiplication of polynomials modulo x^r-1 and n, its debug comparison with the schoolbook product never fails, powers are powers, and packed polynomials are equal only if the polynomials are.", "quantifier": "all n >= 2, all r >= 2, all polynomials with r coefficients below n, all exponents", "why_tests_cant": "A carry between packed digits occurs only for extreme coefficients; all polynomials of all sizes are claimed.", "anchors": ["rings/src/number/natural/primes.rs: aks_primality_test (poly_to_bigint, bigint_to_poly, mul_polys, nthpow_poly)"]}
{"id": "C182", "title": "The AKS test returns once r is found", "statement": "After a prime r with n a primitive root modulo r is found, aks_primality_test returns without panicking, and debug builds return the same answer as release builds.", "quantifier": "all n >= 4, all primes 3 <= r < 2^64 not dividing n", "why_tests_cant": "The search for s combines a doubling and a halving loop over binomial products; the failure needs an exact equality.", "anchors": ["rings/src/number/natural/primes.rs: aks_primality_test (search for s)"]}
{"id": "C183", "title": "Factoring over a number field by the reduced ring", "statement": "When factor_primitive_sqfree_by_reduced_ring returns a result for a polynomial p over a number field given by an irreducible modulus, the factors in the result are distinct, monic and irreducible over the field, with positive exponents, and the product of the result is equal to p. The helper functions double_poly_to_row and row_to_double_poly are inverse to each other.", "quantifier": "every irreducible modulus, every non-zero polynomial over the number field, every outcome of the random search for a generator, every factoring function for rational polynomials that is right", "why_tests_cant": "the correctness of the factors rests on the dimension of the quotient ring and on the isomorphism theorem for every polynomial and every random generator; a test sees a few small fields with a few seeds", "anchors": ["rings/src/number/anf/number_field.rs: factor_primitive_sqfree_by_reduced_ring, double_poly_to_row, row_to_double_poly"]}
{"id": "C184", "title": "Factoring polynomials over number fields", "statement": "factor on polynomials over a number field, whatever the random choices it makes: when it returns, the answer is None exactly for the zero polynomial, and otherwise a list of distinct monic irreducible polynomials with positive exponents whose product is the given polynomial times a non-zero constant. Over a number field of degree one it returns for every polynomial.", "quantifier": "every irreducible monic-or-not modulus, every polynomial over the number field, every sequence of random choices", "why_tests_cant": "it ranges over all number fields, all polynomials and all random choices; irreducibility of the factors is a statement about all possible divisors", "anchors": ["rings/src/number/anf/number_field.rs: factor, factorize_rational_factorize_first, factor_primitive_sqfree_by_reduced_ring"]}
{"id": "C185", "title": "Interpolation by a linear system", "statement": "interpolate_by_linear_system never panics: for every list of points (repeated ones as well) it returns a polynomial of degree less than the number of points through all of them, or None, and then there is no such polynomial. On points with distinct first coordinates it agrees with interpolate_by_lagrange_basis, and over a field it then always returns a polynomial.", "quantifier": "every Bezout domain and every finite list of points", "why_tests_cant": "it ranges over all rings and all lists of points; None is a statement about all polynomials", "anchors": ["rings/src/polynomial/polynomial.rs: interpolate_by_linear_system, interpolate_by_lagrange_basis"]}
{"id": "C186", "title": "Algebraic numbers as polynomials in a generator", "statement": "as_poly_expr(target, generator), whatever the random choices: when it returns Some(p), target is the value of the rational polynomial p at generator; when it returns None, target is not in the field generated by generator. Its debug assertion that the factors found have leading coefficient one never fails, and it returns whenever the factoring it calls returns, in particular when the generator is rational.", "quantifier": "every pair of algebraic numbers, every sequence of random choices", "why_tests_cant": "None is a statement about all polynomials, and the claim ranges over all pairs of algebraic numbers and all random choices", "anchors": ["rings/src/number/anf/embedded_anf.rs: as_poly_expr"]}
{"id": "C187", "title": "The primitive element theorem", "statement": "When anf_pair_primitive_element_theorem(a, b) returns (g, x, y, p, q), then g = x a + y b, a = p(g), b = q(g), and g generates the field generated by a and b. When anf_multi_primitive_element_theorem of a non-empty list returns (g, p), there is one polynomial for each number of the list, each number is its polynomial at g, and g generates the field generated by all of them.", "quantifier": "every pair and every non-empty list of algebraic numbers, every sequence of random choices", "why_tests_cant": "it ranges over lists of any length of any algebraic numbers; equality of fields is a statement about infinitely many elements", "anchors": ["rings/src/number/anf/embedded_anf.rs: anf_pair_primitive_element_theorem, anf_multi_primitive_element_theorem"]}
{"id": "C188", "title": "Factoring over the rational numbers first", "statement": "factorize_rational_factorize_first is a public function on every non-zero polynomial over a number field: its result should be a factorization of its argument. It is (up to a constant) for squarefree arguments. Violated for the others: for a polynomial with rational coefficients the result is always squarefree, so that for such a polynomial with a repeated factor the product of the result is never the polynomial, even up to a constant.", "quantifier": "every number field, every non-zero polynomial over it, every sequence of random choices", "why_tests_cant": "it ranges over all number fields, polynomials and random choices; the function is only called on squarefree polynomials in the crate", "anchors": ["rings/src/number/anf/number_field.rs: factorize_rational_factorize_first"]}
{"id": "C189", "title": "Equality of lattices of matrices of different shapes", "statement": "equal(a, b) of linear lattices is true exactly when a and b are the same set of matrices. It is for lattices of matrices of the same shape. Violated for different shapes: whenever two shapes have the same number of entries, every lattice of matrices of the first shape is answered to be equal to some lattice of matrices of the second shape; and when the numbers of entries are different, equal panics instead of answering false.", "quantifier": "every Bezout domain, every two linear lattices of any shapes", "why_tests_cant": "it ranges over all rings, lattices and shapes; equality of lattices is a statement about infinite sets", "anchors": ["rings/src/linear/subspace.rs: LinearLatticeStructure::equal, contains_sublattice"]}
{"id": "C190", "title": "Eigenspaces and generalized eigenspaces are exactly the right spaces", "statement": "For every square matrix A over a field, every value x of the extension field and every k, generalized_col_eigenspace and generalized_row_eigenspace never panic and return the lattice of all columns X with (A-x)^k X = 0, respectively all rows X with X (A-x)^k = 0; col_eigenspace and row_eigenspace return exactly the solutions of A X = x X and X A = x X. On matrices that are not square they panic.", "quantifier": "every field, every square matrix of every size, every candidate eigenvalue and every exponent", "why_tests_cant": "The matrix, its size, the value and the exponent range over infinite sets; a test cannot show that no solution is missed.", "anchors": ["rings/src/linear/matrix.rs: generalized_col_eigenspace, generalized_row_eigenspace, col_eigenspace, row_eigenspace"]}
{"id": "C191", "title": "Distinct roots, roots with multiplicity and eigenvalues are complete and correct", "statement": "Given correct factoring over the base field and a correct all_roots_list, all_roots_unique returns every root of a polynomial once, all_roots_powers every root once with its multiplicity, both return None for the zero polynomial, and eigenvalues_list, eigenvalues_unique and eigenvalues_powers return the roots of the characteristic polynomial with multiplicity, once each, and once each with multiplicity, for every square matrix.", "quantifier": "every field of characteristic zero inside an algebraic closure, every polynomial and every square matrix", "why_tests_cant": "Polynomials and matrices of every degree and size over every field; completeness of a list of roots is not visible from examples.", "anchors": ["rings/src/structure/structure.rs: all_roots_unique, all_roots_powers", "rings/src/linear/matrix.rs: eigenvalues_list, eigenvalues_unique, eigenvalues_powers"]}
{"id": "C192", "title": "jordan_algorithm builds a basis of Jordan chains", "statement": "From every nilpotent matrix S of size m, jordan_algorithm builds blocks of vectors in which S maps every vector to the one before it and the first vector to zero, and all the vectors together form a basis of the space of dimension m.", "quantifier": "every field and every nilpotent matrix of every size", "why_tests_cant": "Matrices of every size and block structure; the failure depends on the choice of complement made by the kernel computation and is missed by matrices already in Jordan form.", "anchors": ["rings/src/linear/matrix.rs: jordan_algorithm", "rings/src/linear/subspace.rs: extension_basis, intersect_pair, sum_pair"]}
