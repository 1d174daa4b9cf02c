{
 "claims": [
  {
   "property": "C01",
   "status": "proved",
   "theorems": [
    "Verif.Props.Sets.C01_partitions_sized",
    "Verif.Props.Sets.C01_partitions_sized_all"
   ],
   "note": ""
  },
  {
   "property": "C02",
   "status": "proved",
   "theorems": [
    "Verif.Props.Sets.C02_partitions_sized_zero",
    "Verif.Props.Sets.C02_partitions"
   ],
   "note": ""
  },
  {
   "property": "C03",
   "status": "proved",
   "theorems": [
    "Verif.Props.Sets.C03_subsets",
    "Verif.Props.Sets.C03_subsets_vec"
   ],
   "note": ""
  },
  {
   "property": "C04",
   "status": "proved",
   "theorems": [
    "Verif.Props.Sets.C04_combinations"
   ],
   "note": "every call history of next/exclude"
  },
  {
   "property": "C05",
   "status": "partial",
   "theorems": [
    "Verif.Props.Sets.C05_full_subset_missing",
    "Verif.Props.Sets.C05_first_subset_partial",
    "Verif.Props.Sets.C05_too_large_panics"
   ],
   "note": "property is false of the code for k = n: negation proved (C05_full_subset_missing); holds for k < n"
  },
  {
   "property": "C06",
   "status": "proved",
   "theorems": [
    "Verif.Props.Perm.C06_new",
    "Verif.Props.Perm.C06_eq_iff",
    "Verif.Props.Perm.C06_fixed_new",
    "Verif.Props.Perm.C06_try_from"
   ],
   "note": ""
  },
  {
   "property": "C07",
   "status": "proved",
   "theorems": [
    "Verif.Props.Perm.C07_compose",
    "Verif.Props.Perm.C07_inverse",
    "Verif.Props.Perm.C07_group_laws",
    "Verif.Props.Perm.C07_fixed"
   ],
   "note": ""
  },
  {
   "property": "C08",
   "status": "proved",
   "theorems": [
    "Verif.Props.Perm.C08_sign",
    "Verif.Props.Perm.C08_sign_mul",
    "Verif.Props.Perm.C08_transposition"
   ],
   "note": ""
  },
  {
   "property": "C09",
   "status": "proved",
   "theorems": [
    "Verif.Props.Perm.C09_disjoint_cycles",
    "Verif.Props.Perm.C09_cycle_shape",
    "Verif.Props.Perm.C09_fixed_disjoint_cycles"
   ],
   "note": ""
  },
  {
   "property": "C10",
   "status": "partial",
   "theorems": [
    "Verif.Props.Perm.C10_fixed_from_cycle",
    "Verif.Props.Perm.C10_new_from_cycles",
    "Verif.Props.Perm.C10_unsized_from_cycle_panics",
    "Verif.Props.Perm.C10_unsized_empty"
   ],
   "note": "holds for Permutation<N>; false for the unsized Permutation: it panics on every non-empty cycle (proved)"
  },
  {
   "property": "C11",
   "status": "proved",
   "theorems": [
    "Verif.GroupTrait.C11_pow",
    "Verif.GroupTrait.C11_compose_list"
   ],
   "note": "nat_pow/int_pow/compose_list of the Group trait, for every group"
  },
  {
   "property": "C12",
   "status": "proved",
   "theorems": [
    "Verif.GroupTrait.C12_table",
    "Verif.GroupTrait.C12_table_terminates",
    "Verif.GroupTrait.C12_finite_subgroup"
   ],
   "note": "generated_finite_subgroup_table and generated_finite_subgroup: sound, and terminating exactly when the generated subgroup is finite"
  },
  {
   "property": "C13",
   "status": "proved",
   "theorems": [
    "Verif.Table.C13_new_iff_group",
    "Verif.Table.C13_check_state"
   ],
   "note": "also the whole check_state incl. cached flags"
  },
  {
   "property": "C14",
   "status": "proved",
   "theorems": [
    "Verif.Table.C14_order",
    "Verif.Table.C14_mul_many"
   ],
   "note": ""
  },
  {
   "property": "C15",
   "status": "proved",
   "theorems": [
    "Verif.Table.C15_direct_product",
    "Verif.Table.C15_cyclic",
    "Verif.Table.C15_trivial_klein"
   ],
   "note": ""
  },
  {
   "property": "C16",
   "status": "proved",
   "theorems": [
    "Verif.Table.C16_conjugacy_classes",
    "Verif.Table.C16_conjugacy_class",
    "Verif.Table.C16_is_abelian"
   ],
   "note": "every hash iteration order"
  },
  {
   "property": "C17",
   "status": "partial",
   "theorems": [
    "Verif.Table.C17_generated_subgroup",
    "Verif.Table.C17_is_subgroup_partial",
    "Verif.Table.C17_is_subgroup_empty_violated",
    "Verif.Table.C17_translate"
   ],
   "note": "generated_subgroup full; is_subgroup holds for non-empty subsets, false for the empty one: negation proved (C17_is_subgroup_empty_violated), cosets of it diverge"
  },
  {
   "property": "C18",
   "status": "proved",
   "theorems": [
    "Verif.Table.C18_normal_closure",
    "Verif.Table.C18_is_normal_subgroup"
   ],
   "note": ""
  },
  {
   "property": "C19",
   "status": "proved",
   "theorems": [
    "Verif.Table.C19_left_cosets",
    "Verif.Table.C19_right_cosets",
    "Verif.Table.C19_left_eq_right",
    "Verif.Table.C19_is_cosets"
   ],
   "note": "plus is_left_cosets/is_right_cosets/is_congruence"
  },
  {
   "property": "C20",
   "status": "proved",
   "theorems": [
    "Verif.Table.C20_quotient_group",
    "Verif.Table.C20_to_group"
   ],
   "note": ""
  },
  {
   "property": "C21",
   "status": "proved",
   "theorems": [
    "Verif.Table.C21_subgroups",
    "Verif.Table.C21_normal_subgroups"
   ],
   "note": "every hash order; rayon map is order-preserving"
  },
  {
   "property": "C22",
   "status": "proved",
   "theorems": [
    "Verif.Table.C22_check_state",
    "Verif.Table.C22_from_subsets",
    "Verif.Table.C22_eq"
   ],
   "note": ""
  },
  {
   "property": "C23",
   "status": "proved",
   "theorems": [
    "Verif.Table.C23_generating_set",
    "Verif.Table.C23_built",
    "Verif.Table.C23_check_state",
    "Verif.Table.C23_generated_homomorphism_err",
    "Verif.Table.C23_generated_homomorphism",
    "Verif.Table.C23_hom_unique"
   ],
   "note": "total correctness for every hash order; the generating sets ranged over are those the API can build (private fields)"
  },
  {
   "property": "C24",
   "status": "proved",
   "theorems": [
    "Verif.Table.C24_hom_check",
    "Verif.Table.C24_iso_check",
    "Verif.Table.C24_to_isomorphism",
    "Verif.Table.C24_find_isomorphism"
   ],
   "note": "total correctness of find_isomorphism, both check_state functions and to_isomorphism"
  },
  {
   "property": "C25",
   "status": "partial",
   "theorems": [
    "Verif.Table.C25_mul_partial",
    "Verif.Table.C25_mul_trivial_wrong",
    "Verif.Table.C25_from_group",
    "Verif.Table.C25_to_group_partial",
    "Verif.Table.C25_round_trip_partial",
    "Verif.Table.C25_to_group_unknown",
    "Verif.Table.C25_quaternion",
    "Verif.Table.C25_dihedral_partial",
    "Verif.Table.C25_from_group_cyclic"
   ],
   "note": "Product of classes other than Trivial denotes the direct product; violated for Trivial (negation proved). from_group is sound whenever it returns (all hash orders, counters); cyclic groups always recognised; to_group and the round trip are proved for Known classes, assuming dihedral_group_structure(n) returns a table with 2n elements."
  },
  {
   "property": "C26",
   "status": "partial",
   "theorems": [
    "Verif.ToddCoxeter.C26_coset_map_partial",
    "Verif.ToddCoxeter.C26_index_le_partial",
    "Verif.ToddCoxeter.C26_infinite_never_returns",
    "Verif.ToddCoxeter.C26_certified_partial",
    "Verif.ToddCoxeter.C26_finite_group_partial",
    "Verif.ToddCoxeter.C26_finite_group_count_partial",
    "Verif.ToddCoxeter.C26_index_wrong",
    "Verif.ToddCoxeter.C26_finite_group_wrong"
   ],
   "note": "Violated by the code: unify loses edges when the surviving coset dies during the recursion; C26_index_wrong and C26_finite_group_wrong prove that a presentation of the trivial group is enumerated as order 2. Proved: returned points map equivariantly onto the cosets (so index <= count, and infinite index never returns), and equality whenever the returned permutations satisfy the relations, fix 0 and are transitive; into_finite_group then returns a group isomorphic to the presented group."
  },
  {
   "property": "C27",
   "status": "proved",
   "theorems": [
    "Verif.Props.Natural.C27_factorial",
    "Verif.Props.Natural.C27_choose",
    "Verif.Props.Natural.C27_pow"
   ],
   "note": "for all naturals"
  },
  {
   "property": "C28",
   "status": "proved",
   "theorems": [
    "Verif.Props.Natural.C28_root_floor",
    "Verif.Props.Natural.C28_root_ceil",
    "Verif.Props.Natural.C28_root_zero"
   ],
   "note": ""
  },
  {
   "property": "C29",
   "status": "proved",
   "theorems": [
    "Verif.Props.Natural.C29_gcd"
   ],
   "note": ""
  },
  {
   "property": "C30",
   "status": "proved",
   "theorems": [
    "Verif.Props.Natural.C30_is_power_test"
   ],
   "note": "total correctness"
  },
  {
   "property": "C31",
   "status": "proved",
   "theorems": [
    "Verif.Props.Natural.C31_prime_generator",
    "Verif.Props.Natural.C31_prime_generator'"
   ],
   "note": "total: every call terminates"
  },
  {
   "property": "C32",
   "status": "proved",
   "theorems": [
    "Verif.Props.Natural.C32_try_divisors"
   ],
   "note": ""
  },
  {
   "property": "C33",
   "status": "proved",
   "theorems": [
    "Verif.Props.Natural.C33_miller_rabin_spec",
    "Verif.Props.Natural.C33_prime_never_rejected",
    "Verif.Props.Natural.C33_conclusive_sound"
   ],
   "note": "includes an exact functional description (strong probable primes)"
  },
  {
   "property": "C34",
   "status": "proved",
   "theorems": [
    "Verif.Props.Aks.C34_factor_lib",
    "Verif.Props.Natural.C34_factor",
    "Verif.Props.Natural.C34_exponents",
    "Verif.Props.Natural.C34_factor_total_small"
   ],
   "note": "whenever it returns, given a sound primality test for factors >= 10^6; total and unconditional for n < 10001^2"
  },
  {
   "property": "C35",
   "status": "proved",
   "theorems": [
    "Verif.Props.Natural.C35_expand",
    "Verif.Props.Natural.C35_euler_totient"
   ],
   "note": ""
  },
  {
   "property": "C36",
   "status": "proved",
   "theorems": [
    "Verif.Props.Natural.C36_primitive_root",
    "Verif.Props.Natural.C36_total_small"
   ],
   "note": "whenever it returns; returns for n < 10001^2"
  },
  {
   "property": "C37",
   "status": "partial",
   "theorems": [
    "Verif.Props.Aks.C37_composite_sound",
    "Verif.Props.Aks.C37_exact_partial",
    "Verif.Props.Aks.C37_is_prime_partial",
    "Verif.Props.Aks.C37_is_prime_false",
    "Verif.Props.Natural.C37_composite_sound_partial",
    "Verif.Props.Natural.C37_primality_exact_partial",
    "Verif.Props.Natural.C37_primality_small_partial"
   ],
   "note": "aks_primality_test is modelled in full. Composite, Zero and One answers of primality_test are right for every n, with no assumption. Prime answers are right for every n given the published fact that the first thirteen prime bases suffice below 3317044064679887385961981 (a numerical search result kept as hypothesis; not needed below 10^6). That the search for r ends is not provable (Artin's conjecture), so the theorems speak of returned answers."
  },
  {
   "property": "C38",
   "status": "partial",
   "theorems": [
    "Verif.Rings.C38_nat_pow",
    "Verif.Rings.C38_from_nat",
    "Verif.Rings.C38_sum_product",
    "Verif.Rings.C38_from_int",
    "Verif.Rings.C38_from_rat",
    "Verif.Rings.C38_int_pow_partial",
    "Verif.Rings.C38_int_pow_zero_wrong"
   ],
   "note": "nat_pow, from_nat, from_int, from_rat, sum, product proved for every ring structure. int_pow proved for non-zero elements; for zero with a negative exponent the code returns Some(0), proved wrong (C38_int_pow_zero_wrong)."
  },
  {
   "property": "C39",
   "status": "proved",
   "theorems": [
    "Verif.Rings.C39_euclidean_gcd",
    "Verif.Rings.C39_euclidean_xgcd",
    "Verif.Rings.C39_gcd_list",
    "Verif.Rings.C39_lcm",
    "Verif.Rings.C39_lcm_list",
    "Verif.Rings.C39_int_gcd",
    "Verif.Rings.C39_lcm_not_normalised"
   ],
   "note": "Total correctness incl. termination and debug assertions, for every structure presenting a Euclidean domain; lcm proved up to associates (the code does not normalise it: C39_lcm_not_normalised)."
  },
  {
   "property": "C40",
   "status": "proved",
   "theorems": [
    "Verif.Rings.C40_xgcd_list"
   ],
   "note": "Every Bezout structure and every list."
  },
  {
   "property": "C41",
   "status": "proved",
   "theorems": [
    "Verif.Rings.C41_int_div",
    "Verif.Rings.C41_int_quorem",
    "Verif.Rings.C41_int_fav",
    "Verif.Rings.C41_predicates",
    "Verif.Rings.C41_int_units",
    "Verif.Rings.C41_int_structure"
   ],
   "note": ""
  },
  {
   "property": "C42",
   "status": "proved",
   "theorems": [
    "Verif.Rings.C42_no_panic",
    "Verif.Rings.C42_quotient_ring",
    "Verif.Rings.C42_reduce",
    "Verif.Rings.C42_quotient_field",
    "Verif.Rings.C42_div_any_modulus"
   ],
   "note": "Every Euclidean structure and non-zero modulus; field case for irreducible modulus; division also characterised for arbitrary modulus."
  },
  {
   "property": "C43",
   "status": "partial",
   "theorems": [
    "Verif.Rings.Factored.C43_expand",
    "Verif.Rings.Factored.C43_mul",
    "Verif.Rings.Factored.C43_pow_partial",
    "Verif.Rings.Factored.C43_pow_wrong",
    "Verif.Rings.Factored.C43_equal",
    "Verif.Rings.Factored.C43_squarefree_list",
    "Verif.Rings.Factored.C43_is_irreducible",
    "Verif.Rings.Factored.C43_check_invariants",
    "Verif.Rings.Factored.C43_check_invariants_repeated"
   ],
   "note": "mul, expand, equal, is_irreducible, squarefree, check_invariants proved. pow does not raise the unit: proved wrong (C43_pow_wrong) with the exact relation in C43_pow_partial. check_invariants does not detect repeated primes (C43_check_invariants_repeated)."
  },
  {
   "property": "C44",
   "status": "proved",
   "theorems": [
    "Verif.Rings.Factored.C44_divisors"
   ],
   "note": "Every UFD structure and valid factorization."
  },
  {
   "property": "C45",
   "status": "proved",
   "theorems": [
    "Verif.Props.Perm.C45_symmetric_table",
    "Verif.Props.Perm.C45_alternating_table",
    "Verif.Props.Perm.C45_all_permutations"
   ],
   "note": "itertools permutations order is irrelevant (theorems quantify over the enumeration)"
  },
  {
   "property": "C46",
   "status": "partial",
   "theorems": [
    "Verif.Table.C46_small_generating_set_partial",
    "Verif.Table.C46_small_generating_set_trivial_panics"
   ],
   "note": "proved for every non-trivial group; for the trivial group the call panics (proved)"
  },
  {
   "property": "C47",
   "status": "proved",
   "theorems": [
    "Verif.ToddCoxeter.C47_element_ops",
    "Verif.ToddCoxeter.C47_translate",
    "Verif.ToddCoxeter.C47_add_generator",
    "Verif.ToddCoxeter.C47_relations"
   ],
   "note": ""
  },
  {
   "property": "C48",
   "status": "proved",
   "theorems": [
    "Verif.Rings.C48_generate_distinct",
    "Verif.Rings.C48_abs",
    "Verif.Rings.C48_rat_structure",
    "Verif.Rings.C48_rat_fraction",
    "Verif.Rings.C48_rat_rounding"
   ],
   "note": ""
  },
  {
   "property": "C49",
   "status": "proved",
   "theorems": [
    "Verif.Rings.C49_find_factor",
    "Verif.Rings.C49_int_factor",
    "Verif.Rings.C49_int_factor_total",
    "Verif.Rings.C49_is_irreducible",
    "Verif.Rings.C49_field_factor"
   ],
   "note": "factorize_by_find_factor total under a sound splitting procedure; integer factor sound given a sound primality test, total below 10001^2."
  },
  {
   "property": "C50",
   "status": "proved",
   "theorems": [
    "Verif.Rings.C50_poly_semiring",
    "Verif.Rings.C50_poly_ring",
    "Verif.Rings.C50_poly_equal",
    "Verif.Rings.C50_poly_reduced"
   ],
   "note": "Over every dictionary presenting a semiring/ring."
  },
  {
   "property": "C51",
   "status": "proved",
   "theorems": [
    "Verif.Rings.C51_evaluate_compose",
    "Verif.Rings.C51_evaluate_hom"
   ],
   "note": ""
  },
  {
   "property": "C52",
   "status": "partial",
   "theorems": [
    "Verif.Rings.C52_degree",
    "Verif.Rings.C52_builders",
    "Verif.Rings.C52_as_constant",
    "Verif.Rings.C52_is_monic",
    "Verif.Rings.C52_derivative",
    "Verif.Rings.C52_reversed_partial",
    "Verif.Rings.C52_reversed_wrong"
   ],
   "note": "Everything but reversed holds as stated; reversed is proved for vectors without trailing zeros, and C52_reversed_wrong exhibits a vector with a trailing zero for which the documented x^n p(1/x) fails."
  },
  {
   "property": "C53",
   "status": "proved",
   "theorems": [
    "Verif.Rings.C53_try_quorem",
    "Verif.Rings.C53_quorem_unique",
    "Verif.Rings.C53_div"
   ],
   "note": ""
  },
  {
   "property": "C54",
   "status": "proved",
   "theorems": [
    "Verif.Rings.C54_pseudorem"
   ],
   "note": ""
  },
  {
   "property": "C55",
   "status": "proved",
   "theorems": [
    "Verif.Rings.C55_poly_fav_assoc",
    "Verif.Rings.C55_factor_primitive",
    "Verif.Rings.C55_all_units"
   ],
   "note": ""
  },
  {
   "property": "C56",
   "status": "partial",
   "theorems": [
    "Verif.Rings.C56_subresultant_gcd_partial",
    "Verif.Rings.C56_subresultant_gcd_wrong"
   ],
   "note": "Proved for every pair not both zero (the subresultant theorem); subresultant_gcd(0,0) panics (C56_subresultant_gcd_wrong)."
  },
  {
   "property": "C57",
   "status": "partial",
   "theorems": [
    "Verif.Rings.C57_resultant_partial",
    "Verif.Rings.C57_resultant_eq_zero",
    "Verif.Rings.C57_resultant_wrong"
   ],
   "note": "Vanishing criterion and value are proved; the sign is wrong when deg a < deg b and both degrees are odd (C57_resultant_wrong), the exact value for all pairs is given by C57_resultant_partial."
  },
  {
   "property": "C58",
   "status": "partial",
   "theorems": [
    "Verif.Rings.C58_discriminant_partial",
    "Verif.Rings.C58_discriminant_any_char_partial",
    "Verif.Rings.C58_discriminant_wrong"
   ],
   "note": "Proved in characteristic zero and whenever the degree is nonzero in the ring; fails in positive characteristic (C58_discriminant_wrong: t x^2 + x over F_2[t] panics)."
  },
  {
   "property": "C59",
   "status": "partial",
   "theorems": [
    "Verif.Rings.C59_is_squarefree_partial",
    "Verif.Rings.C59_is_squarefree_separable",
    "Verif.Rings.C59_is_squarefree_zero_wrong",
    "Verif.Rings.C59_is_squarefree_wrong"
   ],
   "note": "Proved over perfect fraction fields (all of characteristic zero, finite fields) for nonzero p; p = 0 panics, and over F_2[t] the answer is wrong for x^2 + t (C59_is_squarefree_wrong)."
  },
  {
   "property": "C60",
   "status": "proved",
   "theorems": [
    "Verif.Rings.C60_lagrange",
    "Verif.Rings.C60_lagrange_field",
    "Verif.Rings.C60_lagrange_duplicate"
   ],
   "note": "Duplicate abscissas panic (C60_lagrange_duplicate)."
  },
  {
   "property": "C61",
   "status": "proved",
   "theorems": [
    "Verif.Rings.C61_field_poly",
    "Verif.Rings.C61_field_gcd_monic"
   ],
   "note": ""
  },
  {
   "property": "C62",
   "status": "partial",
   "theorems": [
    "Verif.Rings.C62_gcd_primitive_partial",
    "Verif.Rings.C62_gcd_primitive_args",
    "Verif.Rings.C62_gcd_primitive_wrong"
   ],
   "note": "Gcd up to the common content; the common content is dropped (C62_gcd_primitive_wrong), so the full claim is false of the code."
  },
  {
   "property": "C63",
   "status": "proved",
   "theorems": [
    "Verif.Rings.C63_primitive_squarefree_part"
   ],
   "note": ""
  },
  {
   "property": "C64",
   "status": "partial",
   "theorems": [
    "Verif.Rings.C64_factor_primitive_fof_partial",
    "Verif.Rings.C64_factor_primitive_fof_wrong",
    "Verif.Rings.C64_rat_fof"
   ],
   "note": "Proved for nonzero p; zero panics (C64_factor_primitive_fof_wrong)."
  },
  {
   "property": "C65",
   "status": "proved",
   "theorems": [
    "Verif.Rings.C65_construct",
    "Verif.Rings.C65_from_rows",
    "Verif.Rings.C65_at",
    "Verif.Rings.C65_at_mut",
    "Verif.Rings.C65_views",
    "Verif.Rings.C65_apply_map",
    "Verif.Rings.C65_submatrix",
    "Verif.Rings.C65_submatrix_panics"
   ],
   "note": ""
  },
  {
   "property": "C66",
   "status": "proved",
   "theorems": [
    "Verif.Rings.C66_equal",
    "Verif.Rings.C66_equal_shape",
    "Verif.Rings.C66_constants",
    "Verif.Rings.C66_add",
    "Verif.Rings.C66_add_shape",
    "Verif.Rings.C66_neg",
    "Verif.Rings.C66_mul_scalar",
    "Verif.Rings.C66_mul",
    "Verif.Rings.C66_mul_shape",
    "Verif.Rings.C66_nat_pow",
    "Verif.Rings.C66_dot",
    "Verif.Rings.C66_trace",
    "Verif.Rings.C66_trace_shape"
   ],
   "note": ""
  },
  {
   "property": "C67",
   "status": "proved",
   "theorems": [
    "Verif.Rings.C67_join_rows",
    "Verif.Rings.C67_rows",
    "Verif.Rings.C67_join_rows_panics",
    "Verif.Rings.C67_join_cols",
    "Verif.Rings.C67_join_diag"
   ],
   "note": ""
  },
  {
   "property": "C68",
   "status": "proved",
   "theorems": [
    "Verif.Rings.C68_det_naive",
    "Verif.Rings.C68_det_naive_shape",
    "Verif.Rings.C68_det",
    "Verif.Rings.C68_det_shape",
    "Verif.Rings.C68_det_hermite"
   ],
   "note": ""
  },
  {
   "property": "C69",
   "status": "proved",
   "theorems": [
    "Verif.Rings.C69_row_operation",
    "Verif.Rings.C69_col_operation",
    "Verif.Rings.C69_rows"
   ],
   "note": ""
  },
  {
   "property": "C70",
   "status": "proved",
   "theorems": [
    "Verif.Rings.C70_row_hermite",
    "Verif.Rings.C70_col_hermite",
    "Verif.Rings.C70_row_span",
    "Verif.Rings.C70_echelon"
   ],
   "note": "over any Bezout domain; termination (fuel-free loops) included"
  },
  {
   "property": "C71",
   "status": "proved",
   "theorems": [
    "Verif.Rings.C71_rank"
   ],
   "note": ""
  },
  {
   "property": "C72",
   "status": "proved",
   "theorems": [
    "Verif.Rings.C72_row_reduced_hermite",
    "Verif.Rings.C72_col_reduced_hermite",
    "Verif.Rings.C72_inv",
    "Verif.Rings.C72_inv_shape"
   ],
   "note": ""
  },
  {
   "property": "C73",
   "status": "partial",
   "theorems": [
    "Verif.Rings.C73_factor_primitive",
    "Verif.Rings.C73_factor_primitive_fof_partial",
    "Verif.Rings.C73_factor_primitive_fof_wrong"
   ],
   "note": "factor_primitive fully proved; factor_primitive_fof panics on the zero matrix (C73_factor_primitive_fof_wrong), proved otherwise"
  },
  {
   "property": "C74",
   "status": "proved",
   "theorems": [
    "Verif.Rings.C74_row_kernel",
    "Verif.Rings.C74_col_kernel",
    "Verif.Rings.C74_col_solve",
    "Verif.Rings.C74_row_solve",
    "Verif.Rings.C74_col_solve_shape",
    "Verif.Rings.C74_row_solution_lattice",
    "Verif.Rings.C74_col_solution_lattice"
   ],
   "note": "Over any Bezout domain whose operations satisfy the Models hypotheses."
  },
  {
   "property": "C75",
   "status": "proved",
   "theorems": [
    "Verif.Rings.C75_from_span",
    "Verif.Rings.C75_from_basis",
    "Verif.Rings.C75_zero",
    "Verif.Rings.C75_rank",
    "Verif.Rings.C75_basis_matrices",
    "Verif.Rings.C75_take_nonzero_point",
    "Verif.Rings.C75_transpose",
    "Verif.Rings.C75_row_span",
    "Verif.Rings.C75_col_span",
    "Verif.Rings.C75_contains_point",
    "Verif.Rings.C75_contains_sublattice",
    "Verif.Rings.C75_equal"
   ],
   "note": "equal/contains_sublattice are stated for lattices of matrices of the same shape (the code only compares rows*cols)."
  },
  {
   "property": "C76",
   "status": "proved",
   "theorems": [
    "Verif.Rings.C76_sum",
    "Verif.Rings.C76_sum_pair",
    "Verif.Rings.C76_intersect",
    "Verif.Rings.C76_intersect_pair"
   ],
   "note": ""
  },
  {
   "property": "C77",
   "status": "proved",
   "theorems": [
    "Verif.Rings.C77_from_offset",
    "Verif.Rings.C77_take_point",
    "Verif.Rings.C77_contains_point",
    "Verif.Rings.C77_sum",
    "Verif.Rings.C77_intersect",
    "Verif.Rings.C77_intersect_pair",
    "Verif.Rings.C77_row_affine_span",
    "Verif.Rings.C77_col_affine_span"
   ],
   "note": ""
  },
  {
   "property": "C78",
   "status": "partial",
   "theorems": [
    "Verif.Rings.C78_contains_sublattice_partial",
    "Verif.Rings.C78_equal_partial",
    "Verif.Rings.C78_wrong"
   ],
   "note": "Violated by the code: the offset of the second lattice is never tested (C78_wrong: 1+2Z is said to contain Z; the points 0 and 1 are said to be equal). Proved: included/equal sets are always recognised, and the answer is exact when the stored offsets are in the other set."
  },
  {
   "property": "C79",
   "status": "partial",
   "theorems": [
    "Verif.Rings.C79_extension_basis_partial",
    "Verif.Rings.C79_extension_basis_field",
    "Verif.Rings.C79_extension_basis_wrong",
    "Verif.Rings.C79_hyperplanes_partial",
    "Verif.Rings.C79_hyperplanes_field",
    "Verif.Rings.C79_hyperplanes_wrong"
   ],
   "note": "Violated over rings that are not fields (C79_extension_basis_wrong, C79_hyperplanes_wrong). Proved over fields; over Bezout domains: no panic, the number, independence and membership of the results, and the hyperplanes intersect to the lattice unless it has full rank."
  },
  {
   "property": "C80",
   "status": "partial",
   "theorems": [
    "Verif.Rings.C80_ring",
    "Verif.Rings.C80_field",
    "Verif.Rings.C80_literals_prime",
    "Verif.Rings.C80_literals_all",
    "Verif.Rings.C80_from_usize",
    "Verif.Rings.C80_from_isize",
    "Verif.Rings.C80_from_integer_partial",
    "Verif.Rings.C80_from_integer_wrong"
   ],
   "note": "From<Integer> is wrong for negative numbers (C80_from_integer_wrong): Modulo::<5>::from(Integer::from(-1)) is 1. Everything else is proved in full. usize/isize arithmetic is unbounded in the model."
  },
  {
   "property": "C81",
   "status": "proved",
   "theorems": [
    "Verif.Rings.C81_quaternary",
    "Verif.Rings.C81_alpha"
   ],
   "note": ""
  },
  {
   "property": "C82",
   "status": "proved",
   "theorems": [
    "Verif.Rings.C82_integers_mod_prime",
    "Verif.Rings.C82_all_elements"
   ],
   "note": ""
  },
  {
   "property": "C83",
   "status": "partial",
   "theorems": [
    "Verif.Rings.C83_factorize_monic",
    "Verif.Rings.C83_squarefree",
    "Verif.Rings.C83_squarefree_partial",
    "Verif.Rings.C83_squarefree_wrong",
    "Verif.Rings.C83_monic_round_trip",
    "Verif.Rings.C83_into_monic",
    "Verif.Rings.C83_mul",
    "Verif.Rings.C83_pow_partial",
    "Verif.Rings.C83_pow_wrong"
   ],
   "note": "Proved in full for prime fields; over every other finite field factorize_squarefree is wrong (C83_squarefree_wrong: it returns (x-b)^p = x^p-b^p for x^p-b), and is proved right when no multiplicity is divisible by p."
  },
  {
   "property": "C84",
   "status": "proved",
   "theorems": [
    "Verif.Rings.C84_find_factor",
    "Verif.Rings.C84_factorize",
    "Verif.Rings.C84_prime_field"
   ],
   "note": "Total correctness over every finite field."
  },
  {
   "property": "C85",
   "status": "proved",
   "theorems": [
    "Verif.Rings.C85_distinct_degree",
    "Verif.Rings.C85_into_squarefree"
   ],
   "note": "Total correctness over every finite field, including the debug assertions."
  },
  {
   "property": "C86",
   "status": "partial",
   "theorems": [
    "Verif.Rings.C86_sound",
    "Verif.Rings.C86_terminates",
    "Verif.Rings.C86_fair_exists",
    "Verif.Rings.C86_factor_prime_field",
    "Verif.Rings.C86_factor_partial",
    "Verif.Rings.C86_factor_wrong"
   ],
   "note": "Soundness for every stream and termination on every fair stream over every finite field; the whole of factor is proved over prime fields and is wrong over the others because of the squarefree step (C86_factor_wrong)."
  },
  {
   "property": "C87",
   "status": "proved",
   "theorems": [
    "Verif.Rings.C87_vectors",
    "Verif.Rings.C87_multiplication_matrix",
    "Verif.Rings.C87_trace_norm",
    "Verif.Rings.C87_constant_modulus"
   ],
   "note": "A constant modulus makes trace and norm panic (C87_constant_modulus)."
  },
  {
   "property": "C88",
   "status": "partial",
   "theorems": [
    "Verif.Rings.C88_yun_partial",
    "Verif.Rings.C88_yun_wrong"
   ],
   "note": "Proved up to a unit, exactly when no square of a nonconstant polynomial divides the argument; the unit is wrong for (x^2-x-1)^2 over the integers (proved for every correct squarefree factoring)."
  },
  {
   "property": "C89",
   "status": "partial",
   "theorems": [
    "Verif.Rings.C89_kronecker_partial",
    "Verif.Rings.C89_find_factor",
    "Verif.Rings.C89_kronecker_wrong"
   ],
   "note": "Search step exact and total; result proved up to a unit and exactly when no nonconstant square divides it; wrong unit for (x^2-x-1)^2 proved."
  },
  {
   "property": "C90",
   "status": "partial",
   "theorems": [
    "Verif.Rings.C90_fof_partial",
    "Verif.Rings.C90_zero_wrong",
    "Verif.Rings.C90_fof_wrong"
   ],
   "note": "Proved up to a unit and exactly for squarefree polynomials; wrong for (2x+1)^2 over Q (gives 2(x+1/2)^2), and zero panics: both proved."
  },
  {
   "property": "C91",
   "status": "proved",
   "theorems": [
    "Verif.Rings.C91_try_all",
    "Verif.Rings.C91_find_factor"
   ],
   "note": ""
  },
  {
   "property": "C92",
   "status": "proved",
   "theorems": [
    "Verif.Rings.C92_new",
    "Verif.Rings.C92_new_panics",
    "Verif.Rings.C92_check"
   ],
   "note": ""
  },
  {
   "property": "C93",
   "status": "partial",
   "theorems": [
    "Verif.Rings.C93_linear_lift_partial",
    "Verif.Rings.C93_unique",
    "Verif.Rings.C93_single_wrong"
   ],
   "note": "Violated when there is a single non-monic factor: factors() returns h itself (C93_single_wrong); everything else is proved, for any number of lifts."
  },
  {
   "property": "C94",
   "status": "partial",
   "theorems": [
    "Verif.Rings.C94_quadratic_lift_partial",
    "Verif.Rings.C94_dont_lift"
   ],
   "note": "As C93: the product formula needs at least two factors; everything else is proved."
  },
  {
   "property": "C95",
   "status": "proved",
   "theorems": [
    "Verif.Rings.C95_into_hensel"
   ],
   "note": ""
  },
  {
   "property": "C96",
   "status": "proved",
   "theorems": [
    "Verif.Rings.C96_mignotte_none",
    "Verif.Rings.C96_mignotte"
   ],
   "note": "Mahler measure bound from Mathlib; every factor, every coefficient."
  },
  {
   "property": "C97",
   "status": "proved",
   "theorems": [
    "Verif.Rings.C97_cauchy_none",
    "Verif.Rings.C97_cauchy"
   ],
   "note": "Strict bound for every complex root."
  },
  {
   "property": "C98",
   "status": "partial",
   "theorems": [
    "Verif.Rings.C98_bz_partial",
    "Verif.Rings.C98_squarefree_partial",
    "Verif.Rings.C98_squarefree_wrong",
    "Verif.Rings.C98_bz_wrong",
    "Verif.Rings.C98_bz_square_wrong"
   ],
   "note": "Termination, irreducibility, distinctness, normalisation and the product up to sign are proved; that the sign is right is false (C98_bz_wrong, C98_bz_square_wrong, C98_squarefree_wrong: the quotient -1 left at the end of the search is dropped). The squarefree step is exact for positive leading coefficient."
  },
  {
   "property": "C99",
   "status": "partial",
   "theorems": [
    "Verif.Rings.C99_naive_partial",
    "Verif.Rings.C99_find_factor",
    "Verif.Rings.C99_naive_wrong"
   ],
   "note": "Exact when no square of a nonconstant polynomial divides the argument; false in general (C99_naive_wrong, from Yun's step)."
  },
  {
   "property": "C100",
   "status": "partial",
   "theorems": [
    "Verif.Rings.C100_rat_partial",
    "Verif.Rings.C100_rat_wrong",
    "Verif.Rings.C100_rat_zero_wrong"
   ],
   "note": "Valid and a nonzero constant multiple; the constant is wrong in general (C100_rat_wrong) and zero panics (C100_rat_zero_wrong)."
  },
  {
   "property": "C101",
   "status": "partial",
   "theorems": [
    "Verif.Rings.C101_smith_partial",
    "Verif.Rings.C101_smith_two_rows_partial",
    "Verif.Rings.C101_smith_wrong_panics",
    "Verif.Rings.C101_smith_wrong_product",
    "Verif.Rings.C101_smith_wrong_form",
    "Verif.Rings.C101_smith_wrong_panics_three"
   ],
   "note": "violated by the code (panics, s different from u m v, wrong diagonal: C101_smith_wrong_*); proved: for linearly independent rows whatever is returned is a diagonal form s = u m v whose entries all divide the last, and full Smith normal form with termination for at most two rows"
  },
  {
   "property": "C102",
   "status": "partial",
   "theorems": [
    "Verif.Rings.C102_char_poly_partial",
    "Verif.Rings.C102_char_poly_shape",
    "Verif.Rings.C102_char_poly_wrong_empty",
    "Verif.Rings.C102_char_poly_wrong_panics"
   ],
   "note": "violated by the code (panics on a 3x3 rational matrix and on the empty matrix); proved: whatever is returned is the characteristic polynomial, always returned for 1 or 2 rows, NotSquare error"
  },
  {
   "property": "C103",
   "status": "partial",
   "theorems": [
    "Verif.Rings.C103_min_poly_partial",
    "Verif.Rings.C103_min_poly_shape",
    "Verif.Rings.C103_min_poly_wrong_empty",
    "Verif.Rings.C103_min_poly_wrong_panics"
   ],
   "note": "violated by the code (same panics); proved: whatever is returned is the minimal polynomial, always returned for 1 or 2 rows, NotSquare error"
  },
  {
   "property": "C104",
   "status": "proved",
   "theorems": [
    "Verif.Rings.C104_gram_schmidt_row",
    "Verif.Rings.C104_gram_schmidt_row_panics",
    "Verif.Rings.C104_gram_schmidt_col",
    "Verif.Rings.C104_gram_schmidt_col_panics"
   ],
   "note": "row and column versions, with the exact condition for a panic"
  },
  {
   "property": "C105",
   "status": "proved",
   "theorems": [
    "Verif.Rings.C105_lq",
    "Verif.Rings.C105_lq_panics",
    "Verif.Rings.C105_qr"
   ],
   "note": "square roots are an oracle with the stated contract"
  },
  {
   "property": "C106",
   "status": "proved",
   "theorems": [
    "Verif.Rings.C106_arithmetic",
    "Verif.Rings.C106_equal",
    "Verif.Rings.C106_well_formed",
    "Verif.Rings.C106_hash_order",
    "Verif.Rings.C106_surjective"
   ],
   "note": "all coefficient rings and hash orders"
  },
  {
   "property": "C107",
   "status": "proved",
   "theorems": [
    "Verif.Rings.C107_evaluate"
   ],
   "note": ""
  },
  {
   "property": "C108",
   "status": "partial",
   "theorems": [
    "Verif.Rings.C108_read",
    "Verif.Rings.C108_split_by_degree",
    "Verif.Rings.C108_parts",
    "Verif.Rings.C108_zero_terms_wrong"
   ],
   "note": "proved for polynomials without zero terms; degree and free_vars see zero terms (C108_zero_terms_wrong)"
  },
  {
   "property": "C109",
   "status": "partial",
   "theorems": [
    "Verif.Rings.C109_homogenize",
    "Verif.Rings.C109_variable_occurs_wrong"
   ],
   "note": "proved for a variable that does not occur; panics (debug assertion) when it occurs (C109_variable_occurs_wrong)"
  },
  {
   "property": "C110",
   "status": "proved",
   "theorems": [
    "Verif.Rings.C110_expand"
   ],
   "note": ""
  },
  {
   "property": "C111",
   "status": "partial",
   "theorems": [
    "Verif.Rings.C111_division",
    "Verif.Rings.C111_depth",
    "Verif.Rings.C111_constant_zero_wrong",
    "Verif.Rings.C111_zero_by_zero_wrong"
   ],
   "note": "proved for polynomials without zero terms; constant(0) as divisor of a constant panics (C111_constant_zero_wrong)"
  },
  {
   "property": "C112",
   "status": "partial",
   "theorems": [
    "Verif.Rings.C112_apply_map_vars",
    "Verif.Rings.C112_not_injective_wrong"
   ],
   "note": "proved; for maps that are not injective the result denotes the right polynomial but == fails on it (C112_not_injective_wrong)"
  },
  {
   "property": "C113",
   "status": "proved",
   "theorems": [
    "Verif.Rings.C113_lexicographic",
    "Verif.Rings.C113_graded",
    "Verif.Rings.C113_mul"
   ],
   "note": ""
  },
  {
   "property": "C114",
   "status": "partial",
   "theorems": [
    "Verif.Rings.C114_is_symmetric_partial",
    "Verif.Rings.C114_zero_terms_wrong"
   ],
   "note": "Proved for distinct variables and polynomials without zero terms; with a zero term in another variable it returns false (C114_zero_terms_wrong)."
  },
  {
   "property": "C115",
   "status": "proved",
   "theorems": [
    "Verif.Rings.C115_elementary_symmetric",
    "Verif.Rings.C115_properties"
   ],
   "note": "For all lists of variables; symmetry for distinct ones."
  },
  {
   "property": "C116",
   "status": "partial",
   "theorems": [
    "Verif.Rings.C116_unchecked",
    "Verif.Rings.C116_express_partial",
    "Verif.Rings.C116_hash_order",
    "Verif.Rings.C116_repeated_variables_wrong",
    "Verif.Rings.C116_example"
   ],
   "note": "Proved for distinct variables and polynomials without zero terms, including termination, no panic and uniqueness; repeated variables panic (C116_repeated_variables_wrong)."
  },
  {
   "property": "C117",
   "status": "proved",
   "theorems": [
    "Verif.Geometry.C117_new",
    "Verif.Geometry.C117_construct",
    "Verif.Geometry.C117_arithmetic",
    "Verif.Geometry.C117_spaces",
    "Verif.Geometry.C117_compare",
    "Verif.Geometry.C117_to_matrix",
    "Verif.Geometry.C117_from_matrix",
    "Verif.Geometry.C117_from_row"
   ],
   "note": "Full, over any ordered field."
  },
  {
   "property": "C118",
   "status": "proved",
   "theorems": [
    "Verif.Geometry.C118_determinant",
    "Verif.Geometry.C118_rank",
    "Verif.Geometry.C118_affine_independent",
    "Verif.Geometry.C118_spaces"
   ],
   "note": "Full."
  },
  {
   "property": "C119",
   "status": "proved",
   "theorems": [
    "Verif.Geometry.C119_new",
    "Verif.Geometry.C119_equal",
    "Verif.Geometry.C119_skeleton",
    "Verif.Geometry.C119_facets",
    "Verif.Geometry.C119_facet",
    "Verif.Geometry.C119_sub_simplices"
   ],
   "note": "Full. itertools' combinations and powerset are modelled by their documented order."
  },
  {
   "property": "C120",
   "status": "proved",
   "theorems": [
    "Verif.Geometry.C120_new",
    "Verif.Geometry.C120_classify",
    "Verif.Geometry.C120_flip",
    "Verif.Geometry.C120_new_negative",
    "Verif.Geometry.C120_oriented_facets",
    "Verif.Geometry.C120_oriented_facets_dim"
   ],
   "note": "Full; in a space of dimension 0 there is no orientation and every point is neutral."
  },
  {
   "property": "C121",
   "status": "proved",
   "theorems": [
    "Verif.Geometry.C121_intersect_line"
   ],
   "note": "Full."
  },
  {
   "property": "C122",
   "status": "proved",
   "theorems": [
    "Verif.Geometry.C122_affine_span",
    "Verif.Geometry.C122_embed",
    "Verif.Geometry.C122_unembed",
    "Verif.Geometry.C122_extend",
    "Verif.Geometry.C122_extend_panics"
   ],
   "note": "Full. compose_affine_embeddings is todo!() in the code and not modelled."
  },
  {
   "property": "C123",
   "status": "proved",
   "theorems": [
    "Verif.Geometry.C123_affine_span_dependent"
   ],
   "note": "Full."
  },
  {
   "property": "C124",
   "status": "proved",
   "theorems": [
    "Verif.Geometry.C124_hyperplanes",
    "Verif.Geometry.C124_classify",
    "Verif.Geometry.C124_empty"
   ],
   "note": "Full."
  },
  {
   "property": "C125",
   "status": "partial",
   "theorems": [
    "Verif.Geometry.C125_origin_partial",
    "Verif.Geometry.C125_origin_wrong"
   ],
   "note": "The non-empty case is proved; the empty case is refuted: origin panics there instead of returning None."
  },
  {
   "property": "C126",
   "status": "proved",
   "theorems": [
    "Verif.Geometry.C126_new",
    "Verif.Geometry.C126_from_simplex",
    "Verif.Geometry.C126_extend",
    "Verif.Geometry.C126_half",
    "Verif.Geometry.C126_intersect"
   ],
   "note": "Histories are the inductive predicate Built of Spec/ConvexHull.lean; hash iteration orders are a fair oracle."
  },
  {
   "property": "C127",
   "status": "proved",
   "theorems": [
    "Verif.Geometry.C127_interior",
    "Verif.Geometry.C127_new"
   ],
   "note": "The triangulation is proper: simplices meet in common faces."
  },
  {
   "property": "C128",
   "status": "proved",
   "theorems": [
    "Verif.Geometry.C128_facets"
   ],
   "note": "The relative boundary is defined without topology in Spec/Convex.lean."
  },
  {
   "property": "C129",
   "status": "proved",
   "theorems": [
    "Verif.Geometry.C129_dimension",
    "Verif.Geometry.C129_is_empty"
   ],
   "note": ""
  },
  {
   "property": "C130",
   "status": "proved",
   "theorems": [
    "Verif.Geometry.C130_defining",
    "Verif.Geometry.C130_new"
   ],
   "note": "The defining points need not be extreme points; the code does not promise that."
  },
  {
   "property": "C131",
   "status": "proved",
   "theorems": [
    "Verif.Geometry.C131_half",
    "Verif.Geometry.C131_intersect",
    "Verif.Geometry.C131_spaces"
   ],
   "note": ""
  },
  {
   "property": "C132",
   "status": "proved",
   "theorems": [
    "Verif.Geometry.C132_wireframe",
    "Verif.Geometry.C132_section"
   ],
   "note": ""
  },
  {
   "property": "C133",
   "status": "proved",
   "theorems": [
    "Verif.Geometry.C133_new_labelled",
    "Verif.Geometry.C133_accepts"
   ],
   "note": "as the code: new_labelled checks null simplices and faces, it does not check that simplices meet in common faces"
  },
  {
   "property": "C134",
   "status": "proved",
   "theorems": [
    "Verif.Geometry.C134_as_complex"
   ],
   "note": "for every history `Built` and every fair oracle"
  },
  {
   "property": "C135",
   "status": "proved",
   "theorems": [
    "Verif.Geometry.C135_venn"
   ],
   "note": "for every fair oracle, simplices of the same space of dimension at least one"
  },
  {
   "property": "C136",
   "status": "proved",
   "theorems": [
    "Verif.Geometry.C136_subtract",
    "Verif.Geometry.C136_intersection",
    "Verif.Geometry.C136_union"
   ],
   "note": "for every fair oracle; the raw operations only (the refined operations on complexes are not modelled)"
  },
  {
   "property": "C137",
   "status": "proved",
   "theorems": [
    "Verif.Geometry.C137_closure"
   ],
   "note": "for every fair oracle"
  },
  {
   "property": "C138",
   "status": "partial",
   "theorems": [
    "Verif.RealRoots.C138_isolates_partial",
    "Verif.RealRoots.C138_domain",
    "Verif.RealRoots.C138_wrong"
   ],
   "note": "Full for both-sided ranges; C138_wrong shows that a one-sided range beyond the bound on the roots panics and C138_domain says exactly when it returns"
  },
  {
   "property": "C139",
   "status": "proved",
   "theorems": [
    "Verif.RealRoots.C139_all_roots"
   ],
   "note": ""
  },
  {
   "property": "C140",
   "status": "proved",
   "theorems": [
    "Verif.RealRoots.C140_refine",
    "Verif.RealRoots.C140_refine_all",
    "Verif.RealRoots.C140_converges"
   ],
   "note": "simplest_rational_in_open_interval of malachite is an oracle assumed to return a number inside the interval"
  },
  {
   "property": "C141",
   "status": "proved",
   "theorems": [
    "Verif.RealRoots.C141_cmp",
    "Verif.RealRoots.C141_eq",
    "Verif.RealRoots.C141_cmp_mut"
   ],
   "note": "refinement points are chosen by an oracle"
  },
  {
   "property": "C142",
   "status": "proved",
   "theorems": [
    "Verif.RealRoots.C142_neg"
   ],
   "note": ""
  },
  {
   "property": "C143",
   "status": "proved",
   "theorems": [
    "Verif.RealRoots.C143_inv"
   ],
   "note": "factorization of the reversed polynomial is a correct oracle (FacOk)"
  },
  {
   "property": "C144",
   "status": "proved",
   "theorems": [
    "Verif.RealRoots.C144_add",
    "Verif.RealRoots.C144_add_rat"
   ],
   "note": "The polynomial of the sums is the model of root_sum_poly (C153); the simplest rational of an interval (malachite) and factoring of integer polynomials are parameters with a specification (SimplestOk, FacOk), shown to be satisfiable."
  },
  {
   "property": "C145",
   "status": "partial",
   "theorems": [
    "Verif.RealRoots.C145_mul_partial",
    "Verif.RealRoots.C145_mul_wrong"
   ],
   "note": "Proved with the model of root_product_poly when one factor is rational or the signs can be read off the tight bounds; C145_mul_wrong: the code multiplies the intervals wrongly when a tight bound is negative and the number positive."
  },
  {
   "property": "C146",
   "status": "partial",
   "theorems": [
    "Verif.RealRoots.C146_div_partial"
   ],
   "note": "As C145, for the quotient."
  },
  {
   "property": "C147",
   "status": "proved",
   "theorems": [
    "Verif.RealRoots.C147_refine",
    "Verif.RealRoots.C147_refine_to_accuracy"
   ],
   "note": ""
  },
  {
   "property": "C148",
   "status": "proved",
   "theorems": [
    "Verif.RealRoots.C148_check"
   ],
   "note": ""
  },
  {
   "property": "C149",
   "status": "proved",
   "theorems": [
    "Verif.RealRoots.C149_all_real_roots",
    "Verif.RealRoots.C149_get_real_root"
   ],
   "note": ""
  },
  {
   "property": "C150",
   "status": "partial",
   "theorems": [
    "Verif.RealRoots.C150_real_roots_partial",
    "Verif.RealRoots.C150_range_wrong"
   ],
   "note": "values and ranges right, wide bounds wrong: C150_range_wrong shows two different roots that compare as equal"
  },
  {
   "property": "C151",
   "status": "proved",
   "theorems": [
    "Verif.RealRoots.C151_nth_root",
    "Verif.RealRoots.C151_zeroth"
   ],
   "note": ""
  },
  {
   "property": "C152",
   "status": "proved",
   "theorems": [
    "Verif.RealRoots.C152_identify"
   ],
   "note": ""
  },
  {
   "property": "C153",
   "status": "proved",
   "theorems": [
    "Verif.RealRoots.C153_root_sum_poly",
    "Verif.RealRoots.C153_root_product_poly"
   ],
   "note": "Complete for all pairs of nonzero polynomials; the two fresh variables are any two different variables."
  },
  {
   "property": "C154",
   "status": "proved",
   "theorems": [
    "Verif.Padic.C154_valuation",
    "Verif.Padic.C154_norm",
    "Verif.Padic.C154_order",
    "Verif.Padic.C154_add"
   ],
   "note": ""
  },
  {
   "property": "C155",
   "status": "proved",
   "theorems": [
    "Verif.Padic.C155_truncate",
    "Verif.Padic.C155_truncate_eq"
   ],
   "note": ""
  },
  {
   "property": "C156",
   "status": "proved",
   "theorems": [
    "Verif.Padic.C156_isolate"
   ],
   "note": ""
  },
  {
   "property": "C157",
   "status": "partial",
   "theorems": [
    "Verif.Padic.C157_all_padic_roots_partial",
    "Verif.Padic.C157_nonprimitive_wrong"
   ],
   "note": "Proved for primitive polynomials; violated for all others (C157_nonprimitive_wrong)."
  },
  {
   "property": "C158",
   "status": "partial",
   "theorems": [
    "Verif.Padic.C158_refine_partial",
    "Verif.Padic.C158_integral",
    "Verif.Padic.C158_debug_wrong",
    "Verif.Padic.C158_digit_search"
   ],
   "note": "Proved without debug assertions and for numbers where the derivative is integral; the debug assertion is violated otherwise (C158_debug_wrong)."
  },
  {
   "property": "C159",
   "status": "proved",
   "theorems": [
    "Verif.Padic.C159_truncate"
   ],
   "note": ""
  },
  {
   "property": "C160",
   "status": "partial",
   "theorems": [
    "Verif.Padic.C160_equal_partial",
    "Verif.Padic.C160_neg_wrong"
   ],
   "note": "Proved for positive leading coefficients; violated for negatives of numbers of odd degree (C160_neg_wrong)."
  },
  {
   "property": "C161",
   "status": "proved",
   "theorems": [
    "Verif.Padic.C161_neg"
   ],
   "note": ""
  },
  {
   "property": "C162",
   "status": "proved",
   "theorems": [
    "Verif.Padic.C162_mul_rat"
   ],
   "note": ""
  },
  {
   "property": "C163",
   "status": "partial",
   "theorems": [
    "Verif.Padic.C163_add_rat_partial",
    "Verif.Padic.C163_refine_wrong",
    "Verif.Padic.C163_digits_wrong"
   ],
   "note": "The sum is isolated; violated for refinement: it can panic (C163_refine_wrong) and can silently give wrong digits (C163_digits_wrong)."
  },
  {
   "property": "C164",
   "status": "partial",
   "theorems": [
    "Verif.Padic.C164_add_partial",
    "Verif.Padic.C164_add_rat",
    "Verif.Padic.C164_add_mixed",
    "Verif.Padic.C164_add_wrong"
   ],
   "note": "proved for irrational sums whose ball has the precision of the operands, and for rational operands; rational sums of irrational numbers are lost (C164_add_wrong)"
  },
  {
   "property": "C165",
   "status": "partial",
   "theorems": [
    "Verif.Padic.C165_mul_partial",
    "Verif.Padic.C165_mul_rat",
    "Verif.Padic.C165_mul_wrong"
   ],
   "note": "proved for units with irrational product of suitable precision; rational products of irrational numbers are lost (C165_mul_wrong)"
  },
  {
   "property": "C166",
   "status": "partial",
   "theorems": [
    "Verif.Padic.C166_inv_partial",
    "Verif.Padic.C166_rat",
    "Verif.Padic.C166_div_rat",
    "Verif.Padic.C166_rat_div_partial"
   ],
   "note": "proved for rational numbers, quotient by rational numbers, and irrational units of suitable precision"
  },
  {
   "property": "C167",
   "status": "proved",
   "theorems": [
    "Verif.Props.NumberField.C167_trace_form",
    "Verif.Props.NumberField.C167_discriminant",
    "Verif.Props.NumberField.C167_wrong_length",
    "Verif.Props.NumberField.C167_discriminant_basis"
   ],
   "note": ""
  },
  {
   "property": "C168",
   "status": "partial",
   "theorems": [
    "Verif.Props.NumberField.C168_is_algebraic_integer",
    "Verif.Props.NumberField.C168_is_algebraic_integer_total_partial",
    "Verif.Props.NumberField.C168_integral_multiple",
    "Verif.Props.NumberField.C168_integral_multiple_total_partial"
   ],
   "note": "Every answer is proved right, for all number fields; that there is always an answer is proved for degree at most 2. For larger degrees it depends on minimal_polynomial not panicking, which happens for some matrices (C103)."
  },
  {
   "property": "C169",
   "status": "partial",
   "theorems": [
    "Verif.Props.NumberField.C169_integral_basis",
    "Verif.Props.NumberField.C169_quadratic_partial",
    "Verif.Props.NumberField.C169_large_prime_wrong"
   ],
   "note": "Every returned list is proved to be an integral basis, for all number fields and all sound primality tests; for quadratic fields of discriminant below 10001^2 it is proved to be returned. False in general: C169_large_prime_wrong (panic when the discriminant has a prime factor above 2^64, even if its square does not divide it)."
  },
  {
   "property": "C170",
   "status": "proved",
   "theorems": [
    "Verif.Golay.C170_from_points",
    "Verif.Golay.C170_observers",
    "Verif.Golay.C170_operations",
    "Verif.Golay.C170_into",
    "Verif.Golay.C170_from"
   ],
   "note": ""
  },
  {
   "property": "C171",
   "status": "proved",
   "theorems": [
    "Verif.Golay.C171_from_row_basis_matrix",
    "Verif.Golay.C171_golay",
    "Verif.Golay.C171_from_col_basis_matrix"
   ],
   "note": ""
  },
  {
   "property": "C172",
   "status": "proved",
   "theorems": [
    "Verif.Golay.C172_complete_octad"
   ],
   "note": ""
  },
  {
   "property": "C173",
   "status": "proved",
   "theorems": [
    "Verif.Golay.C173_complete_sextet"
   ],
   "note": ""
  },
  {
   "property": "C174",
   "status": "proved",
   "theorems": [
    "Verif.Golay.C174_orderings"
   ],
   "note": ""
  },
  {
   "property": "C175",
   "status": "proved",
   "theorems": [
    "Verif.Golay.C175_built_in"
   ],
   "note": ""
  },
  {
   "property": "C176",
   "status": "proved",
   "theorems": [
    "Verif.Golay.C176_modular_permutation"
   ],
   "note": ""
  },
  {
   "property": "C177",
   "status": "proved",
   "theorems": [
    "Verif.Golay.C177_preconditions",
    "Verif.Golay.C177_complete_labelling"
   ],
   "note": ""
  },
  {
   "property": "C178",
   "status": "proved",
   "theorems": [
    "Verif.Golay.C178_mog_isomorphism",
    "Verif.Golay.C178_pipeline"
   ],
   "note": ""
  },
  {
   "property": "C179",
   "status": "proved",
   "theorems": [
    "Verif.Props.Aks.C179_composite"
   ],
   "note": "for every inner primality test and both build modes"
  },
  {
   "property": "C180",
   "status": "proved",
   "theorems": [
    "Verif.Props.Aks.C180_exact",
    "Verif.Props.Aks.C180_tests"
   ],
   "note": "Bernstein's criterion with the code's rounding: r - 1 = 3M^2 + 1 is covered by a counting argument, r = 3 (only for n < 2^20) by a kernel-checked exhaustive verification of all n = 5 mod 6 below 2^20"
  },
  {
   "property": "C181",
   "status": "proved",
   "theorems": [
    "Verif.Props.Aks.C181_mul",
    "Verif.Props.Aks.C181_pow",
    "Verif.Props.Aks.C181_injective"
   ],
   "note": ""
  },
  {
   "property": "C182",
   "status": "partial",
   "theorems": [
    "Verif.Props.Aks.C182_returns_partial",
    "Verif.Props.Aks.C182_debug_wrong"
   ],
   "note": "release builds always return; debug builds return the same answer or fail the assertion that s is least; C182_debug_wrong: aks_primality_test(112) panics in debug builds because the shrink loop breaks on equality without subtracting"
  },
  {
   "property": "C183",
   "status": "partial",
   "theorems": [
    "Verif.Anf.C183_reduced_ring_partial",
    "Verif.Anf.C183_leading_coeff_wrong",
    "Verif.Anf.C183_row_round_trip"
   ],
   "note": "Proved for every irreducible modulus and every random choice: a returned result has distinct monic irreducible factors and multiplies to p up to a constant; over a field of degree at least two it is exactly p divided by its leading coefficient. C183_leading_coeff_wrong: for a polynomial that is not monic the result is therefore never equal to it (factor itself only passes monic polynomials). Termination of the random search is not proved."
  },
  {
   "property": "C184",
   "status": "partial",
   "theorems": [
    "Verif.Anf.C184_factor_partial",
    "Verif.Anf.C184_degree_one_returns",
    "Verif.Anf.C184_rat_factor_ok"
   ],
   "note": "Proved: on return, None iff zero, otherwise a factorization into distinct monic irreducibles equal to the input up to a non-zero constant (C184_factor_partial); return for number fields of degree one (C184_degree_one_returns); the rational factoring used meets the assumptions (C184_rat_factor_ok). Missing: that the search for a generator ends for fields of degree at least two, and that the constant is one (C183_leading_coeff_wrong shows it is lost in the squarefree step)."
  },
  {
   "property": "C185",
   "status": "proved",
   "theorems": [
    "Verif.Rings.C185_linear_system",
    "Verif.Rings.C185_agrees_with_lagrange",
    "Verif.Rings.C185_field"
   ],
   "note": "Proved in full, over every Bezout domain."
  },
  {
   "property": "C186",
   "status": "partial",
   "theorems": [
    "Verif.Anf.C186_as_poly_expr_partial",
    "Verif.Anf.C186_no_assertion_fails",
    "Verif.Anf.C186_rational_generator_returns"
   ],
   "note": "Soundness and completeness of every answer, and no assertion fails; that it returns is proved for rational generators. Missing: that the search for a generator in the factoring ends. The complex algebraic numbers are abstract operations with right results."
  },
  {
   "property": "C187",
   "status": "partial",
   "theorems": [
    "Verif.Anf.C187_pair_partial",
    "Verif.Anf.C187_multi_partial",
    "Verif.Anf.C187_returns_when_as_poly_expr_does"
   ],
   "note": "Correctness of every answer, and both functions return whenever as_poly_expr and the arithmetic do (the search reaches a right combination). Missing: that as_poly_expr returns for irrational generators. The complex algebraic numbers are abstract operations with right results."
  },
  {
   "property": "C188",
   "status": "partial",
   "theorems": [
    "Verif.Anf.C188_rational_first_partial",
    "Verif.Anf.C188_exponents_wrong"
   ],
   "note": "Violated for polynomials with rational coefficients and a repeated factor (C188_exponents_wrong): the exponents of the rational factors are dropped. Right for squarefree polynomials."
  },
  {
   "property": "C189",
   "status": "partial",
   "theorems": [
    "Verif.Rings.C189_same_shape_partial",
    "Verif.Rings.C189_other_shape_wrong",
    "Verif.Rings.C189_other_size_panics_wrong"
   ],
   "note": "Violated for lattices of matrices of different shapes: true when the numbers of entries agree and the rows coincide (C189_other_shape_wrong), a panic when they do not (C189_other_size_panics_wrong). Decided rightly for the same shape."
  },
  {
   "property": "C190",
   "status": "proved",
   "theorems": [
    "Verif.Rings.C190_generalized_col_eigenspace",
    "Verif.Rings.C190_generalized_row_eigenspace",
    "Verif.Rings.C190_eigenspaces",
    "Verif.Rings.C190_not_square_panics"
   ],
   "note": "For every square matrix of every size over a field included in another field; the required methods of the closure play no part. The matrices that are not square panic."
  },
  {
   "property": "C191",
   "status": "partial",
   "theorems": [
    "Verif.Rings.C191_roots_unique",
    "Verif.Rings.C191_roots_powers",
    "Verif.Rings.C191_roots_powers_zero",
    "Verif.Rings.C191_roots_unique_zero_wrong",
    "Verif.Rings.C191_eigenvalues_partial",
    "Verif.Rings.C191_eigenvalues_small_returns",
    "Verif.Rings.C191_eigenvalues_wrong_empty"
   ],
   "note": "The unique and power versions for every nonzero polynomial are proved, given correct factoring and correct all_roots_list; violated for the zero polynomial: all_roots_unique panics instead of returning None (C191_roots_unique_zero_wrong). Eigenvalues are proved for the runs in which characteristic_polynomial returns, which it does for sizes 1 and 2 (C102); for the empty matrix all three panic (C191_eigenvalues_wrong_empty)."
  },
  {
   "property": "C192",
   "status": "partial",
   "theorems": [
    "Verif.Rings.C192_blocks_are_chains_partial",
    "Verif.Rings.C192_wrong"
   ],
   "note": "Violated: for the rational matrix [[0,1,0,0],[0,0,0,1],[0,0,0,1],[0,0,0,0]], whose blocks have sizes 3 and 1, blocks of sizes 3 and 2 are built, five vectors in dimension four (C192_wrong). Proved for every matrix on which the construction does not panic: inside every block the matrix maps every vector to the one before it. Missing: the first vector is mapped to zero; no panics. Modelled: the part of jordan_algorithm for one generalized eigenspace."
  }
 ]
}