{
 "claims": [
  {
   "property": "C01",
   "status": "proved",
   "theorems": [
    "TClifford.C01_blade_geo_product_sign",
    "TClifford.C01_blade_wedge_product_sign"
   ],
   "note": ""
  },
  {
   "property": "C02",
   "status": "proved",
   "theorems": [
    "TClifford.C02_table_eq_loop",
    "TClifford.C02_path_independent"
   ],
   "note": ""
  },
  {
   "property": "C03",
   "status": "proved",
   "theorems": [
    "TClifford.C03_mul",
    "TClifford.C03_injective",
    "TClifford.C03_surjective",
    "TClifford.C03_linear",
    "TClifford.storages_lawful"
   ],
   "note": ""
  },
  {
   "property": "C04",
   "status": "proved",
   "theorems": [
    "TClifford.C04_mul_assoc",
    "TClifford.storages_lawful"
   ],
   "note": ""
  },
  {
   "property": "C05",
   "status": "proved",
   "theorems": [
    "TClifford.C05_add_mul",
    "TClifford.C05_mul_add",
    "TClifford.C05_one_mul",
    "TClifford.C05_mul_one",
    "TClifford.C05_zero_mul",
    "TClifford.C05_mul_smul",
    "TClifford.C05_smul_mul",
    "TClifford.C05_neg_mul",
    "TClifford.storages_lawful"
   ],
   "note": ""
  },
  {
   "property": "C06",
   "status": "proved",
   "theorems": [
    "TClifford.C06_generators",
    "TClifford.storages_lawful"
   ],
   "note": ""
  },
  {
   "property": "C07",
   "status": "proved",
   "theorems": [
    "TClifford.C07_exterior_mul",
    "TClifford.C07_exterior_bijective",
    "TClifford.C07_wedge",
    "TClifford.storages_lawful",
    "TClifford.wedges_lawful"
   ],
   "note": ""
  },
  {
   "property": "C08",
   "status": "proved",
   "theorems": [
    "TClifford.C08_wedge_impl",
    "TClifford.C08_dest_irrelevant"
   ],
   "note": ""
  },
  {
   "property": "C09",
   "status": "proved",
   "theorems": [
    "TClifford.C09_wedge_assoc",
    "TClifford.C09_wedge_add",
    "TClifford.C09_wedge_grade",
    "TClifford.C09_graded_comm",
    "TClifford.C09_vectors_anticomm",
    "TClifford.C09_vector_self",
    "TClifford.storages_lawful",
    "TClifford.wedges_lawful"
   ],
   "note": ""
  },
  {
   "property": "C10",
   "status": "proved",
   "theorems": [
    "TClifford.C10_rounded_false",
    "TClifford.C10_meet",
    "TClifford.C10_meet_dual",
    "TClifford.storages_lawful",
    "TClifford.wedges_lawful"
   ],
   "note": ""
  },
  {
   "property": "C11",
   "status": "proved",
   "theorems": [
    "TClifford.C11_rounded",
    "TClifford.C11_dual_undual",
    "TClifford.C11_undual_dual",
    "TClifford.storages_lawful"
   ],
   "note": ""
  },
  {
   "property": "C12",
   "status": "proved",
   "theorems": [
    "TClifford.C12_hodge",
    "TClifford.C12_blades",
    "TClifford.storages_lawful",
    "TClifford.wedges_lawful"
   ],
   "note": ""
  },
  {
   "property": "C13",
   "status": "proved",
   "theorems": [
    "TClifford.C13_rev_rev",
    "TClifford.C13_rev_coeff",
    "TClifford.C13_rev_add",
    "TClifford.C13_rev_generator",
    "TClifford.C13_rev_mul",
    "TClifford.C13_rev_wedge",
    "TClifford.C13_rev_word",
    "TClifford.C13_rounded_rev",
    "TClifford.C13_rounded_mul_false",
    "TClifford.storages_lawful",
    "TClifford.wedges_lawful"
   ],
   "note": ""
  },
  {
   "property": "C14",
   "status": "proved",
   "theorems": [
    "TClifford.C14_flip",
    "TClifford.C14_flip_wedge",
    "TClifford.C14_flip_generator",
    "TClifford.C14_flip_subspace",
    "TClifford.C14_flip_subspace_wedge",
    "TClifford.C14_flip_subspace_generator",
    "TClifford.C14_flip_eq_subspace",
    "TClifford.C14_rounded_subspace",
    "TClifford.C14_rounded_flip",
    "TClifford.C14_rounded_pow",
    "TClifford.C14_rounded_exp",
    "TClifford.storages_lawful",
    "TClifford.wedges_lawful"
   ],
   "note": ""
  },
  {
   "property": "C15",
   "status": "proved",
   "theorems": [
    "TClifford.C15_vdot",
    "TClifford.C15_mag2",
    "TClifford.C15_vsdot",
    "TClifford.C15_rounded",
    "TClifford.C15_rounded_mag2",
    "TClifford.C15_rounded_nonfinite_false",
    "TClifford.storages_lawful"
   ],
   "note": ""
  },
  {
   "property": "C16",
   "status": "proved",
   "theorems": [
    "TClifford.C16_revm",
    "TClifford.C16_revm_zero",
    "TClifford.C16_doc_claim_false",
    "TClifford.storages_lawful"
   ],
   "note": "The documentation's 'magnitude of s.revm() * s is one' is proved false; only the scalar part is one."
  },
  {
   "property": "C17",
   "status": "proved",
   "theorems": [
    "TClifford.C17_pow",
    "TClifford.C17_pow_add",
    "TClifford.storages_lawful"
   ],
   "note": ""
  },
  {
   "property": "C18",
   "status": "proved",
   "theorems": [
    "TClifford.C18_convert",
    "TClifford.C18_inverse",
    "TClifford.C18_operations",
    "TClifford.C18_queries",
    "TClifford.C18_constructors",
    "TClifford.C18_division",
    "TClifford.C18_exp"
   ],
   "note": ""
  },
  {
   "property": "C19",
   "status": "proved",
   "theorems": [
    "TClifford.C19_operations",
    "TClifford.C19_queries",
    "TClifford.C19_division",
    "TClifford.C19_exp"
   ],
   "note": ""
  },
  {
   "property": "C20",
   "status": "partial",
   "theorems": [
    "TClifford.C20_filter_inplace_keys",
    "TClifford.C20_invariant_partial",
    "TClifford.C20_coeff_count_partial",
    "TClifford.C20_filter_inplace_mut_false",
    "TClifford.C20_sdiv",
    "TClifford.C20_div"
   ],
   "note": "Proved for every history of constructors and operations; the code breaks it for filter_inplace with a closure that writes a zero through its &mut T: proved false there, see C20_filter_inplace_mut_false."
  },
  {
   "property": "C21",
   "status": "proved",
   "theorems": [
    "TClifford.C21_eq_iff",
    "TClifford.C21_equivalence",
    "TClifford.C21_is_zero",
    "TClifford.C21_sub_is_zero",
    "TClifford.storages_lawful"
   ],
   "note": ""
  },
  {
   "property": "C22",
   "status": "partial",
   "theorems": [
    "TClifford.C22_grade_iter_partial",
    "TClifford.C22_index_iter",
    "TClifford.C22_huge_grade_false"
   ],
   "note": "Proved for all grades below 2^63, in debug and release builds. The code breaks it beyond: self.weight as isize is negative there, and the first call of next() does not return (C22_huge_grade_false)."
  },
  {
   "property": "C23",
   "status": "partial",
   "theorems": [
    "TClifford.C23_coeff_partial",
    "TClifford.C23_projection_partial",
    "TClifford.C23_partition",
    "TClifford.C23_above_partial",
    "TClifford.C23_sparse_truncation",
    "TClifford.C23_dense_above",
    "TClifford.C23_grade_2_32_false",
    "TClifford.storages_lawful"
   ],
   "note": "Proved for k < 2^32; the code breaks it beyond: sparse extraction uses k mod 2^32 (C23_sparse_truncation, C23_grade_2_32_false), dense extraction is empty up to 2^63 (C23_dense_above) and does not return from there on (C22_huge_grade_false)."
  },
  {
   "property": "C24",
   "status": "proved",
   "theorems": [
    "TClifford.C24_ok_iff",
    "TClifford.C24_prefix",
    "TClifford.C24_extract",
    "TClifford.C24_coeff",
    "TClifford.storages_lawful"
   ],
   "note": ""
  },
  {
   "property": "C25",
   "status": "proved",
   "theorems": [
    "TClifford.C25_err_iff",
    "TClifford.C25_last_write",
    "TClifford.C25_unwrap",
    "TClifford.C25_unwrap_filter",
    "TClifford.C25_unwrap_grades",
    "TClifford.C25_unwrap_original",
    "TClifford.C25_unwrap_complex",
    "TClifford.storages_lawful"
   ],
   "note": ""
  },
  {
   "property": "C26",
   "status": "partial",
   "theorems": [
    "TClifford.C26_get_set",
    "TClifford.C26_set_oob",
    "TClifford.C26_get_total",
    "TClifford.C26_get_oob_sparse",
    "TClifford.C26_get_oob_quaternion",
    "TClifford.C26_get_oob_dense_partial",
    "TClifford.C26_get_oob_dense_false",
    "TClifford.storages_lawful"
   ],
   "note": "Everything proved except out-of-range reads of dense storage at index exactly 2^dim, where the code panics: C26_get_oob_dense_false."
  },
  {
   "property": "C27",
   "status": "proved",
   "theorems": [
    "TClifford.C27_iclifft_clifft",
    "TClifford.C27_iclifft_clifft_even",
    "TClifford.C27_clifft_iclifft",
    "TClifford.C27_clifft_into",
    "TClifford.C27_iclifft_into",
    "TClifford.C27_nn_inverse"
   ],
   "note": ""
  },
  {
   "property": "C28",
   "status": "proved",
   "theorems": [
    "TClifford.C28_clifft_ok_iff",
    "TClifford.C28_clifft_err",
    "TClifford.C28_clifft_shape",
    "TClifford.C28_clifft_nn",
    "TClifford.C28_iclifft",
    "TClifford.C28_flip_reversal"
   ],
   "note": ""
  },
  {
   "property": "C29",
   "status": "proved",
   "theorems": [
    "TClifford.C29_mul",
    "TClifford.C29_add_sub",
    "TClifford.C29_smul",
    "TClifford.C29_one",
    "TClifford.C29_injective"
   ],
   "note": ""
  },
  {
   "property": "C30",
   "status": "proved",
   "theorems": [
    "TClifford.C30_ifft_fft"
   ],
   "note": ""
  },
  {
   "property": "C31",
   "status": "proved",
   "theorems": [
    "TClifford.C31_fft_mul_ifft",
    "TClifford.C31_fft_mul",
    "TClifford.C31_array_ring"
   ],
   "note": ""
  },
  {
   "property": "C32",
   "status": "proved",
   "theorems": [
    "TClifford.C32_fft_add",
    "TClifford.C32_fft_sub",
    "TClifford.C32_fft_neg",
    "TClifford.C32_fft_smul",
    "TClifford.C32_fft_zero_one",
    "TClifford.C32_fft_eq"
   ],
   "note": ""
  },
  {
   "property": "C33",
   "status": "proved",
   "theorems": [
    "TClifford.C33_fft_rev",
    "TClifford.C33_fft_flip",
    "TClifford.C33_rounded_array_rev",
    "TClifford.C33_rounded_array_rev_false",
    "TClifford.C33_array_rev",
    "TClifford.C33_rounded_fft_rev",
    "TClifford.C33_rounded_fft_flip",
    "TClifford.C33_rounded_ifft_rev",
    "TClifford.C33_rounded_ifft_flip",
    "TClifford.C33_rounded_transpose",
    "TClifford.C33_rounded_flip_ops",
    "TClifford.C33_rounded_involutions",
    "TClifford.C33_rounded_flip_exp"
   ],
   "note": ""
  },
  {
   "property": "C34",
   "status": "proved",
   "theorems": [
    "TClifford.C34_ntrace",
    "TClifford.C34_trace",
    "TClifford.C34_mag2"
   ],
   "note": ""
  },
  {
   "property": "C35",
   "status": "proved",
   "theorems": [
    "TClifford.C35_fft_pow",
    "TClifford.C35_fft_pow_ifft"
   ],
   "note": ""
  },
  {
   "property": "C36",
   "status": "proved",
   "theorems": [
    "TClifford.C36_inv",
    "TClifford.C36_fft_inv",
    "TClifford.C36_singular",
    "TClifford.C36_matrix_inv",
    "TClifford.C36_matrix_inv_unique"
   ],
   "note": ""
  },
  {
   "property": "C37",
   "status": "partial",
   "theorems": [
    "TClifford.C37_inv_complete_partial",
    "TClifford.C37_inv_dominant_partial",
    "TClifford.C37_inv_misses_vector",
    "TClifford.C37_inv_generic_partial",
    "TClifford.C37_inv_dense_partial",
    "TClifford.C37_inv_weakly_dominant_partial",
    "TClifford.C37_one_plus_blade_partial"
   ],
   "note": "Proved for algebras with at most 2 generators and, in every dimension, for multivectors whose scalar part is larger in norm than the sum of the norms of all other coefficients (C37_inv_dominant_partial), or equal to it if they have an inverse (C37_inv_weakly_dominant_partial), for instance 1 + b for a basis blade b (C37_one_plus_blade_partial); and for all multivectors outside the zero set of a non-zero polynomial in the coefficients, so for a dense set (C37_inv_generic_partial, C37_inv_dense_partial). The code breaks it beyond: matrix_inv returns None whenever a diagonal entry below the current pivot is zero after elimination, although a later row swap would repair it, so in every non-degenerate algebra of dimension >= 3 even the first basis vector's fft().inv() is None (C37_inv_misses_vector)."
  },
  {
   "property": "C38",
   "status": "proved",
   "theorems": [
    "TClifford.C38_parity_flip",
    "TClifford.C38_imaginary_flip",
    "TClifford.C38_reversal",
    "TClifford.C38_multivector"
   ],
   "note": ""
  },
  {
   "property": "C39",
   "status": "proved",
   "theorems": [
    "TClifford.C39_half_spin_mul",
    "TClifford.C39_half_spin_one",
    "TClifford.C39_half_spin_even_part",
    "TClifford.C39_half_spin_pow"
   ],
   "note": ""
  },
  {
   "property": "C40",
   "status": "proved",
   "theorems": [
    "TClifford.C40_from_array3",
    "TClifford.C40_fft_shape",
    "TClifford.C40_from_array2",
    "TClifford.C40_fft_ifft",
    "TClifford.C40_odd_false",
    "TClifford.C40_from_array3_any",
    "TClifford.C40_shape",
    "TClifford.C40_doc_shape_false",
    "TClifford.C40_unwrap",
    "TClifford.C40_unwrap_fft"
   ],
   "note": ""
  },
  {
   "property": "C41",
   "status": "proved",
   "theorems": [
    "TClifford.C41_rounded",
    "TClifford.C41_rounded_back",
    "TClifford.C41_decomplexify_complexify",
    "TClifford.C41_complexify_decomplexify",
    "TClifford.C41_complexify_mul",
    "TClifford.C41_complexification_signature",
    "TClifford.storages_lawful"
   ],
   "note": ""
  },
  {
   "property": "C42",
   "status": "proved",
   "theorems": [
    "TClifford.C42_accepts_iff",
    "TClifford.C42_declared",
    "TClifford.C42_nonDegenerate_iff",
    "TClifford.C42_split_iff",
    "TClifford.C42_pga_iff",
    "TClifford.C42_division_iff"
   ],
   "note": ""
  },
  {
   "property": "C43",
   "status": "partial",
   "theorems": [
    "TClifford.C43_usable_partial",
    "TClifford.C43_not_usable_64"
   ],
   "note": "True for at most 63 generators; the code breaks it for 64 generators (1 << 64): proved false there, see C43_not_usable_64."
  },
  {
   "property": "C44",
   "status": "proved",
   "theorems": [
    "TClifford.C44_norm",
    "TClifford.C44_div",
    "TClifford.C44_div_ordered",
    "TClifford.C44_div_by_zero",
    "TClifford.C44_div_by_zero_quaternion",
    "TClifford.storages_lawful"
   ],
   "note": "Division by zero: dense and sparse storage return the zero multivector because the zero coefficients are never divided (C44_div_by_zero); quaternion storage divides zero by zero, which is NaN in the code and an error in the model (C44_div_by_zero_quaternion)."
  },
  {
   "property": "C45",
   "status": "partial",
   "theorems": [
    "TClifford.C45_float_norm",
    "TClifford.C45_float_norm_mul",
    "TClifford.C45_float_exact",
    "TClifford.C45_float_false",
    "TClifford.C45_algebra",
    "TClifford.C45_hamilton_algebra",
    "TClifford.C45_hamilton",
    "TClifford.C45_conj",
    "TClifford.C45_storage",
    "TClifford.C45_norm_mul_partial",
    "TClifford.C45_norm_real",
    "TClifford.C45_norm_complex_false",
    "TClifford.C45_dimension"
   ],
   "note": "Everything proved except multiplicativity of the norm for complex coefficients, which the code breaks (zero divisors with non-zero norm), see C45_norm_complex_false. For real coefficients it is proved (C45_norm_real)."
  },
  {
   "property": "C46",
   "status": "partial",
   "theorems": [
    "TClifford.C46_roundtrip_partial",
    "TClifford.C46_origin_false",
    "TClifford.C46_unscaled",
    "TClifford.C46_length",
    "TClifford.storages_lawful"
   ],
   "note": "Proved for every point except the origin; the code breaks it there: pga_point of the origin divides by its length zero (C46_origin_false). Without that scaling every point including the origin is recovered (C46_unscaled)."
  },
  {
   "property": "C47",
   "status": "partial",
   "theorems": [
    "TClifford.C47_translate_partial",
    "TClifford.C47_compose",
    "TClifford.C47_unitary",
    "TClifford.C47_bivector",
    "TClifford.C47_exp_partial",
    "TClifford.C47_exp_false",
    "TClifford.C47_hyperplane",
    "TClifford.storages_lawful"
   ],
   "note": "Everything proved (also composition, inverse, bivector form, exp, hyperplanes) except moving pga_point of the origin, which does not exist (C46_origin_false); the unscaled origin is included in C47_translate_partial. The exponential of the bivector is proved for directions with |v_k|/2 <= 2^64 - 1 and false beyond, where the exponent of exp saturates (C47_exp_partial, C47_exp_false)."
  },
  {
   "property": "C48",
   "status": "partial",
   "theorems": [
    "TClifford.C48_hyperplane_partial",
    "TClifford.C48_hyperplane_value",
    "TClifford.C48_origin_false",
    "TClifford.C48_line_partial",
    "TClifford.C48_meet_incident_partial",
    "TClifford.storages_lawful",
    "TClifford.wedges_lawful"
   ],
   "note": "Proved for every hyperplane with a non-zero coefficient and every point, including the unscaled origin; pga_point of the origin is not finite (C48_origin_false)."
  },
  {
   "property": "C49",
   "status": "partial",
   "theorems": [
    "TClifford.C49_ok_iff_partial",
    "TClifford.C49_extra_entry_false",
    "TClifford.C49_short",
    "TClifford.storages_lawful"
   ],
   "note": "The code accepts one entry too many: Ok iff at most d+1 entries (C49_ok_iff_partial); the extra entry goes to the null basis vector (C49_extra_entry_false)."
  },
  {
   "property": "C50",
   "status": "partial",
   "theorems": [
    "TClifford.C50_complex_text_partial",
    "TClifford.C50_complex_text_injective_partial",
    "TClifford.C50_labels_distinct_partial",
    "TClifford.C50_text_partial",
    "TClifford.C50_declared_names",
    "TClifford.C50_default_names",
    "TClifford.C50_labels_collide_false",
    "TClifford.C50_nested_text_partial",
    "TClifford.C50_nested_partial",
    "TClifford.C50_nested_same_names_false",
    "TClifford.C50_float_text_partial",
    "TClifford.C50_float_text_injective_partial",
    "TClifford.storages_lawful"
   ],
   "note": "The text denotes the multivector in both forms (C50_text_partial), for coefficient texts without spaces or parentheses and axis names that are distinct, non-empty, without '^' or ' ' and not '+'; default names always qualify (C50_default_names). The claim on labels is false for distinct names alone: C50_labels_collide_false; C50_labels_distinct_partial has the conditions needed. For multivectors of multivectors, to any depth, the text denotes the value if no two of the algebras share an axis name and no name contains a parenthesis (C50_nested_partial); when the coefficient algebra shares an axis name with the outer one the text is always ambiguous (C50_nested_same_names_false). With f64 and f32 coefficients and the decimal texts of the standard library: C50_float_text_partial, C50_float_text_injective_partial; with Complex64 and Complex32 coefficients and the texts of num-complex: C50_complex_text_partial, C50_complex_text_injective_partial."
  },
  {
   "property": "C51",
   "status": "proved",
   "theorems": [
    "TClifford.C51_iff",
    "TClifford.C51_laws",
    "TClifford.C51_zero_precision_dense",
    "TClifford.C51_zero_precision_quaternion",
    "TClifford.storages_lawful"
   ],
   "note": ""
  },
  {
   "property": "C52",
   "status": "proved",
   "theorems": [
    "TClifford.C52_add_comm",
    "TClifford.C52_add_assoc",
    "TClifford.C52_zero_neg",
    "TClifford.C52_sub_eq",
    "TClifford.C52_smul",
    "TClifford.C52_coefficients",
    "TClifford.C52_div_smul",
    "TClifford.C52_div_zero",
    "TClifford.storages_lawful"
   ],
   "note": ""
  },
  {
   "property": "C53",
   "status": "partial",
   "theorems": [
    "TClifford.C53_iterations",
    "TClifford.C53_formula_partial",
    "TClifford.C53_square_zero_value",
    "TClifford.C53_square_zero_partial",
    "TClifford.C53_square_zero_false",
    "TClifford.C53_exp_zero",
    "TClifford.C53_commute",
    "TClifford.C53_rev",
    "TClifford.C53_fft_iterations",
    "TClifford.C53_fft_formula_partial",
    "TClifford.C53_fft_square_zero_value",
    "TClifford.C53_fft_square_zero_partial",
    "TClifford.C53_fft_exp_zero",
    "TClifford.C53_fft_commute",
    "TClifford.C53_fft_rev",
    "TClifford.C53_fft_square_zero_false",
    "TClifford.storages_lawful"
   ],
   "note": "Everything proved except square-zero elements with coefficients above 2^64 - 1, and the exponent of the formula there, which the code breaks: `max_c as usize` saturates at 2^64 - 1 while the division uses max_c itself, so exp returns 1 + a (2^64-1)/max_c instead of 1 + a (C53_square_zero_value, C53_square_zero_false)."
  },
  {
   "property": "C54",
   "status": "proved",
   "theorems": [
    "TClifford.C54_filter",
    "TClifford.C54_filter_inplace",
    "TClifford.C54_modify",
    "TClifford.C54_grades",
    "TClifford.C54_stateful",
    "TClifford.C54_count"
   ],
   "note": ""
  },
  {
   "property": "C55",
   "status": "proved",
   "theorems": [
    "TClifford.C55_real_fft_mul",
    "TClifford.C55_real_fft_eq_fft",
    "TClifford.C55_rounded",
    "TClifford.C55_rounded_error",
    "TClifford.C55_rounded_mul",
    "TClifford.C55_rounded_integers",
    "TClifford.C55_rounded_mul_false",
    "TClifford.C55_rounded_f32_false",
    "TClifford.C55_rounded_nonfinite_false"
   ],
   "note": ""
  },
  {
   "property": "C56",
   "status": "proved",
   "theorems": [
    "TClifford.C56_float_real",
    "TClifford.C56_float_cmag2",
    "TClifford.C56_float_revcm",
    "TClifford.C56_float_revcm_euclidean",
    "TClifford.C56_revc",
    "TClifford.C56_revc_coeff",
    "TClifford.C56_cmag2",
    "TClifford.C56_revcm",
    "TClifford.C56_euclidean",
    "TClifford.Ex.C56_doc_magnitude_false",
    "TClifford.Ex.C56_doc_claim_false",
    "TClifford.storages_lawful"
   ],
   "note": "Findings proved as counterexamples: revcm is not revc() / mag2() as its documentation says (C56_doc_claim_false), and the magnitude of revcm(a)*a is not one (C56_doc_magnitude_false)."
  },
  {
   "property": "C57",
   "status": "proved",
   "theorems": [
    "TClifford.Coeff.C57_operations",
    "TClifford.C57_depth",
    "TClifford.C57_embedding",
    "TClifford.storages_lawful"
   ],
   "note": ""
  },
  {
   "property": "C58",
   "status": "proved",
   "theorems": [
    "TClifford.C58_fft_sdiv",
    "TClifford.C58_sdiv_zero",
    "TClifford.C58_is_zero",
    "TClifford.C58_approx_eq",
    "TClifford.C58_basis"
   ],
   "note": ""
  },
  {
   "property": "C59",
   "status": "partial",
   "theorems": [
    "TClifford.C59_iclifft_into_long_partial",
    "TClifford.C59_iclifft_into_short",
    "TClifford.C59_iclifft_into_shape",
    "TClifford.C59_tail_untouched_false"
   ],
   "note": "Proved: the beginning of the buffer, and the shape error. The code breaks the rest: entries behind the result are multiplied by powers of -i (C59_iclifft_into_long_partial, C59_tail_untouched_false), and a buffer that is too short panics instead of being reported (C59_iclifft_into_short)."
  },
  {
   "property": "C60",
   "status": "proved",
   "theorems": [
    "TClifford.C60_even",
    "TClifford.C60_into_original",
    "TClifford.C60_into_original_mul",
    "TClifford.storages_lawful"
   ],
   "note": ""
  },
  {
   "property": "C61",
   "status": "proved",
   "theorems": [
    "TClifford.C61_vector_wedge",
    "TClifford.C61_mul_grades",
    "TClifford.C61_top_is_wedge",
    "TClifford.C61_vectors",
    "TClifford.C61_parity",
    "TClifford.storages_lawful",
    "TClifford.wedges_lawful"
   ],
   "note": ""
  },
  {
   "property": "C62",
   "status": "proved",
   "theorems": [
    "TClifford.C62_versor",
    "TClifford.C62_reflection",
    "TClifford.C62_sandwich",
    "TClifford.C62_inverse",
    "TClifford.storages_lawful"
   ],
   "note": ""
  },
  {
   "property": "C63",
   "status": "partial",
   "theorems": [
    "TClifford.C63_basis_blades",
    "TClifford.C63_dual_is_product",
    "TClifford.C63_blades_partial",
    "TClifford.C63_other_metric_false",
    "TClifford.C63_vsdot",
    "TClifford.C63_hodge",
    "TClifford.C63_uniform_partial",
    "TClifford.C63_iff",
    "TClifford.storages_lawful",
    "TClifford.wedges_lawful"
   ],
   "note": "The documented claim is proved for basis blades in all metrics (C63_basis_blades) and for wedges of vectors in Euclidean algebras over ordered fields (C63_blades_partial). It is false for wedges of vectors in other metrics (C63_other_metric_false: e0+e1 in [+,-] and in [+,0]). C63_iff says exactly when it holds: b.dual()*b is a multiple of the pseudoscalar for all wedges of vectors if and only if all generators have the same square; C63_uniform_partial is the positive half. The wedge forms (C63_vsdot, C63_hodge) and the product form (C63_dual_is_product) are proved in full."
  },
  {
   "property": "C64",
   "status": "proved",
   "theorems": [
    "TClifford.C64_assoc",
    "TClifford.C64_unit",
    "TClifford.C64_add",
    "TClifford.C64_grade",
    "TClifford.C64_graded_comm",
    "TClifford.storages_lawful",
    "TClifford.wedges_lawful"
   ],
   "note": ""
  },
  {
   "property": "C65",
   "status": "proved",
   "theorems": [
    "TClifford.C65_commute",
    "TClifford.C65_square",
    "TClifford.storages_lawful"
   ],
   "note": ""
  },
  {
   "property": "C66",
   "status": "proved",
   "theorems": [
    "TClifford.C66_grade",
    "TClifford.C66_grade_extract",
    "TClifford.C66_mul",
    "TClifford.C66_wedge",
    "TClifford.C66_scalars",
    "TClifford.C66_pseudoscalar",
    "TClifford.storages_lawful",
    "TClifford.wedges_lawful"
   ],
   "note": ""
  },
  {
   "property": "C67",
   "status": "proved",
   "theorems": [
    "TClifford.C67_exponential",
    "TClifford.C67_error",
    "TClifford.C67_error_single",
    "TClifford.C67_square_one",
    "TClifford.C67_square_minus_one",
    "TClifford.C67_fft_error",
    "TClifford.C67_accuracy_false",
    "TClifford.storages_lawful"
   ],
   "note": ""
  },
  {
   "property": "C68",
   "status": "proved",
   "theorems": [
    "TClifford.C68_ok_iff",
    "TClifford.C68_entries",
    "TClifford.C68_err"
   ],
   "note": ""
  },
  {
   "property": "C69",
   "status": "proved",
   "theorems": [
    "TClifford.C69_add",
    "TClifford.C69_sub",
    "TClifford.C69_smul",
    "TClifford.C69_sdiv",
    "TClifford.C69_exact",
    "TClifford.C69_f64",
    "TClifford.C69_f32",
    "TClifford.C69_nearest",
    "TClifford.storages_lawful"
   ],
   "note": ""
  },
  {
   "property": "C70",
   "status": "proved",
   "theorems": [
    "TClifford.C70_mul",
    "TClifford.C70_vsdot",
    "TClifford.C70_vdot",
    "TClifford.C70_mag2",
    "TClifford.C70_wedge",
    "TClifford.C70_meet",
    "TClifford.C70_expression",
    "TClifford.C70_expression_f64",
    "TClifford.C70_expression_f32",
    "TClifford.C70_pow",
    "TClifford.C70_pow_f64",
    "TClifford.C70_mul_f64",
    "TClifford.C70_mul_f32",
    "TClifford.storages_lawful",
    "TClifford.wedges_lawful",
    "TClifford.float_wedges_lawful"
   ],
   "note": ""
  },
  {
   "property": "C71",
   "status": "proved",
   "theorems": [
    "TClifford.C71_mul",
    "TClifford.C71_wedge",
    "TClifford.C71_meet",
    "TClifford.C71_add",
    "TClifford.C71_sub",
    "TClifford.C71_exact",
    "TClifford.C71_expression",
    "TClifford.C71_identity",
    "TClifford.C71_pow",
    "TClifford.C71_naive_wedge",
    "TClifford.C71_wedge_agree",
    "TClifford.storages_lawful",
    "TClifford.wedges_lawful",
    "TClifford.float_wedges_lawful"
   ],
   "note": ""
  },
  {
   "property": "C72",
   "status": "partial",
   "theorems": [
    "TClifford.C72_storages_partial",
    "TClifford.C72_order_false",
    "TClifford.C72_laws_false",
    "TClifford.storages_lawful"
   ],
   "note": "False: the sum over the entries of the hash map is rounded in iteration order, so the same sparse f64 product can be 2^53 or 2^53+2 (C72_order_false); associativity and distributivity fail too (C72_laws_false). Proved: two storages or hash orders differ by at most twice the bound of C70 (C72_storages_partial); for integers they agree (C71)."
  },
  {
   "property": "C73",
   "status": "proved",
   "theorems": [
    "TClifford.C73_operations",
    "TClifford.C73_queries",
    "TClifford.C73_tidy",
    "TClifford.C73_convert",
    "TClifford.C73_reach",
    "TClifford.C73_sdiv",
    "TClifford.C73_distinguishes"
   ],
   "note": ""
  },
  {
   "property": "C74",
   "status": "proved",
   "theorems": [
    "TClifford.C74_symmetric",
    "TClifford.C74_cyclic",
    "TClifford.C74_rev",
    "TClifford.C74_bilinear",
    "TClifford.C74_grades",
    "TClifford.C74_nondegenerate",
    "TClifford.C74_degenerate",
    "TClifford.C74_rounded",
    "TClifford.storages_lawful"
   ],
   "note": ""
  },
  {
   "property": "C75",
   "status": "proved",
   "theorems": [
    "TClifford.C75_euclidean",
    "TClifford.C75_nonneg_iff",
    "TClifford.C75_definite_iff",
    "TClifford.C75_cauchy_schwarz",
    "TClifford.C75_adjoint",
    "TClifford.C75_mul_bound",
    "TClifford.C75_revm",
    "TClifford.C75_versor_mul",
    "TClifford.storages_lawful"
   ],
   "note": ""
  },
  {
   "property": "C76",
   "status": "proved",
   "theorems": [
    "TClifford.C76_operations",
    "TClifford.C76_scalars",
    "TClifford.C76_injective",
    "TClifford.C76_expression",
    "TClifford.C76_division",
    "TClifford.storages_lawful",
    "TClifford.wedges_lawful"
   ],
   "note": ""
  },
  {
   "property": "C77",
   "status": "proved",
   "theorems": [
    "TClifford.C77_release",
    "TClifford.C77_division",
    "TClifford.C77_debug",
    "TClifford.storages_lawful",
    "TClifford.wedges_lawful",
    "TClifford.float_wedges_lawful"
   ],
   "note": ""
  },
  {
   "property": "C78",
   "status": "proved",
   "theorems": [
    "TClifford.C78_clifft",
    "TClifford.C78_clifft_round_trip",
    "TClifford.C78_parity_flip",
    "TClifford.C78_imaginary_flip",
    "TClifford.C78_reversal",
    "TClifford.C78_conj_transpose",
    "TClifford.C78_clifft_mul",
    "TClifford.C78_clifft_dot",
    "TClifford.C78_expression",
    "TClifford.C78_round_trip",
    "TClifford.C78_mul",
    "TClifford.C78_agree",
    "TClifford.C78_pow",
    "TClifford.C78_ntrace",
    "TClifford.C78_mag2",
    "TClifford.C78_generators",
    "TClifford.storages_lawful",
    "TClifford.wedges_lawful"
   ],
   "note": ""
  },
  {
   "property": "C79",
   "status": "proved",
   "theorems": [
    "TClifford.C79_clifft",
    "TClifford.C79_iclifft",
    "TClifford.C79_clifft_round_trip",
    "TClifford.C79_clifft_round_trip_f64",
    "TClifford.C79_expression",
    "TClifford.C79_mul",
    "TClifford.C79_mul_f64",
    "TClifford.C79_mul_f32",
    "TClifford.C79_pow_f64",
    "TClifford.C79_ntrace",
    "TClifford.C79_mag2",
    "TClifford.C79_mag2_f64",
    "TClifford.storages_lawful"
   ],
   "note": ""
  },
  {
   "property": "C80",
   "status": "proved",
   "theorems": [
    "TClifford.C80_minors",
    "TClifford.C80_det",
    "TClifford.C80_independent",
    "TClifford.storages_lawful",
    "TClifford.wedges_lawful"
   ],
   "note": ""
  },
  {
   "property": "C81",
   "status": "proved",
   "theorems": [
    "TClifford.C81_gram",
    "TClifford.C81_mag2",
    "TClifford.storages_lawful",
    "TClifford.wedges_lawful"
   ],
   "note": ""
  },
  {
   "property": "C82",
   "status": "proved",
   "theorems": [
    "TClifford.C82_hyperplanes",
    "TClifford.C82_parallel",
    "TClifford.C82_join",
    "TClifford.C82_contains",
    "TClifford.C82_dependent",
    "TClifford.storages_lawful",
    "TClifford.wedges_lawful"
   ],
   "note": ""
  },
  {
   "property": "C83",
   "status": "proved",
   "theorems": [
    "TClifford.C83_versor_det",
    "TClifford.C83_rotation",
    "TClifford.C83_rotation_det",
    "TClifford.C83_angle",
    "TClifford.C83_readme_rotor",
    "TClifford.C83_readme_det",
    "TClifford.storages_lawful",
    "TClifford.wedges_lawful"
   ],
   "note": ""
  },
  {
   "property": "C84",
   "status": "proved",
   "theorems": [
    "TClifford.C84_half_spin_size",
    "TClifford.C84_irreducible_first",
    "TClifford.C84_irreducible_second",
    "TClifford.C84_inequivalent",
    "TClifford.C84_equivalent",
    "TClifford.C84_onto_even",
    "TClifford.C84_onto_odd"
   ],
   "note": ""
  },
  {
   "property": "C85",
   "status": "proved",
   "theorems": [
    "TClifford.C85_adjoint",
    "TClifford.C85_adjoint_half_spin",
    "TClifford.C85_parseval",
    "TClifford.C85_unitary",
    "TClifford.C85_unitary_euclidean",
    "TClifford.C85_half_spin_unitary"
   ],
   "note": ""
  },
  {
   "property": "C86",
   "status": "proved",
   "theorems": [
    "TClifford.C86_clifft",
    "TClifford.C86_clifft_into",
    "TClifford.C86_iclifft",
    "TClifford.C86_fft",
    "TClifford.C86_ifft",
    "TClifford.C86_real_fft",
    "TClifford.C86_clifft_nn_odd",
    "TClifford.C86_from_array3"
   ],
   "note": ""
  },
  {
   "property": "C87",
   "status": "proved",
   "theorems": [
    "TClifford.C87_random_trace",
    "TClifford.C87_dc",
    "TClifford.Tests.C87_fmt",
    "TClifford.C87_irrep",
    "TClifford.C87_fft_inv",
    "TClifford.C87_pga",
    "TClifford.Tests.C87_basic",
    "TClifford.Tests.C87_division",
    "TClifford.Tests.C87_wedge",
    "TClifford.Tests.C87_vee",
    "TClifford.Tests.C87_dual",
    "TClifford.Tests.C87_magnitude",
    "TClifford.Tests.C87_trace",
    "TClifford.Tests.C87_expected_values",
    "TClifford.Tests.C87_corner_cases",
    "TClifford.Tests.C87_even",
    "TClifford.Tests.C87_quat",
    "TClifford.Tests.C87_minv",
    "TClifford.C87_exp_rotation",
    "TClifford.C87_exp_boost",
    "TClifford.C87_bivector_square",
    "TClifford.C87_sparse",
    "TClifford.C87_binomial",
    "TClifford.Tests.C87_clifft_ndarray",
    "TClifford.Tests.C87_alpha",
    "TClifford.Tests.C87_imaginary_flip",
    "TClifford.Tests.C87_transposition",
    "TClifford.Tests.C87_reversal",
    "TClifford.Tests.C87_clifft_square",
    "TClifford.Tests.C87_clifft_mul",
    "TClifford.C87_dual_dual",
    "TClifford.C87_metric_dual",
    "TClifford.C87_rotated_dual",
    "TClifford.C87_hodge_odd",
    "TClifford.Tests.C87_basic_exp",
    "TClifford.Tests.C87_dual_exp",
    "TClifford.Tests.C87_magnitude_exp",
    "TClifford.Tests.C87_labels",
    "TClifford.Tests.C87_signs",
    "TClifford.Tests.C87_basis",
    "TClifford.Tests.C87_dual_two",
    "TClifford.Tests.C87_intersection",
    "TClifford.Tests.C87_quat_matrices",
    "TClifford.Tests.C87_rcho",
    "TClifford.Tests.C87_quat_nested",
    "TClifford.Tests.C87_minv_f64",
    "TClifford.Tests.C87_minv_quat",
    "TClifford.C87_random_fast_wedge",
    "TClifford.C87_random_vee",
    "TClifford.C87_random_automorphisms",
    "TClifford.C87_random_vdot",
    "TClifford.C87_random_hodge",
    "TClifford.C87_binomial_float",
    "TClifford.C87_binomial_f64",
    "TClifford.C87_random_hodge_dot",
    "TClifford.C87_random_metric_dot",
    "TClifford.C87_random_cmag2",
    "TClifford.C87_fast_wedge",
    "TClifford.storages_lawful",
    "TClifford.wedges_lawful"
   ],
   "note": ""
  },
  {
   "property": "C88",
   "status": "proved",
   "theorems": [
    "TClifford.C88_complex_iterations",
    "TClifford.C88_complex_real",
    "TClifford.C88_complex_conj",
    "TClifford.C88_hypot_exact",
    "TClifford.C88_complex_accuracy",
    "TClifford.C88_complex_null_exact",
    "TClifford.C88_fft_complex_accuracy",
    "TClifford.C88_fft_iterations",
    "TClifford.C88_fft_accuracy",
    "TClifford.C88_hypot",
    "TClifford.C88_fft_null_exact",
    "TClifford.C88_fft_null_f64",
    "TClifford.C88_sqrt",
    "TClifford.C88_coefficients",
    "TClifford.C88_iterations",
    "TClifford.C88_error",
    "TClifford.C88_accuracy",
    "TClifford.C88_null_exact",
    "TClifford.C88_null_large_false",
    "TClifford.storages_lawful"
   ],
   "note": ""
  },
  {
   "property": "C89",
   "status": "proved",
   "theorems": [
    "TClifford.C89_infinity",
    "TClifford.C89_reflection",
    "TClifford.C89_mirrors",
    "TClifford.C89_around_point",
    "TClifford.C89_distance",
    "TClifford.C89_isometry",
    "TClifford.C89_rotor_pow",
    "TClifford.C89_rotor_half",
    "TClifford.C89_rotor",
    "TClifford.storages_lawful",
    "TClifford.wedges_lawful"
   ],
   "note": ""
  },
  {
   "property": "C90",
   "status": "proved",
   "theorems": [
    "TClifford.C90_center",
    "TClifford.C90_generators",
    "TClifford.C90_twisted",
    "TClifford.storages_lawful"
   ],
   "note": ""
  },
  {
   "property": "C91",
   "status": "proved",
   "theorems": [
    "TClifford.C91_orthogonal",
    "TClifford.C91_rotation",
    "TClifford.C91_inverse",
    "TClifford.C91_unique",
    "TClifford.storages_lawful"
   ],
   "note": ""
  },
  {
   "property": "C92",
   "status": "proved",
   "theorems": [
    "TClifford.C92_diagonal",
    "TClifford.C92_singular_false",
    "TClifford.C92_invertible_false",
    "TClifford.C92_large_scalar_false",
    "TClifford.C92_small_scalar_false",
    "TClifford.C92_minv"
   ],
   "note": "Findings proved as counterexamples: with f64, inv can return Some for a zero divisor (C92_singular_false), None for an invertible multivector with small integer coefficients (C92_invertible_false), NaN entries for the scalar 2^600 (C92_large_scalar_false) and None for 2^-540 (C92_small_scalar_false); the last two because num-complex squares the pivot when dividing."
  },
  {
   "property": "C93",
   "status": "proved",
   "theorems": [
    "TClifford.C93_exists",
    "TClifford.C93_add",
    "TClifford.C93_neg",
    "TClifford.C93_rev",
    "TClifford.C93_rotor",
    "TClifford.C93_grades",
    "TClifford.C93_products",
    "TClifford.C93_matrix",
    "TClifford.C93_error",
    "TClifford.storages_lawful",
    "TClifford.wedges_lawful"
   ],
   "note": ""
  },
  {
   "property": "C94",
   "status": "proved",
   "theorems": [
    "TClifford.C94_zero_divisors",
    "TClifford.C94_nondegenerate_iff",
    "TClifford.C94_division_iff",
    "TClifford.storages_lawful"
   ],
   "note": ""
  },
  {
   "property": "C95",
   "status": "proved",
   "theorems": [
    "TClifford.C95_spreads",
    "TClifford.C95_mul",
    "TClifford.C95_wedge",
    "TClifford.C95_local",
    "TClifford.C95_dense_no_zeros",
    "TClifford.C95_zero",
    "TClifford.C95_wedge_dense",
    "TClifford.C95_sparse_no_zeros",
    "TClifford.C95_quaternion",
    "TClifford.C95_false",
    "TClifford.C95_stored_zero_false",
    "TClifford.C95_fft",
    "TClifford.C95_fft_complex",
    "TClifford.C95_fft_f32",
    "TClifford.C95_fft_false",
    "TClifford.storages_lawful",
    "TClifford.float_wedges_lawful"
   ],
   "note": "Findings proved as counterexamples: wedge products of an infinity and zero depend on storage and dimension (C95_false), and a sparse multivector that equals zero can have a product with an infinity that is not zero (C95_stored_zero_false). Infinities and NaN are one value of the model; multiplication, addition and negation of it are not finite in IEEE arithmetic either way. The product through the transforms has no finite coefficient for an infinity times zero (C95_fft_false)."
  },
  {
   "property": "C96",
   "status": "proved",
   "theorems": [
    "TClifford.C96_eq",
    "TClifford.C96_no_ub",
    "TClifford.C96_value",
    "TClifford.C96_panic",
    "TClifford.C96_basis",
    "TClifford.C96_signature",
    "TClifford.storages_lawful"
   ],
   "note": ""
  },
  {
   "property": "C97",
   "status": "proved",
   "theorems": [
    "TClifford.C97_roundtrip",
    "TClifford.C97_translate",
    "TClifford.C97_hyperplane",
    "TClifford.C97_incidence",
    "TClifford.C97_exact_model",
    "TClifford.C97_readme",
    "TClifford.C97_exact_false",
    "TClifford.C97_range_false",
    "TClifford.C97_origin_false",
    "TClifford.C97_cancels",
    "TClifford.storages_lawful",
    "TClifford.float_wedges_lawful"
   ],
   "note": "The origin and coordinates outside of the range are excluded in the statement; what happens there is proved by counterexamples in IEEE arithmetic (C97_range_false, C97_origin_false), as is that the round trip is not exact (C97_exact_false)."
  },
  {
   "property": "C98",
   "status": "proved",
   "theorems": [
    "TClifford.C98_div",
    "TClifford.C98_div_norm",
    "TClifford.C98_self",
    "TClifford.C98_revm",
    "TClifford.C98_revm_euclidean",
    "TClifford.C98_normalize",
    "TClifford.C98_normalize_negative",
    "TClifford.C98_exact_model",
    "TClifford.C98_exact_false",
    "TClifford.C98_range_false",
    "TClifford.C98_zero",
    "TClifford.C98_revm_false",
    "TClifford.C98_normalize_nan",
    "TClifford.C98_div_mul",
    "TClifford.C98_div_mul_exact_false",
    "TClifford.storages_lawful"
   ],
   "note": "Division by zero, coefficients outside of the range and mag2 that cancels are excluded in the statement of the bounds; what happens there is proved by counterexamples in IEEE arithmetic (C98_range_false, C98_revm_false, C98_zero)."
  },
  {
   "property": "C99",
   "status": "proved",
   "theorems": [
    "TClifford.C99_cmag2",
    "TClifford.C99_vdot",
    "TClifford.C99_mag2",
    "TClifford.C99_fft_ntrace_gaussian",
    "TClifford.C99_fft_ntrace",
    "TClifford.C99_fft_mag2_gaussian",
    "TClifford.C99_fft_mag2",
    "TClifford.C99_fft_mag2_f64",
    "TClifford.C99_fft_pow_f64",
    "TClifford.C99_gaussian",
    "TClifford.C99_identity",
    "TClifford.C99_expression",
    "TClifford.C99_fft_gaussian",
    "TClifford.C99_fft_agree",
    "TClifford.C99_fft_expression",
    "TClifford.C99_fft_mul",
    "TClifford.C99_fft_mul_c64",
    "TClifford.C99_fft_mul_c32",
    "TClifford.C99_expression_c64",
    "TClifford.C99_real",
    "TClifford.C99_real_scalars",
    "TClifford.C99_conj",
    "TClifford.C99_imaginary",
    "TClifford.storages_lawful",
    "TClifford.wedges_lawful",
    "TClifford.float_wedges_lawful"
   ],
   "note": ""
  }
 ]
}