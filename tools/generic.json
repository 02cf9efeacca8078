{
"TClifford.C03_injective": "00",
"TClifford.C03_linear": "00",
"TClifford.C03_mul": "00",
"TClifford.C03_surjective": "00",
"TClifford.C04_mul_assoc": "00",
"TClifford.C05_add_mul": "00",
"TClifford.C05_mul_add": "00",
"TClifford.C05_mul_one": "00",
"TClifford.C05_mul_smul": "00",
"TClifford.C05_neg_mul": "00",
"TClifford.C05_one_mul": "00",
"TClifford.C05_smul_mul": "00",
"TClifford.C05_zero_mul": "00",
"TClifford.C06_generators": "00",
"TClifford.C07_exterior_bijective": "10",
"TClifford.C07_exterior_mul": "10",
"TClifford.C07_wedge": "10",
"TClifford.C09_graded_comm": "10",
"TClifford.C09_vector_self": "10",
"TClifford.C09_vectors_anticomm": "10",
"TClifford.C09_wedge_add": "10",
"TClifford.C09_wedge_assoc": "10",
"TClifford.C09_wedge_grade": "10",
"TClifford.C10_meet": "10",
"TClifford.C10_meet_dual": "10",
"TClifford.C11_dual_undual": "00",
"TClifford.C11_rounded": "00",
"TClifford.C11_undual_dual": "00",
"TClifford.C12_blades": "10",
"TClifford.C12_hodge": "10",
"TClifford.C13_rev_add": "00",
"TClifford.C13_rev_coeff": "00",
"TClifford.C13_rev_generator": "00",
"TClifford.C13_rev_mul": "00",
"TClifford.C13_rev_rev": "00",
"TClifford.C13_rev_wedge": "10",
"TClifford.C13_rev_word": "00",
"TClifford.C14_flip": "00",
"TClifford.C14_flip_eq_subspace": "00",
"TClifford.C14_flip_generator": "00",
"TClifford.C14_flip_subspace": "00",
"TClifford.C14_flip_subspace_generator": "00",
"TClifford.C14_flip_subspace_wedge": "10",
"TClifford.C14_flip_wedge": "10",
"TClifford.C15_mag2": "00",
"TClifford.C15_rounded": "00",
"TClifford.C15_vdot": "00",
"TClifford.C15_vsdot": "00",
"TClifford.C16_revm": "00",
"TClifford.C16_revm_zero": "00",
"TClifford.C17_pow": "00",
"TClifford.C17_pow_add": "00",
"TClifford.C21_eq_iff": "00",
"TClifford.C21_equivalence": "00",
"TClifford.C21_is_zero": "00",
"TClifford.C21_sub_is_zero": "00",
"TClifford.C23_above_partial": "00",
"TClifford.C23_coeff_partial": "00",
"TClifford.C23_partition": "00",
"TClifford.C23_projection_partial": "00",
"TClifford.C24_coeff": "00",
"TClifford.C24_extract": "00",
"TClifford.C24_ok_iff": "00",
"TClifford.C24_prefix": "00",
"TClifford.C25_err_iff": "00",
"TClifford.C25_last_write": "00",
"TClifford.C25_unwrap": "00",
"TClifford.C25_unwrap_complex": "00",
"TClifford.C25_unwrap_original": "00",
"TClifford.C26_get_set": "00",
"TClifford.C26_get_total": "00",
"TClifford.C26_set_oob": "00",
"TClifford.C41_complexify_decomplexify": "00",
"TClifford.C41_complexify_mul": "00",
"TClifford.C41_decomplexify_complexify": "00",
"TClifford.C41_rounded": "00",
"TClifford.C41_rounded_back": "00",
"TClifford.C44_div": "00",
"TClifford.C44_div_ordered": "00",
"TClifford.C44_norm": "00",
"TClifford.C46_length": "00",
"TClifford.C46_origin_false": "00",
"TClifford.C46_roundtrip_partial": "00",
"TClifford.C46_unscaled": "00",
"TClifford.C47_bivector": "00",
"TClifford.C47_compose": "00",
"TClifford.C47_exp_false": "00",
"TClifford.C47_exp_partial": "00",
"TClifford.C47_hyperplane": "00",
"TClifford.C47_translate_partial": "00",
"TClifford.C47_unitary": "00",
"TClifford.C48_hyperplane_partial": "10",
"TClifford.C48_hyperplane_value": "10",
"TClifford.C48_line_partial": "10",
"TClifford.C48_meet_incident_partial": "10",
"TClifford.C48_origin_false": "00",
"TClifford.C49_extra_entry_false": "00",
"TClifford.C49_ok_iff_partial": "00",
"TClifford.C49_short": "00",
"TClifford.C50_complex_text_injective_partial": "00",
"TClifford.C50_complex_text_partial": "00",
"TClifford.C50_float_text_injective_partial": "00",
"TClifford.C50_float_text_partial": "00",
"TClifford.C50_nested_partial": "00",
"TClifford.C50_nested_same_names_false": "00",
"TClifford.C50_nested_text_partial": "00",
"TClifford.C50_text_partial": "00",
"TClifford.C51_iff": "00",
"TClifford.C51_laws": "00",
"TClifford.C52_add_assoc": "00",
"TClifford.C52_add_comm": "00",
"TClifford.C52_coefficients": "00",
"TClifford.C52_div_smul": "00",
"TClifford.C52_div_zero": "00",
"TClifford.C52_smul": "00",
"TClifford.C52_sub_eq": "00",
"TClifford.C52_zero_neg": "00",
"TClifford.C53_commute": "00",
"TClifford.C53_exp_zero": "00",
"TClifford.C53_formula_partial": "00",
"TClifford.C53_iterations": "00",
"TClifford.C53_rev": "00",
"TClifford.C53_square_zero_false": "00",
"TClifford.C53_square_zero_partial": "00",
"TClifford.C53_square_zero_value": "00",
"TClifford.C56_cmag2": "00",
"TClifford.C56_euclidean": "00",
"TClifford.C56_float_cmag2": "00",
"TClifford.C56_float_real": "00",
"TClifford.C56_float_revcm": "00",
"TClifford.C56_float_revcm_euclidean": "00",
"TClifford.C56_revc": "00",
"TClifford.C56_revc_coeff": "00",
"TClifford.C56_revcm": "00",
"TClifford.C57_depth": "00",
"TClifford.C57_embedding": "00",
"TClifford.C60_into_original": "00",
"TClifford.C60_into_original_mul": "00",
"TClifford.C61_mul_grades": "00",
"TClifford.C61_parity": "00",
"TClifford.C61_top_is_wedge": "10",
"TClifford.C61_vector_wedge": "10",
"TClifford.C61_vectors": "10",
"TClifford.C62_inverse": "00",
"TClifford.C62_reflection": "00",
"TClifford.C62_sandwich": "00",
"TClifford.C62_versor": "00",
"TClifford.C63_basis_blades": "00",
"TClifford.C63_blades_partial": "10",
"TClifford.C63_dual_is_product": "00",
"TClifford.C63_hodge": "10",
"TClifford.C63_iff": "10",
"TClifford.C63_uniform_partial": "10",
"TClifford.C63_vsdot": "10",
"TClifford.C64_add": "10",
"TClifford.C64_assoc": "10",
"TClifford.C64_grade": "10",
"TClifford.C64_graded_comm": "10",
"TClifford.C64_unit": "10",
"TClifford.C65_commute": "00",
"TClifford.C65_square": "00",
"TClifford.C66_grade": "00",
"TClifford.C66_grade_extract": "00",
"TClifford.C66_mul": "00",
"TClifford.C66_pseudoscalar": "00",
"TClifford.C66_scalars": "00",
"TClifford.C66_wedge": "10",
"TClifford.C67_error": "00",
"TClifford.C67_error_single": "00",
"TClifford.C67_exponential": "00",
"TClifford.C67_square_minus_one": "00",
"TClifford.C67_square_one": "00",
"TClifford.C69_add": "00",
"TClifford.C69_exact": "00",
"TClifford.C69_sdiv": "00",
"TClifford.C69_smul": "00",
"TClifford.C69_sub": "00",
"TClifford.C70_expression": "11",
"TClifford.C70_expression_f32": "11",
"TClifford.C70_expression_f64": "11",
"TClifford.C70_mag2": "00",
"TClifford.C70_meet": "11",
"TClifford.C70_mul": "00",
"TClifford.C70_mul_f32": "00",
"TClifford.C70_mul_f64": "00",
"TClifford.C70_pow": "11",
"TClifford.C70_pow_f64": "11",
"TClifford.C70_vdot": "00",
"TClifford.C70_vsdot": "00",
"TClifford.C70_wedge": "11",
"TClifford.C71_add": "11",
"TClifford.C71_exact": "11",
"TClifford.C71_expression": "11",
"TClifford.C71_identity": "11",
"TClifford.C71_meet": "11",
"TClifford.C71_mul": "11",
"TClifford.C71_naive_wedge": "11",
"TClifford.C71_pow": "11",
"TClifford.C71_sub": "11",
"TClifford.C71_wedge": "11",
"TClifford.C71_wedge_agree": "11",
"TClifford.C72_storages_partial": "00",
"TClifford.C74_bilinear": "00",
"TClifford.C74_cyclic": "00",
"TClifford.C74_degenerate": "00",
"TClifford.C74_grades": "00",
"TClifford.C74_nondegenerate": "00",
"TClifford.C74_rev": "00",
"TClifford.C74_symmetric": "00",
"TClifford.C75_adjoint": "00",
"TClifford.C75_cauchy_schwarz": "00",
"TClifford.C75_definite_iff": "00",
"TClifford.C75_euclidean": "00",
"TClifford.C75_mul_bound": "00",
"TClifford.C75_nonneg_iff": "00",
"TClifford.C75_revm": "00",
"TClifford.C75_versor_mul": "00",
"TClifford.C76_division": "00",
"TClifford.C76_expression": "10",
"TClifford.C76_injective": "00",
"TClifford.C76_operations": "10",
"TClifford.C76_scalars": "00",
"TClifford.C77_debug": "11",
"TClifford.C77_division": "00",
"TClifford.C77_release": "10",
"TClifford.C78_agree": "10",
"TClifford.C78_expression": "00",
"TClifford.C78_mag2": "00",
"TClifford.C78_mul": "00",
"TClifford.C78_ntrace": "00",
"TClifford.C78_pow": "00",
"TClifford.C78_round_trip": "00",
"TClifford.C79_expression": "00",
"TClifford.C79_mag2": "00",
"TClifford.C79_mag2_f64": "00",
"TClifford.C79_mul": "00",
"TClifford.C79_mul_f32": "00",
"TClifford.C79_mul_f64": "00",
"TClifford.C79_ntrace": "00",
"TClifford.C79_pow_f64": "00",
"TClifford.C80_det": "10",
"TClifford.C80_independent": "10",
"TClifford.C80_minors": "10",
"TClifford.C81_gram": "10",
"TClifford.C81_mag2": "10",
"TClifford.C82_contains": "10",
"TClifford.C82_dependent": "10",
"TClifford.C82_hyperplanes": "10",
"TClifford.C82_join": "10",
"TClifford.C82_parallel": "10",
"TClifford.C83_angle": "10",
"TClifford.C83_rotation": "10",
"TClifford.C83_rotation_det": "10",
"TClifford.C83_versor_det": "00",
"TClifford.C87_binomial": "00",
"TClifford.C87_binomial_f64": "00",
"TClifford.C87_binomial_float": "00",
"TClifford.C87_bivector_square": "10",
"TClifford.C87_dual_dual": "00",
"TClifford.C87_exp_boost": "00",
"TClifford.C87_exp_rotation": "00",
"TClifford.C87_hodge_odd": "10",
"TClifford.C87_metric_dual": "10",
"TClifford.C87_rotated_dual": "00",
"TClifford.C88_accuracy": "00",
"TClifford.C88_complex_accuracy": "00",
"TClifford.C88_complex_null_exact": "00",
"TClifford.C88_error": "00",
"TClifford.C88_fft_accuracy": "00",
"TClifford.C88_fft_complex_accuracy": "00",
"TClifford.C88_null_exact": "00",
"TClifford.C89_around_point": "00",
"TClifford.C89_distance": "00",
"TClifford.C89_infinity": "00",
"TClifford.C89_isometry": "00",
"TClifford.C89_mirrors": "00",
"TClifford.C89_reflection": "00",
"TClifford.C89_rotor": "10",
"TClifford.C89_rotor_half": "10",
"TClifford.C89_rotor_pow": "10",
"TClifford.C90_center": "00",
"TClifford.C90_generators": "00",
"TClifford.C90_twisted": "00",
"TClifford.C91_inverse": "00",
"TClifford.C91_orthogonal": "00",
"TClifford.C91_rotation": "00",
"TClifford.C91_unique": "00",
"TClifford.C93_add": "00",
"TClifford.C93_error": "00",
"TClifford.C93_exists": "00",
"TClifford.C93_grades": "00",
"TClifford.C93_matrix": "00",
"TClifford.C93_neg": "00",
"TClifford.C93_products": "10",
"TClifford.C93_rev": "00",
"TClifford.C93_rotor": "00",
"TClifford.C94_division_iff": "00",
"TClifford.C94_nondegenerate_iff": "00",
"TClifford.C94_zero_divisors": "00",
"TClifford.C95_local": "00",
"TClifford.C95_mul": "00",
"TClifford.C95_spreads": "00",
"TClifford.C95_wedge": "01",
"TClifford.C95_zero": "00",
"TClifford.C96_basis": "00",
"TClifford.C97_exact_model": "00",
"TClifford.C97_hyperplane": "00",
"TClifford.C97_incidence": "01",
"TClifford.C97_roundtrip": "00",
"TClifford.C97_translate": "00",
"TClifford.C98_div": "00",
"TClifford.C98_div_mul": "00",
"TClifford.C98_div_norm": "00",
"TClifford.C98_exact_model": "00",
"TClifford.C98_normalize": "00",
"TClifford.C98_normalize_negative": "00",
"TClifford.C98_revm": "00",
"TClifford.C98_revm_euclidean": "00",
"TClifford.C98_self": "00",
"TClifford.C99_cmag2": "00",
"TClifford.C99_expression": "11",
"TClifford.C99_expression_c64": "11",
"TClifford.C99_fft_agree": "10",
"TClifford.C99_fft_expression": "00",
"TClifford.C99_fft_gaussian": "00",
"TClifford.C99_fft_mag2": "00",
"TClifford.C99_fft_mag2_f64": "00",
"TClifford.C99_fft_mag2_gaussian": "00",
"TClifford.C99_fft_mul": "00",
"TClifford.C99_fft_mul_c32": "00",
"TClifford.C99_fft_mul_c64": "00",
"TClifford.C99_fft_ntrace": "00",
"TClifford.C99_fft_ntrace_gaussian": "00",
"TClifford.C99_fft_pow_f64": "00",
"TClifford.C99_gaussian": "11",
"TClifford.C99_identity": "11",
"TClifford.C99_mag2": "00",
"TClifford.C99_vdot": "00",
"TClifford.Coeff.C57_operations": "00",
"TClifford.storages_lawful": "00"
}