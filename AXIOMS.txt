TClifford.C01_blade_geo_product_sign: Classical.choice, Quot.sound, propext
TClifford.C01_blade_wedge_product_sign: Classical.choice, Quot.sound, propext
TClifford.C02_table_eq_loop: Quot.sound, propext
TClifford.C02_path_independent: Classical.choice, Quot.sound, propext
TClifford.C03_mul: Classical.choice, Quot.sound, propext
TClifford.C03_injective: Classical.choice, Quot.sound, propext
TClifford.C03_surjective: Classical.choice, Quot.sound, propext
TClifford.C03_linear: Classical.choice, Quot.sound, propext
TClifford.storages_lawful: Classical.choice, Quot.sound, propext
TClifford.C04_mul_assoc: Classical.choice, Quot.sound, propext
TClifford.C05_add_mul: Classical.choice, Quot.sound, propext
TClifford.C05_mul_add: Classical.choice, Quot.sound, propext
TClifford.C05_one_mul: Classical.choice, Quot.sound, propext
TClifford.C05_mul_one: Classical.choice, Quot.sound, propext
TClifford.C05_zero_mul: Classical.choice, Quot.sound, propext
TClifford.C05_mul_smul: Classical.choice, Quot.sound, propext
TClifford.C05_smul_mul: Classical.choice, Quot.sound, propext
TClifford.C05_neg_mul: Classical.choice, Quot.sound, propext
TClifford.C06_generators: Classical.choice, Quot.sound, propext
TClifford.C07_exterior_mul: Classical.choice, Quot.sound, propext
TClifford.C07_exterior_bijective: Classical.choice, Quot.sound, propext
TClifford.C07_wedge: Classical.choice, Quot.sound, propext
TClifford.wedges_lawful: Classical.choice, Quot.sound, propext
TClifford.C08_wedge_impl: Classical.choice, Quot.sound, propext
TClifford.C08_dest_irrelevant: Classical.choice, Quot.sound, propext
TClifford.C09_wedge_assoc: Classical.choice, Quot.sound, propext
TClifford.C09_wedge_add: Classical.choice, Quot.sound, propext
TClifford.C09_wedge_grade: Classical.choice, Quot.sound, propext
TClifford.C09_graded_comm: Classical.choice, Quot.sound, propext
TClifford.C09_vectors_anticomm: Classical.choice, Quot.sound, propext
TClifford.C09_vector_self: Classical.choice, Quot.sound, propext
TClifford.C10_rounded_false: Classical.choice, Quot.sound, propext
TClifford.C10_meet: Classical.choice, Quot.sound, propext
TClifford.C10_meet_dual: Classical.choice, Quot.sound, propext
TClifford.C11_rounded: Classical.choice, Quot.sound, propext
TClifford.C11_dual_undual: Classical.choice, Quot.sound, propext
TClifford.C11_undual_dual: Classical.choice, Quot.sound, propext
TClifford.C12_hodge: Classical.choice, Quot.sound, propext
TClifford.C12_blades: Classical.choice, Quot.sound, propext
TClifford.C13_rev_rev: Classical.choice, Quot.sound, propext
TClifford.C13_rev_coeff: Classical.choice, Quot.sound, propext
TClifford.C13_rev_add: Classical.choice, Quot.sound, propext
TClifford.C13_rev_generator: Classical.choice, Quot.sound, propext
TClifford.C13_rev_mul: Classical.choice, Quot.sound, propext
TClifford.C13_rev_wedge: Classical.choice, Quot.sound, propext
TClifford.C13_rev_word: Classical.choice, Quot.sound, propext
TClifford.C13_rounded_rev: Classical.choice, Quot.sound, propext
TClifford.C13_rounded_mul_false: Classical.choice, Quot.sound, propext
TClifford.C14_flip: Classical.choice, Quot.sound, propext
TClifford.C14_flip_wedge: Classical.choice, Quot.sound, propext
TClifford.C14_flip_generator: Classical.choice, Quot.sound, propext
TClifford.C14_flip_subspace: Classical.choice, Quot.sound, propext
TClifford.C14_flip_subspace_wedge: Classical.choice, Quot.sound, propext
TClifford.C14_flip_subspace_generator: Classical.choice, Quot.sound, propext
TClifford.C14_flip_eq_subspace: Classical.choice, Quot.sound, propext
TClifford.C14_rounded_subspace: Classical.choice, Quot.sound, propext
TClifford.C14_rounded_flip: Classical.choice, Quot.sound, propext
TClifford.C14_rounded_pow: Classical.choice, Quot.sound, propext
TClifford.C14_rounded_exp: Classical.choice, Quot.sound, propext
TClifford.C15_vdot: Classical.choice, Quot.sound, propext
TClifford.C15_mag2: Classical.choice, Quot.sound, propext
TClifford.C15_vsdot: Classical.choice, Quot.sound, propext
TClifford.C15_rounded: Classical.choice, Quot.sound, propext
TClifford.C15_rounded_mag2: Classical.choice, Quot.sound, propext
TClifford.C15_rounded_nonfinite_false: Classical.choice, Quot.sound, propext
TClifford.C16_revm: Classical.choice, Quot.sound, propext
TClifford.C16_revm_zero: Classical.choice, Quot.sound, propext
TClifford.C16_doc_claim_false: Classical.choice, Quot.sound, propext
TClifford.C17_pow: Classical.choice, Quot.sound, propext
TClifford.C17_pow_add: Classical.choice, Quot.sound, propext
TClifford.C18_convert: Classical.choice, Quot.sound, propext
TClifford.C18_inverse: Classical.choice, Quot.sound, propext
TClifford.C18_operations: Classical.choice, Quot.sound, propext
TClifford.C18_queries: Classical.choice, Quot.sound, propext
TClifford.C18_constructors: Classical.choice, Quot.sound, propext
TClifford.C18_division: Classical.choice, Quot.sound, propext
TClifford.C18_exp: Classical.choice, Quot.sound, propext
TClifford.C19_operations: Classical.choice, Quot.sound, propext
TClifford.C19_queries: Classical.choice, Quot.sound, propext
TClifford.C19_division: Classical.choice, Quot.sound, propext
TClifford.C19_exp: Classical.choice, Quot.sound, propext
TClifford.C20_filter_inplace_keys: Classical.choice, Quot.sound, propext
TClifford.C20_invariant_partial: Classical.choice, Quot.sound, propext
TClifford.C20_coeff_count_partial: Classical.choice, Quot.sound, propext
TClifford.C20_filter_inplace_mut_false: Classical.choice, Quot.sound, propext
TClifford.C20_sdiv: Classical.choice, Quot.sound, propext
TClifford.C20_div: Classical.choice, Quot.sound, propext
TClifford.C21_eq_iff: Quot.sound, propext
TClifford.C21_equivalence: Quot.sound, propext
TClifford.C21_is_zero: Quot.sound, propext
TClifford.C21_sub_is_zero: Quot.sound, propext
TClifford.C22_grade_iter_partial: Classical.choice, Quot.sound, propext
TClifford.C22_index_iter: Classical.choice, Quot.sound, propext
TClifford.C22_huge_grade_false: Quot.sound, propext
TClifford.C23_coeff_partial: Quot.sound, propext
TClifford.C23_projection_partial: Quot.sound, propext
TClifford.C23_partition: Classical.choice, Quot.sound, propext
TClifford.C23_above_partial: Classical.choice, Quot.sound, propext
TClifford.C23_sparse_truncation: propext
TClifford.C23_dense_above: Classical.choice, Quot.sound, propext
TClifford.C23_grade_2_32_false: Classical.choice, Quot.sound, propext
TClifford.C24_ok_iff: Classical.choice, Quot.sound, propext
TClifford.C24_prefix: Classical.choice, Quot.sound, propext
TClifford.C24_extract: Classical.choice, Quot.sound, propext
TClifford.C24_coeff: Classical.choice, Quot.sound, propext
TClifford.C25_err_iff: Classical.choice, Quot.sound, propext
TClifford.C25_last_write: Quot.sound, propext
TClifford.C25_unwrap: Classical.choice, Quot.sound, propext
TClifford.C25_unwrap_filter: Classical.choice, Quot.sound, propext
TClifford.C25_unwrap_grades: Classical.choice, Quot.sound, propext
TClifford.C25_unwrap_original: Classical.choice, Quot.sound, propext
TClifford.C25_unwrap_complex: Quot.sound, propext
TClifford.C26_get_set: propext
TClifford.C26_set_oob: propext
TClifford.C26_get_total: propext
TClifford.C26_get_oob_sparse: Classical.choice, Quot.sound, propext
TClifford.C26_get_oob_quaternion: Classical.choice, Quot.sound, propext
TClifford.C26_get_oob_dense_partial: Classical.choice, Quot.sound, propext
TClifford.C26_get_oob_dense_false: Classical.choice, Quot.sound, propext
TClifford.C27_iclifft_clifft: Classical.choice, Quot.sound, propext
TClifford.C27_iclifft_clifft_even: Classical.choice, Quot.sound, propext
TClifford.C27_clifft_iclifft: Classical.choice, Quot.sound, propext
TClifford.C27_clifft_into: Classical.choice, Quot.sound, propext
TClifford.C27_iclifft_into: Classical.choice, Quot.sound, propext
TClifford.C27_nn_inverse: Classical.choice, Quot.sound, propext
TClifford.C28_clifft_ok_iff: Classical.choice, Quot.sound, propext
TClifford.C28_clifft_err: Quot.sound, propext
TClifford.C28_clifft_shape: Classical.choice, Quot.sound, propext
TClifford.C28_clifft_nn: Classical.choice, Quot.sound, propext
TClifford.C28_iclifft: Classical.choice, Quot.sound, propext
TClifford.C28_flip_reversal: Classical.choice, Quot.sound, propext
TClifford.C29_mul: Classical.choice, Quot.sound, propext
TClifford.C29_add_sub: Classical.choice, Quot.sound, propext
TClifford.C29_smul: Classical.choice, Quot.sound, propext
TClifford.C29_one: Classical.choice, Quot.sound, propext
TClifford.C29_injective: Classical.choice, Quot.sound, propext
TClifford.C30_ifft_fft: Classical.choice, Quot.sound, propext
TClifford.C31_fft_mul_ifft: Classical.choice, Quot.sound, propext
TClifford.C31_fft_mul: Classical.choice, Quot.sound, propext
TClifford.C31_array_ring: Classical.choice, Quot.sound, propext
TClifford.C32_fft_add: Classical.choice, Quot.sound, propext
TClifford.C32_fft_sub: Classical.choice, Quot.sound, propext
TClifford.C32_fft_neg: Classical.choice, Quot.sound, propext
TClifford.C32_fft_smul: Classical.choice, Quot.sound, propext
TClifford.C32_fft_zero_one: Classical.choice, Quot.sound, propext
TClifford.C32_fft_eq: Classical.choice, Quot.sound, propext
TClifford.C33_fft_rev: Classical.choice, Quot.sound, propext
TClifford.C33_fft_flip: Classical.choice, Quot.sound, propext
TClifford.C33_rounded_array_rev: Classical.choice, Quot.sound, propext
TClifford.C33_rounded_array_rev_false: Classical.choice, Quot.sound, propext
TClifford.C33_array_rev: Classical.choice, Quot.sound, propext
TClifford.C33_rounded_fft_rev: Classical.choice, Quot.sound, propext
TClifford.C33_rounded_fft_flip: Classical.choice, Quot.sound, propext
TClifford.C33_rounded_ifft_rev: Classical.choice, Quot.sound, propext
TClifford.C33_rounded_ifft_flip: Classical.choice, Quot.sound, propext
TClifford.C33_rounded_transpose: Classical.choice, Quot.sound, propext
TClifford.C33_rounded_flip_ops: Classical.choice, Quot.sound, propext
TClifford.C33_rounded_involutions: Classical.choice, Quot.sound, propext
TClifford.C33_rounded_flip_exp: Classical.choice, Quot.sound, propext
TClifford.C34_ntrace: Classical.choice, Quot.sound, propext
TClifford.C34_trace: Classical.choice, Quot.sound, propext
TClifford.C34_mag2: Classical.choice, Quot.sound, propext
TClifford.C35_fft_pow: Classical.choice, Quot.sound, propext
TClifford.C35_fft_pow_ifft: Classical.choice, Quot.sound, propext
TClifford.C36_inv: Classical.choice, Quot.sound, propext
TClifford.C36_fft_inv: Classical.choice, Quot.sound, propext
TClifford.C36_singular: Classical.choice, Quot.sound, propext
TClifford.C36_matrix_inv: Classical.choice, Quot.sound, propext
TClifford.C36_matrix_inv_unique: Classical.choice, Quot.sound, propext
TClifford.C37_inv_complete_partial: Classical.choice, Quot.sound, propext
TClifford.C37_inv_dominant_partial: Classical.choice, Quot.sound, propext
TClifford.C37_inv_misses_vector: Classical.choice, Quot.sound, propext
TClifford.C37_inv_generic_partial: Classical.choice, Quot.sound, propext
TClifford.C37_inv_dense_partial: Classical.choice, Quot.sound, propext
TClifford.C37_inv_weakly_dominant_partial: Classical.choice, Quot.sound, propext
TClifford.C37_one_plus_blade_partial: Classical.choice, Quot.sound, propext
TClifford.C38_parity_flip: Classical.choice, Quot.sound, propext
TClifford.C38_imaginary_flip: Classical.choice, Quot.sound, propext
TClifford.C38_reversal: Classical.choice, Quot.sound, propext
TClifford.C38_multivector: Classical.choice, Quot.sound, propext
TClifford.C39_half_spin_mul: Classical.choice, Quot.sound, propext
TClifford.C39_half_spin_one: Classical.choice, Quot.sound, propext
TClifford.C39_half_spin_even_part: Classical.choice, Quot.sound, propext
TClifford.C39_half_spin_pow: Classical.choice, Quot.sound, propext
TClifford.C40_from_array3: Classical.choice, Quot.sound, propext
TClifford.C40_fft_shape: Classical.choice, Quot.sound, propext
TClifford.C40_from_array2: Classical.choice, Quot.sound, propext
TClifford.C40_fft_ifft: Classical.choice, Quot.sound, propext
TClifford.C40_odd_false: Classical.choice, Quot.sound, propext
TClifford.C40_from_array3_any: Classical.choice, Quot.sound, propext
TClifford.C40_shape: Classical.choice, Quot.sound, propext
TClifford.C40_doc_shape_false: Classical.choice, Quot.sound, propext
TClifford.C40_unwrap: Classical.choice, Quot.sound, propext
TClifford.C40_unwrap_fft: Classical.choice, Quot.sound, propext
TClifford.C41_rounded: Classical.choice, Quot.sound, propext
TClifford.C41_rounded_back: Classical.choice, Quot.sound, propext
TClifford.C41_decomplexify_complexify: Classical.choice, Quot.sound, propext
TClifford.C41_complexify_decomplexify: Classical.choice, Quot.sound, propext
TClifford.C41_complexify_mul: Classical.choice, Quot.sound, propext
TClifford.C41_complexification_signature: Classical.choice, Quot.sound, propext
TClifford.C42_accepts_iff: Classical.choice, Quot.sound, propext
TClifford.C42_declared: Classical.choice, Quot.sound, propext
TClifford.C42_nonDegenerate_iff: propext
TClifford.C42_split_iff: Quot.sound, propext
TClifford.C42_pga_iff: Quot.sound, propext
TClifford.C42_division_iff: propext
TClifford.C43_usable_partial: Classical.choice, Quot.sound, propext
TClifford.C43_not_usable_64: propext
TClifford.C44_norm: Classical.choice, Quot.sound, propext
TClifford.C44_div: Classical.choice, Quot.sound, propext
TClifford.C44_div_ordered: Classical.choice, Quot.sound, propext
TClifford.C44_div_by_zero: Classical.choice, Quot.sound, propext
TClifford.C44_div_by_zero_quaternion: Classical.choice, Quot.sound, propext
TClifford.C45_float_norm: Classical.choice, Quot.sound, propext
TClifford.C45_float_norm_mul: Classical.choice, Quot.sound, propext
TClifford.C45_float_exact: Classical.choice, Quot.sound, propext
TClifford.C45_float_false: Classical.choice, Quot.sound, propext
TClifford.C45_algebra: propext
TClifford.C45_hamilton_algebra: Classical.choice, Quot.sound, propext
TClifford.C45_hamilton: Classical.choice, Quot.sound, propext
TClifford.C45_conj: Classical.choice, Quot.sound, propext
TClifford.C45_storage: Classical.choice, Quot.sound, propext
TClifford.C45_norm_mul_partial: Classical.choice, Quot.sound, propext
TClifford.C45_norm_real: Classical.choice, Quot.sound, propext
TClifford.C45_norm_complex_false: Classical.choice, Quot.sound, propext
TClifford.C45_dimension: none
TClifford.C46_roundtrip_partial: Classical.choice, Quot.sound, propext
TClifford.C46_origin_false: Classical.choice, Quot.sound, propext
TClifford.C46_unscaled: Classical.choice, Quot.sound, propext
TClifford.C46_length: Classical.choice, Quot.sound, propext
TClifford.C47_translate_partial: Classical.choice, Quot.sound, propext
TClifford.C47_compose: Classical.choice, Quot.sound, propext
TClifford.C47_unitary: Classical.choice, Quot.sound, propext
TClifford.C47_bivector: Classical.choice, Quot.sound, propext
TClifford.C47_exp_partial: Classical.choice, Quot.sound, propext
TClifford.C47_exp_false: Classical.choice, Quot.sound, propext
TClifford.C47_hyperplane: Classical.choice, Quot.sound, propext
TClifford.C48_hyperplane_partial: Classical.choice, Quot.sound, propext
TClifford.C48_hyperplane_value: Classical.choice, Quot.sound, propext
TClifford.C48_origin_false: Classical.choice, Quot.sound, propext
TClifford.C48_line_partial: Classical.choice, Quot.sound, propext
TClifford.C48_meet_incident_partial: Classical.choice, Quot.sound, propext
TClifford.C49_ok_iff_partial: Classical.choice, Quot.sound, propext
TClifford.C49_extra_entry_false: Classical.choice, Quot.sound, propext
TClifford.C49_short: Classical.choice, Quot.sound, propext
TClifford.C50_complex_text_partial: Classical.choice, Quot.sound, propext
TClifford.C50_complex_text_injective_partial: Classical.choice, Quot.sound, propext
TClifford.C50_labels_distinct_partial: Classical.choice, Quot.sound, propext
TClifford.C50_text_partial: Classical.choice, Quot.sound, propext
TClifford.C50_declared_names: Classical.choice, Quot.sound, propext
TClifford.C50_default_names: Classical.choice, Quot.sound, propext
TClifford.C50_labels_collide_false: propext
TClifford.C50_nested_text_partial: Classical.choice, Quot.sound, propext
TClifford.C50_nested_partial: Classical.choice, Quot.sound, propext
TClifford.C50_nested_same_names_false: Classical.choice, Quot.sound, propext
TClifford.C50_float_text_partial: Classical.choice, Quot.sound, propext
TClifford.C50_float_text_injective_partial: Classical.choice, Quot.sound, propext
TClifford.C51_iff: Quot.sound, propext
TClifford.C51_laws: Quot.sound, propext
TClifford.C51_zero_precision_dense: Classical.choice, Quot.sound, propext
TClifford.C51_zero_precision_quaternion: propext
TClifford.C52_add_comm: Quot.sound, propext
TClifford.C52_add_assoc: Quot.sound, propext
TClifford.C52_zero_neg: Quot.sound, propext
TClifford.C52_sub_eq: Quot.sound, propext
TClifford.C52_smul: Quot.sound, propext
TClifford.C52_coefficients: Quot.sound, propext
TClifford.C52_div_smul: Classical.choice, Quot.sound, propext
TClifford.C52_div_zero: Quot.sound, propext
TClifford.C53_iterations: Classical.choice, Quot.sound, propext
TClifford.C53_formula_partial: Classical.choice, Quot.sound, propext
TClifford.C53_square_zero_value: Classical.choice, Quot.sound, propext
TClifford.C53_square_zero_partial: Classical.choice, Quot.sound, propext
TClifford.C53_square_zero_false: Classical.choice, Quot.sound, propext
TClifford.C53_exp_zero: Classical.choice, Quot.sound, propext
TClifford.C53_commute: Classical.choice, Quot.sound, propext
TClifford.C53_rev: Classical.choice, Quot.sound, propext
TClifford.C53_fft_iterations: Classical.choice, Quot.sound, propext
TClifford.C53_fft_formula_partial: Classical.choice, Quot.sound, propext
TClifford.C53_fft_square_zero_value: Classical.choice, Quot.sound, propext
TClifford.C53_fft_square_zero_partial: Classical.choice, Quot.sound, propext
TClifford.C53_fft_exp_zero: Classical.choice, Quot.sound, propext
TClifford.C53_fft_commute: Classical.choice, Quot.sound, propext
TClifford.C53_fft_rev: Classical.choice, Quot.sound, propext
TClifford.C53_fft_square_zero_false: Classical.choice, Quot.sound, propext
TClifford.C54_filter: Classical.choice, Quot.sound, propext
TClifford.C54_filter_inplace: Classical.choice, Quot.sound, propext
TClifford.C54_modify: Classical.choice, Quot.sound, propext
TClifford.C54_grades: Classical.choice, Quot.sound, propext
TClifford.C54_stateful: Classical.choice, Quot.sound, propext
TClifford.C54_count: Quot.sound, propext
TClifford.C55_real_fft_mul: Classical.choice, Quot.sound, propext
TClifford.C55_real_fft_eq_fft: Classical.choice, Quot.sound, propext
TClifford.C55_rounded: Classical.choice, Quot.sound, propext
TClifford.C55_rounded_error: Classical.choice, Quot.sound, propext
TClifford.C55_rounded_mul: Classical.choice, Quot.sound, propext
TClifford.C55_rounded_integers: Classical.choice, Quot.sound, propext
TClifford.C55_rounded_mul_false: Classical.choice, Quot.sound, propext
TClifford.C55_rounded_f32_false: Classical.choice, Quot.sound, propext
TClifford.C55_rounded_nonfinite_false: Classical.choice, Quot.sound, propext
TClifford.C56_float_real: Classical.choice, Quot.sound, propext
TClifford.C56_float_cmag2: Classical.choice, Quot.sound, propext
TClifford.C56_float_revcm: Classical.choice, Quot.sound, propext
TClifford.C56_float_revcm_euclidean: Classical.choice, Quot.sound, propext
TClifford.C56_revc: Classical.choice, Quot.sound, propext
TClifford.C56_revc_coeff: Classical.choice, Quot.sound, propext
TClifford.C56_cmag2: Classical.choice, Quot.sound, propext
TClifford.C56_revcm: Classical.choice, Quot.sound, propext
TClifford.C56_euclidean: Classical.choice, Quot.sound, propext
TClifford.Ex.C56_doc_magnitude_false: Classical.choice, Quot.sound, propext
TClifford.Ex.C56_doc_claim_false: Classical.choice, Quot.sound, propext
TClifford.Coeff.C57_operations: Classical.choice, Quot.sound, propext
TClifford.C57_depth: Classical.choice, Quot.sound, propext
TClifford.C57_embedding: Classical.choice, Quot.sound, propext
TClifford.C58_fft_sdiv: Classical.choice, Quot.sound, propext
TClifford.C58_sdiv_zero: Quot.sound, propext
TClifford.C58_is_zero: Classical.choice, Quot.sound, propext
TClifford.C58_approx_eq: Quot.sound, propext
TClifford.C58_basis: Classical.choice, Quot.sound, propext
TClifford.C59_iclifft_into_long_partial: Classical.choice, Quot.sound, propext
TClifford.C59_iclifft_into_short: Classical.choice, Quot.sound, propext
TClifford.C59_iclifft_into_shape: Classical.choice, Quot.sound, propext
TClifford.C59_tail_untouched_false: Classical.choice, Quot.sound, propext
TClifford.C60_even: Classical.choice, Quot.sound, propext
TClifford.C60_into_original: Classical.choice, Quot.sound, propext
TClifford.C60_into_original_mul: Classical.choice, Quot.sound, propext
TClifford.C61_vector_wedge: Classical.choice, Quot.sound, propext
TClifford.C61_mul_grades: Classical.choice, Quot.sound, propext
TClifford.C61_top_is_wedge: Classical.choice, Quot.sound, propext
TClifford.C61_vectors: Classical.choice, Quot.sound, propext
TClifford.C61_parity: Classical.choice, Quot.sound, propext
TClifford.C62_versor: Classical.choice, Quot.sound, propext
TClifford.C62_reflection: Classical.choice, Quot.sound, propext
TClifford.C62_sandwich: Classical.choice, Quot.sound, propext
TClifford.C62_inverse: Classical.choice, Quot.sound, propext
TClifford.C63_basis_blades: Classical.choice, Quot.sound, propext
TClifford.C63_dual_is_product: Classical.choice, Quot.sound, propext
TClifford.C63_blades_partial: Classical.choice, Quot.sound, propext
TClifford.C63_other_metric_false: Classical.choice, Quot.sound, propext
TClifford.C63_vsdot: Classical.choice, Quot.sound, propext
TClifford.C63_hodge: Classical.choice, Quot.sound, propext
TClifford.C63_uniform_partial: Classical.choice, Quot.sound, propext
TClifford.C63_iff: Classical.choice, Quot.sound, propext
TClifford.C64_assoc: Classical.choice, Quot.sound, propext
TClifford.C64_unit: Classical.choice, Quot.sound, propext
TClifford.C64_add: Classical.choice, Quot.sound, propext
TClifford.C64_grade: Classical.choice, Quot.sound, propext
TClifford.C64_graded_comm: Classical.choice, Quot.sound, propext
TClifford.C65_commute: Classical.choice, Quot.sound, propext
TClifford.C65_square: Classical.choice, Quot.sound, propext
TClifford.C66_grade: Classical.choice, Quot.sound, propext
TClifford.C66_grade_extract: Classical.choice, Quot.sound, propext
TClifford.C66_mul: Classical.choice, Quot.sound, propext
TClifford.C66_wedge: Classical.choice, Quot.sound, propext
TClifford.C66_scalars: Classical.choice, Quot.sound, propext
TClifford.C66_pseudoscalar: Classical.choice, Quot.sound, propext
TClifford.C67_exponential: Classical.choice, Quot.sound, propext
TClifford.C67_error: Classical.choice, Quot.sound, propext
TClifford.C67_error_single: Classical.choice, Quot.sound, propext
TClifford.C67_square_one: Classical.choice, Quot.sound, propext
TClifford.C67_square_minus_one: Classical.choice, Quot.sound, propext
TClifford.C67_fft_error: Classical.choice, Quot.sound, propext
TClifford.C67_accuracy_false: Classical.choice, Quot.sound, propext
TClifford.C68_ok_iff: Classical.choice, Quot.sound, propext
TClifford.C68_entries: Classical.choice, Quot.sound, propext
TClifford.C68_err: Quot.sound, propext
TClifford.C69_add: Classical.choice, Quot.sound, propext
TClifford.C69_sub: Classical.choice, Quot.sound, propext
TClifford.C69_smul: Classical.choice, Quot.sound, propext
TClifford.C69_sdiv: Classical.choice, Quot.sound, propext
TClifford.C69_exact: Classical.choice, Quot.sound, propext
TClifford.C69_f64: Classical.choice, Quot.sound, propext
TClifford.C69_f32: Classical.choice, Quot.sound, propext
TClifford.C69_nearest: Classical.choice, Quot.sound, propext
TClifford.C70_mul: Classical.choice, Quot.sound, propext
TClifford.C70_vsdot: Classical.choice, Quot.sound, propext
TClifford.C70_vdot: Classical.choice, Quot.sound, propext
TClifford.C70_mag2: Classical.choice, Quot.sound, propext
TClifford.C70_wedge: Classical.choice, Quot.sound, propext
TClifford.C70_meet: Classical.choice, Quot.sound, propext
TClifford.C70_expression: Classical.choice, Quot.sound, propext
TClifford.C70_expression_f64: Classical.choice, Quot.sound, propext
TClifford.C70_expression_f32: Classical.choice, Quot.sound, propext
TClifford.C70_pow: Classical.choice, Quot.sound, propext
TClifford.C70_pow_f64: Classical.choice, Quot.sound, propext
TClifford.C70_mul_f64: Classical.choice, Quot.sound, propext
TClifford.C70_mul_f32: Classical.choice, Quot.sound, propext
TClifford.float_wedges_lawful: Classical.choice, Quot.sound, propext
TClifford.C71_mul: Classical.choice, Quot.sound, propext
TClifford.C71_wedge: Classical.choice, Quot.sound, propext
TClifford.C71_meet: Classical.choice, Quot.sound, propext
TClifford.C71_add: Classical.choice, Quot.sound, propext
TClifford.C71_sub: Classical.choice, Quot.sound, propext
TClifford.C71_exact: Classical.choice, Quot.sound, propext
TClifford.C71_expression: Classical.choice, Quot.sound, propext
TClifford.C71_identity: Classical.choice, Quot.sound, propext
TClifford.C71_pow: Classical.choice, Quot.sound, propext
TClifford.C71_naive_wedge: Classical.choice, Quot.sound, propext
TClifford.C71_wedge_agree: Classical.choice, Quot.sound, propext
TClifford.C72_storages_partial: Classical.choice, Quot.sound, propext
TClifford.C72_order_false: Classical.choice, Quot.sound, propext
TClifford.C72_laws_false: Classical.choice, Quot.sound, propext
TClifford.C73_operations: Classical.choice, Quot.sound, propext
TClifford.C73_queries: Classical.choice, Quot.sound, propext
TClifford.C73_tidy: Quot.sound, propext
TClifford.C73_convert: Classical.choice, Quot.sound, propext
TClifford.C73_reach: Classical.choice, Quot.sound, propext
TClifford.C73_sdiv: Classical.choice, Quot.sound, propext
TClifford.C73_distinguishes: Classical.choice, Quot.sound, propext
TClifford.C74_symmetric: Classical.choice, Quot.sound, propext
TClifford.C74_cyclic: Classical.choice, Quot.sound, propext
TClifford.C74_rev: Classical.choice, Quot.sound, propext
TClifford.C74_bilinear: Classical.choice, Quot.sound, propext
TClifford.C74_grades: Classical.choice, Quot.sound, propext
TClifford.C74_nondegenerate: Classical.choice, Quot.sound, propext
TClifford.C74_degenerate: Classical.choice, Quot.sound, propext
TClifford.C74_rounded: Classical.choice, Quot.sound, propext
TClifford.C75_euclidean: Classical.choice, Quot.sound, propext
TClifford.C75_nonneg_iff: Classical.choice, Quot.sound, propext
TClifford.C75_definite_iff: Classical.choice, Quot.sound, propext
TClifford.C75_cauchy_schwarz: Classical.choice, Quot.sound, propext
TClifford.C75_adjoint: Classical.choice, Quot.sound, propext
TClifford.C75_mul_bound: Classical.choice, Quot.sound, propext
TClifford.C75_revm: Classical.choice, Quot.sound, propext
TClifford.C75_versor_mul: Classical.choice, Quot.sound, propext
TClifford.C76_operations: Classical.choice, Quot.sound, propext
TClifford.C76_scalars: Classical.choice, Quot.sound, propext
TClifford.C76_injective: Quot.sound, propext
TClifford.C76_expression: Classical.choice, Quot.sound, propext
TClifford.C76_division: Classical.choice, Quot.sound, propext
TClifford.C77_release: Classical.choice, Quot.sound, propext
TClifford.C77_division: Classical.choice, Quot.sound, propext
TClifford.C77_debug: Classical.choice, Quot.sound, propext
TClifford.C78_clifft: Classical.choice, Quot.sound, propext
TClifford.C78_clifft_round_trip: Classical.choice, Quot.sound, propext
TClifford.C78_parity_flip: Classical.choice, Quot.sound, propext
TClifford.C78_imaginary_flip: Classical.choice, Quot.sound, propext
TClifford.C78_reversal: Classical.choice, Quot.sound, propext
TClifford.C78_conj_transpose: Classical.choice, Quot.sound, propext
TClifford.C78_clifft_mul: Classical.choice, Quot.sound, propext
TClifford.C78_clifft_dot: Classical.choice, Quot.sound, propext
TClifford.C78_expression: Classical.choice, Quot.sound, propext
TClifford.C78_round_trip: Classical.choice, Quot.sound, propext
TClifford.C78_mul: Classical.choice, Quot.sound, propext
TClifford.C78_agree: Classical.choice, Quot.sound, propext
TClifford.C78_pow: Classical.choice, Quot.sound, propext
TClifford.C78_ntrace: Classical.choice, Quot.sound, propext
TClifford.C78_mag2: Classical.choice, Quot.sound, propext
TClifford.C78_generators: Classical.choice, Quot.sound, propext
TClifford.C79_clifft: Classical.choice, Quot.sound, propext
TClifford.C79_iclifft: Classical.choice, Quot.sound, propext
TClifford.C79_clifft_round_trip: Classical.choice, Quot.sound, propext
TClifford.C79_clifft_round_trip_f64: Classical.choice, Quot.sound, propext
TClifford.C79_expression: Classical.choice, Quot.sound, propext
TClifford.C79_mul: Classical.choice, Quot.sound, propext
TClifford.C79_mul_f64: Classical.choice, Quot.sound, propext
TClifford.C79_mul_f32: Classical.choice, Quot.sound, propext
TClifford.C79_pow_f64: Classical.choice, Quot.sound, propext
TClifford.C79_ntrace: Classical.choice, Quot.sound, propext
TClifford.C79_mag2: Classical.choice, Quot.sound, propext
TClifford.C79_mag2_f64: Classical.choice, Quot.sound, propext
TClifford.C80_minors: Classical.choice, Quot.sound, propext
TClifford.C80_det: Classical.choice, Quot.sound, propext
TClifford.C80_independent: Classical.choice, Quot.sound, propext
TClifford.C81_gram: Classical.choice, Quot.sound, propext
TClifford.C81_mag2: Classical.choice, Quot.sound, propext
TClifford.C82_hyperplanes: Classical.choice, Quot.sound, propext
TClifford.C82_parallel: Classical.choice, Quot.sound, propext
TClifford.C82_join: Classical.choice, Quot.sound, propext
TClifford.C82_contains: Classical.choice, Quot.sound, propext
TClifford.C82_dependent: Classical.choice, Quot.sound, propext
TClifford.C83_versor_det: Classical.choice, Quot.sound, propext
TClifford.C83_rotation: Classical.choice, Quot.sound, propext
TClifford.C83_rotation_det: Classical.choice, Quot.sound, propext
TClifford.C83_angle: Classical.choice, Quot.sound, propext
TClifford.C83_readme_rotor: Classical.choice, Quot.sound, propext
TClifford.C83_readme_det: Classical.choice, Quot.sound, propext
TClifford.C84_half_spin_size: Classical.choice, Quot.sound, propext
TClifford.C84_irreducible_first: Classical.choice, Quot.sound, propext
TClifford.C84_irreducible_second: Classical.choice, Quot.sound, propext
TClifford.C84_inequivalent: Classical.choice, Quot.sound, propext
TClifford.C84_equivalent: Classical.choice, Quot.sound, propext
TClifford.C84_onto_even: Classical.choice, Quot.sound, propext
TClifford.C84_onto_odd: Classical.choice, Quot.sound, propext
TClifford.C85_adjoint: Classical.choice, Quot.sound, propext
TClifford.C85_adjoint_half_spin: Classical.choice, Quot.sound, propext
TClifford.C85_parseval: Classical.choice, Quot.sound, propext
TClifford.C85_unitary: Classical.choice, Quot.sound, propext
TClifford.C85_unitary_euclidean: Classical.choice, Quot.sound, propext
TClifford.C85_half_spin_unitary: Classical.choice, Quot.sound, propext
TClifford.C86_clifft: Classical.choice, Quot.sound, propext
TClifford.C86_clifft_into: Classical.choice, Quot.sound, propext
TClifford.C86_iclifft: Classical.choice, Quot.sound, propext
TClifford.C86_fft: Classical.choice, Quot.sound, propext
TClifford.C86_ifft: Classical.choice, Quot.sound, propext
TClifford.C86_real_fft: Classical.choice, Quot.sound, propext
TClifford.C86_clifft_nn_odd: Classical.choice, Quot.sound, propext
TClifford.C86_from_array3: Classical.choice, Quot.sound, propext
TClifford.C87_random_trace: Classical.choice, Quot.sound, propext
TClifford.C87_dc: Classical.choice, Quot.sound, propext
TClifford.Tests.C87_fmt: Classical.choice, Quot.sound, propext
TClifford.C87_irrep: Classical.choice, Quot.sound, propext
TClifford.C87_fft_inv: Classical.choice, Quot.sound, propext
TClifford.C87_pga: Classical.choice, Quot.sound, propext
TClifford.Tests.C87_basic: Classical.choice, Quot.sound, propext
TClifford.Tests.C87_division: Classical.choice, Quot.sound, propext
TClifford.Tests.C87_wedge: Classical.choice, Quot.sound, propext
TClifford.Tests.C87_vee: Classical.choice, Quot.sound, propext
TClifford.Tests.C87_dual: Classical.choice, Quot.sound, propext
TClifford.Tests.C87_magnitude: Classical.choice, Quot.sound, propext
TClifford.Tests.C87_trace: Classical.choice, Quot.sound, propext
TClifford.Tests.C87_expected_values: Classical.choice, Quot.sound, propext
TClifford.Tests.C87_corner_cases: Classical.choice, Quot.sound, propext
TClifford.Tests.C87_even: propext
TClifford.Tests.C87_quat: Classical.choice, Quot.sound, propext
TClifford.Tests.C87_minv: Classical.choice, Quot.sound, propext
TClifford.C87_exp_rotation: Classical.choice, Quot.sound, propext
TClifford.C87_exp_boost: Classical.choice, Quot.sound, propext
TClifford.C87_bivector_square: Classical.choice, Quot.sound, propext
TClifford.C87_sparse: Classical.choice, Quot.sound, propext
TClifford.C87_binomial: Classical.choice, Quot.sound, propext
TClifford.Tests.C87_clifft_ndarray: Classical.choice, Quot.sound, propext
TClifford.Tests.C87_alpha: Classical.choice, Quot.sound, propext
TClifford.Tests.C87_imaginary_flip: Classical.choice, Quot.sound, propext
TClifford.Tests.C87_transposition: Classical.choice, Quot.sound, propext
TClifford.Tests.C87_reversal: Classical.choice, Quot.sound, propext
TClifford.Tests.C87_clifft_square: Classical.choice, Quot.sound, propext
TClifford.Tests.C87_clifft_mul: Classical.choice, Quot.sound, propext
TClifford.C87_dual_dual: Classical.choice, Quot.sound, propext
TClifford.C87_metric_dual: Classical.choice, Quot.sound, propext
TClifford.C87_rotated_dual: Classical.choice, Quot.sound, propext
TClifford.C87_hodge_odd: Classical.choice, Quot.sound, propext
TClifford.Tests.C87_basic_exp: Classical.choice, Quot.sound, propext
TClifford.Tests.C87_dual_exp: Classical.choice, Quot.sound, propext
TClifford.Tests.C87_magnitude_exp: Classical.choice, Quot.sound, propext
TClifford.Tests.C87_labels: propext
TClifford.Tests.C87_signs: propext
TClifford.Tests.C87_basis: Classical.choice, Quot.sound, propext
TClifford.Tests.C87_dual_two: Classical.choice, Quot.sound, propext
TClifford.Tests.C87_intersection: Classical.choice, Quot.sound, propext
TClifford.Tests.C87_quat_matrices: Classical.choice, Quot.sound, propext
TClifford.Tests.C87_rcho: Classical.choice, Quot.sound, propext
TClifford.Tests.C87_quat_nested: Classical.choice, Quot.sound, propext
TClifford.Tests.C87_minv_f64: Classical.choice, Quot.sound, propext
TClifford.Tests.C87_minv_quat: Classical.choice, Quot.sound, propext
TClifford.C87_random_fast_wedge: Classical.choice, Quot.sound, propext
TClifford.C87_random_vee: Classical.choice, Quot.sound, propext
TClifford.C87_random_automorphisms: Classical.choice, Quot.sound, propext
TClifford.C87_random_vdot: Classical.choice, Quot.sound, propext
TClifford.C87_random_hodge: Classical.choice, Quot.sound, propext
TClifford.C87_binomial_float: Classical.choice, Quot.sound, propext
TClifford.C87_binomial_f64: Classical.choice, Quot.sound, propext
TClifford.C87_random_hodge_dot: Classical.choice, Quot.sound, propext
TClifford.C87_random_metric_dot: Classical.choice, Quot.sound, propext
TClifford.C87_random_cmag2: Classical.choice, Quot.sound, propext
TClifford.C87_fast_wedge: Classical.choice, Quot.sound, propext
TClifford.C88_complex_iterations: Classical.choice, Quot.sound, propext
TClifford.C88_complex_real: Classical.choice, Quot.sound, propext
TClifford.C88_complex_conj: Classical.choice, Quot.sound, propext
TClifford.C88_hypot_exact: Classical.choice, Quot.sound, propext
TClifford.C88_complex_accuracy: Classical.choice, Quot.sound, propext
TClifford.C88_complex_null_exact: Classical.choice, Quot.sound, propext
TClifford.C88_fft_complex_accuracy: Classical.choice, Quot.sound, propext
TClifford.C88_fft_iterations: Classical.choice, Quot.sound, propext
TClifford.C88_fft_accuracy: Classical.choice, Quot.sound, propext
TClifford.C88_hypot: Classical.choice, Quot.sound, propext
TClifford.C88_fft_null_exact: Classical.choice, Quot.sound, propext
TClifford.C88_fft_null_f64: Classical.choice, Quot.sound, propext
TClifford.C88_sqrt: Classical.choice, Quot.sound, propext
TClifford.C88_coefficients: Classical.choice, Quot.sound, propext
TClifford.C88_iterations: Classical.choice, Quot.sound, propext
TClifford.C88_error: Classical.choice, Quot.sound, propext
TClifford.C88_accuracy: Classical.choice, Quot.sound, propext
TClifford.C88_null_exact: Classical.choice, Quot.sound, propext
TClifford.C88_null_large_false: Classical.choice, Quot.sound, propext
TClifford.C89_infinity: Classical.choice, Quot.sound, propext
TClifford.C89_reflection: Classical.choice, Quot.sound, propext
TClifford.C89_mirrors: Classical.choice, Quot.sound, propext
TClifford.C89_around_point: Classical.choice, Quot.sound, propext
TClifford.C89_distance: Classical.choice, Quot.sound, propext
TClifford.C89_isometry: Classical.choice, Quot.sound, propext
TClifford.C89_rotor_pow: Classical.choice, Quot.sound, propext
TClifford.C89_rotor_half: Classical.choice, Quot.sound, propext
TClifford.C89_rotor: Classical.choice, Quot.sound, propext
TClifford.C90_center: Classical.choice, Quot.sound, propext
TClifford.C90_generators: Classical.choice, Quot.sound, propext
TClifford.C90_twisted: Classical.choice, Quot.sound, propext
TClifford.C91_orthogonal: Classical.choice, Quot.sound, propext
TClifford.C91_rotation: Classical.choice, Quot.sound, propext
TClifford.C91_inverse: Classical.choice, Quot.sound, propext
TClifford.C91_unique: Classical.choice, Quot.sound, propext
TClifford.C92_diagonal: Classical.choice, Quot.sound, propext
TClifford.C92_singular_false: Classical.choice, Quot.sound, propext
TClifford.C92_invertible_false: Classical.choice, Quot.sound, propext
TClifford.C92_large_scalar_false: Classical.choice, Quot.sound, propext
TClifford.C92_small_scalar_false: Classical.choice, Quot.sound, propext
TClifford.C92_minv: Classical.choice, Quot.sound, propext
TClifford.C93_exists: Classical.choice, Quot.sound, propext
TClifford.C93_add: Classical.choice, Quot.sound, propext
TClifford.C93_neg: Classical.choice, Quot.sound, propext
TClifford.C93_rev: Classical.choice, Quot.sound, propext
TClifford.C93_rotor: Classical.choice, Quot.sound, propext
TClifford.C93_grades: Classical.choice, Quot.sound, propext
TClifford.C93_products: Classical.choice, Quot.sound, propext
TClifford.C93_matrix: Classical.choice, Quot.sound, propext
TClifford.C93_error: Classical.choice, Quot.sound, propext
TClifford.C94_zero_divisors: Classical.choice, Quot.sound, propext
TClifford.C94_nondegenerate_iff: Classical.choice, Quot.sound, propext
TClifford.C94_division_iff: Classical.choice, Quot.sound, propext
TClifford.C95_spreads: Classical.choice, Quot.sound, propext
TClifford.C95_mul: Classical.choice, Quot.sound, propext
TClifford.C95_wedge: Classical.choice, Quot.sound, propext
TClifford.C95_local: Classical.choice, Quot.sound, propext
TClifford.C95_dense_no_zeros: Classical.choice, Quot.sound, propext
TClifford.C95_zero: Classical.choice, Quot.sound, propext
TClifford.C95_wedge_dense: Classical.choice, Quot.sound, propext
TClifford.C95_sparse_no_zeros: Classical.choice, Quot.sound, propext
TClifford.C95_quaternion: Classical.choice, Quot.sound, propext
TClifford.C95_false: Classical.choice, Quot.sound, propext
TClifford.C95_stored_zero_false: Classical.choice, Quot.sound, propext
TClifford.C95_fft: Classical.choice, Quot.sound, propext
TClifford.C95_fft_complex: Classical.choice, Quot.sound, propext
TClifford.C95_fft_f32: Classical.choice, Quot.sound, propext
TClifford.C95_fft_false: Classical.choice, Quot.sound, propext
TClifford.C96_eq: Quot.sound, propext
TClifford.C96_no_ub: Quot.sound, propext
TClifford.C96_value: Quot.sound, propext
TClifford.C96_panic: Classical.choice, Quot.sound, propext
TClifford.C96_basis: Classical.choice, Quot.sound, propext
TClifford.C96_signature: Classical.choice, Quot.sound, propext
TClifford.C97_roundtrip: Classical.choice, Quot.sound, propext
TClifford.C97_translate: Classical.choice, Quot.sound, propext
TClifford.C97_hyperplane: Classical.choice, Quot.sound, propext
TClifford.C97_incidence: Classical.choice, Quot.sound, propext
TClifford.C97_exact_model: Classical.choice, Quot.sound, propext
TClifford.C97_readme: Classical.choice, Quot.sound, propext
TClifford.C97_exact_false: Classical.choice, Quot.sound, propext
TClifford.C97_range_false: Classical.choice, Quot.sound, propext
TClifford.C97_origin_false: Classical.choice, Quot.sound, propext
TClifford.C97_cancels: Classical.choice, Quot.sound, propext
TClifford.C98_div: Classical.choice, Quot.sound, propext
TClifford.C98_div_norm: Classical.choice, Quot.sound, propext
TClifford.C98_self: Classical.choice, Quot.sound, propext
TClifford.C98_revm: Classical.choice, Quot.sound, propext
TClifford.C98_revm_euclidean: Classical.choice, Quot.sound, propext
TClifford.C98_normalize: Classical.choice, Quot.sound, propext
TClifford.C98_normalize_negative: Classical.choice, Quot.sound, propext
TClifford.C98_exact_model: Classical.choice, Quot.sound, propext
TClifford.C98_exact_false: Classical.choice, Quot.sound, propext
TClifford.C98_range_false: Classical.choice, Quot.sound, propext
TClifford.C98_zero: Classical.choice, Quot.sound, propext
TClifford.C98_revm_false: Classical.choice, Quot.sound, propext
TClifford.C98_normalize_nan: Classical.choice, Quot.sound, propext
TClifford.C98_div_mul: Classical.choice, Quot.sound, propext
TClifford.C98_div_mul_exact_false: Classical.choice, Quot.sound, propext
TClifford.C99_cmag2: Classical.choice, Quot.sound, propext
TClifford.C99_vdot: Classical.choice, Quot.sound, propext
TClifford.C99_mag2: Classical.choice, Quot.sound, propext
TClifford.C99_fft_ntrace_gaussian: Classical.choice, Quot.sound, propext
TClifford.C99_fft_ntrace: Classical.choice, Quot.sound, propext
TClifford.C99_fft_mag2_gaussian: Classical.choice, Quot.sound, propext
TClifford.C99_fft_mag2: Classical.choice, Quot.sound, propext
TClifford.C99_fft_mag2_f64: Classical.choice, Quot.sound, propext
TClifford.C99_fft_pow_f64: Classical.choice, Quot.sound, propext
TClifford.C99_gaussian: Classical.choice, Quot.sound, propext
TClifford.C99_identity: Classical.choice, Quot.sound, propext
TClifford.C99_expression: Classical.choice, Quot.sound, propext
TClifford.C99_fft_gaussian: Classical.choice, Quot.sound, propext
TClifford.C99_fft_agree: Classical.choice, Quot.sound, propext
TClifford.C99_fft_expression: Classical.choice, Quot.sound, propext
TClifford.C99_fft_mul: Classical.choice, Quot.sound, propext
TClifford.C99_fft_mul_c64: Classical.choice, Quot.sound, propext
TClifford.C99_fft_mul_c32: Classical.choice, Quot.sound, propext
TClifford.C99_expression_c64: Classical.choice, Quot.sound, propext
TClifford.C99_real: Classical.choice, Quot.sound, propext
TClifford.C99_real_scalars: Classical.choice, Quot.sound, propext
TClifford.C99_conj: Classical.choice, Quot.sound, propext
TClifford.C99_imaginary: Classical.choice, Quot.sound, propext
