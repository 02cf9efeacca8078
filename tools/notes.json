{
 "C43": {
  "status": "partial",
  "note": "True for at most 63 generators; the code breaks it for 64 generators (1 << 64): proved false there, see C43_not_usable_64."
 },
 "C16": {
  "note": "The documentation's 'magnitude of s.revm() * s is one' is proved false; only the scalar part is one."
 },
 "C20": {
  "status": "partial",
  "note": "Proved for every history of constructors and operations; the code breaks it for filter_inplace with a closure that writes a zero through its &mut T: proved false there, see C20_filter_inplace_mut_false."
 },
 "C23": {
  "status": "partial",
  "note": "Proved for k < 2^32; the code breaks it beyond: sparse extraction uses k mod 2^32 (C23_sparse_truncation, C23_grade_2_32_false), dense extraction is empty up to 2^63 (C23_dense_above) and does not return from there on (C22_huge_grade_false)."
 },
 "C26": {
  "status": "partial",
  "note": "Everything proved except out-of-range reads of dense storage at index exactly 2^dim, where the code panics: C26_get_oob_dense_false."
 },
 "C37": {
  "status": "partial",
  "note": "Proved for algebras with at most 2 generators and, in every dimension, for multivectors whose scalar part is larger in norm than the sum of the norms of all other coefficients (C37_inv_dominant_partial), or equal to it if they have an inverse (C37_inv_weakly_dominant_partial), for instance 1 + b for a basis blade b (C37_one_plus_blade_partial); and for all multivectors outside the zero set of a non-zero polynomial in the coefficients, so for a dense set (C37_inv_generic_partial, C37_inv_dense_partial). The code breaks it beyond: matrix_inv returns None whenever a diagonal entry below the current pivot is zero after elimination, although a later row swap would repair it, so in every non-degenerate algebra of dimension >= 3 even the first basis vector's fft().inv() is None (C37_inv_misses_vector)."
 },
 "C44": {
  "note": "Division by zero: dense and sparse storage return the zero multivector because the zero coefficients are never divided (C44_div_by_zero); quaternion storage divides zero by zero, which is NaN in the code and an error in the model (C44_div_by_zero_quaternion)."
 },
 "C45": {
  "status": "partial",
  "note": "Everything proved except multiplicativity of the norm for complex coefficients, which the code breaks (zero divisors with non-zero norm), see C45_norm_complex_false. For real coefficients it is proved (C45_norm_real)."
 },
 "C46": {
  "status": "partial",
  "note": "Proved for every point except the origin; the code breaks it there: pga_point of the origin divides by its length zero (C46_origin_false). Without that scaling every point including the origin is recovered (C46_unscaled)."
 },
 "C47": {
  "status": "partial",
  "note": "Everything proved (also composition, inverse, bivector form, exp, hyperplanes) except moving pga_point of the origin, which does not exist (C46_origin_false); the unscaled origin is included in C47_translate_partial. The exponential of the bivector is proved for directions with |v_k|/2 <= 2^64 - 1 and false beyond, where the exponent of exp saturates (C47_exp_partial, C47_exp_false)."
 },
 "C48": {
  "status": "partial",
  "note": "Proved for every hyperplane with a non-zero coefficient and every point, including the unscaled origin; pga_point of the origin is not finite (C48_origin_false)."
 },
 "C49": {
  "status": "partial",
  "note": "The code accepts one entry too many: Ok iff at most d+1 entries (C49_ok_iff_partial); the extra entry goes to the null basis vector (C49_extra_entry_false)."
 },
 "C50": {
  "status": "partial",
  "note": "The text denotes the multivector in both forms (C50_text_partial), for coefficient texts without spaces or parentheses and axis names that are distinct, non-empty, without '^' or ' ' and not '+'; default names always qualify (C50_default_names). The claim on labels is false for distinct names alone: C50_labels_collide_false; C50_labels_distinct_partial has the conditions needed. For multivectors of multivectors, to any depth, the text denotes the value if no two of the algebras share an axis name and no name contains a parenthesis (C50_nested_partial); when the coefficient algebra shares an axis name with the outer one the text is always ambiguous (C50_nested_same_names_false). With f64 and f32 coefficients and the decimal texts of the standard library: C50_float_text_partial, C50_float_text_injective_partial; with Complex64 and Complex32 coefficients and the texts of num-complex: C50_complex_text_partial, C50_complex_text_injective_partial."
 },
 "C59": {
  "status": "partial",
  "note": "Proved: the beginning of the buffer, and the shape error. The code breaks the rest: entries behind the result are multiplied by powers of -i (C59_iclifft_into_long_partial, C59_tail_untouched_false), and a buffer that is too short panics instead of being reported (C59_iclifft_into_short)."
 },
 "C63": {
  "status": "partial",
  "note": "The documented claim is proved for basis blades in all metrics (C63_basis_blades) and for wedges of vectors in Euclidean algebras over ordered fields (C63_blades_partial). It is false for wedges of vectors in other metrics (C63_other_metric_false: e0+e1 in [+,-] and in [+,0]). C63_iff says exactly when it holds: b.dual()*b is a multiple of the pseudoscalar for all wedges of vectors if and only if all generators have the same square; C63_uniform_partial is the positive half. The wedge forms (C63_vsdot, C63_hodge) and the product form (C63_dual_is_product) are proved in full."
 },
 "C72": {
  "status": "partial",
  "note": "False: the sum over the entries of the hash map is rounded in iteration order, so the same sparse f64 product can be 2^53 or 2^53+2 (C72_order_false); associativity and distributivity fail too (C72_laws_false). Proved: two storages or hash orders differ by at most twice the bound of C70 (C72_storages_partial); for integers they agree (C71)."
 },
 "C53": {
  "status": "partial",
  "note": "Everything proved except square-zero elements with coefficients above 2^64 - 1, and the exponent of the formula there, which the code breaks: `max_c as usize` saturates at 2^64 - 1 while the division uses max_c itself, so exp returns 1 + a (2^64-1)/max_c instead of 1 + a (C53_square_zero_value, C53_square_zero_false)."
 },
 "C22": {
  "status": "partial",
  "note": "Proved for all grades below 2^63, in debug and release builds. The code breaks it beyond: self.weight as isize is negative there, and the first call of next() does not return (C22_huge_grade_false)."
 },
 "C92": {
  "status": "proved",
  "note": "Findings proved as counterexamples: with f64, inv can return Some for a zero divisor (C92_singular_false), None for an invertible multivector with small integer coefficients (C92_invertible_false), NaN entries for the scalar 2^600 (C92_large_scalar_false) and None for 2^-540 (C92_small_scalar_false); the last two because num-complex squares the pivot when dividing."
 },
 "C95": {
  "status": "proved",
  "note": "Findings proved as counterexamples: wedge products of an infinity and zero depend on storage and dimension (C95_false), and a sparse multivector that equals zero can have a product with an infinity that is not zero (C95_stored_zero_false). Infinities and NaN are one value of the model; multiplication, addition and negation of it are not finite in IEEE arithmetic either way. The product through the transforms has no finite coefficient for an infinity times zero (C95_fft_false)."
 },
 "C97": {
  "status": "proved",
  "note": "The origin and coordinates outside of the range are excluded in the statement; what happens there is proved by counterexamples in IEEE arithmetic (C97_range_false, C97_origin_false), as is that the round trip is not exact (C97_exact_false)."
 },
 "C98": {
  "status": "proved",
  "note": "Division by zero, coefficients outside of the range and mag2 that cancels are excluded in the statement of the bounds; what happens there is proved by counterexamples in IEEE arithmetic (C98_range_false, C98_revm_false, C98_zero)."
 },
 "C56": {
  "status": "proved",
  "note": "Findings proved as counterexamples: revcm is not revc() / mag2() as its documentation says (C56_doc_claim_false), and the magnitude of revcm(a)*a is not one (C56_doc_magnitude_false)."
 }
}