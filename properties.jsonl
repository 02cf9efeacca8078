{"id": "C01", "title": "Basis-blade geometric product sign is the reordering sign", "statement": "ClAlgebra::blade_geo_product_sign(a,b) is exactly the sign obtained by concatenating the generator words of the two blades (generators written in descending index order), sorting with one sign flip per transposition of distinct generators and replacing each repeated generator by its square (+1/-1/0 from the declared signature); it never panics for in-range indices.", "quantifier": "every algebra accepted by declare_algebra! (any signature, up to 63 generators), every pair of blade indices a,b < 2^dim", "why_tests_cant": "4^dim index pairs for each of 3^dim signatures; tests check a dozen pairs in one signature.", "anchors": ["src/algebra.rs: ac_product_sign, blade_geo_product_sign, ac_negated_product_sign", "src/precomputed.rs"]}
{"id": "C02", "title": "Precomputed sign table agrees with the general algorithm", "statement": "For algebras of dimension <= 6 the answer is read from a table; for every dimension 0..6 and every pair of in-range indices the table answer is the same as that of the loop used for larger dimensions, so the answer does not depend on which path is taken.", "quantifier": "every dim <= 6 and every a,b < 2^dim (whole finite table)", "why_tests_cant": "The repository test covers exactly the table; the claim that nothing else changes at the 6/7 boundary (including the negated lookups) is a universal statement over indices.", "anchors": ["src/precomputed.rs: AC_PRODUCT_SIGNS", "src/algebra.rs: ac_product_sign"]}
{"id": "C03", "title": "Multiplication is the Clifford algebra product", "statement": "The map sending a multivector to the sum of its coefficients times ordered products of generators in the (Mathlib) Clifford algebra of the declared diagonal quadratic form sends `a * b` to the product of images; it is a bijection onto the Clifford algebra.", "quantifier": "every algebra accepted by declare_algebra! (any signature, up to 63 generators), every commutative coefficient ring, every pair of multivectors, both dense and sparse storage", "why_tests_cant": "Universally quantified over ring elements, signatures and dimensions; tests compare two implementations on random floats.", "anchors": ["src/lib.rs: naive_mul_impl", "src/ops.rs: mul"]}
{"id": "C04", "title": "Geometric product is associative", "statement": "(a * b) * c == a * (b * c).", "quantifier": "all multivectors a,b,c over any (possibly non-commutative) coefficient ring, any algebra, any storage", "why_tests_cant": "Identity over all inputs; random float tests only check approximate instances.", "anchors": ["src/lib.rs: naive_mul_impl", "src/ops.rs: mul"]}
{"id": "C05", "title": "Geometric product is bilinear and unital", "statement": "(a+b)*c == a*c+b*c, a*(b+c) == a*b+a*c, one()*a == a == a*one(), zero()*a == zero() == a*zero(); scalar multiplication by a central scalar moves freely through products.", "quantifier": "all multivectors over any coefficient ring, any algebra, any storage", "why_tests_cant": "Identity over all inputs.", "anchors": ["src/lib.rs: naive_mul_impl, One, Zero", "src/ops.rs"]}
{"id": "C06", "title": "Generator relations", "statement": "basis()[i] * basis()[i] equals the scalar signature()[i], and basis()[i] * basis()[j] == -(basis()[j] * basis()[i]) for i != j.", "quantifier": "every algebra accepted by declare_algebra! (any signature, up to 63 generators), every pair of generators", "why_tests_cant": "Tests do one 8-dimensional algebra.", "anchors": ["src/algebra.rs: ClBasis::basis, basis_sparse, signature"]}
{"id": "C07", "title": "wedge is the exterior product in every dimension", "statement": "a.wedge(&b) computes the exterior (Grassmann) product: its coefficient at blade K is the sum over disjoint splits K = I u J of reordering-sign * a_I * b_J, regardless of the metric, and it maps to the product of Mathlib's exterior algebra.", "quantifier": "all multivectors, any algebra, any coefficient ring; both the naive path (dim < 6, sparse) and the recursive in-place path (dim >= 6, dense)", "why_tests_cant": "Two different algorithms selected by dimension; tests compare them on a few inputs in dimension 6 and 8.", "anchors": ["src/mv_dense.rs: wedge, wedge_impl", "src/lib.rs: naive_wedge_impl", "src/mv_sparse.rs: wedge"]}
{"id": "C08", "title": "The in-place recursive wedge restores its scratch operand and ignores the destination's prior content", "statement": "After a dense wedge in dimension >= 6, the left operand's buffer holds its original coefficients, and the result does not depend on what the destination buffer held before.", "quantifier": "all buffers of length 2^n for every n, every ring", "why_tests_cant": "The algorithm negates parts of its input in place and restores them at every recursion level; a missed restore only shows on particular coefficient patterns.", "anchors": ["src/mv_dense.rs: wedge_impl"]}
{"id": "C09", "title": "wedge is associative, alternating on vectors and graded", "statement": "(a^b)^c == a^(b^c); v^v == 0 for vectors v; wedge of a grade-p and a grade-q multivector is of grade p+q; vectors anticommute under wedge.", "quantifier": "all multivectors, all algebras, all coefficient rings (commutative where needed)", "why_tests_cant": "Identity over all inputs.", "anchors": ["src/lib.rs: naive_wedge_impl", "src/mv_dense.rs: wedge"]}
{"id": "C10", "title": "meet is the De Morgan dual of wedge", "statement": "a.meet(&b) == a.dual().wedge(&b.dual()).undual(), on both code paths (direct sign formula for dim < 6 and sparse; dual-wedge-undual for dense dim >= 6), in exact arithmetic. With f64 coefficients the direct formula sums in another order, and the results can differ by rounding errors.", "quantifier": "all multivectors, all algebras, all storages", "why_tests_cant": "Two different algorithms; tests use random 3- and 8-dimensional inputs.", "anchors": ["src/lib.rs: naive_meet_impl", "src/mv_dense.rs: meet"]}
{"id": "C11", "title": "dual and undual are mutually inverse and never hit the unreachable branch", "statement": "a.dual().undual() == a and a.undual().dual() == a; neither call panics. With f32, f64, Complex32 and Complex64 coefficients this holds exactly, and both duals commute exactly with + and -.", "quantifier": "all multivectors, all algebras including degenerate ones, all storages", "why_tests_cant": "unreachable!() branches and sign conventions depend on every index.", "anchors": ["src/lib.rs: dual, undual"]}
{"id": "C12", "title": "dual is the (metric-free) Hodge dual", "statement": "For every multivector a, b the pseudoscalar coefficient of a.dual().wedge(&b) equals a.vsdot(&b); for a basis blade B, B.dual().wedge(&B) is the pseudoscalar with coefficient 1, and B.wedge(&B.undual()) likewise.", "quantifier": "all multivectors / blades, all algebras", "why_tests_cant": "Identity over all inputs.", "anchors": ["src/lib.rs: dual, undual, vsdot"]}
{"id": "C13", "title": "rev is an involutive anti-automorphism reversing every blade", "statement": "rev(rev(a)) == a; rev(a*b) == rev(b)*rev(a) over commutative coefficients; rev(a^b) == rev(b)^rev(a); the reverse of a product of generators is the product in reversed order. With f32, f64, Complex32 or Complex64 coefficients in dense multivectors, rev(rev(a)) == a, rev(a+b) == rev(a)+rev(b), rev(a-b) == rev(a)-rev(b), rev(a).vdot(rev(b)) == a.vdot(b) and rev(a).mag2() == a.mag2() stay exact, up to the signs of zeros and the kind of non-finite values, while rev(a*b) == rev(b)*rev(a) does not: the sums are taken in another order, and in f64 a coefficient can be 0 on one side and 1 on the other.", "quantifier": "all multivectors, algebras, storages; all words of generators", "why_tests_cant": "Identity over all inputs.", "anchors": ["src/lib.rs: rev, rev_c"]}
{"id": "C14", "title": "flip and flip_subspace are involutive automorphisms", "statement": "flip(a*b) == flip(a)*flip(b), flip(flip(a)) == a, flip negates every generator; flip_subspace(mask) has the same properties for every mask and negates exactly the generators in mask; both preserve wedge. With f32, f64, Complex32 or Complex64 coefficients in dense multivectors all of this is exact under rounding for naive products, up to the signs of zeros and the kind of non-finite values, and flip(a).pow(n) == flip(a.pow(n)), flip(a).vdot(flip(b)) == a.vdot(b), flip(a).mag2() == a.mag2(); exp of f64 multivectors commutes exactly with flip_subspace.", "quantifier": "all multivectors, algebras, masks, coefficient rings", "why_tests_cant": "Identity over all inputs and 2^dim masks.", "anchors": ["src/lib.rs: flip, flip_subspace"]}
{"id": "C15", "title": "vdot and mag2 are the advertised scalar parts", "statement": "a.vdot(&b) == (a*b).scalar_part() and a.mag2() == (a.rev()*a).scalar_part(), for every storage. The first also with floating point coefficients, exactly and including all roundings, if those of a are finite (otherwise vdot can be NaN where the product is zero); the second for dense multivectors.", "quantifier": "all multivectors, algebras (degenerate included), coefficient rings", "why_tests_cant": "Documented equivalence must hold for all inputs.", "anchors": ["src/lib.rs: vdot, mag2, scalar_part"]}
{"id": "C16", "title": "revm normalises: scalar part of a.revm()*a is one", "statement": "Whenever a.mag2() is non-zero, (a.revm() * a).scalar_part() == 1, and a.revm() == a.rev() / a.mag2().", "quantifier": "all multivectors over a field, all algebras", "why_tests_cant": "Identity over all inputs with a guard.", "anchors": ["src/lib.rs: revm, mag2"]}
{"id": "C17", "title": "pow is repeated multiplication", "statement": "a.pow(n) equals the n-fold product a*a*...*a (one() for n = 0), and a.pow(m+n) == a.pow(m)*a.pow(n).", "quantifier": "every multivector and every exponent n", "why_tests_cant": "Unbounded exponent; binary powering has parity branches.", "anchors": ["src/lib.rs: pow", "src/fftrepr/mod.rs: pow"]}
{"id": "C18", "title": "Dense and sparse multivectors compute the same results", "statement": "Every operation available on both storages (add, sub, neg, mul, wedge, meet, scalar mul, rev, flip, dual, undual, grade extraction, pow, dot products, division by a number or a multivector, revm, revcm, exp) gives, after to_sparse()/to_dense(), the same coefficients, or fails on both for the same reason (a division by zero); conversions are mutually inverse.", "quantifier": "all multivectors, all algebras", "why_tests_cant": "Requires agreement for all inputs.", "anchors": ["src/mv_dense.rs: to_sparse", "src/mv_sparse.rs: to_dense", "src/lib.rs: to_storage_type"]}
{"id": "C19", "title": "Sparse results do not depend on hash-map iteration order", "statement": "For every iteration order a HashMap may produce, each sparse operation returns a multivector with the same coefficients.", "quantifier": "all iteration orders (schedules of the hash map), all inputs", "why_tests_cant": "The iteration order is randomised per process; a test sees one order.", "anchors": ["src/coeff_storage.rs: SparseStorage", "src/lib.rs"]}
{"id": "C20", "title": "Sparse multivectors store only in-range, non-zero coefficients", "statement": "After any sequence of constructors and operations, every stored index is < 2^dim, keys are unique and no stored coefficient is zero; hence coeff_count() is the number of non-zero coefficients.", "quantifier": "all finite operation sequences (histories) starting from any constructor", "why_tests_cant": "Invariant over all histories.", "anchors": ["src/coeff_storage.rs: SparseStorage::set_by_idx", "src/mv_sparse.rs: coeff_count"]}
{"id": "C21", "title": "Equality is coefficient equality", "statement": "a == b exactly when get_by_idx agrees on every in-range index, for each storage; it is an equivalence relation; a.is_zero() iff a == zero(); a - b == zero() iff a == b.", "quantifier": "all multivectors of an algebra, every storage", "why_tests_cant": "Holds for all inputs.", "anchors": ["src/coeff_storage.rs: PartialEq", "src/lib.rs: is_zero, PartialEq"]}
{"id": "C22", "title": "Grade iteration enumerates each blade of the grade exactly once", "statement": "grade_index_iter(k) yields every index < 2^dim having exactly k set bits, each exactly once, in strictly decreasing order, binomial(dim,k) of them, then None forever (fused). index_iter() yields every index < 2^dim in increasing order, the indices of all grades together.", "quantifier": "every dim and every grade k (including k > dim and k = 0)", "why_tests_cant": "The iterator is a mutable recursive state machine with node reuse; tests cover dim < 16.", "anchors": ["src/index_utils.rs: GradeIter::next, refresh, grade_iter"]}
{"id": "C23", "title": "Grade extraction is a projection and grades partition the multivector", "statement": "grade_extract(k) keeps exactly the coefficients of grade k; it is idempotent, different grades annihilate, and the sum over all k of grade_extract(k) equals the multivector; dense and sparse agree for k < 2^32.", "quantifier": "all multivectors, all grades, every storage", "why_tests_cant": "All inputs and grades.", "anchors": ["src/lib.rs: grade_extract, grade_extract_as", "src/coeff_storage.rs: grade_enumerate"]}
{"id": "C24", "title": "from_vector accepts exactly dim coefficients and extract_vector inverts it", "statement": "from_vector(v) is Ok iff v yields exactly dim items (InvalidShape otherwise, also for infinite iterators' prefixes), extract_vector(from_vector(v)) == v, and all other coefficients are zero.", "quantifier": "all input sequences of any length, all algebras, storages", "why_tests_cant": "All lengths and contents.", "anchors": ["src/lib.rs: from_vector, from_vector_ref, extract_vector"]}
{"id": "C25", "title": "from_indexed_iter validates indices and the last write wins", "statement": "from_indexed_iter(it) is Err(IndexOutOfBounds) iff some index is >= 2^dim; otherwise each coefficient is the last value given for its index, or zero. The calls of from_indexed_iter inside of the library (neg, revc, cmag2, filter, grades_extract, complexify, decomplexify, into_original), which are unwrapped, never give an Err.", "quantifier": "all finite input sequences, all algebras, storages", "why_tests_cant": "All sequences including repeated indices.", "anchors": ["src/lib.rs: from_indexed_iter, from_indexed_iter_ref"]}
{"id": "C26", "title": "Coefficient access: read-your-writes; out-of-range writes are ignored, out-of-range reads are zero", "statement": "get after set returns the value written and other coefficients are unchanged; set with index >= 2^dim has no effect; get with index >= 2^dim returns zero.", "quantifier": "all multivectors, all indices, both storages", "why_tests_cant": "All indices; the boundary index 2^dim is never tested.", "anchors": ["src/coeff_storage.rs: get_by_idx, set_by_idx", "src/lib.rs: get_by_idx, set_by_idx"]}
{"id": "C27", "title": "clifft and iclifft are mutually inverse", "statement": "For an array of 2^(2m) coefficients iclifft(clifft(x)) == x; for every 2^m x 2^m matrix clifft(iclifft(M)) == M; for 2^(2m-1) coefficients the inverse returns x padded with zeros.", "quantifier": "all m, all coefficient arrays / matrices over a field with sqrt(-1) and 2 invertible (exact arithmetic)", "why_tests_cant": "Unbounded dimension, all inputs.", "anchors": ["src/clifft/mod.rs: clifft, iclifft, clifft_nn_into, iclifft_nn_into"]}
{"id": "C28", "title": "clifft rejects exactly the invalid shapes", "statement": "clifft is Ok iff the input length is a power of two (never panics); iclifft/imaginary_flip/reversal are Ok iff the matrix is square with power-of-two side.", "quantifier": "all input shapes", "why_tests_cant": "All lengths.", "anchors": ["src/clifft/mod.rs: cl_dim, clifft, iclifft, imaginary_flip"]}
{"id": "C29", "title": "clifft turns the Clifford product into the matrix product", "statement": "clifft(a) . clifft(b) == clifft(a*b), where a*b is the geometric product of the all-plus algebra Cl(n); clifft is linear and sends 1 to the identity matrix.", "quantifier": "all n, all coefficient arrays of length 2^n (even and odd n)", "why_tests_cant": "Identity over all inputs and dimensions.", "anchors": ["src/clifft/mod.rs: clifft, clifft_nn"]}
{"id": "C30", "title": "fft followed by ifft is the identity", "statement": "a.fft().ifft() == a.", "quantifier": "every multivector in every algebra (odd numbers of non-null generators and null generators included), real or complex coefficients", "why_tests_cant": "All signatures and inputs.", "anchors": ["src/mv_dense.rs: fft", "src/fftrepr/mod.rs: ifft", "src/complexification.rs"]}
{"id": "C31", "title": "FFT multiplication equals naive multiplication", "statement": "(a.fft() * b.fft()).ifft() == a * b. In exact arithmetic the arrays of the right shape form a ring, transforms of multivectors or not: the product is associative and distributes over addition, and one() is its unit.", "quantifier": "every pair of multivectors in every algebra (odd, degenerate), real or complex coefficients", "why_tests_cant": "Documented equivalence of two unrelated algorithms over all inputs.", "anchors": ["src/fftrepr/mod.rs: mul", "src/fftrepr/wmul.rs: wmul, wmul_impl", "src/mv_dense.rs: fft"]}
{"id": "C32", "title": "FFTRepr add, sub, neg, scalar operations, one and zero correspond to the multivector ones", "statement": "fft(a+b) == fft(a)+fft(b), fft(a-b), fft(-a), fft(a*s) correspond; FFTRepr::one() == one().fft(), FFTRepr::zero() == zero().fft(); shapes always match.", "quantifier": "all multivectors and algebras", "why_tests_cant": "Identity over all inputs.", "anchors": ["src/fftrepr/mod.rs: add, sub, mul, neg, Zero, One"]}
{"id": "C33", "title": "FFTRepr rev and flip correspond to multivector rev and flip", "statement": "a.fft().rev() == a.rev().fft() and a.fft().flip() == a.flip().fft(). With f32, f64, Complex32 or Complex64 coefficients the equalities are exact, rounding included, up to the signs of zeros and the kind of non-finite entries; so are r.rev().ifft() == r.ifft().rev() and r.flip().ifft() == r.ifft().flip() for every array r of the right shape, and in split signatures m.rev().fft() is the transpose of m.flip_subspace(A::imag_mask()).fft(). On arbitrary arrays of the right shape flip() commutes exactly with +, -, *, pow and exp, rev() and flip() are involutions that commute with each other; in exact arithmetic (r * s).rev() == s.rev() * r.rev(); with rounding (Complex64) this still holds exactly if there are at most two generators, none of them null, but not with four generators.", "quantifier": "all multivectors and algebras (odd, degenerate)", "why_tests_cant": "Recursive quadrant swap plus transposition; all inputs.", "anchors": ["src/fftrepr/mod.rs: rev, flip", "src/clifft/mod.rs: reversal, imaginary_flip_inplace, parity_flip"]}
{"id": "C34", "title": "ntrace is the scalar part and FFTRepr::mag2 is mag2", "statement": "a.fft().ntrace() == a.scalar_part() and a.fft().mag2() == a.mag2().", "quantifier": "all multivectors and algebras", "why_tests_cant": "All inputs.", "anchors": ["src/fftrepr/mod.rs: trace, ntrace, mag2"]}
{"id": "C35", "title": "FFTRepr::pow corresponds to multivector pow", "statement": "a.fft().pow(n).ifft() == a.pow(n).", "quantifier": "all multivectors, algebras and exponents", "why_tests_cant": "Unbounded exponent.", "anchors": ["src/fftrepr/mod.rs: pow"]}
{"id": "C36", "title": "FFTRepr::inv is sound", "statement": "If r.inv() is Some(s) then s*r == one() == r*s; if a.fft().inv() is Some(s), then s.ifft() is the two-sided inverse of the multivector a (also for odd-dimensional algebras, where the inverse matrix must stay in the image). Singular inputs yield None. matrix_inv itself is sound for entries in any division ring, quaternions included: the result is a two-sided inverse and the only one.", "quantifier": "every non-degenerate algebra, every representation", "why_tests_cant": "All inputs.", "anchors": ["src/fftrepr/mod.rs: inv", "src/fftrepr/matrix.rs: matrix_inv"]}
{"id": "C37", "title": "FFTRepr::inv finds the inverse of every invertible multivector", "statement": "If a has a two-sided inverse then a.fft().inv() is Some.", "quantifier": "every non-degenerate algebra, every invertible multivector", "why_tests_cant": "Elimination with an early exit; random matrices never hit it.", "anchors": ["src/fftrepr/matrix.rs: matrix_inv"]}
{"id": "C38", "title": "Matrix-level parity_flip, imaginary_flip and reversal implement the algebra automorphisms", "statement": "On clifft(x): parity_flip negates odd-grade coefficients, imaginary_flip negates coefficients with an odd number of odd-position generators, reversal reverses blades.", "quantifier": "all n, all coefficient arrays", "why_tests_cant": "All inputs.", "anchors": ["src/clifft/mod.rs: parity_flip, imaginary_flip, reversal"]}
{"id": "C39", "title": "Half-spin representations are multiplicative on even multivectors", "statement": "For even multivectors a, b the even (odd) half-spin matrix of a*b is the product of those of a and b, of one() is the identity; the odd part of a multivector does not influence the result; together the two blocks determine the even part. The k-th powers of the matrices of an even a are those of a.pow(k).", "quantifier": "all non-degenerate algebras, all even multivectors", "why_tests_cant": "All inputs.", "anchors": ["src/fftrepr/mod.rs: into_half_spin_repr"]}
{"id": "C40", "title": "FFTRepr array constructors accept exactly the right shape and round-trip", "statement": "from_array3(m) is Ok iff the shape is [2^s, 2^ceil(k/2), 2^ceil(k/2)]; into_array3 returns the array; fft() always has that shape; from_array2/into_array2 round-trip for non-degenerate algebras; for an even number of non-null generators every accepted array is the fft of its ifft; for an odd number this is false, and ifft() of a product of such arrays need not be the product of their ifft()s. ifft() and rev() panic for no accepted array, fft() and real_fft() for no multivector. shape() of zero(), one() and of every sum, difference, product, power, negative, multiple and grade involution of arrays of that shape is that shape again, whatever the entries are, NaN and infinities included. The shape [2^s, m/2, m/2] given in the documentation is never that of fft(): the matrices have 2^(m/2) rows.", "quantifier": "all shapes and contents, all algebras", "why_tests_cant": "All shapes.", "anchors": ["src/fftrepr/mod.rs: from_array3, from_array2, into_array3, into_array2"]}
{"id": "C41", "title": "complexify / decomplexify are mutually inverse and multiplicative", "statement": "a.complexify().decomplexify() == a, and (a*b).complexify() == a.complexify()*b.complexify() with the product of the all-plus algebra. The first holds exactly also with f32, f64, Complex32 and Complex64 coefficients (finite ones in the complex cases), and with Complex64 in both orders.", "quantifier": "all algebras, all multivectors", "why_tests_cant": "All signatures and inputs.", "anchors": ["src/complexification.rs: complexify, decomplexify, complexified_iter"]}
{"id": "C42", "title": "declare_algebra! produces exactly the declared signature", "statement": "For an accepted signature, the plus/minus/null masks are disjoint, cover all generators, null generators are last, signature() returns the declared signature, real_dim/imag_dim/proj_dim count the symbols; signatures with a null axis before a non-null one are rejected at compile time, and marker traits (non-degenerate, split, PGA, complex, quaternionic) are given exactly to the matching signatures.", "quantifier": "all signature token lists of any length", "why_tests_cant": "Unbounded set of macro inputs.", "anchors": ["src/algebra.rs: declare_algebra!, produce_mask_*, order_check!, impl_*"]}
{"id": "C43", "title": "Every accepted dimension is usable", "statement": "declare_algebra! accepts up to 64 generators; for each accepted algebra a coefficient stored in a sparse multivector at an in-range index can be read back.", "quantifier": "all accepted dimensions", "why_tests_cant": "A 64-generator algebra is never tested.", "anchors": ["src/algebra.rs: impl_algebra_base!", "src/coeff_storage.rs: SparseStorage::new"]}
{"id": "C44", "title": "Division in the complex and quaternionic algebras", "statement": "For the algebras [-] and [-,-]: if b's norm (b * conj(b)).scalar_part() is non-zero then (a / b) * b == a and b * (one()/b) == one(); over an ordered field every non-zero b is invertible.", "quantifier": "all a, b over a field, all storages", "why_tests_cant": "All inputs.", "anchors": ["src/ops.rs: div"]}
{"id": "C45", "title": "Quaternions satisfy Hamilton's relations", "statement": "i*i == j*j == k*k == i*j*k == -1, i*j == k; conj(a) == a.rev().flip(); conj is an anti-automorphism; norm is multiplicative; the quaternion storage behaves like the dense one. Multivectors of another dimension than 2 with the storage of quaternions cannot be constructed. With doubles, the norm of coefficients up to 2^480 is finite and within 8 roundings (and 2^-490) of the exact norm; (a * b).norm() and a.norm() * b.norm() are within 21 and 18 roundings of the exact value for coefficients that are zero or between 2^-200 and 2^200; conj is an involution, equals rev and flip, and keeps the norm, exactly.", "quantifier": "all quaternions over any field; all quaternions of doubles", "why_tests_cant": "All inputs.", "anchors": ["src/quaternion.rs"]}
{"id": "C46", "title": "PGA point round-trip", "statement": "pga_extract_point(pga_point(x)) == x and pga_point(x) has finite coefficients.", "quantifier": "every coordinate vector x in every dimension", "why_tests_cant": "All inputs including the origin.", "anchors": ["src/pga.rs: pga_point, pga_extract_point"]}
{"id": "C47", "title": "PGA translation moves points", "statement": "For t = pga_translation(d), extracting the point from t.rev() * pga_point(x) * t gives x + d; pga_translation(d1)*pga_translation(d2) == pga_translation(d1+d2); pga_translation(d) equals the exponential of the bivector.", "quantifier": "every point, direction and dimension", "why_tests_cant": "All inputs.", "anchors": ["src/pga.rs: pga_translation", "src/lib.rs: exp"]}
{"id": "C48", "title": "PGA incidence", "statement": "pga_hyperplane(c).wedge(&pga_point(x)) is zero iff x satisfies the hyperplane equation; the meet of two points is incident with both points.", "quantifier": "every hyperplane and point in every dimension", "why_tests_cant": "All inputs.", "anchors": ["src/pga.rs: pga_hyperplane, pga_point"]}
{"id": "C49", "title": "pga_translation validates the direction length", "statement": "pga_translation(d) is Ok iff d has at most (exactly) the spatial dimension many entries.", "quantifier": "all input sequences", "why_tests_cant": "All lengths.", "anchors": ["src/pga.rs: pga_translation"]}
{"id": "C50", "title": "Displayed text denotes the multivector", "statement": "The terms printed by Display, read as coefficient times the product of axis names left-to-right, sum to the multivector, in both the normal (descending blades) and alternate `#` (ascending blades with adjusted signs) forms; labels of distinct blades differ when axis names differ. The axis names are those of the declaration, in order, or e0, e1, ... With f64, f32, Complex64 and Complex32 coefficients, written with {}, {:e} or {:E} and the flags + and #, nothing is lost: reading the text gives every coefficient back exactly, so different multivectors with finite coefficients have different texts.", "quantifier": "all multivectors, algebras with distinct axis names", "why_tests_cant": "All inputs.", "anchors": ["src/lib.rs: impl_formatting!", "src/algebra.rs: blade_label, blade_label_rev"]}
{"id": "C51", "title": "approx_eq is coefficientwise closeness", "statement": "For precision > 0, a.approx_eq(&b, eps) iff every coefficient of a-b has norm < eps; hence reflexive, symmetric, monotone in eps and implied by equality.", "quantifier": "all multivectors, storages, precisions > 0", "why_tests_cant": "All inputs.", "anchors": ["src/lib.rs: approx_eq"]}
{"id": "C52", "title": "Vector-space laws", "statement": "Addition is commutative and associative with zero() neutral, a + (-a) == zero(), a - b == a + (-b), (a*s)*t == a*(s*t), (a+b)*s == a*s+b*s, (a/s)*s == a for s != 0.", "quantifier": "all multivectors, scalars, storages", "why_tests_cant": "All inputs.", "anchors": ["src/ops.rs", "src/coeff_storage.rs: add, sub", "src/lib.rs: neg_impl"]}
{"id": "C53", "title": "exp is exact on square-zero elements and its loop runs a fixed number of steps", "statement": "exp(zero()) == one(); if x*x == 0 then exp(x) == one() + x (exact arithmetic); the Taylor loop performs exactly 18 iterations and the result is (sum_{k<=18} (x/m)^k/k!)^m for the chosen integer m >= 1; exp(x) commutes with x and rev(exp(x)) == exp(rev(x)). The same for exp in the transformed domain.", "quantifier": "all multivectors over real or complex coefficients", "why_tests_cant": "All inputs; termination for every input.", "anchors": ["src/lib.rs: exp", "src/fftrepr/mod.rs: exp"]}
{"id": "C54", "title": "Filters keep exactly the selected coefficients", "statement": "filter / filtered / filter_inplace keep exactly the coefficients satisfying the predicate; grades_extract and retain_grades keep exactly the listed grades. The closure of filtered / filter_inplace may have a state and may modify the coefficients: it is called exactly once for every coefficient other than zero, in some order, and the coefficient becomes what this call makes of it.", "quantifier": "all multivectors, all predicates, all grade lists", "why_tests_cant": "All predicates.", "anchors": ["src/mv_dense.rs: filter", "src/mv_sparse.rs: filter_inplace, filtered, grades_extract, retain_grades"]}
{"id": "C55", "title": "real_fft agrees with fft on split signatures", "statement": "For signature [+,-,...,+,-], real_fft() has the same entries as fft().into_array2() and is multiplicative. With f64 coefficients, all finite, the entries of fft().into_array2() are exactly those of real_fft() with imaginary part zero, rounded as they are; the entries of real_fft() are within (1+u)^(dim/2) - 1 times the sum of the absolute values of the coefficients (u = 2^-53) of the exact ones. With rounding real_fft is not multiplicative, but x.real_fft().dot(&y.real_fft()) is within (1+u)^(dim+2+2^(dim/2)) - 1 times the product of the sums of the absolute values, up to underflow, of the exact matrix of x*y, and equal to the matrix of x*y for integers whose sums of absolute values have a product of at most 2^53, and are at most 2^53; with f32 fft and real_fft have different entries, because fft adds in double precision; with an infinite coefficient the entries of fft are not real.", "quantifier": "all split-signature algebras up to 62 generators, all multivectors; the error bound unless it exceeds the largest f64", "why_tests_cant": "All inputs.", "anchors": ["src/mv_dense.rs: real_fft", "src/clifft/mod.rs: clifft_nn"]}
{"id": "C56", "title": "cmag2, revc, revcm", "statement": "revc is rev with conjugated coefficients, an anti-automorphism for conjugation-compatible rings; cmag2(a) == (revc(a)*a).scalar_part(); if non-zero, (revcm(a)*a).scalar_part() == 1. If all generators square to +1, cmag2(a) is the sum of the squared absolute values of the coefficients, and zero for a == 0 only. The documentation of revcm is wrong on two counts: it is not revc() / mag2() (the scalar i), and the magnitude of revcm(a)*a need not be one. With Complex64 coefficients the imaginary part of cmag2 is exactly zero whenever it is finite; if the parts of the coefficients are zero or between 2^-200 and 2^200, dim <= 20, and the sum of their squares is at most k times |cmag2|, the relative error of cmag2 is at most 7/2 k (2^dim + 2) 2^-53 and that of the parts of every coefficient of revcm at most (4 k (2^dim + 2) + 5) 2^-53 (k = 1 if all generators square to +1).", "quantifier": "all multivectors over a ring with conjugation, all algebras", "why_tests_cant": "All inputs.", "anchors": ["src/lib.rs: cmag2, revc, revcm"]}
{"id": "C57", "title": "Multivectors can be nested as coefficients", "statement": "Multivectors over a ring again satisfy the ring axioms the library needs of a coefficient type (with is_zero/== meaning coefficient equality), so all of the above hold for multivectors of multivectors to any depth.", "quantifier": "all rings, all algebras, any nesting depth", "why_tests_cant": "Unbounded nesting.", "anchors": ["src/types.rs: Ring", "src/lib.rs"]}
{"id": "C58", "title": "FFT representation: division, is_zero, approx_eq, basis", "statement": "a.fft() / t == (a / t).fft() for t != 0; a.fft().is_zero() == a.is_zero(); FFTRepr::approx_eq holds iff all entries are closer than the precision; FFTRepr::basis() gives the transforms of the basis vectors in order and they satisfy the relations of the algebra.", "quantifier": "all multivectors, scalars, representations, algebras with less than 63 generators", "why_tests_cant": "All inputs.", "anchors": ["src/fftrepr/mod.rs: div, is_zero, approx_eq, basis"]}
{"id": "C59", "title": "iclifft_into fills the beginning of the buffer and nothing else", "statement": "iclifft_into(M, dest) writes what iclifft(M) returns to the first entries of dest and leaves the other entries as they were; a matrix of the wrong shape or a buffer that is too short is reported as an error.", "quantifier": "all matrices and buffers", "why_tests_cant": "All sizes.", "anchors": ["src/clifft/mod.rs: iclifft_into"]}
{"id": "C60", "title": "Even<A> and into_original", "statement": "Even<A> has an even number of non-degenerate generators, adding at most one of square +1 behind the other non-degenerate ones; into_original reads each blade of A from the blade of Even<A> with the same generators, and is multiplicative on multivectors without the additional generator.", "quantifier": "all algebras, storages, multivectors", "why_tests_cant": "All inputs.", "anchors": ["src/complexification.rs: Even, into_original"]}
{"id": "C61", "title": "Grades of products", "statement": "The product of a grade-p and a grade-q multivector only has coefficients in the grades |p-q|, |p-q|+2, ..., min(p+q, 2n-p-q); its part of grade p+q is the wedge; u * v == u.vdot(&v) + u.wedge(&v) for vectors; grade parities add up.", "quantifier": "all algebras, storages, rings, homogeneous multivectors", "why_tests_cant": "All inputs.", "anchors": ["src/lib.rs: naive_mul_impl, grade_extract, vdot", "src/mv_dense.rs: wedge", "src/mv_sparse.rs: wedge"]}
{"id": "C62", "title": "Products of vectors (versors)", "statement": "For V = v1 * ... * vk: V.rev() * V == V * V.rev() == V.mag2() == product of the vi.mag2(); if all are non-zero V.revm() is the two-sided inverse; v * x * v == 2 v.vdot(x) v - v.vdot(v) x; V * x * V.rev() is a vector for every vector x and its mag2 is V.mag2()^2 x.mag2().", "quantifier": "all algebras, storages, commutative rings, lists of vectors of any length", "why_tests_cant": "Unbounded number of factors.", "anchors": ["src/lib.rs: naive_mul_impl, rev, mag2, vdot, revm"]}
{"id": "C63", "title": "The dual as a product", "statement": "For any k-blade b = v1 ^ ... ^ vk, b.dual() * b and b * b.undual() are pseudoscalars (documentation of dual and undual); for all a, b of the same grade b.dual().wedge(&a) is the pseudoscalar with the coefficient b.vsdot(&a) and a.wedge(&b.undual()) the one with a.vsdot(&b); in Euclidean algebras a.dual() == I * a.rev() and a.undual() == a.rev() * I.", "quantifier": "all algebras, storages, blades; multivectors over any ring for the wedge forms", "why_tests_cant": "Unbounded dimension and number of factors.", "anchors": ["src/lib.rs: dual, undual, vsdot, naive_mul_impl"]}
{"id": "C64", "title": "Laws of meet", "statement": "meet is associative and additive, the unit pseudoscalar is neutral for it, the meet of grades p and q has grade p+q-n (zero if p+q < n), and a.meet(&b) == (-1)^((n-p)(n-q)) b.meet(&a).", "quantifier": "all algebras, storages, rings, multivectors", "why_tests_cant": "All inputs.", "anchors": ["src/lib.rs: naive_meet_impl", "src/mv_dense.rs: meet", "src/mv_sparse.rs: meet"]}
{"id": "C65", "title": "The pseudoscalar", "statement": "For the unit pseudoscalar I of an n-dimensional algebra: a * I == I * a if n is odd, a * I == I * a.flip() if n is even, and I * I == (-1)^(n(n-1)/2) times the product of signature().", "quantifier": "all algebras, storages, commutative rings, multivectors", "why_tests_cant": "Unbounded dimension.", "anchors": ["src/lib.rs: naive_mul_impl, flip", "src/types.rs: signature"]}
{"id": "C66", "title": "Sandwich products with versors", "statement": "For V = v1 * ... * vk with vectors vi and any multivectors a, b: V * a * V.rev() keeps grades (grade_extract commutes with it); it turns products and wedges into V.mag2() times the products and wedges, multiplies the scalar part by V.mag2(), vdot and mag2 by V.mag2()^2, and the pseudoscalar by (-1)^(k(n-1)) V.mag2().", "quantifier": "all algebras including degenerate ones, storages, commutative rings, multivectors, lists of vectors of any length", "why_tests_cant": "Unbounded dimension and number of factors.", "anchors": ["src/lib.rs: naive_mul_impl, rev, mag2, vdot, grade_extract, scalar_part", "src/types.rs: WedgeProduct"]}
{"id": "C67", "title": "Truncation error of exp", "statement": "Let E be the sum of the series of a^k / k!, N the sum of the norms of the coefficients of a and m the least integer >= 1 that bounds every coefficient and sqrt(|mag2|). The coefficients of a.exp() differ from those of E by at most m (N/m)^19 / 19! e^N in total; for a single nonzero coefficient t by at most m e^|t| / 19!. The same holds for a.fft().exp().ifft() with m the least integer >= 1 that bounds every entry of the representation and sqrt(|mag2|). E is cos t + b sin t for a = t b with b*b == -1, and cosh t + b sinh t for b*b == 1. The normalization does not make the error small for all inputs (a multivector with coefficients 0 and 1 and magnitude 0 for which exp() is wrong by 99%).", "quantifier": "all algebras, storages, real or complex multivectors (real arithmetic)", "why_tests_cant": "An inequality over all real inputs and dimensions.", "anchors": ["src/lib.rs: exp", "src/fftrepr/mod.rs: exp"]}
{"id": "C68", "title": "Dense storage from an array", "statement": "ArrayStorage::from_array accepts exactly the arrays whose length is a power of two and keeps the entries as coefficients of the corresponding dimension; other lengths are reported as an error, the empty array panics.", "quantifier": "all arrays", "why_tests_cant": "All lengths.", "anchors": ["src/coeff_storage.rs: ArrayStorage::from_array"]}
{"id": "C69", "title": "Floating point: one rounding per coefficient", "statement": "With f32 or f64 coefficients, +, - and multiplication or division by a scalar give the exact coefficients up to one rounding each (relative error 2^-24 or 2^-53, plus half of the smallest positive number for products and quotients); -a, flip, flip_subspace, rev, dual, undual and grade_extract are exact. Each scalar operation returns a nearest number of the format.", "quantifier": "all algebras, storages, IEEE formats, finite multivectors (with no overflow)", "why_tests_cant": "All pairs of floating point numbers.", "anchors": ["src/types.rs: impl Ring for f32, f64", "src/ops.rs: Add, Sub, Mul, Div", "src/lib.rs: rev, flip, flip_subspace, dual, undual, grade_extract"]}
{"id": "C70", "title": "Floating point: error of products", "statement": "With f32 or f64 coefficients, each coefficient of a * b, wedge, meet, and vsdot, vdot, mag2 differs from its exact value by at most ((1+u)^(N+1) - 1) M + N (1+u)^N eta, where M is the sum of the absolute values of the terms, N the number of non-zero terms, u the unit roundoff and eta half of the smallest positive number, for any order of summation; for f64 up to 25 generators and coefficients up to 2^480 by at most (2^n + 2) 2^-53 M + 3 2^n 2^-1075, without overflow. Errors of expressions: for every expression in +, -, *, wedge, meet, neg, rev, flip, flip_subspace, dual, undual with f64 coefficients the error is at most L 2^-52 B, where L counts the roundings (max + 1 for sums, l + l' + 2^n + 1 for products) and B bounds the sum of the absolute values of the coefficients (added for sums, multiplied for products, plus 4^n 2^-1022 for each product), if no bound exceeds 2^1022 and L <= 2^52; for a.pow(k) it is at most (k-1) (2^n + 1) 2^-52 N^k with N >= 1 at least the sum of the absolute values, N^k <= 2^1000.", "quantifier": "all algebras, storages, hash orders, IEEE formats, finite multivectors", "why_tests_cant": "All inputs; a numerical bound.", "anchors": ["src/lib.rs: naive_mul_impl, naive_wedge_impl, naive_meet_impl, vsdot, vdot, mag2", "src/mv_dense.rs: wedge, meet, wedge_impl"]}
{"id": "C71", "title": "Floating point: integers are exact", "statement": "With f32 or f64 coefficients that are integers, every expression in +, -, *, wedge, meet, neg, rev, flip, flip_subspace, dual, undual is computed exactly as long as the sums of the absolute values of the coefficients, multiplied and added up through the expression, stay below 2^24 or 2^53. In particular a.pow(k) is exact while the k-th power of the sum of the absolute values does. So every identity of real multivectors holds with == for such inputs, and the recursive wedge of dense multivectors equals the plain one.", "quantifier": "all algebras, storages, IEEE formats, expressions, integer multivectors", "why_tests_cant": "All expressions.", "anchors": ["src/lib.rs", "src/ops.rs", "src/types.rs: impl Ring for f32, f64"]}
{"id": "C72", "title": "Floating point: results do not depend on storage or hash order", "statement": "a * b of f64 multivectors does not depend on the storage or on the iteration order of the hash map.", "quantifier": "all algebras, storages, hash orders, finite multivectors", "why_tests_cant": "The iteration order changes from run to run.", "anchors": ["src/lib.rs: naive_mul_impl", "src/coeff_storage.rs: SparseStorage"]}
{"id": "C73", "title": "Stored zeros of sparse multivectors are harmless", "statement": "filter_inplace may leave coefficients in a SparseMultivector that are stored although they are zero. Whatever a program does, keys stay unique and in range. Operands with the same coefficients give results with the same coefficients, whether or not zeros are stored: +, -, neg, * and / by a scalar, *, wedge, meet, rev, flip, flip_subspace, dual, undual, pow, grade_extract, grades_extract, filter_inplace, set_by_idx, scalar_part, vsdot, vdot, mag2, is_zero, ==, extract_vector, to_dense. All of them except pow(1), filter_inplace and retain_grades remove the stored zeros. Only coeff_count, enumeration and division by the scalar zero tell the difference.", "quantifier": "all algebras, hash orders, sparse multivectors, closures", "why_tests_cant": "All histories of a multivector and all iteration orders.", "anchors": ["src/coeff_storage.rs: SparseStorage", "src/mv_sparse.rs: filter_inplace, coeff_count", "src/lib.rs", "src/ops.rs"]}
{"id": "C74", "title": "vdot is a symmetric invariant bilinear form", "statement": "a.vdot(&b) is the scalar part of a * b, symmetric and bilinear, and (a * b).vdot(&c) == a.vdot(&(b * c)) == b.vdot(&(c * a)); reversal of both arguments does not change it; multivectors of different grades are orthogonal. For dense multivectors of finite floating point numbers it is exactly symmetric. Without null generators only zero is orthogonal to everything; a null generator is orthogonal to everything.", "quantifier": "all algebras, storages, commutative coefficient rings, multivectors", "why_tests_cant": "An identity in three arbitrary multivectors, in all metrics.", "anchors": ["src/lib.rs: vdot, scalar_part, rev", "src/ops.rs: Mul"]}
{"id": "C75", "title": "The quadratic form mag2 over ordered fields", "statement": "mag2 is non-negative for all multivectors exactly if no generator squares to -1, and vanishes only for zero exactly if all generators square to +1; then mag2 == vsdot(self), revm succeeds for all non-zero multivectors, rev is the adjoint of multiplication and (a * b).mag2() <= 2^n a.mag2() b.mag2(). vsdot satisfies the Cauchy-Schwarz inequality. If V is a product of vectors, (V * a).mag2() == (a * V).mag2() == V.mag2() * a.mag2() in every metric.", "quantifier": "all algebras, storages, ordered coefficient fields, multivectors", "why_tests_cant": "Inequalities over all inputs and dimensions.", "anchors": ["src/lib.rs: mag2, vsdot, revm, rev", "src/ops.rs: Mul"]}
{"id": "C76", "title": "Change of coefficients", "statement": "If a ring homomorphism is applied to all coefficients (e.g. integers to rationals, reals to complex numbers, reduction modulo n), it commutes with +, -, negation, products with a scalar, *, ^, wedge, meet, rev, flip, flip_subspace, dual, undual, pow and grade_extract, with scalar_part, vsdot, vdot and mag2, and where they are defined with division by a scalar and revm, for any two storages, and with all expressions made of these; if it is injective, == and is_zero give the same answers.", "quantifier": "all algebras, pairs of storages, rings, homomorphisms, multivectors, expressions", "why_tests_cant": "All coefficient rings and expressions.", "anchors": ["src/lib.rs", "src/ops.rs", "src/mv_dense.rs: wedge, meet", "src/types.rs: Ring"]}
{"id": "C77", "title": "Machine integers as coefficients", "statement": "With i8 ... i128 coefficients in a release build, every expression in +, -, *, wedge, meet, neg, rev, flip, flip_subspace, dual, undual gives the exact coefficients modulo 2^w, so all coefficients whose exact value is in range are right even if intermediate results overflow. In a debug build no overflow occurs and the result is exact if the sums of the absolute values of the coefficients, multiplied and added up through the expression, stay below 2^(w-1). mv / t divides every coefficient, rounded towards zero, in both builds; it panics for MIN / -1 and if a coefficient other than zero is divided by zero.", "quantifier": "all algebras, storages, widths, expressions, integer multivectors", "why_tests_cant": "All expressions; intermediate overflow.", "anchors": ["src/types.rs: Ring", "src/lib.rs", "src/ops.rs"]}
{"id": "C78", "title": "Floating point transforms: integers are exact", "statement": "With f32 or f64 coefficients that are integers, fft, the operations +, -, *, neg, rev, flip and pow of FFTRepr and ifft give the exact result, if the sums of the absolute values of the coefficients, multiplied and added up through the expression, stay below 2^53, and four times the last one, too (and, for f32, the result fits in 24 bits). In particular fft followed by ifft returns the same coefficients, and the product through the transforms equals a * b, coefficient by coefficient. The normalized trace of an expression in FFTRepr is then exactly the scalar part of its value, and mag2 is exact, as long as 2^h times the sums stay below 2^53, h = ceil((p+q)/2). The free functions too: iclifft(clifft(x)) == x and the functions parity_flip, imaginary_flip, reversal and the conjugate transpose of clifft(x), for arrays of Gaussian integers whose absolute values add up to at most a quarter of 2^53, and clifft(a).dot(clifft(b)) == clifft(a*b). The relations of the generators hold exactly in the transformed domain: squares, anticommutation, products of two of them and of all of them.", "quantifier": "all algebras up to 62 generators, expressions, integer multivectors", "why_tests_cant": "All expressions, dimensions and inputs.", "anchors": ["src/mv_dense.rs: fft", "src/fftrepr/mod.rs: ifft, Add, Sub, Mul, Neg, rev, flip, pow, trace, ntrace, mag2", "src/fftrepr/wmul.rs", "src/clifft/mod.rs", "src/complexification.rs: complexify, decomplexify", "src/types.rs: IntoComplex64, FromComplex"]}
{"id": "C79", "title": "Floating point transforms: rounding errors", "statement": "With f64 coefficients, every coefficient of the product through fft, * and ifft is finite and differs from its exact value by at most L 2^-52 (|a| |b| + 2^-800), where |a| is the sum of the absolute values of the coefficients (at most 2^500), L = 2^h + 5h + s + 2, h = ceil((p+q)/2) and s is the number of null generators; with f32 the transforms use f64, and the error is that of the final conversion up to a much smaller term. Similar bounds hold for all expressions in +, -, *, neg, rev, flip and for pow: with f64, the k-th power through the transforms is off by at most L 2^-52 N^k, where L = k h + (k-1) (2^h + s + 2) + 3 h <= 2^52 and N >= 1 is at least the sum of the absolute values, N^k <= 2^1000. FFTRepr::ntrace of an expression obeys a similar bound around the scalar part, and FFTRepr::mag2 with f64 is off by at most L 2^-52 (|a|^2 + 2^-800), |a| <= 2^480, where L = 2 2^h + 2h + s + 3. Similar bounds hold for clifft, iclifft and iclifft(clifft(x)) on arbitrary arrays.", "quantifier": "all algebras up to 62 generators, expressions, finite multivectors", "why_tests_cant": "All inputs and dimensions; a numerical bound.", "anchors": ["src/mv_dense.rs: fft", "src/fftrepr/mod.rs: ifft, Add, Sub, Mul, Neg, rev, flip, pow, trace, ntrace, mag2", "src/fftrepr/wmul.rs", "src/clifft/mod.rs", "src/complexification.rs: complexify, decomplexify", "src/types.rs: IntoComplex64, FromComplex"]}
{"id": "C80", "title": "The wedge of vectors consists of minors", "statement": "v_0.wedge(&v_1)...wedge(&v_{k-1}) is of grade k, and its coefficient at a basis blade is the determinant of the coefficients of the vectors at the generators of the blade (in the order of the crate's indices); for as many vectors as generators it is the determinant times the wedge of the generators. Over a field it is non-zero exactly if the vectors are linearly independent.", "quantifier": "all algebras, storages, commutative rings, lists of vectors", "why_tests_cant": "All dimensions and numbers of vectors.", "anchors": ["src/lib.rs: wedge", "src/mv_dense.rs: wedge_impl", "src/mv_sparse.rs: naive_wedge_impl"]}
{"id": "C81", "title": "Gram determinants", "statement": "(v_1 ^ ... ^ v_k).rev().vdot(&(w_1 ^ ... ^ w_k)) is the determinant of the matrix of v_i.vdot(&w_j), and (v_1 ^ ... ^ v_k).mag2() the Gram determinant, in every metric.", "quantifier": "all algebras, storages, commutative rings, lists of vectors", "why_tests_cant": "All dimensions and metrics.", "anchors": ["src/lib.rs: wedge, rev, vdot, mag2"]}
{"id": "C82", "title": "PGA: common points of hyperplanes, hyperplanes through points", "statement": "The wedge of d hyperplanes in d-dimensional PGA is their common point: pga_extract_point returns the unique solution of the d equations if their normals are independent, and no finite coordinates otherwise. The meet of d points is the hyperplane with the equation det(x, p_1, ..., p_d) = 0, which contains the points; the meet of any number of points is zero exactly if they are affinely dependent.", "quantifier": "all dimensions, storages, real coefficients, hyperplanes and points (except the origin, see C46, unless unscaled)", "why_tests_cant": "All dimensions and real inputs.", "anchors": ["src/pga.rs: pga_point, pga_hyperplane, pga_extract_point", "src/lib.rs: wedge, meet"]}
{"id": "C83", "title": "Rotations and reflections as matrices; the README's element of Spin(8)", "statement": "The matrix of V * e_i * V.rev() for a product V of k vectors has the determinant (-1)^((dim+1)k) V.mag2()^dim. R = c + s a.wedge(b) acts by Rodrigues' formula, with determinant R.mag2()^dim, multiplies the quadratic form by R.mag2()^2, and for orthonormal a, b and R = cos t + sin t a.wedge(b) is the rotation by 2t. In the README's example, rot = (blade * angle).fft().exp() with blade = a.wedge(b) normalized: the matrix with the columns (rot.rev() * e_i.fft() * rot).ifft().extract_vector() satisfies the example's assertion |det - 1| < 1e-12 for all a, b with positive mag2 and all angles up to pi, in exact arithmetic.", "quantifier": "all algebras, storages, vectors, angles", "why_tests_cant": "All dimensions, signatures and real inputs.", "anchors": ["README.md:58-97", "src/lib.rs: rev, mul, wedge, mag2, extract_vector", "src/fftrepr/mod.rs: exp, rev, ifft", "src/algebra.rs: basis"]}
{"id": "C84", "title": "The half-spin representations are irreducible", "statement": "The two matrices of into_half_spin_repr are irreducible representations of the even multivectors of a nondegenerate algebra: a subspace which the matrices of all products of two basis vectors map into itself is zero or the whole space. In even dimensions they are inequivalent, and with complex coefficients every pair of matrices is attained; in odd dimensions they are similar by a fixed matrix, and each attains every matrix.", "quantifier": "all nondegenerate algebras up to 62 generators, all subspaces, even multivectors", "why_tests_cant": "All dimensions; a statement about all subspaces and all intertwining matrices.", "anchors": ["src/fftrepr/mod.rs:260-298", "README.md:58-97"]}
{"id": "C85", "title": "Conjugate transposes and unitary matrices", "statement": "The matrix of a.revc().flip_subspace(A::imag_mask()) (a.rev() for real coefficients and no imaginary generators) is the conjugate transpose of the matrix of a.fft(), and the same holds for the half-spin matrices; so the matrix is unitary exactly if the product with a is 1, and then for even a the half-spin matrices are unitary, too. In every algebra the sum of |z|^2 over all entries of a.fft() is 2^ceil((p+q)/2) times the sum of |c|^2 over the coefficients.", "quantifier": "all algebras up to 62 generators (nondegenerate ones for the first part), real and complex multivectors", "why_tests_cant": "All dimensions, signatures and coefficients.", "anchors": ["src/mv_dense.rs: fft", "src/fftrepr/mod.rs: into_array2, into_half_spin_repr", "src/lib.rs: rev, revc, flip_subspace", "src/complexification.rs: complexify"]}
{"id": "C86", "title": "The transforms in a debug build", "statement": "With overflow checks and debug assertions on, as in cargo test, the transforms do exactly what they do in a release build: clifft, clifft_into, iclifft, fft, ifft, real_fft and from_array3 return the same values and the same errors; the assertions of clifft_alloc, clifft_nn_into and iclifft_nn_into never fail and no usize operation overflows. The private clifft_nn, called with an odd number of generators, panics in a debug build and returns InvalidShape in a release build; no public function does that.", "quantifier": "all algebras up to 62 generators, all inputs of clifft and clifft_into shorter than 2^63 and of iclifft with less than 2^32 rows; ifft on arrays of the shape that from_array3 accepts, real_fft for an even number of generators (which SplitSignature implies)", "why_tests_cant": "All lengths, shapes and dimensions; tests run one build only.", "anchors": ["src/clifft/mod.rs:56-240", "src/mv_dense.rs: fft, real_fft", "src/fftrepr/mod.rs: ifft, from_array3"]}
{"id": "C87", "title": "The crate's own tests hold in the model", "statement": "The assertions on fixed inputs of basic_test, division_test, wedge_test, vee_test, dual_test, magnitude_test, trace_test, rcho_test and examples_test (for the plane) in tests/unit.rs, of src/clifft/tests.rs, test_labels, test_signs, basis_test, even_test, quat_test, minv_test, dc_test, fmt_test and the first part of fast_wedge_test hold in the model, in f64 and f32 arithmetic with IEEE rounding (NaN results included). So do the exact assertions of fft_repr_test: the relations of the generators in the transformed domain for f32, f64, Complex32 and Complex64, and the transposition in split signatures, for every algebra. The assertions on fixed inputs of fft_inv_test and those of pga_test and irrep_test hold exactly with real and complex numbers instead of floats. The assertions on random inputs hold in exact arithmetic for all inputs of the stated kind: the duals of vectors, of rotated vectors and of blades (dual_dual_test, metric_dual_test, hodge_dual_test), exp of an angle times a blade within 1e-12 of cos + sin blade and within 1e-12 relative of cosh + sinh blade (ops_test), the square of a wedge of two vectors, and (rev(b) * b).grade_extract(0) = binomial(dim, k) for the sum b of all blades of grade k (sparse_test); the last one also exactly with rounding, as long as the binomial coefficient is within the range of exact integers (any dimension up to 56 for f64). With rounding, for all finite doubles of absolute value at most 1 (the tests draw from [0, 1)): a * (b + c) and (a.fft() * (b.fft() + c.fft())).ifft() agree within 1e-10 in dimensions up to 6 (fast_wedge_test); meet and naive_meet_impl agree with the undual of the wedge of the duals, and the dual of the meet with the wedge of the duals, within 1e-12 for Complex64 in dimensions up to 3 (vee_test); rev, flip, rev twice and flip twice in the transformed domain agree with those of multivectors within 1e-12 for Complex64 in dimensions up to 8 (fft_repr_test); vdot and the scalar part of the product differ by less than 1e-12 in dimensions up to 30 (vdot_test); the trace of fft() divided by the number of columns differs from the scalar part by less than 1e-12 in absolute value, and from_scalar(ntrace()) agrees with grade_extract(0) within 1e-12, for Complex64 in dimensions up to 7 (trace_test); for vectors in odd dimensions up to 30 the last coefficient of a.wedge(b.dual()) differs by less than 1e-12 from a.vsdot(b) and from a.extract_vector().dot(b.extract_vector()), and for vectors in all dimensions up to 30 a.vdot(b), the scalar part of a.wedge(b * pseudoscalar).dual(), the scalar part of a * b and metric.dot(a.extract_vector()).t().dot(b.extract_vector()) differ by less than 1e-12, in whatever order ndarray adds up (dual_test); and the imaginary part of cmag2 of every grade is exactly zero for Complex64 in dimensions up to 30 (magnitude_test).", "quantifier": "all inputs the tests draw at random, and beyond: all algebras, storages and real coefficients", "why_tests_cant": "The tests draw a few random inputs and compare with a tolerance; the theorems hold for all of them. Running the fixed ones checks that the model agrees with the crate.", "anchors": ["tests/unit.rs", "src/lib.rs", "src/quaternion.rs", "src/algebra.rs", "src/test.rs"]}
{"id": "C88", "title": "exp with f64 coefficients", "statement": "With f64 coefficients, rounding included, the loop of exp takes exactly 18 iterations, whatever the coefficients are. If the absolute values of the coefficients of a add up to L <= 600 and the algebra has n <= 20 generators, nothing overflows, and the coefficients of a.exp() differ from those of the exact exponential by at most e^L L^19/19! + e^(L+2) (L+2) 2^n 2^-44, all differences added up. A bound without these limits holds as long as 19! e^max(max_c, L) does not overflow. The same for a.fft().exp().ifft() with fewer than 63 generators: 18 iterations, no overflow for L <= 600, and every coefficient is within e^L L^19/19! + K (L+2) e^(L+2) / 2^52 of the exact one, where K = 19 2^h + 21 h + 19 p + 77, p is the number of generators that square to zero and h half of the number of the others, rounded up; hypot is only assumed to exceed the exact value by at most a factor 1 + 2^-50 plus 2^-50, which a correctly rounded one does. The same with Complex64 coefficients: 18 iterations; with n <= 32 generators and L <= 600 the sum of the absolute values of all real and imaginary parts, nothing overflows and every coefficient is within e^L L^19/19! + (19 2^n + 113) (L+2) e^(L+2) / 2^52 of the exact one, and a.fft().exp().ifft() is within the bound given for f64, with fewer than 63 generators. For dense multivectors and arbitrary coefficients, NaN and infinities included: if all imaginary parts are zero, the real parts of the result are exactly what f64 gives, if hypot(x, 0) = |x|; and exp of the conjugate is exactly the conjugate of exp, if hypot does not depend on the sign of the imaginary part. If the f64 coefficients of a are at most one in absolute value and every two blades of a share a generator that squares to zero, a.exp() is exactly 1 + a (so exp of zero is exactly one); with larger coefficients it need not be (49 e0 with e0*e0 == 0); the same with Complex64 if the computed absolute values of the coefficients are at most one. The same in the transformed domain: a.fft().exp() is then exactly one() + a.fft(), if the entries of a.fft() are of computed absolute value at most one; for a transform of whatever origin, if of every two matrices whose sets of null generators are disjoint one is zero.", "quantifier": "all algebras, storages and finite f64 coefficients", "why_tests_cant": "All coefficients and dimensions; the exact exponential is not computable in a test, and the rounding errors depend on every operation.", "anchors": ["src/lib.rs:296-327", "src/lib.rs:279-294", "src/lib.rs:623-631", "src/fftrepr/mod.rs:102-130"]}
{"id": "C89", "title": "PGA: hyperplanes as mirrors, motions of space", "statement": "With h = pga_hyperplane(c) (not the plane at infinity), h * p * h is the mirror image of the point p; with the plane at infinity h * p * h is zero for every multivector p, and pga_extract_point of it divides zero by zero; for a product V of hyperplanes V.rev() * p * V is p mirrored in them, one after another; t.rev() * V * t with t = pga_translation(v) does the same as V around the point v instead of the origin. Distances are kept, and conversely every isometry of d-dimensional space is given by a product of at most d + 1 hyperplanes. With R = t.rev() * (x_i.wedge(x_j) * sin(theta) + cos(theta)) * t, R.pow(k) is the same for the angle k theta, turns every point around v by 2 k theta in the plane of x_i and x_j, and is -1 if k theta = pi.", "quantifier": "all dimensions, storages, real hyperplanes, points (except the origin, see C46, unless unscaled) and isometries", "why_tests_cant": "All dimensions, all isometries; an existence statement.", "anchors": ["src/pga.rs: pga_point, pga_hyperplane, pga_translation, pga_extract_point", "src/lib.rs: mul, rev", "src/pga.rs: pga_test"]}
{"id": "C90", "title": "The center", "statement": "A multivector commutes with every multivector exactly if its non-zero coefficients belong to even blades of null generators, or to the pseudoscalar when the number of generators is odd; it is enough to commute with basis(). v * a == a.flip() * v holds for all basis vectors v exactly if a is made of null generators only (a scalar in nondegenerate algebras).", "quantifier": "all signatures, storages, commutative rings without 2-torsion", "why_tests_cant": "All dimensions, signatures and multivectors, for all multivectors to commute with.", "anchors": ["src/lib.rs: mul, flip", "src/algebra.rs: basis, proj_mask"]}
{"id": "C91", "title": "Rotors give exactly the rotations", "statement": "In an algebra with the signature + ... +, every orthogonal map f of space is given by a product V of at most dim unit vectors: V.rev() * v * V is f(v) up to the sign (-1)^k, k being the number of vectors. If det f = 1 the number is even and R = V is a rotor: R.flip() == R, R.rev() * R == 1, R.rev() * v * R == f(v). In an algebra without null generators two rotors with the same action on basis() are equal up to the sign. If a * b == 1 then b * a == 1, in every algebra.", "quantifier": "all dimensions, storages, orthogonal maps; the uniqueness for all nondegenerate signatures and fields without 2 = 0, the inverse for all algebras and commutative rings", "why_tests_cant": "All dimensions, all orthogonal maps; an existence and a uniqueness statement.", "anchors": ["src/lib.rs: mul, rev, flip, from_vector, extract_vector"]}
{"id": "C92", "title": "Inverse with f64", "statement": "FFTRepr::inv with Complex64 entries as IEEE arithmetic computes them. If the representation is a diagonal matrix of real numbers between 2^-500 and 2^500 in absolute value, an inverse is found, it is diagonal, and the products of entries differ from 1 by at most 3/2^53; minv_test passes. In general the result says nothing about invertibility: inv() of the zero divisor 49 + 49 e0 (e0 * e0 == 1) is Some, inv() of 2^27 + 2^27 e0 + e1 (squares 1, -1), which has an inverse with integer coefficients, is None, inv() of the scalar 2^600 has NaN entries, and inv() of the scalar 2^-540 is None.", "quantifier": "all dimensions and all diagonal real matrices in the range, for every implementation of hypot that is exact when the imaginary part is zero; the counterexamples are concrete", "why_tests_cant": "All matrix sizes and entries; NaN, infinities, underflow and cancellation only show for special values.", "anchors": ["src/fftrepr/mod.rs: inv", "src/fftrepr/matrix.rs: matrix_inv, minv_test", "src/mv_dense.rs: fft", "src/lib.rs: Norm"]}
{"id": "C93", "title": "Exponentials of bivectors are rotors", "statement": "For the exponential R of a bivector (the sum of the series a^k / k!; simple or not, in every signature): R.flip() == R, R.rev() * R == R * R.rev() == 1 and R.mag2() is 1; x to R.rev() * x * R keeps grades, *, ^ and vdot; on vectors it has determinant 1, keeps the quadratic form and leaves null generators as they are. exp(a + b) == exp(a) * exp(b) when a * b == b * a, exp(-a) is the inverse of exp(a), and rev(exp(a)) is exp(a.rev()). For the computed a.exp() of a bivector, x.rev() * x differs from 1 by at most d (2 e^N + d), where N is the sum of the absolute values of the coefficients and d the error bound of C67.", "quantifier": "all signatures, dimensions, storages, real or complex coefficients, bivectors", "why_tests_cant": "An infinite series; all bivectors, also those that are not the wedge of two vectors.", "anchors": ["src/lib.rs: exp", "src/lib.rs: mul, rev, flip, mag2, vdot, wedge"]}
{"id": "C94", "title": "DivisionAlgebra and NonDegenerate say what the algebra is", "statement": "DivisionAlgebra is implemented for an algebra exactly if, over an ordered field, every multivector other than zero has a two-sided inverse; every other algebra has zero divisors x * y == 0, with coefficients in any commutative ring. NonDegenerate is implemented exactly if the unit pseudoscalar has an inverse.", "quantifier": "all signatures that declare_algebra! accepts, all storages", "why_tests_cant": "All signatures; a statement about all multivectors of an algebra.", "anchors": ["src/algebra.rs: impl_complex_or_quaternionic!, impl_non_degenerate!, declare_algebra!", "src/ops.rs: Div for Multivector"]}
{"id": "C95", "title": "Infinities and NaNs spread to the coefficients they contribute to, and nowhere else", "statement": "If coefficient i of a is an infinity or NaN, coefficient j of b is not zero (or the other way round) and the product of the blades i and j is not zero, then coefficient i ^ j of a * b is an infinity or NaN; the same holds for wedge products of blades without a common generator. If all pairs that contribute to a coefficient of a * b are finite, this coefficient obeys the error bound of C70 no matter what the others are; a * 0 == 0 even if a has infinities. This is for dense and sparse multivectors. Quaternions multiply all pairs, so one infinity spoils the product, even with zero; so do dense wedge products from dimension 6 on (all coefficients whose blade contains that of the infinity), so they disagree with sparse ones; and a sparse multivector with a stored zero (C20) is equal to zero, but its product with an infinity is not zero. Through the transforms (a.fft() * b.fft()).ifft(), for f64, f32 and complex coefficients, an infinity or NaN of a on the blade i spoils all coefficients on the blades that contain the null generators of i, for every b: without null generators all of them, even for b = 0, so this disagrees with a * b.", "quantifier": "all algebras, dimensions, IEEE formats and coefficients, which may be infinities or NaNs; all orders of summation", "why_tests_cant": "The special values have to meet a zero in the right place; all dimensions, and the two algorithms for wedge products.", "anchors": ["src/lib.rs: mul, wedge", "src/mv_dense.rs: wedge", "src/quaternion.rs: coeff_enumerate", "src/coeff_storage.rs: coeff_enumerate", "src/fftrepr/mod.rs: mul, ifft, FFT::fft"]}
{"id": "C96", "title": "The unsafe code of make_array", "statement": "make_array never writes outside of the array and never returns elements that were not initialised, also if the closure panics. If the closure does not panic, it returns the array of its values at 0, ..., N-1 in this order; if it panics first at j, so does make_array. Hence basis() is the array of the generators in the order of the declaration, and signature() and signaturef() are the arrays of their squares.", "quantifier": "all N, all closures (panicking or not), all algebras", "why_tests_cant": "Undefined behaviour need not show in a test; all lengths and all closures.", "anchors": ["src/algebra.rs: make_array, ClBasis::basis, ClBasis::basis_sparse, ClBasis::signature, ClBasis::signaturef"]}
{"id": "C97", "title": "Points, hyperplanes and translations with f64", "statement": "src/pga.rs with f64, rounding included, for coordinates and coefficients that are zero or between 2^-480 and 2^480 in absolute value, not all zero. pga_extract_point(pga_point(x)) returns every coordinate with a relative error of at most 4/2^53. The coefficients of pga_hyperplane(c) are those of c/|c| with a relative error of at most (d+5)/2^53. With t = pga_translation(v), the point extracted from t.rev() * pga_point(x) * t differs from x + v by at most (|x_k| + |v_k|)/2^48 in coordinate k. pga_hyperplane(c).wedge(pga_point(x)) is a multiple of the pseudoscalar, by plus or minus the value of the equation at x divided by |c||x|, with an error of at most (3d+13)/2^53 times the sum of the absolute values of its terms divided by |c||x|, plus 2^-1068. The example of the README gives [5., 4.] exactly. Outside of the range the results can be NaN, and for the origin they are after a translation.", "quantifier": "all dimensions d, storages and f64 numbers in the range; the counterexamples are concrete", "why_tests_cant": "All dimensions and coordinates; overflow and underflow of squares only show for special values.", "anchors": ["src/pga.rs: pga_point, pga_hyperplane, pga_translation, pga_extract_point, pga_test", "src/lib.rs: mul, wedge, dual, rev", "README.md:36-53"]}
{"id": "C98", "title": "Division and normalization with f64", "statement": "For f64 coefficients that are zero or between 2^-200 and 2^200 in absolute value, rounding included. In the algebras [-] and [-,-], every coefficient of a / b (b not zero) is finite and within 15/2^53 times the norm of the exact quotient; b / b is within 15/2^53 of one; every coefficient of (a / b) * b is within 45/2^53 times the norm of a of that of a (but not always the same). In up to 20 dimensions, the coefficients of a.revm() and of a / a.mag2().sqrt() have a relative error of at most (k (2^n + 2) + 2)/2^52, where k is the ratio of the sum of the squares of the coefficients and |mag2| (in Euclidean algebras k = 1), as long as k (2^n + 2) is at most 2^49. If mag2 is negative, in the same range, no non-zero coefficient of a becomes finite in a / a.mag2().sqrt() (for e0 + 2 e1 in [+,-] both are NaN). None of this is exact, (1 + 3i) / (1 + 3i) is not one; outside of the range x / x can be zero (2^600) or infinite (2^-600); without the bound on k the error of revm can be 29 percent. a / 0 is zero for dense multivectors and NaN for Quaternions.", "quantifier": "all multivectors and storages with f64 coefficients in the range; the counterexamples are concrete", "why_tests_cant": "All coefficients; overflow, underflow and cancellation only show for special values.", "anchors": ["src/ops.rs: Div for Multivector", "src/lib.rs: revm, mag2, rev, flip", "README.md:68"]}
{"id": "C99", "title": "Complex floating point coefficients", "statement": "With Complex64 or Complex32 coefficients whose parts are integers, every expression in +, -, *, wedge, meet, neg, rev, flip, flip_subspace, dual, undual is computed exactly as long as the sums of the absolute values of all parts, multiplied and added up through the expression, stay below 2^53 or 2^24; so every identity of complex multivectors holds with == for such inputs. The same is true of +, -, *, neg, rev, flip through fft and ifft (if four times the last bound stays below 2^53, too), so both ways agree. For other finite coefficients: with Complex64, the two parts of every coefficient of an expression are together off by at most L 2^-52 B, where L <= 2^52 counts the roundings on the way to the result (2^n + 1 per product, one per sum), and B is the bound that the sums of absolute values give, if no bound exceeds 2^1022. The product through fft, * and ifft is off by at most L 2^-52 (|a| |b| + 2^-800), where |a| and |b| are at most 2^500, L = 2^h + 5h + s + 2, h = ceil((p+q)/2) and s is the number of null generators; with Complex32 the transforms use Complex64, and the error is that of the final conversion up to a much smaller term. With Complex64, the k-th power (k >= 1) through fft, pow and ifft is off by at most L 2^-52 N^k, where N >= 1 is at least the sum of the absolute values of all parts, N^k <= 2^997 and L = k h + (k-1) (2^h + s + 2) + 3 h <= 2^51. For dense multivectors and arbitrary coefficients, NaN and infinities included, three laws hold exactly for every expression, rounding included: if all imaginary parts are zero, the real parts of the result (also of pow, vdot, mag2) are what f64 gives, and the imaginary parts of the finite ones are zero; conjugating all coefficients of the inputs conjugates all coefficients of the result; multiplying one factor of a product, wedge or meet by i multiplies the result by i. vdot and mag2 of finite multivectors have finite parts, together off by at most ((1+u)^(2^n+2) - 1) B, where B is the sum of |x_i| |y_i| (absolute values of the parts added up) plus 2^n times the underflow, if (1+u)^(2^n+2) B does not overflow. ntrace of the value of an expression in the transformed domain is exactly the scalar part if the parts are integers (within the same bounds, times 2^h), and otherwise off by at most ((1+u)^(L+2^h+1) - 1) B + 2 eta, where L and B are the number of roundings and the bound of the expression, and eta is half the smallest positive number. FFTRepr::mag2 of a.fft() is exactly a.mag2() if the parts are integers (2^h |a|^2 at most 2^53), and for other finite Complex64 coefficients the two parts are together off by at most L 2^-52 (|a|^2 + 2^-800), |a| <= 2^480, L = 2 2^h + 2h + s + 3.", "quantifier": "all algebras (up to 62 generators for the transforms), storages, expressions, finite complex multivectors", "why_tests_cant": "All expressions, dimensions and coefficients; a numerical bound.", "anchors": ["src/types.rs:70-127", "src/lib.rs: mul, wedge, meet, rev, flip, dual, undual", "src/ops.rs", "src/mv_dense.rs: fft", "src/fftrepr/mod.rs: ifft, Add, Sub, Mul, Neg, rev, flip, trace, ntrace"]}
