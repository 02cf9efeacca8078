# Formal model of tclifford in Lean 4 — design

## What is modelled, and how

The crate is pure arithmetic over arrays and hash maps, so the model is a set of total, computable Lean functions that
follow the Rust source function by function (`lean/Verif/Model/*`). Every definition cites the lines it models.

* **Index type.** `usize` indices are `Nat`; shifts that can lose bits are written with explicit 64-bit truncation
  (`ushl` in `Verif/Model/Basic.lean`), so the algebra-size limit (C43) is visible.
* **Coefficient type.** The Rust trait `Ring` only asks for operations. The model's definitions do the same (`Zero`, `One`,
  `Add`, `Sub`, `Neg`, `Mul`, decidable equality, `Div` where used). Most theorems take a lawful Mathlib `Ring T` (a
  `Field`/`DivisionRing` for `DivRing`), i.e. exact arithmetic; C69–C72, C78, C79, C88, C92, C95 and C97–C99 take floating point numbers.
* **Floating point.** `Verif/Model/Float.lean` models IEEE 754 formats, with `f32` and `f64` as instances: a number is a
  rational that the format can represent, operations round to nearest, ties to even. There is one zero and one value
  `nonFinite` for infinities and NaNs. (The model was compared with Lean's native `Float` on 20000 random pairs for
  `+`, `-`, `*`, `/` and negation, and on 5000 for `sqrt`, without a difference.) `Model/FloatExp.lean` adds `sqrt`,
  `ceil`, `abs`, `max`, comparison and the cast to `usize`, for finite arguments. `Model/Ieee.lean` has all values of the
  formats (two zeros, infinities, NaN) and is used for C92; `Proofs/Ieee.lean` shows that forgetting the difference commutes
  with the operations, which justifies the smaller model (compared with native `Float` on 6000 pairs including special values,
  without a difference).
* **Complex64** is a field `K` with a chosen square root of −1 and `2 ≠ 0` (instance: `ℂ`); the conversions
  `IntoComplex64`/`FromComplex` are an abstract embedding/retraction pair with instances `ℝ→ℂ` (`re`) and `ℂ→ℂ`.
  C78 and C79 instead take pairs of floats (`Model/Cx.lean`).
* **Results and panics.** `Result<_, ClError>` and panics both live in one `Except Err` monad; `unwrap` turns a
  `ClError` into a panic value. So "does not panic" is part of every theorem of the form `op a b = .ok r ∧ …`.
* **Storage.** The trait `CoeffStorage` is a Lean class; `ArrayStorage`, `SparseStorage`, `QStorage` are three instances.
  Generic code in `lib.rs`/`ops.rs` is modelled once, generically, exactly as in Rust. A separate *lawfulness* class
  states what a storage must satisfy; each of the three instances is proved lawful, and the generic theorems are proved
  from the laws. The hash map is a list of entries with unique keys whose iteration order is an arbitrary
  permutation chosen by an adversary (`HashOrder` class), so theorems quantify over all iteration orders. Simplified: the order is a
  function of the entries in the order of their insertion, whereas Rust seeds each map separately, so that in the model two
  maps with the same history have the same order.
* **ndarray.** `Array1/2/3` are shape + index function; views and `split_at` are re-indexings; two arrays are equal when
  shapes agree and entries agree at in-range positions.
* **Mutation** is modelled by returning the new value. The in-place algorithms (`wedge_impl`, `wmul_impl`,
  `imaginary_flip_inplace`, `matrix_inv`, `GradeIter`) are modelled with their mutations (the scratch operand is returned).

## Specification layer (independent of the model)

* `Verif/Spec/*`: reordering sign of generator words (bubble sort with signs), coefficient-sum formulas for the
  geometric and exterior products on plain functions `Nat → T`, Hodge dual, reversal, etc.
* Mathlib's `CliffordAlgebra Q` / `ExteriorAlgebra` are the external reference for the products (C03, C07).

## Method per property

| id | modelled | proof |
|----|----------|-------|
| C01 | `ac_product_sign`, table, `blade_*_product_sign` | code sign = word-reordering sign; induction on bits |
| C02 | table as literal | whole table by `decide +kernel`, lifted to all in-range indices |
| C03 | `naive_mul_impl` on lawful storage | blades multiply by induction on dimension in Mathlib's Clifford algebra; linear extension; inverse by `lift` |
| C04, C05 | same | cocycle identity of signs, finite-sum reindexing by xor |
| C06 | `basis`, `signature` | evaluation of the product formula on basis vectors |
| C07–C09 | `naive_wedge_impl`, `wedge_impl` | wedge = geometric product with null metric; recursion on halves with the buffer-restoring invariant |
| C10–C12 | `dual`, `undual`, both `meet` paths | sign algebra on complements; with rounding (`Props/DualRound.lean`) the duals are still inverse and additive, `meet` is not the dual of `wedge` any more |
| C13, C14 | `rev`, `flip`, `flip_subspace` | parity lemmas; with rounding (`Props/SignExact.lean`): signs pass through every operation, except where the order of a sum changes |
| C15, C16, C56 | `vdot`, `mag2`, `revm`, `cmag2`, … | product formula at index 0; with `Complex64` coefficients (`Model/ComplexNormF.lean`, `Props/ComplexNormF.lean`) the imaginary parts of the summands of `cmag2` cancel exactly, so that the quotients of `revcm` are those of real numbers |
| C17, C35 | `pow` (strong recursion) | strong induction |
| C18, C19 | lawful storages | both equal the spec function, hence each other; arbitrary `HashOrder` |
| C20 | sparse state machine | invariant by induction on op sequence |
| C21, C26, C51, C52, C54 | storages, `PartialEq`, `approx_eq`, filters | from the laws |
| C22 | `GradeIter` state machine | `isize` arithmetic and casts in `Model/GradeIterCast.lean`, equal to the exact state machine below weight 2^63; refinement of that to an explicit descending list |
| C23–C25 | constructors/extractors | fold invariants |
| C27–C29, C38 | `clifft*`, `iclifft*`, flips | recursion on the two top generators, block matrices |
| C30–C35, C39–C41, C55 | `fft`, `ifft`, `wmul`, `rev`, `flip`, traces, half-spin | composition of complexification, clifft, and recursion over null generators. C33 in floating point uses only laws of signs (`SignLaws`: rounding commutes with negation), so the equalities are exact. Arbitrary arrays (`Props/FFTRing.lean`, `Props/SignExp.lean`): an array of the right shape is the transform of an element of the algebra with one more generator if the number of non-null generators is odd, hence the ring laws; signs of blocks (`flW`, `Proofs/FFTFlip.lean`) pass through products. C41 with rounding (`Props/ComplexifyFloat.lean`): multiplication by ±1, ±i is exact. C55 with rounding (`Props/RealFftRound.lean`): by the same exactness the scaled coefficients are real again, and the recursion on pairs with imaginary part zero is the real one |
| C36, C37 | `matrix_inv` | row-operation invariant `R·M = L`, over any division ring (`Props/MatrixInvRing.lean`); **C37 is false of the code** (spurious early exit): negation with witness; true for column-dominant matrices (dominance survives each elimination step, so no diagonal entry vanishes; `Props/InverseWeak.lean`: if the matrix is invertible, weak dominance is enough) and outside a proper algebraic set (`Generic.lean`: non-zero minors keep the diagonal entries non-zero whatever pivots are chosen; each minor of the matrix of a multivector with indeterminate coefficients is a non-zero polynomial, also for odd dimensions where entries occur twice) |
| C42, C43 | macros as functions on token lists | list induction; **C43 is false at 64 generators** |
| C44, C45 | `div`, `Quaternion` | field algebra; norms of quaternions of doubles (`Props/QuatFloat.lean`): error bounds, exact laws, and what fails with rounding or far from 1 |
| C46–C49 | `pga.rs` over ℝ | product formula; **C46 at the origin, C49 as stated are false** |
| C50 | `Display` as list of terms | sign of reversing a word; for floats, the documented texts of `f64` (`Model/FloatDisplay.lean`: shortest decimal that rounds back) are read back by an independent reader of decimals (`Spec/Decimal.lean`; the texts of 1500 random `f64` were compared with those of Python, which documents the same shortest form, without a difference); complex coefficients likewise, with the texts `1+2i` of num-complex (`Model/ComplexDisplay.lean`, `Spec/DecimalComplex.lean`) |
| C53 | `exp` with real norm and saturating cast | loop unrolled by lemma; binomial on nilpotents; `Props/ExpFFT.lean`, `Props/ExpFFTRev.lean` for `exp` of transforms |
| C57 | multivectors modulo `==` as a coefficient ring | from C04/C05 |
| C58 | `FFTRepr` division, `is_zero`, `approx_eq`, `basis` | composition of the transform lemmas |
| C59 | `iclifft_into` | recursion of `iclifft` with an arbitrary buffer; **false for the tail of the buffer** |
| C60 | `Even<A>`, `into_original` | inserting a generator does not change the signs |
| C61, C62 | product, wedge, `vdot`, `mag2`, `revm` | counting common generators; computation in the ring `GA` of coefficient functions |
| C63 | `dual`, `undual`, `vsdot` | dual = pseudoscalar times reverse; blades as products of orthogonal vectors (Gram-Schmidt); **false unless all generators have the same square** (`C63_iff`) |
| C64 | `meet` | wedge laws carried over by the dual |
| C65 | product, `flip`, `signature` | sign of moving a blade past all generators |
| C66 | product, `rev`, grades, wedge | terms `e_i B e_j` of another grade cancel in pairs; induction on the factors |
| C67 | `exp` over ℝ and ℂ | sum of coefficient norms is a Banach algebra norm; remainder of the exponential series (Mathlib) |
| C68 | `ArrayStorage::from_array` | direct |
| C69 | operators, involutions with `f32`/`f64` | rounding to nearest; standard model of floating point arithmetic |
| C70 | product, `wedge`, `meet`, `vdot`, … with `f32`/`f64` | invariant of the accumulation loops: value, sum of absolute values, number of terms; any order. Expressions: induction with a majorant of the exact coefficients and the number of roundings; `pow` is an expression |
| C71 | same, integer coefficients | same invariant with integers; induction on expressions; the two wedge products agree exactly (`Props/WedgeFloat.lean`) |
| C72 | sparse product with `f64` | **false**: witness with two hash orders; distance bound from C70 |
| C73 | sparse storage with stored zeros | second `LawfulStorage` structure for the weaker invariant, so the generic theorems apply; results built with `set_by_idx` are tidy |
| C74 | `vdot` as trace form | symmetry, cyclicity, bilinearity from the ring `GA`; (non-)degeneracy on basis blades |
| C75 | `mag2`, `vsdot` over ordered fields | signs of the products of generator squares decide definiteness; norm bound by Cauchy–Schwarz on each coefficient |
| C76 | all operations for two coefficient rings | each coefficient formula commutes with a ring homomorphism |
| C77 | machine integers: `BitVec w` (release), `CInt w` with an absorbing overflow value (debug) | release: C76 for ℤ → ℤ/2^w; debug: instance of the arithmetic model of C71 |
| C78 | `fft`, `FFTRepr` operations, `ifft` with complex numbers of floats | what the loops compute in terms of the coefficient operations only (`FFTOps`); a relation between computed and exact numbers is carried through them (`FFTRel`), here: equal Gaussian integers of bounded size |
| C79 | same | same transfer, with the relation "finite, and off by at most ((1+u)^l − 1) times the size"; the row and column sums of the matrices bound the sizes (reversal transposes). The trace adds up 2^h diagonal entries |
| C80 | `wedge` of vectors | Laplace expansion: multiplying by a vector from the left expands along the first row (`wedge_vec`, `Proofs/Minors.lean`) |
| C81 | `wedge`, `rev`, `vdot`, `mag2` | Cauchy–Binet, from the uniqueness of alternating forms |
| C82 | `pga_hyperplane`, `pga_extract_point`, `meet` of points | the dual of a wedge of d vectors of dimension d + 1 consists of cofactors (`cofactors`) |
| C83 | sandwiches as matrices; the README's Spin(8) example in exact arithmetic | `charpoly` of a rank one matrix for reflections, `det_one_add_mul_comm` for rotations; the rotor is the image of a complex number, whose absolute value `Complex.exp_bound` bounds |
| C84 | irreducibility of the half-spin representations, the doc comment of `into_half_spin_repr` | the transform is onto all matrices, so the even part is onto the block diagonal ones (even dimension) or onto each block (odd dimension); products of two generators span the even part; in odd dimension the next generator intertwines the blocks |
| C85 | conjugate transposes, Parseval, unitary matrices | `cnn_transpose` with conjugated coefficients; Parseval from the trace of the product with the adjoint; null generators by layers |
| C86 | the transforms in a debug build | `Model/Debug.lean` models overflow checks and `debug_assert!`; proved equal to the release model function by function |
| C87 | the crate's own tests | the fixed ones run by the kernel in the float model (a check of the model against the crate); the random ones as theorems for all inputs, eight of them with rounding for all doubles of absolute value at most 1 (`C87_random_*`), `dot` of ndarray being any result of adding up the products in some order (`DotOf`); `fft_inv_test` and `pga_test` with real numbers |
| C88 | `exp` with `f64` coefficients | `Model/FloatExp.lean` adds `sqrt`, `ceil`, `max`, casts to the float model; truncation (C67) plus rounding errors in the l1 norm, computed product by product; `Model/FFTExpF.lean` is `exp` of transforms, with `hypot` of the C library as a parameter, `RepG` (`Proofs/FFTExpF.lean`) bounds the errors of transforms of elements of the algebra; `Model/ComplexExpF.lean` is `exp` for `Complex64`, related to the `f64` one by parametricity (`Proofs/ComplexExp.lean`), `NearG` (`Proofs/ComplexExpNear.lean`) bounds its errors, `RepC` (`Proofs/FFTExpC.lean`) those of its transforms |
| C89 | PGA: mirrors and motions | sandwich of a dual vector with a vector in the ring `GA`; all isometries by Cartan–Dieudonné and Mazur–Ulam (Mathlib); rotors are products of two mirrors, their powers by the addition theorems (`PgaRotor.lean`); the plane at infinity annihilates everything (`PgaInfinity.lean`) |
| C90 | the center | sign with which a blade moves past a generator, from the sign function of C01 |
| C91 | rotors and rotations | reflections generate the orthogonal group (Mathlib); uniqueness from the center (C90) |
| C92 | `FFTRepr::inv` with `f64` | `matrixInvG`: `matrix_inv` for any entries and comparisons, equal to the exact model in exact arithmetic; run with `Model/Ieee.lean`. Diagonal matrices by induction on the steps; counterexamples by evaluation in the kernel, after a lemma that only norms of real entries are taken |
| C93 | exponentials of bivectors | The series in `GA` with the sum of absolute values as norm (as for C67). `exp(-b) x exp(b)` is the exponential of the commutator with `b`, applied to `x`, and the commutator with a bivector keeps grades; the determinant is a square by `exp(b) = exp(b/2)^2`, and null generators are split off as a block |
| C94 | `DivisionAlgebra`, `NonDegenerate` | Signatures other than `[-]`, `[-,-]` have a blade that squares to 0 or 1 |
| C95 | infinities and NaNs | `Flt f` lumps infinities and NaN together: every operation with one of them is not finite (division is not used here). The folds of C70 with a counter of products that are not finite; for the transforms, the closed forms of the raw operations (C99): a sum over all pairs in the matrix product |
| C96 | `make_array` | `MaybeUninit` as a list of cells, initialised or not; writing outside and `assume_init` with an uninitialised cell are undefined behaviour. Not modelled: layout and alignment of `[T; N]`, which Rust guarantees |
| C97 | PGA with `f64` | `src/pga.rs` with floating point numbers and a correctly rounded square root (`f64::sqrt` is, by IEEE 754). The range keeps the squares, quotients and products of two from over- and underflowing; then all rounding errors are relative. Counterexamples in `Ieee f64`, where `-0` is a stored coefficient, which changes only signs of zeros |
| C98 | division, `revm` and normalization with `f64` | the functions of C44 and C55 with floating point numbers, whose division is never an error; the norm is a sum of at most four squares, so all rounding errors are relative in the range. `C98_exact_model`: over the reals these are the functions of C44/C55 unless something is divided by zero |
| C99 | complex numbers of floats, directly and through the transforms | the relations of C78 and C79 between computed and exact complex numbers, now for the summation of the direct products (`FloatCx`); `GExpr` and `FExpr` are evaluated over `Cx F` and ℂ; the exact laws follow from `Proofs/Param.lean`: dense operations respect every relation of coefficients that `0`, `+`, `-`, `*` and the test for zero respect |

All properties are expressible in the model; the ones the code violates are reported with a proved counterexample
(`…_false`) and a `_partial` theorem for the guarded statement.

## Where the code does not do what the property says

Each item is a theorem about the model (the code itself was not run), except the last one, which was only read off the source.

* C16: the documentation's claim on the magnitude of `s.revm() * s` is false; only its scalar part is one.
* C56: the documentation of `revcm` makes the same claim, equally false, and says that it is `revc() / mag2()`; the code divides by `cmag2()`,
  which differs for complex coefficients (the scalar i).
* C20: `filter_inplace` hands out `&mut T`; a closure writing a zero leaves a stored zero behind.
* C22: grades from `2^63` on: `weight as isize` is negative and `next()` of the grade iterator does not return.
* C23: sparse grade extraction compares with `k as u32`, so grade `2^32` selects grade 0.
* C26: reading dense storage at index `2^dim` panics (`>` instead of `>=`).
* C37: `matrix_inv` gives up although the matrix is invertible; already for a basis vector in three dimensions.
* C40: the documentation of `FFTRepr::shape` says `[2^s, m/2, m/2]`; the matrices have side `2^ceil(m/2)` (`C40_doc_shape_false`).
* C43: 64 generators are accepted by `declare_algebra!` but `1 << 64` makes the algebra unusable.
* C44 (outside its precondition): dividing by the zero multivector gives zero with dense and sparse storage, because only
  non-zero coefficients of the divisor are divided by its norm; with quaternion storage the result is not finite.
* C45: the norm over complex coefficients is not multiplicative. With doubles it squares the coefficients, so it is not finite for `2^600 i` and
  zero for `2^-600 i`.
* C46, C47, C48: `pga_point` of the origin divides by zero.
* C53, C47: `exp` divides by `max_c` and raises to the power `max_c as usize`. The cast saturates at `2^64 - 1`, so for a square-zero
  element with a coefficient above that (a PGA translation by a very long way) the result is `1 + a (2^64-1)/max_c` instead of `1 + a`.
* C49: `pga_translation` accepts one entry too many and puts it on the null vector.
* C50: labels of different blades can coincide when a name contains `^` or is empty.  The text of a multivector of
  multivectors is ambiguous whenever the two algebras share an axis name (all algebras with default names do).
* C51 (outside its precondition): with precision 0 a dense multivector is approximately equal to itself, a quaternion is not.
* C59: `iclifft_into` multiplies the part of the buffer behind the result by powers of `-i`; a short buffer panics.
* C63: the documentation's claim that `b.dual() * b` is a pseudoscalar for every k-blade is false outside Euclidean algebras
  unless the blade is a basis blade (e.g. `e0 + e1` in `[+,-]`).
* C67: the comment in `exp` says the division by `max_c` keeps the series from blowing up. `max_c` bounds coefficients and magnitude, not
  the size of the multivector as an operator: for `(1+e1e0)(1+e3e2)(1+e5e4)(1+e7e6)(1+e9e8)` in `[+,-,+,-,+,-,+,-,+,-]` (coefficients 0 and
  1, magnitude 0) `exp` is wrong by more than 99% (`C67_accuracy_false`).
* C68: `ArrayStorage::from_array` panics on an empty array (private module, unused).
* C72: a sparse product with `f64` coefficients depends on the iteration order of the hash map, which Rust randomizes per map:
  the same two multivectors can give `2^53` or `2^53 + 2`. So `==` of two results computed in the same way can fail.
* C92: with `f64`, `FFTRepr::inv` returns an inverse of the zero divisor `49 + 49 e0`, none for `2^27 + 2^27 e0 + e1` (invertible over
  the integers), NaN entries for the scalar `2^600` and none for `2^-540` (division by a complex number squares it).
* C95: the wedge product of an infinity or NaN and zero is zero for sparse multivectors and for dense ones up to dimension 5, NaN for dense
  ones from dimension 6 on; quaternion products with zero are NaN, too. A sparse multivector with a stored zero (C20) equals zero, but its
  product with an infinity is not zero.
* C97: the point extracted from `pga_point([3., 4.])` is `[2.9999999999999996, 4.]`; from `pga_point([2^600, 0.])` it is `[NaN, NaN]`,
  and `pga_point([0., 0.])` moved by a translation is `[NaN, NaN]`: points are divided by their distance from the origin, for no use.
* C98: with `f64` in `[-]`, `x / x` is `0` for `x = 2^600` and infinite for `x = 2^-600`, since the norm is a sum of squares; `a / 0` is `0` for dense
  multivectors and all `NaN` for quaternions; `revm` in `[+,-]` can be off by 29 percent.
* Not made a property: `into_half_spin_repr` would panic for a representation without generators.

## What is not modelled, and simplifications

* Floating point: the theorems other than C69–C72, the theorems `*_rounded_*` of C13, C14 and C33, `C40_odd_false`, `C56_float_*`, some of C87, C78, C79, C88, C92, C95, C97, C98 and C99 are about exact arithmetic. Signed zeros, and the difference between
  the infinities and NaN, are only modelled for C92 and for the counterexamples of C97 and C98. Outside `Model/Float.lean` and `Model/Ieee.lean` division by zero is the error value
  `nonFinite`; the NaN check of `matrix_inv` is in `matrixInvG` (C92) and omitted in `matrixInv` because it cannot fire in exact
  arithmetic (`matrixInvG_eq`). Of `hypot`, the norm of complex numbers, C92 only assumes `hypot(x, 0) = |x|`. C78, C79 and C99 take complex numbers with
  parts of type `f64` (`Model/Cx.lean`), multiplied and divided by the formulas of num-complex, and matrix products that sum
  from left to right without fused operations. A kernel with another order or with fused operations gives other roundings,
  for which C79 and the bounds of C99 for transforms say nothing; C78 does not depend on it, because all intermediate results are exact integers.
* Dense grade extraction uses the grade iterator with exact integers, so it is right for grades below `2^63` only (C22).
* `norm` is a parameter of the theorems that use it; the trait `Norm` itself is not modelled.
* `debug_assert!` and overflow checks outside of the transforms (C86) and integer coefficients (C77), `Debug`/`Clone` implementations, array views, performance, and memory (a dense multivector in 60 dimensions exists in the model).
* Machine integers (C77): a panic on overflow is an absorbing value that reaches the coefficient it was computed for.
* `from_vector_ref`, `from_indexed_iter_ref` clone the elements and call the modelled functions; `signaturef` is
  `signature` with floats.
* ndarray broadcasting of unequal shapes is an error in the model.
* Formatting of one coefficient is a parameter of the display model; width and precision flags only reach that parameter.
* Type-level conditions (`ClBasis<DIM>`, `NonDegenerate`, `PGAlgebra<D>`, `SplitSignature`) are hypotheses; the macros
  that hand them out are modelled as functions on token lists.
* Nested multivectors (C57) are coefficients modulo `==`, because two storages with equal coefficients may differ.
* Transform results assume fewer than 63 generators, because `Even<A>` may add one and shifts are 64 bits wide.

## Mutation testing

`seeded/LOG.jsonl` records deliberately wrong variants of model definitions, made in a copy outside of this directory. For
each one all modules that depend on the edited one are compiled again; a failing proof is replaced by `sorry` so that the
compilation goes on, and a theorem counts as failed when it depends on such a proof. A theorem over all lawful storages does
not depend on a particular storage, so an error in a storage shows in the proof that this storage is lawful, which is an
instance, and in the theorems naming the storage.

## Trusted base

Lean 4.33 kernel; axioms `propext`, `Classical.choice`, `Quot.sound` only, listed for every theorem of the manifest in
`AXIOMS.txt` (written by `tools/gen_axioms.py`); Mathlib definitions used in statements.
The reading of the Rust source (no extraction). Assumptions: exact ring arithmetic, except in C69–C72, the theorems `*_rounded_*` of C13, C14 and C33, `C40_odd_false`, `C56_float_*`, some of C87, C78, C79, C88, C92, C95, C97, C98 and C99, where the
arithmetic is that of `Model/Float.lean`; `opimps` by-value/by-ref operator
variants all call the same body; ndarray/num/HashMap behave as documented.
