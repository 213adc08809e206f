{
 "claims": [
  {
   "property": "C01",
   "status": "proved",
   "theorems": [
    "Rowcol.C01_collect_exact",
    "Rowcol.C01_collect_exact_iter",
    "Rowcol.C01_memory"
   ],
   "note": "Collecting exactly N items: proved for the whole quantifier of the statement."
  },
  {
   "property": "C02",
   "status": "proved",
   "theorems": [
    "Rowcol.C02_collect_short",
    "Rowcol.C02_collect_short_iter",
    "Rowcol.C02_drops"
   ],
   "note": "The panic for every source; the drop accounting in the memory model (destructors that do not panic)."
  },
  {
   "property": "C03",
   "status": "proved",
   "theorems": [
    "Rowcol.C03_collect_long_debug",
    "Rowcol.C03_collect_long_release",
    "Rowcol.C03_collect_long_iter",
    "Rowcol.C03_memory_debug",
    "Rowcol.C03_memory_release"
   ],
   "note": "Collecting too many items: proved for the whole quantifier of the statement."
  },
  {
   "property": "C04",
   "status": "proved",
   "theorems": [
    "Rowcol.C04_source_panics",
    "Rowcol.C04_count_panics",
    "Rowcol.C04_safe"
   ],
   "note": "Collecting is panic-safe at every crash point: proved for the whole quantifier of the statement."
  },
  {
   "property": "C05",
   "status": "partial",
   "theorems": [
    "Rowcol.C05_safe_iff",
    "Rowcol.C05_partial",
    "Rowcol.C05_false"
   ],
   "note": "False of the code when a received destructor panics: C05_safe_iff gives the exact condition, C05_false exhibits the double drop for every shape; the part that holds is C05_partial."
  },
  {
   "property": "C06",
   "status": "proved",
   "theorems": [
    "Rowcol.C06_vec_generate",
    "Rowcol.C06_mat_generate",
    "Rowcol.C06_vec_generate_calls",
    "Rowcol.C06_vec_generate_panic",
    "Rowcol.C06_mat_generate_calls",
    "Rowcol.C06_mat_generate_panic"
   ],
   "note": "Vector::generate and Matrix::generate call order: proved for the whole quantifier of the statement."
  },
  {
   "property": "C07",
   "status": "proved",
   "theorems": [
    "Rowcol.C07_front_only",
    "Rowcol.C07_size_hint",
    "Rowcol.C07_next_sequence"
   ],
   "note": "Owning iterator, front-only use: proved for the whole quantifier of the statement."
  },
  {
   "property": "C08",
   "status": "partial",
   "theorems": [
    "Rowcol.C08_mixed_partial",
    "Rowcol.C08_back_only",
    "Rowcol.C08_false"
   ],
   "note": "False of the code (next_back on an exhausted iterator reads a moved-out slot): C08_false for every non-empty vector; C08_mixed_partial covers every other history; C08_back_only the back-only histories. C77_safe_iff is the exact characterisation without any restriction on the history."
  },
  {
   "property": "C09",
   "status": "partial",
   "theorems": [
    "Rowcol.C09_safe_iff",
    "Rowcol.C09_safe_partial",
    "Rowcol.C09_false"
   ],
   "note": "False of the code: C09_safe_iff characterises exactly the safe histories (nth arguments without usize overflow), C09_false gives invalid accesses for every vector, C09_safe_partial is the part that holds. C77_safe_iff is the exact characterisation without any restriction on the history."
  },
  {
   "property": "C10",
   "status": "proved",
   "theorems": [
    "Rowcol.C10_exactly_once"
   ],
   "note": "Owning iterator: every element is yielded or dropped exactly once: proved for the whole quantifier of the statement."
  },
  {
   "property": "C11",
   "status": "partial",
   "theorems": [
    "Rowcol.C11_drop_partial",
    "Rowcol.C11_false"
   ],
   "note": "False of the code when nth skips an element whose destructor panics (C11_false); C11_drop_partial covers all other cases. C77_safe_iff is the exact characterisation without any restriction on the history."
  },
  {
   "property": "C12",
   "status": "proved",
   "theorems": [
    "Rowcol.C12_chunks",
    "Rowcol.C12_chunk_contents",
    "Rowcol.C12_zero"
   ],
   "note": "Chunks, any interleaving of front and back: proved for the whole quantifier of the statement."
  },
  {
   "property": "C13",
   "status": "proved",
   "theorems": [
    "Rowcol.C13_vec_index",
    "Rowcol.C13_get_unchecked"
   ],
   "note": "Runtime indexing of vectors: proved for the whole quantifier of the statement."
  },
  {
   "property": "C14",
   "status": "proved",
   "theorems": [
    "Rowcol.C14_mat_index",
    "Rowcol.C14_get_unchecked"
   ],
   "note": "Runtime indexing of matrices: proved for the whole quantifier of the statement."
  },
  {
   "property": "C15",
   "status": "proved",
   "theorems": [
    "Rowcol.C15_vec_set",
    "Rowcol.C15_vec_set_panic",
    "Rowcol.C15_mat_set",
    "Rowcol.C15_mat_set_panic",
    "Rowcol.C15_set_unchecked"
   ],
   "note": "Indexed assignment changes one element: proved for the whole quantifier of the statement."
  },
  {
   "property": "C16",
   "status": "partial",
   "theorems": [
    "Rowcol.C16_static_index_partial",
    "Rowcol.C16_static_index_complete",
    "Rowcol.C16_false"
   ],
   "note": "False of the code for U0 on an empty vector (C16_false); proved for every other accepted index, and completeness of the accepted set."
  },
  {
   "property": "C17",
   "status": "proved",
   "theorems": [
    "Rowcol.C17_mat_static_index",
    "Rowcol.C17_mat_static_index_iff",
    "Rowcol.C17_mat_static_index_mut"
   ],
   "note": "Statically checked matrix indexing is always in bounds: proved for the whole quantifier of the statement."
  },
  {
   "property": "C18",
   "status": "proved",
   "theorems": [
    "Rowcol.C18_vec_order",
    "Rowcol.C18_vec_ok",
    "Rowcol.C18_vec_panic",
    "Rowcol.C18_vec_forms_agree",
    "Rowcol.C18_mat_order",
    "Rowcol.C18_mat_ok",
    "Rowcol.C18_mat_panic",
    "Rowcol.C18_mat_forms_agree"
   ],
   "note": "Elementwise + and -: proved for the whole quantifier of the statement."
  },
  {
   "property": "C19",
   "status": "proved",
   "theorems": [
    "Rowcol.C19_vec_order",
    "Rowcol.C19_vec_ok",
    "Rowcol.C19_mat_order",
    "Rowcol.C19_mat_ok"
   ],
   "note": "Scalar operations and negation: proved for the whole quantifier of the statement."
  },
  {
   "property": "C20",
   "status": "proved",
   "theorems": [
    "Rowcol.C20_vec_assign",
    "Rowcol.C20_mat_assign"
   ],
   "note": "Compound assignment equals the operator: proved for the whole quantifier of the statement."
  },
  {
   "property": "C21",
   "status": "proved",
   "theorems": [
    "Rowcol.C21_vec_assign_panic",
    "Rowcol.C21_vec_scalar_assign_panic",
    "Rowcol.C21_mat_assign_panic",
    "Rowcol.C21_mat_scalar_assign_panic"
   ],
   "note": "Compound assignment interrupted by a panic: proved for the whole quantifier of the statement."
  },
  {
   "property": "C22",
   "status": "proved",
   "theorems": [
    "Rowcol.C22_vec_module",
    "Rowcol.C22_mat_module"
   ],
   "note": "Vectors and matrices form a module: proved for the whole quantifier of the statement."
  },
  {
   "property": "C23",
   "status": "proved",
   "theorems": [
    "Rowcol.C23_dot",
    "Rowcol.C23_dot_laws"
   ],
   "note": "dot product: proved for the whole quantifier of the statement."
  },
  {
   "property": "C24",
   "status": "proved",
   "theorems": [
    "Rowcol.C24_cross",
    "Rowcol.C24_cross_laws"
   ],
   "note": "cross product: proved for the whole quantifier of the statement."
  },
  {
   "property": "C25",
   "status": "proved",
   "theorems": [
    "Rowcol.C25_norm",
    "Rowcol.C25_norm_euclidean",
    "Rowcol.C25_norm_zero",
    "Rowcol.C25_norm_homogeneous",
    "Rowcol.C25_norm_triangle",
    "Rowcol.C25_cauchy_schwarz",
    "Rowcol.C25_normalized",
    "Rowcol.C25_normalized_zero"
   ],
   "note": "Exact real arithmetic (Mathlib reals), rounding excluded as the statement says."
  },
  {
   "property": "C26",
   "status": "proved",
   "theorems": [
    "Rowcol.C26_vec_sum",
    "Rowcol.C26_mat_sum",
    "Rowcol.C26_sum_laws",
    "Rowcol.C26_sum_transposed"
   ],
   "note": "sum: proved for the whole quantifier of the statement."
  },
  {
   "property": "C27",
   "status": "proved",
   "theorems": [
    "Rowcol.C27_vec_max",
    "Rowcol.C27_vec_min",
    "Rowcol.C27_mat_max",
    "Rowcol.C27_mat_min"
   ],
   "note": "max and min: proved for the whole quantifier of the statement."
  },
  {
   "property": "C28",
   "status": "proved",
   "theorems": [
    "Rowcol.C28_vec_max_by",
    "Rowcol.C28_vec_min_by",
    "Rowcol.C28_mat_max_by",
    "Rowcol.C28_mat_min_by",
    "Rowcol.C28_vec_calls",
    "Rowcol.C28_vec_effects",
    "Rowcol.C28_mat_effects",
    "Rowcol.C28_mat_calls"
   ],
   "note": "max_by and min_by: proved for the whole quantifier of the statement."
  },
  {
   "property": "C29",
   "status": "proved",
   "theorems": [
    "Rowcol.C29_vec_clamp",
    "Rowcol.C29_mat_clamp",
    "Rowcol.C29_crossed",
    "Rowcol.C29_idempotent"
   ],
   "note": "clamp and clamped: proved for the whole quantifier of the statement."
  },
  {
   "property": "C30",
   "status": "proved",
   "theorems": [
    "Rowcol.C30_vec_eq",
    "Rowcol.C30_mat_eq",
    "Rowcol.C30_lawful",
    "Rowcol.C30_equivalence"
   ],
   "note": "Equality is elementwise: proved for the whole quantifier of the statement."
  },
  {
   "property": "C31",
   "status": "partial",
   "theorems": [
    "Rowcol.C31_eq_refl_partial",
    "Rowcol.C31_false"
   ],
   "note": "False of the code for element types whose equality is not reflexive (C31_false: the Eq impl does not require T: Eq); C31_eq_refl_partial is the part that holds."
  },
  {
   "property": "C32",
   "status": "proved",
   "theorems": [
    "Rowcol.C32_vec_const",
    "Rowcol.C32_mat_const",
    "Rowcol.C32_is_zero",
    "Rowcol.C32_zero_is_zero",
    "Rowcol.C32_default_calls"
   ],
   "note": "zero, is_zero, default, min_value, max_value: proved for the whole quantifier of the statement."
  },
  {
   "property": "C33",
   "status": "proved",
   "theorems": [
    "Rowcol.C33_vec_clone",
    "Rowcol.C33_mat_clone",
    "Rowcol.C33_vec_clone_id",
    "Rowcol.C33_mat_clone_id"
   ],
   "note": "clone: proved for the whole quantifier of the statement."
  },
  {
   "property": "C34",
   "status": "partial",
   "theorems": [
    "Rowcol.C34_vec_debug",
    "Rowcol.C34_mat_debug_partial",
    "Rowcol.C34_false"
   ],
   "note": "Vectors: proved. Matrices: proved with at least one row (C34_mat_debug_partial); with zero rows false of the code in builds with overflow checks (C34_false, exact behaviour)."
  },
  {
   "property": "C35",
   "status": "proved",
   "theorems": [
    "Rowcol.C35_new",
    "Rowcol.C35_vector"
   ],
   "note": "Vector::new, Matrix::new, len, is_empty, dim, rows, cols: proved for the whole quantifier of the statement."
  },
  {
   "property": "C36",
   "status": "proved",
   "theorems": [
    "Rowcol.C36_diag"
   ],
   "note": "diag: proved for the whole quantifier of the statement."
  },
  {
   "property": "C37",
   "status": "proved",
   "theorems": [
    "Rowcol.C37_map",
    "Rowcol.C37_map_ok",
    "Rowcol.C37_all",
    "Rowcol.C37_any",
    "Rowcol.C37_all_any_pure"
   ],
   "note": "map, all, any: proved for the whole quantifier of the statement."
  },
  {
   "property": "C38",
   "status": "proved",
   "theorems": [
    "Rowcol.C38_transposed",
    "Rowcol.C38_involutive",
    "Rowcol.C38_in_place",
    "Rowcol.C38_linear"
   ],
   "note": "transposed: proved for the whole quantifier of the statement."
  },
  {
   "property": "C39",
   "status": "proved",
   "theorems": [
    "Rowcol.C39_identity",
    "Rowcol.C39_neutral"
   ],
   "note": "identity / one: proved for the whole quantifier of the statement."
  },
  {
   "property": "C40",
   "status": "proved",
   "theorems": [
    "Rowcol.C40_from_vector",
    "Rowcol.C40_no_columns"
   ],
   "note": "Matrix from flat vector: proved for the whole quantifier of the statement."
  },
  {
   "property": "C41",
   "status": "proved",
   "theorems": [
    "Rowcol.C41_mul_entries",
    "Rowcol.C41_mul_panic",
    "Rowcol.C41_mul",
    "Rowcol.C41_forms_agree",
    "Rowcol.C41_mul_assign"
   ],
   "note": "Matrix multiplication: proved for the whole quantifier of the statement."
  },
  {
   "property": "C42",
   "status": "proved",
   "theorems": [
    "Rowcol.C42_mul_laws",
    "Rowcol.C42_mul_comm_laws"
   ],
   "note": "Matrix multiplication laws: proved for the whole quantifier of the statement."
  },
  {
   "property": "C43",
   "status": "proved",
   "theorems": [
    "Rowcol.C43_mul_assign_atomic"
   ],
   "note": "a *= b is atomic under panic: proved for the whole quantifier of the statement."
  },
  {
   "property": "C44",
   "status": "proved",
   "theorems": [
    "Rowcol.C44_mul_vec",
    "Rowcol.C44_mul_vec_assoc"
   ],
   "note": "Matrix times vector: proved for the whole quantifier of the statement."
  },
  {
   "property": "C45",
   "status": "proved",
   "theorems": [
    "Rowcol.C45_pow",
    "Rowcol.C45_pow_laws"
   ],
   "note": "pow: proved for the whole quantifier of the statement."
  },
  {
   "property": "C46",
   "status": "proved",
   "theorems": [
    "Rowcol.C46_fib_doc",
    "Rowcol.C46_fib_example",
    "Rowcol.C46_fib_u64"
   ],
   "note": "The documented program over unbounded naturals and wrapping u64; the example program over unbounded naturals."
  },
  {
   "property": "C47",
   "status": "proved",
   "theorems": [
    "Rowcol.C47_types",
    "Rowcol.C47_linear_algebra",
    "Rowcol.C47_real",
    "Rowcol.C47_adjoint",
    "Rowcol.C47_hermitian",
    "Rowcol.C47_gram",
    "Rowcol.C47_positive_definite",
    "Rowcol.C47_gram_inverse",
    "Rowcol.C47_as_real",
    "Rowcol.C47_as_real_determinant",
    "Rowcol.C47_conjugate",
    "Rowcol.C47_involution_real",
    "Rowcol.C47_hom"
   ],
   "note": "conjugate and complex matrices: proved for the whole quantifier of the statement."
  },
  {
   "property": "C48",
   "status": "proved",
   "theorems": [
    "Rowcol.C48_determinant",
    "Rowcol.C48_leibniz"
   ],
   "note": "determinant is the determinant: proved for the whole quantifier of the statement."
  },
  {
   "property": "C49",
   "status": "proved",
   "theorems": [
    "Rowcol.C49_mul",
    "Rowcol.C49_transposed",
    "Rowcol.C49_identity",
    "Rowcol.C49_scalar",
    "Rowcol.C49_equal_rows"
   ],
   "note": "Determinant laws users rely on: proved for the whole quantifier of the statement."
  },
  {
   "property": "C50",
   "status": "proved",
   "theorems": [
    "Rowcol.C50_small"
   ],
   "note": "determinant for small integer matrices: proved for the whole quantifier of the statement."
  },
  {
   "property": "C51",
   "status": "partial",
   "theorems": [
    "Rowcol.C51_false",
    "Rowcol.C51_small_partial",
    "Rowcol.C51_triangular_partial",
    "Rowcol.C51_exact_division_partial",
    "Rowcol.C51_false_every_size"
   ],
   "note": "False of the code at every size from 4 on (truncating integer division in the elimination): C51_false, C51_false_every_size. Proved: sizes up to 3; triangular matrices of every size; every matrix of every size on which no division leaves a remainder."
  },
  {
   "property": "C52",
   "status": "proved",
   "theorems": [
    "Rowcol.C52_determinant",
    "Rowcol.C52_inverse",
    "Rowcol.C52_determinant_total",
    "Rowcol.C52_inverse_total"
   ],
   "note": "determinant and inverse never divide by zero: proved for the whole quantifier of the statement."
  },
  {
   "property": "C53",
   "status": "proved",
   "theorems": [
    "Rowcol.C53_cofactor_ring",
    "Rowcol.C53_cofactor",
    "Rowcol.C53_minor",
    "Rowcol.C53_laplace_row",
    "Rowcol.C53_laplace_column",
    "Rowcol.C53_alien_row"
   ],
   "note": "cofactor: proved for the whole quantifier of the statement."
  },
  {
   "property": "C54",
   "status": "proved",
   "theorems": [
    "Rowcol.C54_out_of_range"
   ],
   "note": "cofactor rejects out-of-range indices: proved for the whole quantifier of the statement."
  },
  {
   "property": "C55",
   "status": "proved",
   "theorems": [
    "Rowcol.C55_sound",
    "Rowcol.C55_unique",
    "Rowcol.C55_singular"
   ],
   "note": "inverse is sound: proved for the whole quantifier of the statement."
  },
  {
   "property": "C56",
   "status": "partial",
   "theorems": [
    "Rowcol.C56_complete_partial",
    "Rowcol.C56_false"
   ],
   "note": "False of the code from size 4 on (no pivoting): C56_false for every size and field; sizes up to 3 proved; C57 gives the exact domain."
  },
  {
   "property": "C57",
   "status": "proved",
   "theorems": [
    "Rowcol.C57_minors",
    "Rowcol.C57_none"
   ],
   "note": "Exactly when inverse gives up (N>=4): proved for the whole quantifier of the statement."
  },
  {
   "property": "C58",
   "status": "proved",
   "theorems": [
    "Rowcol.C58_determinant",
    "Rowcol.C58_cofactor",
    "Rowcol.C58_inverse",
    "Rowcol.C58_headers",
    "Rowcol.C58_max_exists"
   ],
   "note": "Determinant/Cofactor/Inverse implementations cover each size once: proved for the whole quantifier of the statement."
  },
  {
   "property": "C59",
   "status": "proved",
   "theorems": [
    "Rowcol.C59_deque",
    "Rowcol.C59_checked"
   ],
   "note": "Row and column iterators behave as double-ended queues: proved for the whole quantifier of the statement."
  },
  {
   "property": "C60",
   "status": "proved",
   "theorems": [
    "Rowcol.C60_safe"
   ],
   "note": "Row and column iterators never leave the matrix: proved for the whole quantifier of the statement."
  },
  {
   "property": "C61",
   "status": "partial",
   "theorems": [
    "Rowcol.C61_ref_iters_partial",
    "Rowcol.C61_cloning_iters",
    "Rowcol.C61_false"
   ],
   "note": "False of the code for rows_iter/cols_iter after next_back (C61_false; exact value in C61_cloning_iters) and after an nth past the end (C62_len_after_overshoot); proved for the reference iterators on in-range histories. Exactly when the reported length is right, for every history in every build: C113_len_right."
  },
  {
   "property": "C62",
   "status": "partial",
   "theorems": [
    "Rowcol.C62_exhausted_partial",
    "Rowcol.C62_len_after_overshoot",
    "Rowcol.C62_false_wrap"
   ],
   "note": "False of the code: len() after an overshoot (C62_len_after_overshoot) and wrapping nth (C62_false_wrap); the part that holds is C62_exhausted_partial. What happens after any nth, in every build: C113_any_history."
  },
  {
   "property": "C63",
   "status": "proved",
   "theorems": [
    "Rowcol.C63_any_history",
    "Rowcol.C63_last"
   ],
   "note": "last: proved for the whole quantifier of the statement."
  },
  {
   "property": "C64",
   "status": "proved",
   "theorems": [
    "Rowcol.C64_display",
    "Rowcol.C64_rectangular"
   ],
   "note": "Display never panics and is rectangular: proved for the whole quantifier of the statement."
  },
  {
   "property": "C65",
   "status": "proved",
   "theorems": [
    "Rowcol.C65_lines",
    "Rowcol.C65_height",
    "Rowcol.C65_place",
    "Rowcol.C65_str_lines"
   ],
   "note": "Display line count: proved for the whole quantifier of the statement."
  },
  {
   "property": "C66",
   "status": "proved",
   "theorems": [
    "Rowcol.C66_approx_eq"
   ],
   "note": "approximate equality: proved for the whole quantifier of the statement."
  },
  {
   "property": "C67",
   "status": "proved",
   "theorems": [
    "Rowcol.C67_vector_macro",
    "Rowcol.C67_matrix_rows",
    "Rowcol.C67_matrix_cols"
   ],
   "note": "vector! and matrix! infer the right size: proved for the whole quantifier of the statement."
  },
  {
   "property": "C68",
   "status": "partial",
   "theorems": [
    "Rowcol.C68_aliases_partial",
    "Rowcol.C68_false"
   ],
   "note": "False of the code: Matrix2f64 is f32 (C68_false); all other aliases proved. The quantifier is this finite table."
  },
  {
   "property": "C69",
   "status": "partial",
   "theorems": [
    "Rowcol.C69_ref_iters_partial",
    "Rowcol.C69_cloning_iters",
    "Rowcol.C69_false",
    "Rowcol.C69_false_overshoot"
   ],
   "note": "False of the code: C69_false, C69_false_overshoot; exact outcome for the cloning iterators in C69_cloning_iters; reference iterators proved for in-range histories. The outcome for every history, build and length: C113_collect."
  },
  {
   "property": "C70",
   "status": "proved",
   "theorems": [
    "Rowcol.C70_zip_ok",
    "Rowcol.C70_zip_panic",
    "Rowcol.C70_map_ok",
    "Rowcol.C70_map_panic"
   ],
   "note": "Consuming operations are panic-safe: proved for the whole quantifier of the statement."
  },
  {
   "property": "C71",
   "status": "proved",
   "theorems": [
    "Rowcol.C71_min"
   ],
   "note": "Min<Row,Col> is the minimum: proved for the whole quantifier of the statement."
  },
  {
   "property": "C72",
   "status": "proved",
   "theorems": [
    "Rowcol.C72_complex",
    "Rowcol.C72_types",
    "Rowcol.C72_vec",
    "Rowcol.C72_cross",
    "Rowcol.C72_mat",
    "Rowcol.C72_products",
    "Rowcol.C72_det_small",
    "Rowcol.C72_cofactor_small"
   ],
   "note": "C72_types shows that i*/u* of every width with overflow checks satisfy the hypothesis of the other C72 theorems."
  },
  {
   "property": "C73",
   "status": "proved",
   "theorems": [
    "Rowcol.C73_types",
    "Rowcol.C73_ring",
    "Rowcol.C73_vec",
    "Rowcol.C73_cross",
    "Rowcol.C73_mat",
    "Rowcol.C73_products",
    "Rowcol.C73_det_small",
    "Rowcol.C73_cofactor_small"
   ],
   "note": "C73_types shows that i*/u* of every width without overflow checks satisfy the hypothesis of the other C73 theorems, and when a residue is exact."
  },
  {
   "property": "C74",
   "status": "proved",
   "theorems": [
    "Rowcol.C74_vec",
    "Rowcol.C74_products",
    "Rowcol.C74_fib_doc",
    "Rowcol.C74_fib_example",
    "Rowcol.C74_fib_u64"
   ],
   "note": "Unsigned checked arithmetic succeeds exactly when the result is representable: proved for the whole quantifier of the statement."
  },
  {
   "property": "C75",
   "status": "proved",
   "theorems": [
    "Rowcol.C75_complex",
    "Rowcol.C75_types",
    "Rowcol.C75_fits",
    "Rowcol.C75_overflow",
    "Rowcol.C75_representable",
    "Rowcol.C75_determinant",
    "Rowcol.C75_cofactor",
    "Rowcol.C75_inverse"
   ],
   "note": "C75_types shows that Ratio of i* of every width satisfies the hypothesis of the other C75 theorems."
  },
  {
   "property": "C76",
   "status": "proved",
   "theorems": [
    "Rowcol.C76_generic",
    "Rowcol.C76_collect",
    "Rowcol.C76_types",
    "Rowcol.C76_vec",
    "Rowcol.C76_mat",
    "Rowcol.C76_products",
    "Rowcol.C76_linear_algebra"
   ],
   "note": "C76_types shows that i*/u* of every width satisfy the hypothesis of the other C76 theorems."
  },
  {
   "property": "C77",
   "status": "proved",
   "theorems": [
    "Rowcol.C77_safe_iff",
    "Rowcol.C77_harmless"
   ],
   "note": "Exactly which uses of the owning iterator are memory safe: proved for the whole quantifier of the statement."
  },
  {
   "property": "C78",
   "status": "proved",
   "theorems": [
    "Rowcol.C78_vector",
    "Rowcol.C78_matrix",
    "Rowcol.C78_two_vectors",
    "Rowcol.C78_two_matrices",
    "Rowcol.C78_vector_panic_at"
   ],
   "note": "Consuming operations account for every element: proved for the whole quantifier of the statement."
  },
  {
   "property": "C79",
   "status": "proved",
   "theorems": [
    "Rowcol.C79_vector",
    "Rowcol.C79_matrix",
    "Rowcol.C79_vector_value",
    "Rowcol.C79_matrix_value"
   ],
   "note": "Assigning operators: left operand, effects and the consumed right operand: proved for the whole quantifier of the statement."
  },
  {
   "property": "C80",
   "status": "proved",
   "theorems": [
    "Rowcol.C80_transposed",
    "Rowcol.C80_determinant",
    "Rowcol.C80_product",
    "Rowcol.C80_product_small",
    "Rowcol.C80_twice",
    "Rowcol.C80_twice_small",
    "Rowcol.C80_scalar",
    "Rowcol.C80_identity",
    "Rowcol.C80_solves",
    "Rowcol.C80_product_may_fail",
    "Rowcol.C80_twice_may_fail"
   ],
   "note": "Laws of inverse: proved for the whole quantifier of the statement."
  },
  {
   "property": "C81",
   "status": "proved",
   "theorems": [
    "Rowcol.C81_lu",
    "Rowcol.C81_lower",
    "Rowcol.C81_upper",
    "Rowcol.C81_positive_definite",
    "Rowcol.C81_least_squares",
    "Rowcol.C81_diagonally_dominant"
   ],
   "note": "Matrices whose inverse is always found: proved for the whole quantifier of the statement."
  },
  {
   "property": "C82",
   "status": "proved",
   "theorems": [
    "Rowcol.C82_render_panics",
    "Rowcol.C82_writes",
    "Rowcol.C82_text",
    "Rowcol.C82_limited"
   ],
   "note": "Display with effects and failing destinations: proved for the whole quantifier of the statement."
  },
  {
   "property": "C83",
   "status": "proved",
   "theorems": [
    "Rowcol.C83_dot",
    "Rowcol.C83_vec_sum",
    "Rowcol.C83_mat_sum",
    "Rowcol.C83_vec_elementwise",
    "Rowcol.C83_mat_elementwise",
    "Rowcol.C83_mul",
    "Rowcol.C83_mul_vec",
    "Rowcol.C83_cross",
    "Rowcol.C83_det_small",
    "Rowcol.C83_pow",
    "Rowcol.C83_no_cancellation",
    "Rowcol.C83_det_sign",
    "Rowcol.C83_norm",
    "Rowcol.C83_normalized",
    "Rowcol.C83_unit",
    "Rowcol.C83_gamma",
    "Rowcol.C83_types"
   ],
   "note": "Rounding errors of floating point results: proved for the whole quantifier of the statement."
  },
  {
   "property": "C84",
   "status": "proved",
   "theorems": [
    "Rowcol.C84_types",
    "Rowcol.C84_dot",
    "Rowcol.C84_vec_sum",
    "Rowcol.C84_mat_sum",
    "Rowcol.C84_mul",
    "Rowcol.C84_mul_vec",
    "Rowcol.C84_vec_elementwise",
    "Rowcol.C84_mat_elementwise",
    "Rowcol.C84_pow",
    "Rowcol.C84_cross",
    "Rowcol.C84_det_small",
    "Rowcol.C84_mul_assoc"
   ],
   "note": "Integer-valued floats are computed exactly: proved for the whole quantifier of the statement."
  },
  {
   "property": "C85",
   "status": "proved",
   "theorems": [
    "Rowcol.C85_vec",
    "Rowcol.C85_mat",
    "Rowcol.C85_det_small",
    "Rowcol.C85_cofactor_small",
    "Rowcol.C85_linear_algebra",
    "Rowcol.C85_types",
    "Rowcol.C85_moves",
    "Rowcol.C85_order"
   ],
   "note": "Computations commute with maps between element types: proved for the whole quantifier of the statement."
  },
  {
   "property": "C86",
   "status": "proved",
   "theorems": [
    "Rowcol.C86_determinant",
    "Rowcol.C86_inverse_small",
    "Rowcol.C86_gamma",
    "Rowcol.C86_types",
    "Rowcol.C86_inverse",
    "Rowcol.C86_stages_unique",
    "Rowcol.C86_inverse_types"
   ],
   "note": "Determinants and inverses in floating point: proved for the whole quantifier of the statement."
  },
  {
   "property": "C87",
   "status": "proved",
   "theorems": [
    "Rowcol.C87_norm",
    "Rowcol.C87_nan",
    "Rowcol.C87_signs",
    "Rowcol.C87_div_zero",
    "Rowcol.C87_dot",
    "Rowcol.C87_vec_sum",
    "Rowcol.C87_mat_sum",
    "Rowcol.C87_mul",
    "Rowcol.C87_mul_vec",
    "Rowcol.C87_cross",
    "Rowcol.C87_det_small",
    "Rowcol.C87_ints",
    "Rowcol.C87_no_trap",
    "Rowcol.C87_determinant",
    "Rowcol.C87_inverse_small",
    "Rowcol.C87_inverse",
    "Rowcol.C87_formats",
    "Rowcol.C87_nearest"
   ],
   "note": "f32 and f64 within IEEE 754: proved for the whole quantifier of the statement."
  },
  {
   "property": "C88",
   "status": "proved",
   "theorems": [
    "Rowcol.C88_vec",
    "Rowcol.C88_cross",
    "Rowcol.C88_mat",
    "Rowcol.C88_elementwise",
    "Rowcol.C88_elementwise_vec",
    "Rowcol.C88_determinant",
    "Rowcol.C88_cofactor",
    "Rowcol.C88_inverse",
    "Rowcol.C88_inverse_first",
    "Rowcol.C88_pow",
    "Rowcol.C88_norm",
    "Rowcol.C88_nan",
    "Rowcol.C88_identity"
   ],
   "note": "NaN and infinities: proved for the whole quantifier of the statement."
  },
  {
   "property": "C89",
   "status": "proved",
   "theorems": [
    "Rowcol.C89_dot_comm",
    "Rowcol.C89_add_comm",
    "Rowcol.C89_mul_transposed",
    "Rowcol.C89_gram",
    "Rowcol.C89_det2_transposed",
    "Rowcol.C89_neg_neg",
    "Rowcol.C89_pow",
    "Rowcol.C89_types",
    "Rowcol.C89_dot_self",
    "Rowcol.C89_sum_nonneg",
    "Rowcol.C89_permutation",
    "Rowcol.C89_permutation_right",
    "Rowcol.C89_diag",
    "Rowcol.C89_diag_right",
    "Rowcol.C89_scale",
    "Rowcol.C89_scale_right"
   ],
   "note": "Identities that hold to the last bit: proved for the whole quantifier of the statement."
  },
  {
   "property": "C90",
   "status": "proved",
   "theorems": [
    "Rowcol.C90_dot",
    "Rowcol.C90_vec_sum",
    "Rowcol.C90_mat_sum",
    "Rowcol.C90_cross",
    "Rowcol.C90_mul",
    "Rowcol.C90_mul_ref",
    "Rowcol.C90_mul_vec",
    "Rowcol.C90_mul_vec_ref",
    "Rowcol.C90_div_scalar",
    "Rowcol.C90_identity",
    "Rowcol.C90_det2",
    "Rowcol.C90_det3",
    "Rowcol.C90_minor",
    "Rowcol.C90_cofactor",
    "Rowcol.C90_determinant",
    "Rowcol.C90_inverse",
    "Rowcol.C90_cofactor2",
    "Rowcol.C90_cofactor3",
    "Rowcol.C90_cofactor_bad",
    "Rowcol.C90_inverse1",
    "Rowcol.C90_inverse2",
    "Rowcol.C90_inverse3"
   ],
   "note": "Element operations are called in a fixed order: proved for the whole quantifier of the statement."
  },
  {
   "property": "C91",
   "status": "proved",
   "theorems": [
    "Rowcol.C91_dot",
    "Rowcol.C91_vec_sum",
    "Rowcol.C91_mat_sum",
    "Rowcol.C91_cross",
    "Rowcol.C91_mul",
    "Rowcol.C91_mul_ref",
    "Rowcol.C91_mul_vec",
    "Rowcol.C91_mul_vec_ref",
    "Rowcol.C91_div_scalar",
    "Rowcol.C91_identity"
   ],
   "note": "Exact cost of products and sums: proved for the whole quantifier of the statement."
  },
  {
   "property": "C92",
   "status": "proved",
   "theorems": [
    "Rowcol.C92_upper",
    "Rowcol.C92_zero",
    "Rowcol.C92_elimination",
    "Rowcol.C92_cofactor_small",
    "Rowcol.C92_cofactor",
    "Rowcol.C92_inv1",
    "Rowcol.C92_inv2",
    "Rowcol.C92_inv3",
    "Rowcol.C92_inverse"
   ],
   "note": "Cost of determinant, cofactor and inverse: proved for the whole quantifier of the statement."
  },
  {
   "property": "C93",
   "status": "proved",
   "theorems": [
    "Rowcol.C93_pow",
    "Rowcol.C93_pow_zero"
   ],
   "note": "Cost of powers: proved for the whole quantifier of the statement."
  },
  {
   "property": "C94",
   "status": "proved",
   "theorems": [
    "Rowcol.C94_vec_eq",
    "Rowcol.C94_mat_eq",
    "Rowcol.C94_is_zero",
    "Rowcol.C94_relative_eq",
    "Rowcol.C94_ulps_eq",
    "Rowcol.C94_vec_max",
    "Rowcol.C94_mat_max",
    "Rowcol.C94_vec_max_counts",
    "Rowcol.C94_mat_max_counts",
    "Rowcol.C94_clamped",
    "Rowcol.C94_clamp",
    "Rowcol.C94_mat_clamp",
    "Rowcol.C94_pure"
   ],
   "note": "Comparisons ask in order and no more than needed: proved for the whole quantifier of the statement."
  },
  {
   "property": "C95",
   "status": "proved",
   "theorems": [
    "Rowcol.C95_histories",
    "Rowcol.C95_last",
    "Rowcol.C95_transposed",
    "Rowcol.C95_transpose",
    "Rowcol.C95_silent"
   ],
   "note": "Cloning iterators clone only what they hand out: proved for the whole quantifier of the statement."
  },
  {
   "property": "C96",
   "status": "proved",
   "theorems": [
    "Rowcol.C96_mul",
    "Rowcol.C96_pow",
    "Rowcol.C96_mul_vec",
    "Rowcol.C96_sum",
    "Rowcol.C96_scale",
    "Rowcol.C96_identity",
    "Rowcol.C96_elementwise",
    "Rowcol.C96_transposed",
    "Rowcol.C96_eq_zero",
    "Rowcol.C96_determinant",
    "Rowcol.C96_determinant_twice",
    "Rowcol.C96_determinant_may_fail"
   ],
   "note": "Matrices of matrices behave like the big matrix: proved for the whole quantifier of the statement."
  },
  {
   "property": "C97",
   "status": "proved",
   "theorems": [
    "Rowcol.C97_vec",
    "Rowcol.C97_mat",
    "Rowcol.C97_mat_empty",
    "Rowcol.C97_vec_entries",
    "Rowcol.C97_mat_entries",
    "Rowcol.C97_vec_writes",
    "Rowcol.C97_mat_writes",
    "Rowcol.C97_limited",
    "Rowcol.C97_text"
   ],
   "note": "Debug with failing destinations and entries with effects: proved for the whole quantifier of the statement."
  },
  {
   "property": "C98",
   "status": "proved",
   "theorems": [
    "Rowcol.C98_signed",
    "Rowcol.C98_signs_sums",
    "Rowcol.C98_signs_products",
    "Rowcol.C98_signs_pow",
    "Rowcol.C98_signs_cross",
    "Rowcol.C98_signs_determinant",
    "Rowcol.C98_signs_inverse",
    "Rowcol.C98_scale_sums",
    "Rowcol.C98_scale_products",
    "Rowcol.C98_scale_pow",
    "Rowcol.C98_scale_cross",
    "Rowcol.C98_scale_determinant",
    "Rowcol.C98_scale_inverse"
   ],
   "note": "Signs and powers of two in f32/f64: proved for the whole quantifier of the statement."
  },
  {
   "property": "C99",
   "status": "proved",
   "theorems": [
    "Rowcol.C99_norm",
    "Rowcol.C99_norm_signs",
    "Rowcol.C99_norm_monotone",
    "Rowcol.C99_sum_ge",
    "Rowcol.C99_norm_ge",
    "Rowcol.C99_norm_single",
    "Rowcol.C99_normalized",
    "Rowcol.C99_normalized_special",
    "Rowcol.C99_norm_limits",
    "Rowcol.C99_eq",
    "Rowcol.C99_is_zero",
    "Rowcol.C99_substitute",
    "Rowcol.C99_sum_monotone",
    "Rowcol.C99_product_monotone",
    "Rowcol.C99_nonneg_monotone",
    "Rowcol.C99_magnitudes"
   ],
   "note": "Comparisons, order and lengths in f32/f64: proved for the whole quantifier of the statement."
  },
  {
   "property": "C100",
   "status": "proved",
   "theorems": [
    "Rowcol.Prog.C100_memory_safe",
    "Rowcol.Prog.C100_expressions",
    "Rowcol.Prog.C100_deterministic",
    "Rowcol.Prog.C100_types",
    "Rowcol.Prog.C100_big_numbers",
    "Rowcol.Prog.C100_exact_types",
    "Rowcol.Prog.C100_matrix_elements",
    "Rowcol.Prog.C100_more_types"
   ],
   "note": "Whole programs are memory safe: proved for the whole quantifier of the statement."
  },
  {
   "property": "C101",
   "status": "proved",
   "theorems": [
    "Rowcol.Prog.C101_transport",
    "Rowcol.Prog.C101_builds_agree",
    "Rowcol.Prog.C101_exact_integers",
    "Rowcol.Prog.C101_bignum"
   ],
   "note": "Whole programs: builds agree: proved for the whole quantifier of the statement."
  },
  {
   "property": "C102",
   "status": "proved",
   "theorems": [
    "Rowcol.Prog.C102_fractions",
    "Rowcol.Prog.C102_integers",
    "Rowcol.Prog.C102_types",
    "Rowcol.Prog.C102_unique"
   ],
   "note": "Whole programs compute the linear algebra they denote, or panic: proved for the whole quantifier of the statement."
  },
  {
   "property": "C103",
   "status": "proved",
   "theorems": [
    "Rowcol.Prog.C103_ring",
    "Rowcol.Prog.C103_complete",
    "Rowcol.Prog.C103_total",
    "Rowcol.Prog.C103_wrapping_types",
    "Rowcol.Prog.C103_wrapping",
    "Rowcol.Prog.C103_power_loop"
   ],
   "note": "Programs without division never panic over rings: proved for the whole quantifier of the statement."
  },
  {
   "property": "C104",
   "status": "proved",
   "theorems": [
    "Rowcol.Prog.C104_parametric",
    "Rowcol.Prog.C104_termination",
    "Rowcol.Prog.C104_closed",
    "Rowcol.Prog.C104_types"
   ],
   "note": "Whole programs do not depend on the representation of the elements: proved for the whole quantifier of the statement."
  },
  {
   "property": "C105",
   "status": "proved",
   "theorems": [
    "Rowcol.FloatBits.C105_formats",
    "Rowcol.FloatBits.C105_meaning",
    "Rowcol.FloatBits.C105_patterns",
    "Rowcol.FloatBits.C105_executable",
    "Rowcol.FloatBits.C105_programs",
    "Rowcol.FloatBits.C105_reproducible",
    "Rowcol.FloatBits.C105_norm",
    "Rowcol.FloatBits.C105_sqrt_eq"
   ],
   "note": "f32 and f64 bit by bit: results are reproducible: proved for the whole quantifier of the statement."
  },
  {
   "property": "C106",
   "status": "proved",
   "theorems": [
    "Rowcol.Owner.C106_ownership",
    "Rowcol.Owner.C106_no_double_drop",
    "Rowcol.Owner.C106_scope_end",
    "Rowcol.Owner.C106_scope_end_panics",
    "Rowcol.Owner.C106_misuse"
   ],
   "note": "Whole programs that own elements: every element has exactly one owner and is destroyed exactly once: proved for the whole quantifier of the statement."
  },
  {
   "property": "C107",
   "status": "proved",
   "theorems": [
    "Rowcol.ApproxMat.C107_relative_total",
    "Rowcol.ApproxMat.C107_relative_holds",
    "Rowcol.ApproxMat.C107_relative_implies",
    "Rowcol.ApproxMat.C107_relative_special",
    "Rowcol.ApproxMat.C107_relative_reflexive",
    "Rowcol.ApproxMat.C107_relative_symmetric",
    "Rowcol.ApproxMat.C107_relative_monotone",
    "Rowcol.ApproxMat.C107_relative_zero",
    "Rowcol.ApproxMat.C107_relative_neighbours",
    "Rowcol.ApproxMat.C107_relative_bits",
    "Rowcol.ApproxMat.C107_default",
    "Rowcol.ApproxMat.C107_ulps_distance",
    "Rowcol.ApproxMat.C107_ulps_eq",
    "Rowcol.ApproxMat.C107_ulps_ranges",
    "Rowcol.ApproxMat.C107_ulps_wraps",
    "Rowcol.ApproxMat.C107_ulps_laws",
    "Rowcol.ApproxMat.C107_ulps_implies",
    "Rowcol.ApproxMat.C107_examples"
   ],
   "note": "Approximate equality of f32 and f64 matrices means what its tolerances say: proved for the whole quantifier of the statement."
  },
  {
   "property": "C108",
   "status": "proved",
   "theorems": [
    "Rowcol.Owner.C108_refines",
    "Rowcol.Owner.C108_allowed",
    "Rowcol.Owner.C108_scope_end",
    "Rowcol.Owner.C108_builds",
    "Rowcol.Owner.C108_frame",
    "Rowcol.Owner.C108_sample",
    "Rowcol.Owner.C108_sample_matrices"
   ],
   "note": "Whole programs that own elements do exactly what lists and queues would do: proved for the whole quantifier of the statement."
  },
  {
   "property": "C109",
   "status": "proved",
   "theorems": [
    "Rowcol.C109_vec",
    "Rowcol.C109_mat",
    "Rowcol.C109_mat_empty",
    "Rowcol.C109_vec_fails",
    "Rowcol.C109_honest",
    "Rowcol.C109_destination",
    "Rowcol.C109_faithful_vec",
    "Rowcol.C109_faithful_mat",
    "Rowcol.C109_sample",
    "Rowcol.C109_digits"
   ],
   "note": "The alternate form {:#?} of Debug: proved for the whole quantifier of the statement."
  },
  {
   "property": "C110",
   "status": "proved",
   "theorems": [
    "Rowcol.Owner.C110_ownership",
    "Rowcol.Owner.C110_no_double_drop",
    "Rowcol.Owner.C110_scope_end",
    "Rowcol.Owner.C110_agrees",
    "Rowcol.Owner.C110_agrees_scope",
    "Rowcol.Owner.C110_array_drop",
    "Rowcol.Owner.C110_drop_array",
    "Rowcol.Owner.C110_drop_iter",
    "Rowcol.Owner.C110_short_collect",
    "Rowcol.Owner.C110_nth_skips",
    "Rowcol.Owner.C110_misuse",
    "Rowcol.Owner.C110_census",
    "Rowcol.Owner.C110_census_step",
    "Rowcol.Owner.C110_census_scope",
    "Rowcol.Owner.C110_quiet"
   ],
   "note": "Whole programs whose elements' destructors may panic: proved for the whole quantifier of the statement."
  },
  {
   "property": "C111",
   "status": "proved",
   "theorems": [
    "Rowcol.C111_collect",
    "Rowcol.C111_every_element",
    "Rowcol.C111_round_trip",
    "Rowcol.C111_chunks"
   ],
   "note": "Collecting what is left of an owning iterator: proved for the whole quantifier of the statement."
  },
  {
   "property": "C112",
   "status": "partial",
   "theorems": [
    "Rowcol.C112_reverse_partial",
    "Rowcol.C112_exact",
    "Rowcol.C112_false",
    "Rowcol.C112_false_release",
    "Rowcol.C112_fresh"
   ],
   "note": "False of the code: C112_false (debug builds: after one next(), rev().collect() of the rest panics and destroys the element handed out before a second time), C112_false_release (asking for too many hands out elements twice). C112_exact says exactly when it is memory safe; C112_reverse_partial proves the claim there."
  },
  {
   "property": "C113",
   "status": "proved",
   "theorems": [
    "Rowcol.C113_any_history",
    "Rowcol.C113_collect",
    "Rowcol.C113_len_right",
    "Rowcol.C113_revived",
    "Rowcol.C113_items"
   ],
   "note": "The borrowing iterators after any history, in any build: proved for the whole quantifier of the statement."
  },
  {
   "property": "C114",
   "status": "proved",
   "theorems": [
    "Rowcol.Prog.C114_ring",
    "Rowcol.Prog.C114_expressions",
    "Rowcol.Prog.C114_fractions",
    "Rowcol.Prog.C114_fields",
    "Rowcol.Prog.C114_field_expressions",
    "Rowcol.Prog.C114_integers",
    "Rowcol.Prog.C114_types",
    "Rowcol.Prog.C114_parts",
    "Rowcol.Prog.C114_products",
    "Rowcol.Prog.C114_determinants",
    "Rowcol.Prog.C114_entries",
    "Rowcol.Prog.C114_vectors",
    "Rowcol.Prog.C114_cofactors",
    "Rowcol.Prog.C114_same_field",
    "Rowcol.Prog.C114_division",
    "Rowcol.Prog.C114_statements",
    "Rowcol.Prog.C114_assign"
   ],
   "note": "Programs can be rewritten by the laws of linear algebra: proved for the whole quantifier of the statement."
  },
  {
   "property": "C115",
   "status": "proved",
   "theorems": [
    "Rowcol.Prog.C115_expressions",
    "Rowcol.Prog.C115_programs",
    "Rowcol.Prog.C115_rewrite",
    "Rowcol.Prog.C115_relative_eq",
    "Rowcol.Prog.C115_all_inputs",
    "Rowcol.Prog.C115_rounding",
    "Rowcol.Prog.C115_true_inputs",
    "Rowcol.Prog.C115_true_programs",
    "Rowcol.Prog.C115_inputs",
    "Rowcol.Prog.C115_computed",
    "Rowcol.Prog.C115_bits"
   ],
   "note": "Error bounds for whole expressions and programs in floating point: proved for the whole quantifier of the statement."
  },
  {
   "property": "C116",
   "status": "proved",
   "theorems": [
    "Rowcol.Prog.C116_places",
    "Rowcol.Prog.C116_formula",
    "Rowcol.Prog.C116_program",
    "Rowcol.Prog.C116_fractions",
    "Rowcol.Prog.C116_integers",
    "Rowcol.Prog.C116_degree",
    "Rowcol.Prog.C116_transfer",
    "Rowcol.Prog.C116_testing",
    "Rowcol.Prog.C116_congruence",
    "Rowcol.Prog.C116_derivative",
    "Rowcol.Prog.C116_derivative_programs",
    "Rowcol.Prog.C116_dual"
   ],
   "note": "Calculations without division are polynomials: proved for the whole quantifier of the statement."
  },
  {
   "property": "C117",
   "status": "proved",
   "theorems": [
    "Rowcol.C117_determinant",
    "Rowcol.C117_cofactor",
    "Rowcol.C117_inverse",
    "Rowcol.C117_inverse_some",
    "Rowcol.Prog.C117_expressions",
    "Rowcol.Prog.C117_programs",
    "Rowcol.Prog.C117_panics",
    "Rowcol.Prog.C117_program_panics",
    "Rowcol.Prog.C117_dual",
    "Rowcol.Prog.C117_modulo",
    "Rowcol.Prog.C117_derivative",
    "Rowcol.Prog.C117_derivative_programs",
    "Rowcol.Prog.C117_modular",
    "Rowcol.Prog.C117_modular_programs"
   ],
   "note": "Numbers without reciprocals, derivatives and modular arithmetic: proved for the whole quantifier of the statement."
  },
  {
   "property": "C118",
   "status": "proved",
   "theorems": [
    "Rowcol.Prog.C118_exchange_outcomes",
    "Rowcol.Prog.C118_expressions",
    "Rowcol.Prog.C118_frame",
    "Rowcol.Prog.C118_reads",
    "Rowcol.Prog.C118_exchange",
    "Rowcol.Prog.C118_dead",
    "Rowcol.Prog.C118_substitute",
    "Rowcol.Prog.C118_naming",
    "Rowcol.Prog.C118_inline",
    "Rowcol.Prog.C118_inline_panics",
    "Rowcol.Prog.C118_hoist",
    "Rowcol.Prog.C118_rename",
    "Rowcol.Prog.C118_alike",
    "Rowcol.Prog.C118_contexts",
    "Rowcol.Prog.C118_forms",
    "Rowcol.Prog.C118_assign",
    "Rowcol.Prog.C118_parts"
   ],
   "note": "Variables are values: nothing is aliased, and naming or writing out a subexpression changes nothing: proved for the whole quantifier of the statement."
  },
  {
   "property": "C119",
   "status": "proved",
   "theorems": [
    "Rowcol.Prog.C119_vectors",
    "Rowcol.Prog.C119_matrices",
    "Rowcol.Prog.C119_products",
    "Rowcol.Prog.C119_sums",
    "Rowcol.Prog.C119_cross",
    "Rowcol.Prog.C119_determinant",
    "Rowcol.Prog.C119_cofactor",
    "Rowcol.Prog.C119_map",
    "Rowcol.Prog.C119_lines"
   ],
   "note": "Every operation is its formula, written out entry by entry: proved for the whole quantifier of the statement."
  }
 ]
}