{"id": "C01", "title": "Collecting exactly N items", "statement": "Collecting an iterator that yields exactly N items into Vector<T,N> returns a vector whose i-th element is the i-th item, in debug and release builds, whatever effects producing the items has (each item is requested once, in order).", "quantifier": "every N, every item sequence of length N, every build mode, every effect of the producing closure", "why_tests_cant": "N, the items and the closure's effects are unbounded; a test fixes one closure.", "anchors": ["src/vector.rs: FromIterator::from_iter"]}
{"id": "C02", "title": "Collecting too few items", "statement": "Collecting an iterator that ends after k<N items always panics (both build modes), and before the panic each of the k received items is dropped exactly once, nothing else is dropped and no uninitialised slot is touched (destructors that do not panic).", "quantifier": "every N, every k<N, every item sequence, every build mode", "why_tests_cant": "Double drops and reads of uninitialised memory are invisible to value-level tests and depend on every k.", "anchors": ["src/vector.rs: FromIterator::from_iter (None branch)"]}
{"id": "C03", "title": "Collecting too many items", "statement": "Collecting an iterator that yields more than N items panics when debug assertions are on; otherwise it returns the vector of the first N items.", "quantifier": "every N, every longer item sequence, both build modes", "why_tests_cant": "Behaviour depends on build mode; tests run in one mode.", "anchors": ["src/vector.rs: FromIterator::from_iter (debug_assert_eq)"]}
{"id": "C04", "title": "Collecting is panic-safe at every crash point", "statement": "If producing the item number k panics while collecting into a vector, no element is dropped twice, no uninitialised memory is dropped or read; the k elements already received are leaked, not dropped.", "quantifier": "every N, every crash point k<N, every item sequence", "why_tests_cant": "Every crash point and every N; leaks and double drops are not observable values.", "anchors": ["src/vector.rs: FromIterator::from_iter"]}
{"id": "C05", "title": "A panicking destructor during the too-few-items cleanup", "statement": "No element is ever dropped twice and no uninitialised slot is dropped while collecting too few items, even if an element's destructor panics.", "quantifier": "every N, every k<N, every choice of which elements' destructors panic", "why_tests_cant": "Needs a panicking Drop at every position.", "anchors": ["src/vector.rs: FromIterator::from_iter (arr.into_inner() before drop_in_place)"]}
{"id": "C06", "title": "Vector::generate and Matrix::generate call order", "statement": "generate calls the closure exactly once per index, in ascending order (row-major for matrices), and element i (resp. (i,j)) is the value returned for that index; a panic of the closure propagates and stops further calls.", "quantifier": "every N / Row x Col, every (stateful, panicking) closure", "why_tests_cant": "The closure is arbitrary FnMut; tests fix a few pure ones.", "anchors": ["src/vector.rs: Vector::generate", "src/matrix/mod.rs: Matrix::generate"]}
{"id": "C07", "title": "Owning iterator, front-only use", "statement": "v.into_iter() driven by next()/nth(k) with k at most the remaining count yields the elements in order, then None for ever, and len()/size_hint() always equal the number of elements still to come.", "quantifier": "every N, every such call history, build mode", "why_tests_cant": "All histories of unbounded length.", "anchors": ["src/vector.rs: IntoIter::next", "src/vector.rs: IntoIter::nth", "src/vector.rs: IntoIter::len", "src/vector.rs: IntoIter::size_hint"]}
{"id": "C08", "title": "Owning iterator, mixed front/back use", "statement": "For any history of next()/next_back() calls, v.into_iter() never yields the same element twice and returns None from both ends once all elements were yielded.", "quantifier": "every N, every interleaving of next and next_back", "why_tests_cant": "Every interleaving of unbounded length; the library's own test only uses one direction at a time.", "anchors": ["src/vector.rs: IntoIter::next_back", "src/vector.rs: IntoIter::next"]}
{"id": "C09", "title": "Owning iterator: no call history causes an invalid memory access", "statement": "No sequence of safe calls next/next_back/nth/len/size_hint on v.into_iter(), followed by dropping it, reads or drops a slot outside the array, a moved-out slot or a dropped slot.", "quantifier": "every N, every call history, every build mode", "why_tests_cant": "Memory validity for all histories.", "anchors": ["src/vector.rs: IntoIter::nth", "src/vector.rs: IntoIter::next_back", "src/vector.rs: Drop for IntoIter"]}
{"id": "C10", "title": "Owning iterator: every element is yielded or dropped exactly once", "statement": "For every history of next/next_back/nth that stays in range, after dropping the iterator the elements yielded together with the elements dropped are exactly the original elements, each once.", "quantifier": "every N, every in-range history", "why_tests_cant": "Multiset accounting over all histories.", "anchors": ["src/vector.rs: IntoIter", "src/vector.rs: Drop for IntoIter"]}
{"id": "C11", "title": "Owning iterator: panicking destructors", "statement": "If an element's destructor panics while the iterator skips (nth) or is dropped, no element is dropped twice.", "quantifier": "every N, every history, every set of panicking elements", "why_tests_cant": "Needs every crash point.", "anchors": ["src/vector.rs: IntoIter::nth", "src/vector.rs: Drop for IntoIter"]}
{"id": "C12", "title": "Chunks, any interleaving of front and back", "statement": "v.into_chunks::<I>() (N divisible by I>0) behaves, for any interleaving of next()/next_back()/len(), as a double-ended queue holding the N/I consecutive chunks of v: chunk c has elements v[cI..cI+I], collecting never panics, and len() is the number of chunks left. For I = 0 (N = 0), should the types allow it, both ends return None and len() panics.", "quantifier": "every N, I>0 with I | N, every history", "why_tests_cant": "All histories and sizes; interacts with the owning iterator's back-end behaviour.", "anchors": ["src/vector.rs: Chunks", "src/vector.rs: Vector::into_chunks"]}
{"id": "C13", "title": "Runtime indexing of vectors", "statement": "v[i] returns the i-th element when i<N and panics otherwise, in every build. The unsafe get_unchecked agrees with it in range; out of range it panics with debug assertions (and is an invalid access without).", "quantifier": "every N, i", "why_tests_cant": "All indices incl. usize::MAX.", "anchors": ["src/vector.rs: Index<usize>"]}
{"id": "C14", "title": "Runtime indexing of matrices", "statement": "m[(i,j)] returns row i, column j when in range and panics otherwise; it never reads outside the matrix. The unsafe get_unchecked agrees with it in range; out of range it panics with debug assertions (and is an invalid access without).", "quantifier": "every Row, Col, i, j", "why_tests_cant": "All indices and shapes.", "anchors": ["src/matrix/mod.rs: Index<MatrixIdx>"]}
{"id": "C15", "title": "Indexed assignment changes one element", "statement": "Writing v[i]=x or m[(i,j)]=x changes exactly that element; every other element keeps its value; out of range it panics and leaves everything unchanged. Writing through the unsafe get_unchecked_mut is the same assignment in range; out of range it panics with debug assertions (and is an invalid access without).", "quantifier": "every shape, index, value, content", "why_tests_cant": "Frame condition over all other elements.", "anchors": ["src/vector.rs: IndexMut", "src/matrix/mod.rs: IndexMut<MatrixIdx>"]}
{"id": "C16", "title": "Statically checked vector indexing is always in bounds", "statement": "Every v[U::new()] that type-checks reads inside the vector and returns the same element as v[U::to_usize()].", "quantifier": "every N and every type-level index accepted by the trait bounds", "why_tests_cant": "Quantifies over all types accepted by trait resolution.", "anchors": ["src/vector.rs: Index<UInt<IU, IB>>", "src/vector.rs: Index<U0>"]}
{"id": "C17", "title": "Statically checked matrix indexing is always in bounds", "statement": "Every m[(Ui::new(),Uj::new())] that type-checks (all four U0/UInt combinations, shared and mutable) accesses element (i,j) and never leaves the matrix.", "quantifier": "every shape, every accepted type-level pair", "why_tests_cant": "Quantifies over all types accepted by trait resolution.", "anchors": ["src/matrix/mod.rs: Index<(UInt, UInt)>", "src/matrix/mod.rs: Index<(U0, U0)>", "src/matrix/mod.rs: Index<(UInt, U0)>", "src/matrix/mod.rs: Index<(U0, UInt)>"]}
{"id": "C18", "title": "Elementwise + and -", "statement": "(a+b)[i] = a[i]+b[i] and (a-b)[i] = a[i]-b[i] for vectors and matrices, in all four by-value/by-reference forms, which all agree; element operations are performed in index order and the first one to panic is the panic of the whole operation.", "quantifier": "every size, contents and element operation (possibly panicking)", "why_tests_cant": "All sizes and element types.", "anchors": ["src/vector.rs: impl_vector_arith", "src/matrix/arith.rs: impl_matrix_arith"]}
{"id": "C19", "title": "Scalar operations and negation", "statement": "(v*s)[i]=v[i]*s, (v/s)[i]=v[i]/s, (-v)[i]=-v[i] for vectors and matrices (scalar by value and by reference).", "quantifier": "every size, content, scalar, element operation", "why_tests_cant": "All sizes and element types.", "anchors": ["src/vector.rs: Mul<U>", "src/vector.rs: Div<U>", "src/vector.rs: Neg", "src/matrix/arith.rs: Mul<T>", "src/matrix/arith.rs: Div<T>", "src/matrix/arith.rs: Neg"]}
{"id": "C20", "title": "Compound assignment equals the operator", "statement": "a+=b, a-=b, a*=s, a/=s leave a equal to a+b, a-b, a*s, a/s when the element operation and its assigning form agree.", "quantifier": "every size, content, element operation", "why_tests_cant": "All sizes and element types.", "anchors": ["src/vector.rs: AddAssign, SubAssign, MulAssign, DivAssign", "src/matrix/arith.rs: AddAssign, SubAssign, MulAssign, DivAssign"]}
{"id": "C21", "title": "Compound assignment interrupted by a panic", "statement": "If the element operation panics at position k, then after catching the panic the elements before k hold the new values, those from k on hold the old ones, and the length is unchanged.", "quantifier": "every size, content, crash point", "why_tests_cant": "Every crash point.", "anchors": ["src/vector.rs: AddAssign::add_assign", "src/matrix/arith.rs: AddAssign::add_assign"]}
{"id": "C22", "title": "Vectors and matrices form a module", "statement": "Over a commutative ring + is associative and commutative with neutral zero(), a-b = a+(-b), a+(-a)=zero, scalar multiplication distributes and associates, for vectors and matrices of any size.", "quantifier": "every size, every commutative ring, all operands", "why_tests_cant": "Algebraic law over all operands.", "anchors": ["src/vector.rs: Add, Sub, Mul, Neg, Zero", "src/matrix/arith.rs: Add, Sub, Mul, Neg"]}
{"id": "C23", "title": "dot product", "statement": "a.dot(b) = sum_i a[i]*b[i]; it is symmetric, additive and homogeneous in each argument over a commutative ring.", "quantifier": "every N, every commutative semiring, all operands", "why_tests_cant": "Algebraic law.", "anchors": ["src/vector.rs: Vector::dot"]}
{"id": "C24", "title": "cross product", "statement": "a.cross(b) is the vector product: orthogonal to a and b, anticommutative, zero on a,a, satisfies the Jacobi and Lagrange identities, over every commutative ring.", "quantifier": "every commutative ring, all a, b", "why_tests_cant": "Algebraic law.", "anchors": ["src/vector.rs: Vector::cross"]}
{"id": "C25", "title": "norm and normalized over the reals", "statement": "With exact real arithmetic norm() is the Euclidean norm sqrt(sum x^2), zero exactly for the zero vector, homogeneous, satisfies the triangle inequality, and normalized() has norm 1 and the same direction for every non-zero vector.", "quantifier": "every N, every real vector", "why_tests_cant": "Law over all reals (rounding of f32/f64 excluded).", "anchors": ["src/vector.rs: Vector::norm", "src/vector.rs: Vector::normalized"]}
{"id": "C26", "title": "sum", "statement": "Vector::sum and Matrix::sum return the sum of all entries (additive, and zero for empty), independent of order over a commutative monoid; Matrix::sum equals the sum of its transpose.", "quantifier": "every size, content", "why_tests_cant": "Algebraic law.", "anchors": ["src/vector.rs: Vector::sum", "src/matrix/mod.rs: Matrix::sum"]}
{"id": "C27", "title": "max and min", "statement": "max() (min()) returns an element of the vector/matrix that is >= (<=) every element, never panics, and among equal maxima returns the last (among equal minima the first) in index order.", "quantifier": "every N>=1, every content, every total preorder", "why_tests_cant": "All contents incl. ties.", "anchors": ["src/vector.rs: Vector::max, min", "src/matrix/mod.rs: Matrix::max, min"]}
{"id": "C28", "title": "max_by and min_by", "statement": "max_by(comp) (min_by) returns an element that no other element beats under comp, the first such in index order when comp is a total preorder; never panics for N>=1; comp is called exactly N-1 times.", "quantifier": "every N>=1, content, consistent comparison", "why_tests_cant": "All comparisons.", "anchors": ["src/vector.rs: max_by, min_by", "src/matrix/mod.rs: max_by, min_by"]}
{"id": "C29", "title": "clamp and clamped", "statement": "If lo<=hi every element of clamped(lo,hi) lies in [lo,hi], elements already inside keep their value, smaller ones become lo, larger ones hi; clamp in place gives the same; clamping twice is clamping once. If lo>hi every element becomes hi.", "quantifier": "every size, content, bounds", "why_tests_cant": "All bounds incl. inverted.", "anchors": ["src/vector.rs: clamp, clamped", "src/matrix/mod.rs: clamp, clamped"]}
{"id": "C30", "title": "Equality is elementwise", "statement": "v==w (m==n) returns true exactly when all corresponding elements compare equal.", "quantifier": "every size, contents, element equality", "why_tests_cant": "All contents.", "anchors": ["src/vector.rs: PartialEq", "src/matrix/mod.rs: PartialEq"]}
{"id": "C31", "title": "Eq promises reflexivity", "statement": "Vector and Matrix implement Eq, so v==v must hold for every vector and matrix value.", "quantifier": "every element type accepted by the impl (T: PartialEq)", "why_tests_cant": "Quantifies over element types incl. NaN-like values.", "anchors": ["src/vector.rs: impl Eq", "src/matrix/mod.rs: impl Eq"]}
{"id": "C32", "title": "zero, is_zero, default, min_value, max_value", "statement": "zero()/default()/min_value()/max_value() hold the corresponding constant everywhere and is_zero() is true exactly when all entries are zero; zero() satisfies is_zero().", "quantifier": "every size, content", "why_tests_cant": "All sizes.", "anchors": ["src/vector.rs: Zero, Default, Bounded", "src/matrix/mod.rs: Zero, Default, Bounded"]}
{"id": "C33", "title": "clone", "statement": "clone() returns an equal vector/matrix element by element, calling the element's clone exactly once per element in order.", "quantifier": "every size, content, effectful clone", "why_tests_cant": "All sizes.", "anchors": ["src/vector.rs: Clone", "src/matrix/mod.rs: Clone"]}
{"id": "C34", "title": "Debug output", "statement": "format!(\"{:?}\") of a vector is Vector[e0, e1, ...] and of a matrix Matrix[[..], [..]] for every shape, and never panics.", "quantifier": "every shape incl. zero rows, every element rendering, every build", "why_tests_cant": "Zero-row case and build modes.", "anchors": ["src/vector.rs: Debug", "src/matrix/mod.rs: Debug"]}
{"id": "C35", "title": "Vector::new, Matrix::new, len, is_empty, dim, rows, cols", "statement": "Matrix::new([[..]]) has m[(i,j)] equal to the j-th entry of the i-th given row, and dim() = (rows(), cols()) = (Row, Col). Vector::new(xs) holds the array xs: into_inner() returns it, as_slice() shows it, v[i] = xs[i], len() = N, is_empty() iff N = 0, and writes through as_slice_mut() are seen by all of these.", "quantifier": "every shape and content", "why_tests_cant": "All shapes.", "anchors": ["src/matrix/mod.rs: Matrix::new, dim, rows, cols", "src/vector.rs: Vector::new, into_inner, as_slice, as_slice_mut, len, is_empty"]}
{"id": "C36", "title": "diag", "statement": "Matrix::diag(d) has d[i] at (i,i) for i<min(Row,Col), zero elsewhere, uses every given element exactly once and never panics, including non-square shapes.", "quantifier": "every shape, every d", "why_tests_cant": "All shapes; stateful iterator inside closure.", "anchors": ["src/matrix/mod.rs: Matrix::diag", "src/util.rs: Min"]}
{"id": "C37", "title": "map, all, any", "statement": "map visits every element once in row-major order with its index and keeps the shape; all/any return the conjunction/disjunction over all (index, element) pairs, visit in row-major order and stop at the first deciding element.", "quantifier": "every shape, content, (stateful) closure", "why_tests_cant": "Arbitrary closures.", "anchors": ["src/matrix/mod.rs: Matrix::map, all, any"]}
{"id": "C38", "title": "transposed", "statement": "m.transposed()[(j,i)] = m[(i,j)], transposing twice is the identity, transpose() in place agrees, transposition is additive and never panics in any build.", "quantifier": "every shape, content, build mode", "why_tests_cant": "All shapes, incl. zero rows/cols.", "anchors": ["src/matrix/mod.rs: Matrix::transposed, transpose", "src/matrix/iter.rs: ColsIter"]}
{"id": "C39", "title": "identity / one", "statement": "identity() and one() have one on the diagonal and zero elsewhere and are two-sided neutral for multiplication.", "quantifier": "every N, every semiring", "why_tests_cant": "All N.", "anchors": ["src/matrix/mod.rs: Matrix::identity", "src/matrix/mod.rs: num::One"]}
{"id": "C40", "title": "Matrix from flat vector", "statement": "Matrix::from(v)[(i,j)] = v[i*Col+j] for every v of length Row*Col (Col>0), never panicking. With Col = 0, should the types allow it, from() panics unless Row = 0.", "quantifier": "every Row, Col>0, content", "why_tests_cant": "All shapes.", "anchors": ["src/matrix/mod.rs: From<Vector<T, Prod<Row, Col>>>"]}
{"id": "C41", "title": "Matrix multiplication", "statement": "(a*b)[(i,j)] = sum_k a[(i,k)]*b[(k,j)] for every shape, all four by-value/by-reference forms agree, and a*=b equals a=a*b.", "quantifier": "every LRow, N, RCol, contents", "why_tests_cant": "All shapes.", "anchors": ["src/matrix/arith.rs: Mul<Matrix>", "src/matrix/arith.rs: MulAssign<Matrix>"]}
{"id": "C42", "title": "Matrix multiplication laws", "statement": "Over a semiring multiplication is associative, distributes over +, commutes with scalars (commutative), and (a*b)^T = b^T*a^T (commutative).", "quantifier": "every shape, all operands", "why_tests_cant": "Algebraic law.", "anchors": ["src/matrix/arith.rs: Mul<Matrix>"]}
{"id": "C43", "title": "a *= b is atomic under panic", "statement": "If an element operation panics during a*=b (matrix product), a keeps its old value.", "quantifier": "every N, content, crash point", "why_tests_cant": "Every crash point.", "anchors": ["src/matrix/arith.rs: MulAssign<Matrix>"]}
{"id": "C44", "title": "Matrix times vector", "statement": "(m*v)[i] = sum_j m[(i,j)]*v[j], by value and by reference, and (a*b)*v = a*(b*v).", "quantifier": "every shape, content", "why_tests_cant": "Algebraic law.", "anchors": ["src/matrix/arith.rs: Mul<Vector>", "src/matrix/arith.rs: Mul<&Vector>"]}
{"id": "C45", "title": "pow", "statement": "m.pow(k) is the k-fold product of m (identity for k=0), so pow(a+b)=pow(a)*pow(b) and pow(a*b) = pow(pow(a),b).", "quantifier": "every N, every semiring, every usize exponent", "why_tests_cant": "All exponents.", "anchors": ["src/matrix/mod.rs: Matrix::pow"]}
{"id": "C46", "title": "The documented Fibonacci program", "statement": "([[1,1],[1,0]].pow(n) * [1,0])[1] is the n-th Fibonacci number (modulo 2^64 in release u64 arithmetic), and the iterative example program prints fib(n) on each line.", "quantifier": "every n", "why_tests_cant": "All n.", "anchors": ["src/lib.rs: crate docs", "examples/fib.rs", "src/matrix/mod.rs: Matrix::pow"]}
{"id": "C47", "title": "conjugate and complex matrices", "statement": "conjugate() conjugates each entry, is an involution, is additive and multiplicative, and leaves real matrices unchanged. With num's complex arithmetic, conjugating a matrix conjugates its determinant, cofactors, powers and inverse (None for both or neither); real matrices may be computed with as complex ones; the conjugate transpose reverses products; a Hermitian matrix has a real determinant and a Hermitian inverse; the product of the conjugate transpose with the matrix has the squared column lengths on its diagonal, and its inverse is found at every size if the columns are independent; a complex product, power, conjugate transpose and determinant agree with those of the real matrix of twice the size.", "quantifier": "every shape, every commutative ring (ordered field for inverses and positivity), every content, exponent and build", "why_tests_cant": "Algebraic laws over infinitely many contents and all sizes.", "anchors": ["src/matrix/mod.rs: Matrix::conjugate, transposed, pow", "src/matrix/arith.rs: Mul", "src/matrix/ops.rs: Determinant, Cofactor, Inverse"]}
{"id": "C48", "title": "determinant is the determinant", "statement": "For a square matrix of any size >=1 over a field, determinant() returns the Leibniz determinant and never panics, including when elimination meets a zero pivot and falls back to cofactor expansion.", "quantifier": "every N>=1, every field, every matrix", "why_tests_cant": "All sizes, all pivot patterns.", "anchors": ["src/matrix/ops.rs: Determinant"]}
{"id": "C49", "title": "Determinant laws users rely on", "statement": "Over a field determinant is multiplicative, invariant under transposition, 1 on the identity, scales with s^N under scalar multiplication, and is zero when two rows are equal.", "quantifier": "every N>=1, all operands", "why_tests_cant": "Algebraic law of the computed value.", "anchors": ["src/matrix/ops.rs: Determinant"]}
{"id": "C50", "title": "determinant for small integer matrices", "statement": "For N<=3 determinant() needs only +,-,* and is exact over every commutative ring.", "quantifier": "every commutative ring, every 1x1, 2x2, 3x3 matrix", "why_tests_cant": "All entries.", "anchors": ["src/matrix/ops.rs: Determinant for U1, U2, U3"]}
{"id": "C51", "title": "determinant for integer matrices of size >=4", "statement": "determinant() of an integer matrix equals its mathematical determinant for every size.", "quantifier": "every N, every integer matrix", "why_tests_cant": "The documentation warns it may be wrong; only a witness or a proof settles it.", "anchors": ["src/matrix/ops.rs: Determinant for N > U3"]}
{"id": "C52", "title": "determinant and inverse never divide by zero", "statement": "determinant() and inverse() only divide by values whose is_zero() is false, so they cannot hit a division-by-zero panic for any element type, whatever the matrix.", "quantifier": "every N, every element type with total +,-,*, every matrix", "why_tests_cant": "All matrices and element types.", "anchors": ["src/matrix/ops.rs: Determinant", "src/matrix/ops.rs: Inverse"]}
{"id": "C53", "title": "cofactor", "statement": "For i,j<N, cofactor((i,j)) = (-1)^(i+j) times the determinant of the minor; the Laplace expansion along any row or column of cofactors gives the determinant.", "quantifier": "every N>=2, every field (every commutative ring for N<=3), all i, j", "why_tests_cant": "All indices.", "anchors": ["src/matrix/ops.rs: Cofactor"]}
{"id": "C54", "title": "cofactor rejects out-of-range indices", "statement": "cofactor((i,j)) with i>=N or j>=N panics in every build mode and never returns a value.", "quantifier": "every N>=2, every i, j incl. usize extremes, both build modes", "why_tests_cant": "Overflow/wrap behaviour of 1-i.", "anchors": ["src/matrix/ops.rs: Cofactor for U2 (1 - i)", "src/matrix/ops.rs: Cofactor (assert)"]}
{"id": "C55", "title": "inverse is sound", "statement": "If inverse() returns Some(x) then m*x and x*m are the identity, for every N>=1 over a field; in particular a singular matrix yields None.", "quantifier": "every N>=1, every field, every matrix", "why_tests_cant": "All matrices.", "anchors": ["src/matrix/ops.rs: Inverse"]}
{"id": "C56", "title": "inverse finds every inverse", "statement": "inverse() returns Some exactly when the matrix is invertible.", "quantifier": "every N>=1, every field, every matrix", "why_tests_cant": "All matrices, all pivot patterns.", "anchors": ["src/matrix/ops.rs: Inverse for N > U3 (no pivoting)"]}
{"id": "C57", "title": "Exactly when inverse gives up (N>=4)", "statement": "For N>=4 inverse() returns Some exactly when all leading principal minors are non-zero.", "quantifier": "every N>=4, every field, every matrix", "why_tests_cant": "All matrices.", "anchors": ["src/matrix/ops.rs: Inverse for N > U3"]}
{"id": "C58", "title": "Determinant/Cofactor/Inverse implementations cover each size once", "statement": "For every square size N>=1 exactly one Determinant and one Inverse implementation applies (hard-coded for 1,2,3, general for N>=4), for N>=2 exactly one Cofactor, and none for size 0; max/min exist exactly for N>=1.", "quantifier": "every N (type-level binary numeral)", "why_tests_cant": "All type-level numbers.", "anchors": ["src/matrix/ops.rs: impl headers", "src/vector.rs: impl Vector<T, UInt<U, B>>"]}
{"id": "C59", "title": "Row and column iterators behave as double-ended queues", "statement": "rows_iter, cols_iter, rows_iter_ref, cols_iter_ref and a column's element iterator yield, for any interleaving of next/next_back/nth whose skips do not overflow usize, exactly what a double-ended queue of the rows/columns would.", "quantifier": "every shape, content, every history", "why_tests_cant": "All interleavings.", "anchors": ["src/matrix/iter.rs: RowsIter, ColsIter, RowsIterRef, ColsIterRef, ColsIterRefInner"]}
{"id": "C60", "title": "Row and column iterators never leave the matrix", "statement": "No history of calls on the five borrowing iterators, in any build mode, including overflowing skips, makes an out-of-bounds unchecked access.", "quantifier": "every shape, every history incl. nth(usize::MAX), every build", "why_tests_cant": "All histories; unsafe code.", "anchors": ["src/matrix/iter.rs: get_unchecked uses"]}
{"id": "C61", "title": "len of the borrowing iterators", "statement": "len()/size_hint()/count() of the five borrowing iterators equal the number of items still to come after any history of calls.", "quantifier": "every shape, every history", "why_tests_cant": "All histories.", "anchors": ["src/matrix/iter.rs: len, size_hint, count"]}
{"id": "C62", "title": "nth beyond the end", "statement": "After nth(n) with n beyond the remaining items, the iterator is exhausted: next/next_back return None and len() is 0 without panicking.", "quantifier": "every shape, every n, every continuation, every build", "why_tests_cant": "usize arithmetic at extremes.", "anchors": ["src/matrix/iter.rs: nth", "src/vector.rs: IntoIter::nth"]}
{"id": "C63", "title": "last", "statement": "last() returns the final remaining item, or None when exhausted.", "quantifier": "every shape, every history", "why_tests_cant": "All histories.", "anchors": ["src/matrix/iter.rs: last"]}
{"id": "C64", "title": "Display never panics and is rectangular", "statement": "Formatting a matrix with {} never panics; each output line has the same display width 2 + sum of column widths + (Col-1), for every shape and every (multi-line) element rendering.", "quantifier": "every shape, every element rendering, every char-width function", "why_tests_cant": "All renderings; subtraction of usize widths.", "anchors": ["src/matrix/mod.rs: Display"]}
{"id": "C65", "title": "Display line count", "statement": "The number of text lines printed for row i is the maximal number of lines of its entries; every line of every entry appears in its place. Lines are what str::lines says: split at \\n, a final empty line dropped, one trailing \\r of each dropped.", "quantifier": "every shape, every rendering", "why_tests_cant": "All renderings.", "anchors": ["src/matrix/mod.rs: Display"]}
{"id": "C66", "title": "approximate equality", "statement": "relative_eq/ulps_eq of matrices hold exactly when they hold for every pair of corresponding entries with the same tolerances.", "quantifier": "every shape, contents, tolerances", "why_tests_cant": "All contents.", "anchors": ["src/matrix/mod.rs: ApproxEq"]}
{"id": "C67", "title": "vector! and matrix! infer the right size", "statement": "vector![e1,..,ek] has length k; matrix! with r rows of c entries has dim (r,c) (0 columns if r=0).", "quantifier": "every k, r, c", "why_tests_cant": "All arities.", "anchors": ["src/macros.rs: vector!, matrix!"]}
{"id": "C68", "title": "Prelude aliases denote what they say", "statement": "Each alias VectorNf32/VectorNf64/MatrixNf32/MatrixNf64 is the N (NxN) vector (matrix) of 32/64-bit floats.", "quantifier": "every alias in the prelude", "why_tests_cant": "A test would have to enumerate types; nothing checks alias element types.", "anchors": ["src/prelude.rs"]}
{"id": "C69", "title": "Collecting a partly consumed borrowing iterator", "statement": "Collecting a rows/cols iterator that has exactly N items left (after any front/back consumption) into a Vector of length N succeeds in every build mode.", "quantifier": "every shape, every consumption history, every build", "why_tests_cant": "Depends on count() inside a debug assertion.", "anchors": ["src/matrix/iter.rs: RowsIter::count", "src/vector.rs: from_iter debug_assert_eq"]}
{"id": "C70", "title": "Consuming operations are panic-safe", "statement": "If the element operation panics at element k of a consuming vector operation (a+b, map, v*s, -v), no input element is dropped twice or lost twice: elements not yet consumed are dropped exactly once, results so far are leaked, nothing invalid is accessed.", "quantifier": "every N, every crash point k, every content", "why_tests_cant": "Every crash point.", "anchors": ["src/vector.rs: impl_vector_arith", "src/vector.rs: IntoIter", "src/vector.rs: from_iter"]}
{"id": "C71", "title": "Min<Row,Col> is the minimum", "statement": "The length of the vector accepted by Matrix::diag, the type-level minimum of Row and Col, is the smaller of the two dimensions for every shape.", "quantifier": "every Row, Col", "why_tests_cant": "Type-level computation over all binary numerals.", "anchors": ["src/matrix/mod.rs: diag (Row: Min<Col>)"]}
{"id": "C72", "title": "Checked integers are exact or panic", "statement": "With signed or unsigned integers of any width as elements and overflow checks on, every vector and matrix operation (+, -, scalar *, negation, sum, dot, cross, matrix products, matrix times vector, pow, determinant up to 3x3, cofactor up to 4x4) either returns the mathematically exact result or panics; it never returns a wrong number. The same holds for complex numbers with such parts (+, -, products, pow, conjugate, determinant up to 3x3).", "quantifier": "every bit width, every shape, every content, every exponent", "why_tests_cant": "Overflow can strike at any intermediate step of any size of computation.", "anchors": ["src/vector.rs: arithmetic impls, dot, cross, sum", "src/matrix/arith.rs", "src/matrix/mod.rs: pow, sum", "src/matrix/ops.rs: Determinant, Cofactor"]}
{"id": "C73", "title": "Wrapping integers are exact modulo 2^w", "statement": "With integers of w bits in a build without overflow checks, the same operations never panic and return the exact result reduced modulo 2^w; so the result is exact whenever the exact result is representable, even if intermediate results overflow, and all ring laws hold.", "quantifier": "every bit width, every shape, every content, every exponent", "why_tests_cant": "All combinations of overflowing intermediate results.", "anchors": ["src/vector.rs: arithmetic impls, dot, cross, sum", "src/matrix/arith.rs", "src/matrix/mod.rs: pow, sum", "src/matrix/ops.rs: Determinant, Cofactor"]}
{"id": "C74", "title": "Unsigned checked arithmetic succeeds exactly when the result is representable", "statement": "With unsigned integers and overflow checks, sum, dot, matrix products and matrix times vector succeed if and only if every entry of the exact result is representable, and otherwise panic.  The documented fib(n) returns the exact value if fib(n+1) is representable and panics otherwise: with u64 it is right up to n = 92 and panics from n = 93 on, although fib(93) is representable; the example program is right for all its 50 lines.", "quantifier": "every bit width, every shape, every content, every n", "why_tests_cant": "An equivalence over all contents; the boundary of n for every width.", "anchors": ["src/lib.rs: crate docs", "examples/fib.rs", "src/vector.rs: dot, sum", "src/matrix/arith.rs"]}
{"id": "C75", "title": "Checked fractions: exact or panic", "statement": "With elements that are fractions of bounded integers (Ratio<iW>) and overflow checks, determinant and cofactor at every size return the exact value or panic; inverse panics, or returns the true inverse, or returns None, and up to 3x3 it returns None only for singular matrices. The same holds for complex numbers whose parts are such fractions. If numerators and denominators are at most B and 2 B^2 fits the integer type, no single operation panics. What an operation returns always fits the integer type. An operation panics exactly if one of the integers it computes does not fit (or on division by zero).", "quantifier": "every bit width, every size, every content", "why_tests_cant": "Elimination produces intermediate fractions of unbounded size; every overflow point.", "anchors": ["src/matrix/ops.rs: Determinant, Cofactor, Inverse"]}
{"id": "C76", "title": "Debug and release builds agree", "statement": "Whenever a build with debug assertions and overflow checks returns a value from an operation on integer vectors or matrices, a build without them returns the same value; operations that involve no integer arithmetic (generate, clone, map, elementwise operations with any closures) behave identically in all builds, and a collect() that succeeds with debug assertions succeeds with the same vector without them.", "quantifier": "every pair of builds, every bit width, every shape, every content, every iterator and closure", "why_tests_cant": "Compares two builds over all inputs.", "anchors": ["src/vector.rs: from_iter, get_unchecked", "src/matrix/ops.rs", "src/matrix/arith.rs"]}
{"id": "C77", "title": "Exactly which uses of the owning iterator are memory safe", "statement": "A history of next, next_back, nth (any usize argument) and len calls on vector.into_iter(), panics caught, followed by dropping the iterator, is free of invalid memory accesses if and only if: next_back is never called on an exhausted iterator from whose front something was taken; every nth(k) skips at most the elements left, none of whose destructors panics, or overflows usize in a build with overflow checks (then it panics without effect).  In those histories the iterator answers like a double-ended queue, and every element is yielded or dropped at most once, exactly once if the elements left at the end have destructors that do not panic.", "quantifier": "every build, every usize width, every vector, every history, every set of panicking destructors", "why_tests_cant": "An equivalence over all histories; most violations are silent undefined behaviour.", "anchors": ["src/vector.rs: IntoIter, Iterator, DoubleEndedIterator, Drop for IntoIter"]}
{"id": "C78", "title": "Consuming operations account for every element", "statement": "map, negation, scalar multiplication and division, and + and - with one or both operands taken by value call the element operation on the elements in order (row-major for matrices), with the effects and the outcome of doing so by hand; each element is moved into the element operation at most once; if the element operation panics, exactly the elements (of each operand) behind the panicking position are destroyed by the crate, each once and in order; otherwise the crate destroys none.  No invalid access happens, in any build.", "quantifier": "every element operation with any state, effects and panics; every shape; every content; every build", "why_tests_cant": "The panic may come at every position, from a closure with arbitrary state; leaks and double drops are not observable by comparing values.", "anchors": ["src/vector.rs: impl_vector_arith, Mul, Div, Neg, IntoIter, from_iter", "src/matrix/mod.rs: Matrix::map", "src/matrix/arith.rs: impl_matrix_arith, Neg, Mul, Div"]}
{"id": "C79", "title": "Assigning operators: left operand, effects and the consumed right operand", "statement": "a += b and a -= b (vectors and matrices) apply the element operation to corresponding elements in order (row-major); if it panics, even after modifying its target, the elements of a before that position hold the new values, that position what the operation left there, later ones the old values; exactly the elements of b behind that position are destroyed by the crate, each once and in order; without a panic the crate destroys none of b.  No invalid access happens.", "quantifier": "every element operation with any state, effects, partial modification and panics; every shape; every content; every build", "why_tests_cant": "Every panic position with arbitrary effects; drop accounting.", "anchors": ["src/vector.rs: AddAssign, SubAssign", "src/matrix/arith.rs: AddAssign, SubAssign"]}
{"id": "C80", "title": "Laws of inverse", "statement": "Over a field, whenever the inverses named are found: the inverse of the transpose is the transpose of the inverse, and one is None exactly when the other is; det(inverse) = 1/det; the inverse of s*A (s != 0) is inverse(A)*(1/s), None together; inverse(A*B) = inverse(B)*inverse(A); inverse(inverse(A)) = A; the identity is its own inverse; inverse(A)*B is the only X with A*X = B.  Up to size 3 the inverses of a product and of an inverse are always found; from size 4 on, for every field, there are matrices with found inverses whose product, or whose inverse, gets None although it is invertible.", "quantifier": "every field (exact arithmetic); every size; every matrix; every build", "why_tests_cant": "Algebraic laws over all matrices of all sizes over all fields; the failures from size 4 on are a measure-zero set a random test misses.", "anchors": ["src/matrix/ops.rs: Inverse", "src/matrix/mod.rs: transposed, identity", "src/matrix/arith.rs: Mul"]}
{"id": "C81", "title": "Matrices whose inverse is always found", "statement": "Although inverse may answer None for an invertible matrix of size 4 or more, it finds the (correct) inverse of every matrix of these classes, at every size: triangular matrices without a zero on the diagonal (and only those among the triangular ones), products of a lower and an upper triangular matrix without zeros on the diagonals, and over an ordered field positive definite and strictly diagonally dominant matrices. In particular the inverse of (a^T a) is found whenever the columns of a are linearly independent, and (a^T a)^-1 (a^T b) is the least-squares solution.", "quantifier": "every field (ordered for the last two classes); every size; every matrix of the class; every build", "why_tests_cant": "Infinite classes at every size; the pivots computed at each step must be non-zero for every member.", "anchors": ["src/matrix/ops.rs: Inverse"]}
{"id": "C82", "title": "Display with effects and failing destinations", "statement": "Displaying a matrix renders every entry exactly once, row by row from left to right, before anything is written; if rendering an entry panics, displaying panics with the same effects and nothing has been written.  Then the text of C64 is written piece by piece in order; the first write that fails (or panics) is the last one, and its failure is returned; if no write fails, Ok is returned and the whole text has been written.", "quantifier": "every rendering function with any state, effects and panics; every destination with any state, effects, panics and failures at any write; every shape and content; every line splitting and width function", "why_tests_cant": "A write may fail at every position and the entries may have arbitrary effects; tests format into a String, which never fails.", "anchors": ["src/matrix/mod.rs: Display for Matrix"]}
{"id": "C83", "title": "Rounding errors of floating point results", "statement": "For floating point elements whose operations have relative error at most u (f64: 2^-53, f32: 2^-24) and stay in range: dot, sum, matrix products, matrix-vector products, pow, cross and the determinants of size 1 to 3 differ from the exact result by at most (1+u)^m - 1 times the same expression in the absolute values, where m is n+1 for dot and products, n for the sum of a vector, r+c for the sum of a matrix, (k-1)(n+1) for pow(k), 2 for cross, 0, 2, 7 for determinants; (1+u)^m - 1 is at most mu/(1-mu).  Elementwise operations have relative error u; norm and every component of normalized have a small relative error for every vector, so that the length of normalized is close to 1; a determinant larger than its bound gets the right sign.", "quantifier": "every rounding with relative error at most u (any rounding mode); every size, exponent and content; every form of the operators; every build", "why_tests_cant": "A test sees the error of the data it tries; the bound is for all data of all sizes and every rounding.", "anchors": ["src/vector.rs: dot, cross, norm, normalized, sum", "src/matrix/arith.rs: Mul", "src/matrix/mod.rs: pow, sum", "src/matrix/ops.rs: Determinant"]}
{"id": "C84", "title": "Integer-valued floats are computed exactly", "statement": "If the entries are integers and the sums of absolute values that occur do not exceed B (2^53 for f64, 2^24 for f32, the largest value for signed machine integers), then elementwise operations, dot, sum, matrix products, matrix-vector products, pow, cross and determinants of size 1 to 3 succeed and return exactly the integer result; in particular products are associative on such data.  The conditions are explicit: entries of |X||Y| for products, of every |X|^m with m <= k for pow(k), n! M^n for determinants and 2M^2 for cross with entries up to M.", "quantifier": "every element type exact on integers up to B; every size, exponent and content within the bounds; every form of the operators; every build", "why_tests_cant": "All data within the bounds, all sizes; an intermediate result just above B would break it only for rare data.", "anchors": ["src/vector.rs: dot, cross, sum", "src/matrix/arith.rs", "src/matrix/mod.rs: pow, sum", "src/matrix/ops.rs: Determinant"]}
{"id": "C85", "title": "Computations commute with maps between element types", "statement": "If a function between two element types respects zero, one, +, -, * and negation (and division and zero tests where those are used), then applying it to all entries and computing in the second type gives the same result, panic included, as computing in the first type and applying it to the result: for elementwise operations, dot, cross, sum, products, pow, determinants, cofactors, inverses.  Instances: integers modulo m, the inclusion of integers in rationals, complex conjugation, field embeddings.  Operations that only move elements commute with every function.", "quantifier": "every pair of element types and every such function; every size and content; every build", "why_tests_cant": "Quantifies over all element types and functions.", "anchors": ["src/vector.rs", "src/matrix/arith.rs", "src/matrix/mod.rs", "src/matrix/ops.rs"]}
{"id": "C86", "title": "Determinants and inverses in floating point", "statement": "In rounding arithmetic (every operation off by a relative error of at most u): the determinant of a square matrix of size n >= 4 is, up to a relative error (1-u)^(-n) - 1, the exact determinant of a product L U of triangular matrices that differs from the given matrix in row i by at most ((1-u)^(-i) - 1) |L| |U| entry by entry; or a leading block is that close to an exactly singular matrix, and the result is the computed cofactor expansion along the first column with the error of a dot product.  The inverse of size 1, 2, 3 is None exactly if the computed determinant d is zero, and otherwise d times each entry is within ((1+u)^3 - 1) times the permanent of the absolute values of the minor of the entry of the adjugate.  The inverse of size n >= 4: if Some(W) is returned, the given matrix differs entry by entry, in column j, by at most ((1-u)^(-2j) - 1) G from a product P of n Gauss-Jordan stages (G the product of their absolute values), P W differs from the identity by at most ((1-u)^(-2n) - 1) G |W|, and the given matrix times W by at most twice that; if None is returned, a leading block is that close to an exactly singular matrix.", "quantifier": "every rounding arithmetic with u < 1, every size and content, every build; in particular round-to-nearest with 24 or 53 bits", "why_tests_cant": "An error bound over all real matrices and all sizes; a test only sees sampled errors.", "anchors": ["src/matrix/ops.rs: Determinant (N > U3), Inverse for U1, U2, U3 and N > U3"]}
{"id": "C87", "title": "f32 and f64 within IEEE 754", "statement": "For elements f32/f64 (binary floating point with rounding to nearest even, subnormals, infinities, NaN and signed zeros) dot, sum, matrix products, cross and determinants of size up to 3 always return. Whenever a result is finite, it differs from the exact value for the given elements by at most the bound of C83 plus, for each product, half of the smallest positive number (times the rounding factor); sums have no such extra term. If all elements are finite and (1+u)^(n+1) times the sum of the magnitudes (plus the underflow term) does not exceed the largest number, the result of dot, sum and of each entry of a product is finite. Integers up to 2^24 (f32) or 2^53 (f64) are exact, so C84 applies. A determinant or inverse of any size, or a power, in whose computation no operation overflows, underflows or divides by zero satisfies the bounds of C83 and C86. Each +, -, *, / of finite numbers is exact up to one rounding: if the result is finite no number of the format is nearer to the exact result, ties go to the even one; it is infinite only if every nearest number, with the exponent range unlimited, is at least the largest one. norm (with powi(x, 2) the rounded square) is, when finite, the square root of a number within these bounds of the sum of squares, up to one more rounding. The special cases are those of IEEE 754: NaN results exactly from NaN operands, inf - inf, inf * 0, inf / inf, 0 / 0 and square roots of numbers below zero; the signs of products, quotients and zero sums are the prescribed ones; dividing a vector or matrix by zero gives NaN for zeros and NaN, and infinities of the right sign for everything else.", "quantifier": "every binary format (f32 and f64 among them), every size, every content including NaN, infinities, signed zeros and subnormals, every build", "why_tests_cant": "A bound over all bit patterns and all sizes, including the corner cases of underflow and overflow; tests only see sampled errors.", "anchors": ["src/vector.rs: Vector::dot, Vector::sum, Cross", "src/matrix/arith.rs: Mul", "src/matrix/mod.rs: Matrix::sum", "src/matrix/ops.rs: Determinant, Inverse"]}
{"id": "C88", "title": "NaN and infinities", "statement": "NaN is never lost: if an element is NaN then sum, dot, norm and determinant (every size) are NaN, normalized is all NaN, a component of cross is NaN if one of the four elements it is made of is, an elementwise result is NaN where an operand is, an entry (i,j) of a product is NaN if row i of the left or column j of the right operand contains a NaN, a cofactor is NaN if its minor contains one. A power has NaN at the same place, from the square on in that row and that column, from the cube on everywhere. inverse() of sizes 1-3 returns Some with every element NaN; from size 4 on it returns that or None, None if the top left element is zero and Some if it is NaN. Multiplying by Matrix::identity() copies finite entries (-0 becomes +0), but an infinity or NaN turns all the other entries of its column (identity on the left) or row (identity on the right) into NaN.", "quantifier": "every size, every position of the NaN or infinity, every content of the other elements, every form of the operators, every binary format, every build", "why_tests_cant": "The claim ranges over all positions and all other contents, through elimination steps that depend on both; a test fixes them.", "anchors": ["src/vector.rs: Vector::dot, Vector::sum, Vector::norm, Vector::normalized, Cross", "src/matrix/arith.rs: Mul", "src/matrix/mod.rs: Matrix::sum, Matrix::identity", "src/matrix/ops.rs: Determinant, Cofactor, Inverse"]}
{"id": "C89", "title": "Identities that hold to the last bit", "statement": "Also when the element arithmetic rounds, wraps, or panics, as long as its * (and for sums its +) gives the same for both orders of the operands (f32, f64, machine integers, fractions): a.dot(b) is b.dot(a); a+b is b+a; the transpose of a*b is the product of the transposes in the other order; a*aT and aT*a are exactly symmetric; a 2x2 matrix and its transpose have the same determinant; -(-a) is a; pow(0), pow(1), pow(2), pow(3) are the identity, the matrix, one product and a*(a*a), and pow(2k) is pow(k) of the square. For floats: v.dot(&v) is never negative nor -0 and is NaN only if v contains a NaN; a sum of non-negative elements is non-negative; multiplying finite data by a permutation matrix only permutes, by a diagonal matrix rounds each entry once; scaling an operand by a power of two scales the result exactly unless something overflows or underflows.", "quantifier": "every size, every content (NaN and infinities included where not excluded), every form of the operators, every binary format, every build", "why_tests_cant": "Bit-exact equality for all inputs does not follow from testing samples, and algebraic laws do not hold for rounded arithmetic; it depends on the order in which every term is formed and added.", "anchors": ["src/vector.rs: Vector::dot, Vector::sum", "src/matrix/arith.rs: Mul, Add, Neg", "src/matrix/mod.rs: Matrix::transposed, Matrix::pow", "src/matrix/ops.rs: Determinant"]}
{"id": "C90", "title": "Element operations are called in a fixed order", "statement": "Element operations may have effects: T::clone, zero, one, +, -, *, /, neg may count, log or panic. dot, sum, cross, the matrix products in every form, matrix times vector, division by a scalar, identity, the determinant of every size, the minor, the cofactor of every size (a bad index panics before the first call) and the inverse of every size make exactly these calls, in exactly this order, with exactly these arguments: e.g. entry by entry in row-major order, each entry starting with one T::zero() and then, for k = 0, 1, ..., clone a(i,k), clone b(k,j) (not cloned if the right operand is a reference), multiply, add to the right of the accumulated value. A panic in a call ends the operation there, with no further call.", "quantifier": "every element type with arbitrary effects, every size, every content, every build", "why_tests_cant": "Order of effects for all sizes, all element types and every call that may panic cannot be enumerated by tests.", "anchors": ["src/vector.rs: Vector::dot, Vector::sum, Cross", "src/matrix/arith.rs: Mul, Div", "src/matrix/mod.rs: Matrix::sum, Matrix::identity", "src/matrix/ops.rs: Determinant, Cofactor, Inverse"]}
{"id": "C91", "title": "Exact cost of products and sums", "statement": "The number of calls of each element operation is a function of the sizes alone: dot of length n multiplies and adds n times and clones 2n elements; a product of l x n by n x c multiplies and adds lcn times and clones 2lcn elements, or lcn if the right operand is a reference; matrix times vector multiplies and adds rc times, with 2rc clones, or none if the vector is a reference; sum of a matrix adds r(c+1) times; cross uses 6 multiplications, 3 subtractions and 12 clones; division by a scalar clones the divisor r(c+1) times; identity calls one n times and zero n(n-1) times. If an element operation panics, at most as many calls have been made.", "quantifier": "every size and content, every element type, every build", "why_tests_cant": "Counts as a function of all sizes; a test counts for one size.", "anchors": ["src/vector.rs: Vector::dot, Vector::sum, Cross", "src/matrix/arith.rs: Mul, Div", "src/matrix/mod.rs: Matrix::sum, Matrix::identity"]}
{"id": "C92", "title": "Cost of determinant, cofactor and inverse", "statement": "Over a field the determinant of size n >= 4 makes exactly n^2(n-1)/2 + n multiplications and n(n-1)/2 divisions if no leading minor of order 1..n-1 vanishes. In general at most 5 n! multiplications and 13 n! calls of any operation are made, and for the zero matrix (size n >= 3) at least 2 n!: the factorial is attained. inverse() costs at most, and exactly if it returns Some: 1 division for size 1; 2 multiplications and 4 divisions for size 2; 30 multiplications and 9 divisions for size 3; 2n^3 multiplications, n divisions and 6n^3 clones from size 4 on. A cofactor costs the determinant of its minor plus one multiplication and the sign.", "quantifier": "every size and content, every element type (the first claim: every field), every build", "why_tests_cant": "Asymptotic cost for all sizes and contents, with a factorial worst case that depends on the data.", "anchors": ["src/matrix/ops.rs: Determinant, Cofactor, Inverse"]}
{"id": "C93", "title": "Cost of powers", "statement": "pow(e) for e > 0 multiplies matrices exactly floor(log2 e) + (number of one bits of e) - 1 times, hence n^3 times as many element multiplications, for every matrix; pow(0) makes no multiplication.", "quantifier": "every exponent, every size, every content, every element type, every build", "why_tests_cant": "Ranges over all exponents and sizes.", "anchors": ["src/matrix/mod.rs: Matrix::pow"]}
{"id": "C94", "title": "Comparisons ask in order and no more than needed", "statement": "With element comparisons and clones that have side effects or panic: == and is_zero ask about the elements in (row-major) order, once each, and stop at the first false; relative_eq and ulps_eq stop within a row at its first false but compare every row, cloning the tolerances before each comparison; max and min compare each further element once with the champion so far (n-1 comparisons and one clone for n elements, n^2-1 comparisons and n clones for a matrix, each row's maximum just before it is needed); clamped and clamp compare with min, then with max, then clone, once per element in order. A panic stops everything at that point; clamp then leaves the elements before it clamped and the others untouched. Without effects the results are those of C27, C29 and C30.", "quantifier": "every element type, every comparison and clone (stateful or panicking), every size and content, every build", "why_tests_cant": "Ranges over all effectful comparisons; the order and number of calls of a few examples does not fix those of others.", "anchors": ["src/vector.rs: PartialEq, Zero::is_zero, max, min, clamped, clamp", "src/matrix/mod.rs: PartialEq, Zero::is_zero, max, min, clamped, clamp, ApproxEq"]}
{"id": "C95", "title": "Cloning iterators clone only what they hand out", "statement": "With a clone that has side effects or panics: rows_iter() and cols_iter() are, for every history of next, next_back and nth calls (panics caught in between), queues whose rows and columns are cloned element by element, in order, when they are handed out and not before; skipped items are never cloned, last() clones only the last item. If cloning a row panics, that row is still in the queue and the next call clones it again; if cloning a column panics, that column is lost and the next call continues with the following one. transposed() clones every entry once, in column-major order; transpose() in place does the same and leaves the matrix untouched if a clone panics. With clones without effects this is C59 and C38.", "quantifier": "every element type and clone (stateful or panicking), every size and content, every history whose nth arguments do not overflow usize, every build", "why_tests_cant": "Ranges over all call histories interleaved with all patterns of panicking clones.", "anchors": ["src/matrix/iter.rs: RowsIter, ColsIter", "src/matrix/mod.rs: transposed, transpose, rows_iter, cols_iter"]}
{"id": "C96", "title": "Matrices of matrices behave like the big matrix", "statement": "Matrix<Matrix<T,N,N>,Row,Col> can be computed with, since a square matrix is itself an element type. Reading it as one big matrix, over any (semi)ring, non-commutative ones included: products in every form, products with a vector of blocks, powers, identity and sums are those of the big matrices; multiplying by a block multiplies by the block diagonal matrix. Elementwise + and - in every form, unary minus, == and is_zero agree with the big matrices for every element type, rounding and panicking included, and for rectangular blocks; the transpose of the big matrix is the transpose with every block transposed. If the blocks commute, determinant() of the determinant() (sizes 1 to 3 of blocks) is the determinant of the big matrix; without commuting blocks it may be different.", "quantifier": "every outer shape, every block size and content, every ring, every form of the operators, every build", "why_tests_cant": "Ranges over all shapes at two levels and all contents.", "anchors": ["src/matrix/arith.rs: Mul, Add, Sub, Neg", "src/matrix/mod.rs: Zero, One, pow, sum, transposed, PartialEq", "src/matrix/ops.rs: Determinant"]}
{"id": "C97", "title": "Debug with failing destinations and entries with effects", "statement": "{:?} of a vector writes Vector, then [, the entries in order with ', ' between them, ]; of a matrix with at least one row Matrix[, the rows in order as such lists with ', ' between them, ]. Everything happens only if all before it succeeded: after the first write or entry that fails, nothing more is written and no further entry is formatted, and the result is Err; a panic of an entry passes through after exactly the text before it. With other flags (e.g. {:#?}) the same holds for the rows, formatted by the standard library. A destination that accepts k writes has received exactly the first k pieces. All pieces together are the text of C34. A matrix without rows writes Matrix[ first, then panics in a build with overflow checks and writes ] in others; if that first write fails there is an Err and no panic.", "quantifier": "every shape, every element type with any effects of its Debug, every destination, every failure point, every build", "why_tests_cant": "Ranges over all failure points of the destination and all behaviours of the entries' Debug.", "anchors": ["src/vector.rs: Debug", "src/matrix/mod.rs: Debug"]}
{"id": "C98", "title": "Signs and powers of two in f32/f64", "statement": "For f32/f64, all bit patterns included: replacing elements by their negatives, whole rows or columns at a time, changes sum, dot, matrix products in every form, products with vectors, pow, cross, determinant, cofactors and inverse by exactly the signs that linear algebra prescribes (infinities change sign, NaN stays NaN, inverse returns Some/None as before); the sign of zero elements influences at most the sign of zeros in the result. With factors 2^e per row and column instead of signs the same holds whenever no operation of either computation overflows, underflows or divides by zero: the result is the exact power of two times the old one, without any additional rounding.", "quantifier": "every binary format, every size, every content including NaN, infinities and signed zeros, every choice of signs and exponents, every build", "why_tests_cant": "Ranges over all bit patterns, sizes and choices of signs or exponents.", "anchors": ["src/vector.rs: Vector::dot, Vector::sum, Cross", "src/matrix/arith.rs: Mul", "src/matrix/mod.rs: Matrix::sum, Matrix::pow", "src/matrix/ops.rs: Determinant, Cofactor, Inverse"]}
{"id": "C99", "title": "Comparisons, order and lengths in f32/f64", "statement": "For f32/f64, all bit patterns included. == on vectors and matrices: no element is NaN and corresponding elements are the same number or infinity (-0 and 0 are the same); symmetric, transitive, reflexive exactly without NaN; is_zero() is == zero(). Operands that are == (or NaN at the same places) give results of sum, dot, cross, products, pow, determinant, cofactor and inverse that are == or NaN at the same places. Rounding keeps order: larger elements give larger sums; with elements of the first operand not negative, dot and products are monotone in the second, and for elements that are not negative in all operands, pow included; a sum of elements that are not negative is at least each of them. If |a| <= a' elementwise and the computation (sum, dot, product, pow) on a' gives a finite number, then that on a does, of at most that magnitude. norm (with powi(x, 2) the rounded square) is NaN exactly if an element is, otherwise not negative, +inf with an infinite element, independent of the elements' signs, monotone in their magnitudes, at least the magnitude of each element whose square does not underflow, and exactly the magnitude of the only element that is not zero (no overflow or underflow of its square). normalized then has components of magnitude at most 1 with the signs of the elements; the zero vector gives NaN everywhere; an infinite norm gives zeros for finite and NaN for infinite elements. Overflow and underflow are not avoided: finite vectors with infinite norm and non-zero vectors with norm zero exist in every dimension.", "quantifier": "every binary format (f32 and f64 among them), every size, every content including NaN, infinities, signed zeros and subnormals, every build", "why_tests_cant": "Ranges over all pairs of bit patterns and all sizes.", "anchors": ["src/vector.rs: PartialEq, Zero, Vector::sum, Vector::dot, Vector::norm, Vector::normalized, Cross", "src/matrix/mod.rs: PartialEq, Zero, Matrix::sum, Matrix::pow", "src/matrix/arith.rs: Mul", "src/matrix/ops.rs: Determinant, Cofactor, Inverse"]}
{"id": "C100", "title": "Whole programs are memory safe", "statement": "A safe client program that combines the crate's arithmetic and linear algebra in any order, with its own variables, branches and loops, and with an element type whose own operations do not misbehave, never causes an invalid memory access: it returns, panics or runs forever, and its outcome is determined by its start values. In particular this holds for machine integers of every width, fractions and floats.", "quantifier": "every program of the client language (any number of variables of any sizes, expressions of any depth, assignments, compound assignments, element writes, if, while), every start values, every element type named, every build", "why_tests_cant": "Ranges over all programs and all inputs; a test runs one program.", "anchors": ["src/vector.rs: Add, Sub, Mul, Div, Neg, AddAssign, SubAssign, MulAssign, DivAssign, Index, IndexMut, Zero, Vector::generate, Vector::sum, Vector::dot, Cross", "src/matrix/mod.rs: Index, IndexMut, Zero, One, Matrix::generate, Matrix::map, Matrix::diag, Matrix::rows_iter, Matrix::cols_iter, Matrix::identity, Matrix::pow, Matrix::sum, Matrix::transposed, Matrix::transpose", "src/matrix/arith.rs: Add, Sub, Mul, Div, Neg and the assigning forms", "src/matrix/ops.rs: Determinant, Cofactor, Inverse"]}
{"id": "C101", "title": "Whole programs: builds agree", "statement": "If a whole client program over machine integers returns in a build with overflow checks and debug assertions, then the same program returns the same values of all variables in a build without them; a program that panics without the checks never returns with them. More generally, if each element operation of one build panics or agrees with the other's, so does every program. In particular a program over checked machine integers or big naturals that returns has computed what it computes over big integers, divisions included.", "quantifier": "every program of the client language (any number of variables of any sizes, expressions of any depth, assignments, compound assignments, element writes, if, while), every start values, every element type named, every build", "why_tests_cant": "Ranges over all programs, inputs and pairs of builds.", "anchors": ["src/vector.rs: Add, Sub, Mul, Div, Neg, AddAssign, SubAssign, MulAssign, DivAssign, Index, IndexMut, Zero, Vector::generate, Vector::sum, Vector::dot, Cross", "src/matrix/mod.rs: Index, IndexMut, Zero, One, Matrix::generate, Matrix::map, Matrix::diag, Matrix::rows_iter, Matrix::cols_iter, Matrix::identity, Matrix::pow, Matrix::sum, Matrix::transposed, Matrix::transpose", "src/matrix/arith.rs: Add, Sub, Mul, Div, Neg and the assigning forms", "src/matrix/ops.rs: Determinant, Cofactor, Inverse"]}
{"id": "C102", "title": "Whole programs compute the linear algebra they denote, or panic", "statement": "Replace in a client program every operation of the crate by the operation of linear algebra it stands for (product, power, transpose, determinant, inverse, sum, cross product, the i-th row, the matrix of given entries, ...) over exact numbers. If the elements are fractions of machine integers with overflow checks or exact fractions (or, for programs without division, integers with overflow checks or big integers), then a run of the program either panics or ends with exactly the numbers this exact computation gives, taking the same branches and the same number of loop rounds.", "quantifier": "every program of the client language (any number of variables of any sizes, expressions of any depth, assignments, compound assignments, element writes, if, while), every start values, every element type named, every build", "why_tests_cant": "Ranges over all programs and all inputs; rounding or overflow anywhere in a long computation would break it.", "anchors": ["src/vector.rs: Add, Sub, Mul, Div, Neg, AddAssign, SubAssign, MulAssign, DivAssign, Index, IndexMut, Zero, Vector::generate, Vector::sum, Vector::dot, Cross", "src/matrix/mod.rs: Index, IndexMut, Zero, One, Matrix::generate, Matrix::map, Matrix::diag, Matrix::rows_iter, Matrix::cols_iter, Matrix::identity, Matrix::pow, Matrix::sum, Matrix::transposed, Matrix::transpose", "src/matrix/arith.rs: Add, Sub, Mul, Div, Neg and the assigning forms", "src/matrix/ops.rs: Determinant, Cofactor, Inverse"]}
{"id": "C103", "title": "Programs without division never panic over rings", "statement": "With elements from a commutative ring with total operations (big integers, or integers without overflow checks, which compute modulo 2^w), a program that does not divide (determinant up to size 3, cofactor up to size 4, no inverse) and whose indices are in range never panics; it ends if and only if the exact computation ends, with the numbers it gives; a program without loops always ends. An expression over wrapping integers gives its exact value over the integers reduced modulo 2^w once, whatever overflows in between. For example `while n != 0 { acc *= a; n -= 1; }` ends for every n with acc * a^n.", "quantifier": "every program of the client language (any number of variables of any sizes, expressions of any depth, assignments, compound assignments, element writes, if, while), every start values, every element type named, every build", "why_tests_cant": "Ranges over all programs, inputs and numbers of loop rounds.", "anchors": ["src/vector.rs: Add, Sub, Mul, Div, Neg, AddAssign, SubAssign, MulAssign, DivAssign, Index, IndexMut, Zero, Vector::generate, Vector::sum, Vector::dot, Cross", "src/matrix/mod.rs: Index, IndexMut, Zero, One, Matrix::generate, Matrix::map, Matrix::diag, Matrix::rows_iter, Matrix::cols_iter, Matrix::identity, Matrix::pow, Matrix::sum, Matrix::transposed, Matrix::transpose", "src/matrix/arith.rs: Add, Sub, Mul, Div, Neg and the assigning forms", "src/matrix/ops.rs: Determinant, Cofactor, Inverse"]}
{"id": "C104", "title": "Whole programs do not depend on the representation of the elements", "statement": "Take two element types and any relation between their values such that 0 and 1 are related, the zero tests of related values agree, and +, -, *, / and negation of related values give related values or fail alike. A client program started with related variables behaves alike over both types: it ends over both with related variables, fails over both in the same way, or runs forever over both. Hence a property of elements that 0 and 1 have and all operations keep holds for all variables at the end; conjugating all complex inputs of a program conjugates all its outputs; real inputs in complex variables give real outputs, the same as the program over the real type.", "quantifier": "every pair of element types and relation as described, every program of the client language, every related start values, every pair of builds with the same usize", "why_tests_cant": "Ranges over all element types, relations, programs and runs, including runs that do not end.", "anchors": ["src/vector.rs: Add, Sub, Mul, Div, Neg, AddAssign, SubAssign, MulAssign, DivAssign, Index, IndexMut, Zero, Vector::generate, Vector::sum, Vector::dot, Vector::norm, Vector::normalized, Cross", "src/matrix/mod.rs: Index, IndexMut, Zero, One, Matrix::generate, Matrix::map, Matrix::diag, Matrix::rows_iter, Matrix::cols_iter, Matrix::identity, Matrix::pow, Matrix::sum, Matrix::transposed, Matrix::transpose", "src/matrix/arith.rs: Add, Sub, Mul, Div, Neg and the assigning forms", "src/matrix/ops.rs: Determinant, Cofactor, Inverse"]}
{"id": "C105", "title": "f32 and f64 bit by bit: results are reproducible", "statement": "The bit patterns of f32 and f64 mean what IEEE 754 says (sign, exponent field, fraction field; subnormal numbers, infinities, NaNs); every value has exactly one pattern except NaN. On any two processors whose operations return the correctly rounded values, whichever NaN they pick, every client program started from the same bits behaves alike (ends, panics or runs forever on both) and leaves the same bits in all variables, NaNs apart; norm and normalized likewise. There is such a processor that computes with integers only, including square root and ==.", "quantifier": "all bit patterns of the interchange formats (f32, f64 among them), all processors as described, all programs, all start values", "why_tests_cant": "There are 2^64 patterns per element and unboundedly many programs; reproducibility is a statement about all pairs of conforming implementations.", "anchors": ["src/vector.rs: Add, Sub, Mul, Div, Neg, AddAssign, SubAssign, MulAssign, DivAssign, Index, IndexMut, Zero, Vector::sum, Vector::dot, Vector::norm, Vector::normalized, Cross", "src/matrix/mod.rs: Index, IndexMut, Zero, One, Matrix::identity, Matrix::pow, Matrix::sum, Matrix::transposed, Matrix::transpose", "src/matrix/arith.rs: Add, Sub, Mul, Div, Neg and the assigning forms", "src/matrix/ops.rs: Determinant, Cofactor, Inverse"]}
{"id": "C106", "title": "Whole programs that own elements: every element has exactly one owner and is destroyed exactly once", "statement": "Consider any program whose variables hold single elements, vectors, matrices, owning iterators and chunk iterators, and whose statements create elements, collect, move, drop, map, negate, add, add-assign by value, assign elements, turn vectors into iterators, chunk iterators and matrices, and take elements or chunks from either end; the element operations return, replace or swap elements or panic, sources may end early, produce too much or panic, and each panic is caught. If the program avoids the two misuses of C77 (next_back on an owning iterator emptied from the front, nth past the end), then in every build no undefined behaviour occurs, and at every moment each element ever created is in exactly one place: destroyed, leaked, or owned by exactly one variable. Nothing is leaked unless a statement panicked; at the end of the scope of a program without panics every element was destroyed exactly once.", "quantifier": "all programs (any number of variables and statements, any sizes below 2^64 or the target's word size), all behaviours of closures, element operators and sources including panics at any call, all builds", "why_tests_cant": "ownership must balance for every interleaving of moves, partial iteration, panics and reuse of variables; a test runs one program", "anchors": ["src/vector.rs: FromIterator, IntoIter (next, next_back, nth, len, Drop), IntoChunks/Chunks, Add/Sub/Neg/Mul/Div, AddAssign/SubAssign, IndexMut", "src/matrix/mod.rs: map, From<Vector>", "src/matrix/arith.rs: by-value operators"]}
{"id": "C107", "title": "Approximate equality of f32 and f64 matrices means what its tolerances say", "statement": "For matrices of f32 or f64: relative_eq never panics; it accepts finite matrices whose corresponding entries differ by at most epsilon, or by at most max_relative times the larger entry, although the test itself rounds; conversely what it accepts is within the tolerances up to the rounding of one subtraction and one product. NaN is approximately equal to nothing, an infinity only to itself; the relation is reflexive exactly on matrices without NaN, symmetric, monotone in the tolerances, equal to == for zero tolerances, and with the defaults (EPSILON) accepts entries with no number between them; it is not transitive. ulps_eq holds if every two corresponding entries are epsilon apart or have the same sign and at most max_ulps steps from one number to the next between them; such entries differ by at most max_ulps * EPSILON, relatively, or max_ulps times the smallest number. It is symmetric, monotone, reflexive without NaN. For f32 a max_ulps of 2^31 or more is taken as negative, and then only epsilon counts.", "quantifier": "all shapes, all entries (including NaN, infinities, signed zeros, subnormal numbers), all tolerances", "why_tests_cant": "There are 2^128 pairs of f64 per entry and the tolerances range over all floats; soundness of a rounded test of nearness is a statement about all of them.", "anchors": ["src/matrix/mod.rs: ApproxEq (default_epsilon, default_max_relative, default_max_ulps, relative_eq, ulps_eq)"]}
{"id": "C108", "title": "Whole programs that own elements do exactly what lists and queues would do", "statement": "For the programs of C106, replace every vector and matrix by the list of its elements, every owning iterator by a queue and every chunk iterator by a queue of chunks, with the obvious meaning of each statement. Then in every build each statement completes or panics exactly when it does so on lists; afterwards every variable holds exactly those elements in that order (with the same shape), exactly those elements have been created, and exactly those destroyed, in that order - also when an element operation, a source or a bounds check panics in the middle of a statement. At the end of the scope the remaining elements are destroyed variable by variable from first to last. A statement leaves variables it does not mention alone. If a build with debug assertions completes every statement, all builds do the same. Whether a program stays clear of the misuses of C77 can be read off the list semantics.", "quantifier": "all programs (any number of variables and statements, all sizes below the word size), all behaviours of closures, element operators and sources including panics at any call, all builds", "why_tests_cant": "which element is where after partial iteration, moves and panics depends on the whole history; a test follows one history", "anchors": ["src/vector.rs: FromIterator, IntoIter (next, next_back, nth, len, Drop), IntoChunks/Chunks, Add/Sub/Neg/Mul/Div, AddAssign/SubAssign, IndexMut", "src/matrix/mod.rs: map, From<Vector>", "src/matrix/arith.rs: by-value operators"]}
{"id": "C109", "title": "The alternate form {:#?} of Debug", "statement": "{:#?} of a vector is Vector followed by [ ] if it is empty, and otherwise [, a line break, each entry's own {:#?} followed by a comma and a line break with four blanks before every line of it, ]. (With a standard library before 1.36 there is no comma after the last entry.) {:#?} of a matrix with at least one row is Matrix[, each row as such a list with ', ' between the rows, ]; the rows themselves are not indented. If the entry formatting of one entry fails or panics, the text is exactly what precedes it and the indented text that entry wrote, and the formatting ends the same way. If the entries stop at the first failing write, so do vectors and matrices in any nesting: on any destination the writes are performed in order up to the first that fails, then Err is returned. Two vectors (matrices) of one shape with the same text, whose entries have no line breaks in their texts, have the same entry texts. A matrix without rows writes Matrix[ and panics with overflow checks, and is Matrix[] without.", "quantifier": "every shape, every entry type and every way its Debug writes its text in pieces, fails or panics, every destination, both versions of the standard library", "why_tests_cant": "Ranges over all entry texts with line breaks anywhere, all ways to cut them into writes, all failure points and all nestings.", "anchors": ["src/vector.rs: Debug", "src/matrix/mod.rs: Debug"]}
{"id": "C110", "title": "Whole programs whose elements' destructors may panic", "statement": "In the programs of C106, let any set of elements have destructors that panic, with Rust's rules for what happens then (the rest of an array is still destroyed, an assignment still stores its value, a second panic while unwinding aborts the process). As long as a program avoids the misuses of C77 and two more calls - a collection that ends too early having received an element whose destructor panics, and an nth on an owning iterator that skips one - no element is destroyed twice, none is destroyed while a variable holds it, none is held twice, and there is no invalid access, whatever panics or aborts; nothing is leaked unless something panicked. This holds up to and including the end of the scope, where nothing is held any more unless the process was aborted. A statement succeeds if there was no panic in it, panics if exactly one destructor or other call panicked, and the process is aborted exactly if there were two panics, the second in the destructor that ran last. Destroying a vector or matrix with one panicking destructor destroys all its elements; with two or more the process is aborted at the second. Destroying an owning iterator stops at the first panicking destructor and leaks the rest. The two calls really are undefined behaviour. As long as no destructor that runs panics, the program does exactly what C106 and C108 say.", "quantifier": "all programs (any number of variables and statements, all sizes below the word size), all sets of panicking destructors, all behaviours of closures, element operators and sources including panics at any call, all builds", "why_tests_cant": "any destructor of any element can panic at any point of any history, alone or while another panic unwinds; a test fixes one", "anchors": ["src/vector.rs: FromIterator, IntoIter (next, next_back, nth, len, count, Drop), IntoChunks/Chunks, Add/Sub/Neg/Mul/Div, AddAssign/SubAssign, IndexMut", "src/matrix/mod.rs: map, From<Vector>", "src/matrix/arith.rs: by-value operators"]}
{"id": "C111", "title": "Collecting what is left of an owning iterator", "statement": "After any use of v.into_iter() in which no nth skips more than is left and next_back() is not called on an exhausted iterator something was taken from at the front (the uses C08/C77 show to be right), collecting the rest into a Vector of length M gives exactly the remaining elements in order if there are M of them, panics if there are fewer, and with surplus panics with debug assertions and takes the first M without. Every element is handed out, in the new vector, or destroyed, exactly once; elements leak only when a debug build panics over surplus. No invalid access. In particular v.into_iter().collect() is v with nothing destroyed. The chunks left of a used into_chunks::<I>() collect by the same rules.", "quantifier": "every N, M, every such history, every build", "why_tests_cant": "All histories, lengths and builds; what is destroyed is not visible in results.", "anchors": ["src/vector.rs: from_iter", "src/vector.rs: IntoIter", "src/vector.rs: Chunks"]}
{"id": "C112", "title": "Collecting an owning iterator backwards", "statement": "After any such use, it.rev().collect() gives the remaining elements in reverse order, by the same rules for too few and too many, without an invalid access or a second destruction.", "quantifier": "every N, M, every such history, every build", "why_tests_cant": "Depends on what count() does inside a debug assertion to an iterator already exhausted; the second destruction is invisible in results.", "anchors": ["src/vector.rs: from_iter debug_assert_eq", "src/vector.rs: IntoIter::next_back"]}
{"id": "C113", "title": "The borrowing iterators after any history, in any build", "statement": "rows_iter, cols_iter, rows_iter_ref, cols_iter_ref and a column's element iterator: after every sequence of next/next_back/nth, including skips past the end and skips that overflow usize (which panic with overflow checks and wrap around without), the answer of the next call and of len/size_hint/count/last is determined by two places: the front, which is the number of items handed out at the front plus all skips that did not panic, modulo 2^w, and the back, the number of items minus those handed out at the back. next() gives the item at the front place if it is before the back, next_back() the one before the back, nth(n) moves the front by n first; len() is back (for the reference iterators) or the number of rows/columns (for the cloning ones) minus front, which panics or wraps below zero. So len() is right exactly if the front has not passed the back (reference), or nothing was taken from the back or the front is exactly at the end, and it has not passed the end (cloning). Collecting into a Vector of any length follows the same places. Nothing but items of the matrix is handed out; without overflow checks an exhausted iterator is revived by a suitable nth.", "quantifier": "every shape, content, every history, every build and usize width, every length collected into", "why_tests_cant": "All histories with all 2^w skip amounts; the wrong answers need overflowing or overshooting skips.", "anchors": ["src/matrix/iter.rs: RowsIter, ColsIter, RowsIterRef, ColsIterRef, ColsIterRefInner", "src/vector.rs: from_iter"]}
{"id": "C114", "title": "Programs can be rewritten by the laws of linear algebra", "statement": "Rewrite a client program with the laws of linear algebra: (ab)c = a(bc), (ab)^T = b^T a^T, a(b + c) = ab + ac, a^(j+k) = a^j a^k, (ab)v = a(bv), det(ab) = det a det b, (av).w = v.(a^T w), det a^T = det a, (ma) x (mb) = cof(m)(a x b) and the other laws of cross and dot products, expansion of a determinant by cofactors, a adj(a) = det a, the (i, j) entry of ab is row i of a dot column j of b, x += e for x = x + e, a.transpose() for a = a.transposed(), unrolling a loop once, and so on, anywhere in the program. With elements from a ring with total operations (big integers, wrapping integers) and no division, the program before and after has the same outcome for all start values; with exact or panicking elements (fractions with overflow checks, checked machine integers without division), if both return they return the same values of all variables; with fractions this includes the laws of division: x/s = x(1/s), the inverse as the transposed cofactors over the determinant, Cramer's rule, det of the inverse, the inverse of a scaled matrix.", "quantifier": "every pair of programs connected by any number of the rewriting rules, applied anywhere, every start values, every element type named, every build", "why_tests_cant": "Ranges over all programs, rewritings and inputs.", "anchors": ["src/vector.rs: Add, Sub, Mul, Div, Neg, AddAssign, SubAssign, MulAssign, DivAssign, Index, IndexMut, Zero, Vector::generate, Vector::sum, Vector::dot, Cross", "src/matrix/mod.rs: Index, IndexMut, Zero, One, Matrix::generate, Matrix::map, Matrix::diag, Matrix::rows_iter, Matrix::cols_iter, Matrix::identity, Matrix::pow, Matrix::sum, Matrix::transposed, Matrix::transpose", "src/matrix/arith.rs: Add, Sub, Mul, Div, Neg and the assigning forms", "src/matrix/ops.rs: Determinant, Cofactor, Inverse"]}
{"id": "C115", "title": "Error bounds for whole expressions and programs in floating point", "statement": "Give every input of a client program as mid +/- err and propagate the uncertainty by the textbook rules (sums add the errors, products add |x| dy + |y| dx + dx dy, every operation adds u|result|, products and quotients half of the smallest positive number; whole numbers that fit are exact). If this ends with an answer, then for all f32/f64 inputs within their uncertainties the program runs without panic, all results are finite and within the computed err of mid, and the mids are the exact results of linear algebra; exact results for true real inputs within the uncertainties lie there too. This covers determinant and inverse of every size, because they divide by what they found to be non-zero. Two expressions equal in linear algebra give results that differ by at most the sum of their uncertainties, so relative_eq with that absolute tolerance accepts them. An expression that does not divide never panics, whatever the inputs, and every finite entry of its result is within (1+u)^k M - m of the exact value, with k, M, m given by the same expression. The bounds hold for the bits any IEEE 754 processor leaves.", "quantifier": "every expression and program of the client language, every inputs within their uncertainties, every size, f32, f64 and every other binary format; for the last bound every inputs", "why_tests_cant": "Ranges over all programs, all real and floating point inputs and all roundings on the way.", "anchors": ["src/vector.rs: Add, Sub, Mul, Div, Neg, AddAssign, SubAssign, MulAssign, DivAssign, Index, IndexMut, Zero, Vector::generate, Vector::sum, Vector::dot, Cross", "src/matrix/mod.rs: Index, IndexMut, Zero, One, Matrix::generate, Matrix::map, Matrix::diag, Matrix::rows_iter, Matrix::cols_iter, Matrix::identity, Matrix::pow, Matrix::sum, Matrix::transposed, Matrix::transpose", "src/matrix/arith.rs: Add, Sub, Mul, Div, Neg and the assigning forms", "src/matrix/ops.rs: Determinant, Cofactor, Inverse"]}
{"id": "C116", "title": "Calculations without division are polynomials", "statement": "To every expression built from the crate's operations without division and inverse belongs, entry by entry, one polynomial with integer coefficients in the numbers in the client's variables, of a degree read off the expression (degrees add under products, determinants of size n multiply by n, and so on). Over any commutative ring with total operations the expression returns the value of its polynomial; with checked integers, and with checked fractions also for determinants of all sizes, it returns that value or panics. The same for whole programs without tests. Hence: two expressions that agree for all big integers agree over every commutative ring (wrapping integers, ...); if two expressions of degree at most d do not agree for all inputs, inputs chosen at random from a set S make them agree with probability at most d/|S|; inputs congruent modulo m give results congruent modulo m; and evaluated on dual numbers an expression or program yields its value together with its directional derivative.", "quantifier": "every expression (program without tests), all sizes, every ring, every values of the variables, every finite set of test values, every direction", "why_tests_cant": "Ranges over all expressions, element types and inputs; it says how much a random test can tell.", "anchors": ["src/vector.rs: Add, Sub, Mul, Div, Neg, AddAssign, SubAssign, MulAssign, DivAssign, Index, IndexMut, Zero, Vector::generate, Vector::sum, Vector::dot, Cross", "src/matrix/mod.rs: Index, IndexMut, Zero, One, Matrix::generate, Matrix::map, Matrix::diag, Matrix::rows_iter, Matrix::cols_iter, Matrix::identity, Matrix::pow, Matrix::sum, Matrix::transposed, Matrix::transpose", "src/matrix/arith.rs: Add, Sub, Mul, Div, Neg and the assigning forms", "src/matrix/ops.rs: Determinant, Cofactor, Inverse"]}
{"id": "C117", "title": "Numbers without reciprocals, derivatives and modular arithmetic", "statement": "Over any commutative ring whose division gives an exact quotient or panics, determinant and cofactor of every size return the true value or panic, and if only numbers with reciprocals can be divided by, inverse panics, returns None, or returns the two-sided inverse; it returns Some exactly if the determinant has a reciprocal (size 1 to 3) or all leading principal minors have one (size 4 and up). Every expression and program then panics or returns what linear algebra says, with all its divisors invertible; over an exact field it is known exactly which ones panic. Dual numbers with the quotient rule and integers modulo m are such element types. Hence: an expression or program with divisions and inverses that succeeds on dual numbers succeeds on all real inputs near the given ones along the given direction, and the dual parts are the derivatives of its results; and if it succeeds on integers modulo m, it succeeds on every fractions that reduce to these, and the fractions it returns reduce to the integers it returns modulo m.", "quantifier": "every commutative ring, every expression (program without tests) including division, determinant, cofactor and inverse, all sizes, every input, every direction, every modulus", "why_tests_cant": "Ranges over all rings, expressions and inputs; limits cannot be computed.", "anchors": ["src/vector.rs: Add, Sub, Mul, Div, Neg, AddAssign, SubAssign, MulAssign, DivAssign, Index, IndexMut, Zero, Vector::generate, Vector::sum, Vector::dot, Cross", "src/matrix/mod.rs: Index, IndexMut, Zero, One, Matrix::generate, Matrix::map, Matrix::diag, Matrix::rows_iter, Matrix::cols_iter, Matrix::identity, Matrix::pow, Matrix::sum, Matrix::transposed, Matrix::transpose", "src/matrix/arith.rs: Add, Sub, Mul, Div, Neg and the assigning forms", "src/matrix/ops.rs: Determinant, Cofactor, Inverse"]}
{"id": "C118", "title": "Variables are values: nothing is aliased, and naming or writing out a subexpression changes nothing", "statement": "What an expression returns depends only on the values of the variables it mentions (the element parameter of a map closure hides the outer variable). What a program does - panic, run forever, return - depends only on the variables it reads before overwriting them, and it changes only the variables it assigns. So two pieces of program of which neither assigns what the other reads or assigns can be exchanged; a piece that returns and assigns nothing used later can be left out; a subexpression can be computed first into a fresh variable, or a variable be written out as the expression assigned to it (if the program with the variable returns, so does the other, with the same results, and vice versa), provided no map closure rebinds a variable of it; a subexpression whose variables a program (say, a loop) does not assign can be computed once before it, if it has a value there; a program does the same with its variables renamed, if different ones stay different. The by-value and by-reference forms of an operator are interchangeable, as are an assigning operator and the operator with an assignment, in-place and copying transposition, a[i][j] and the entry of row i or column j or of the transposed matrix, transposing twice and not at all, a loop and its unrolling - in every context, with the same panics, for every element type, floats included, without assuming any law of arithmetic.", "quantifier": "every element type and every behaviour of its operations (panics included), every expression and program with tests and loops, every input, all sizes", "why_tests_cant": "Ranges over all pairs of programs, all element types and inputs, and over runs that do not end.", "anchors": ["src/vector.rs: Add, Sub, Mul, Div, Neg, AddAssign, SubAssign, MulAssign, DivAssign, Index, IndexMut, Zero, Vector::generate, Vector::sum, Vector::dot, Cross", "src/matrix/mod.rs: Index, IndexMut, Zero, One, Matrix::generate, Matrix::map, Matrix::diag, Matrix::rows_iter, Matrix::cols_iter, Matrix::identity, Matrix::pow, Matrix::sum, Matrix::transposed, Matrix::transpose", "src/matrix/arith.rs: Add, Sub, Mul, Div, Neg and the assigning forms", "src/matrix/ops.rs: Determinant, Cofactor, Inverse"]}
{"id": "C119", "title": "Every operation is its formula, written out entry by entry", "statement": "Each operation can be replaced in a program by the formula for it: a + b, a - b, -a, a * s, a / s, zero() and identity() on vectors and matrices by generate with the formula for one entry (a[k] + b[k], ..., 1 if the row is the column and else 0), transposed() by generate with the indices swapped, a * b by generate with the scalar product of row i of a and column j of b, a * v likewise, sum() by 0 + v[0] + v[1] + ... added from the left (for a matrix: the sums of its rows), dot by 0 + a[0] * b[0] + a[1] * b[1] + ..., cross by its three differences of products, rows, columns, diag and map entry by entry, the determinant up to size 3 by the textbook formula, and a cofactor of any size by the sign times the determinant of the matrix without that row and column. Both give the same result, or both panic, for every element type - floats, wrapping or checked integers, anything - without assuming a law of arithmetic (so also the order of the additions is the one written).", "quantifier": "every element type and every behaviour of its operations (panics included), all sizes, all values", "why_tests_cant": "Ranges over all element types, sizes and values; for floats the order of the operations matters, and tests compare only some values.", "anchors": ["src/vector.rs: Add, Sub, Mul, Div, Neg, AddAssign, SubAssign, MulAssign, DivAssign, Index, IndexMut, Zero, Vector::generate, Vector::sum, Vector::dot, Cross", "src/matrix/mod.rs: Index, IndexMut, Zero, One, Matrix::generate, Matrix::map, Matrix::diag, Matrix::rows_iter, Matrix::cols_iter, Matrix::identity, Matrix::pow, Matrix::sum, Matrix::transposed, Matrix::transpose", "src/matrix/arith.rs: Add, Sub, Mul, Div, Neg and the assigning forms", "src/matrix/ops.rs: Determinant, Cofactor, Inverse"]}
