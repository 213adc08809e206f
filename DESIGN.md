# A Lean 4 model of sinkuu/rowcol

The subject is the Rust crate in `/repo` (fixed-size `Vector` and `Matrix`).  It was read as text;
nothing was compiled or run.  The theorems are about the model in `lean/Verif/Model`, which was
transcribed by hand, function by function, each definition citing the lines it transcribes.

## Layout

| file | content |
|---|---|
| `Verif/Model/Rust.lean`   | faults (`panic`, `ub`), build modes, `usize` arithmetic, debug assertions |
| `Verif/Model/Vec.lean`    | `Vector<T,N>`: `from_iter`, `generate`, indexing, elementwise ops, dot, cross, norm, sum, max/min, clamp, eq, zero, Debug |
| `Verif/Model/Mat.lean`    | `Matrix<T,R,C>`: construction, indexing, map/all/any, transpose, arithmetic, pow, conjugate, ApproxEq, ... |
| `Verif/Model/Det.lean`    | `Determinant`, `Cofactor`, `Inverse` (all impls) |
| `Verif/Model/Iter.lean`   | the five borrowing iterators of `matrix/iter.rs` |
| `Verif/Model/Mem.lean`    | slot-level memory model: `IntoIter`, `from_iter`, `Chunks`, drops, unwinding |
| `Verif/Model/Consume.lean`| memory-level consuming and assigning operations with effectful, panicking element operations |
| `Verif/Model/Display.lean`| `Display` for `Matrix`, `str::lines` |
| `Verif/Model/DisplayIO.lean`| `Display` for `Matrix` with effects of the entries and failing writes |
| `Verif/Model/TypeLevel.lean` | typenum numerals, impl selection, static index bounds, `Min`, macros, prelude aliases |
| `Verif/Model/Examples.lean` | the program of the crate documentation and examples/fib.rs |
| `Verif/Model/Compare.lean` | `==`, `is_zero`, `relative_eq`, `ulps_eq`, `max`, `min`, `clamped`, `clamp` once more, with effectful comparisons and clones |
| `Verif/Model/CloneIter.lean` | `RowsIter`, `ColsIter`, `transposed`, `transpose` once more, with effectful clones |
| `Verif/Model/Block.lean` | `Matrix<T, N, N>` as an element type |
| `Verif/Model/DebugIO.lean` | `Debug` with effectful entries and a failing destination; std's `debug_list` without `#` |
| `Verif/Model/DebugAlt.lean` | `Debug` with the `#` flag, on formatting functions as trees of writes; std's `DebugList` and `PadAdapter` |
| `Verif/Model/Effects.lean` | the arithmetic, determinant, cofactor, inverse and power once more, with effectful element operations (including `clone`) |
| `Verif/Conformance.lean` | the crate's 27 unit tests and its documentation examples, run on the model in the kernel (a check of the transcription) |
| `Verif/Counting.lean` | counting element operations: what a cost statement says |
| `Verif/MachInt.lean`      | element types: integers of `w` bits with and without overflow checks, `Ratio` of them |
| `Verif/Arith.lean`        | element types: what it means to be a semiring/ring/field; exact fields, `BigInt`, `BigUint` |
| `Verif/Model/Program.lean` | a client language: expressions and statements are the crate's operations, with variables, `if`, `while` (models no single file; each case calls the model of the cited operation) |
| `Verif/Model/Ownership.lean` | a client language for programs that own elements with destructors: collecting, moving, dropping, `map`, operators by value, `op=`, element assignment, iterators, chunks, `Matrix::from` (each case calls the model of the cited operation) |
| `Verif/Model/OwnCollect.lean` | `it.rev().collect()` of an owning iterator |
| `Verif/Model/Unwind.lean` | the same programs when destructors may panic: how each statement ends (completes, panics, aborts), what is destroyed and what is leaked |
| `Verif/OwnerSpec.lean`    | what programs that own elements do, in terms of lists and queues |
| `Verif/ErrorSpec.lean`    | numbers with an uncertainty and its propagation, `mid ± err` (C115) |
| `Verif/RewriteSpec.lean`  | when two client programs say the same thing in linear algebra; rewriting rules (C114) |
| `Verif/PolySpec.lean`     | the polynomial and the degree of a client expression, dual numbers, derivatives (C116) |
| `Verif/RingSpec.lean`     | checked division over commutative rings, integers modulo `m`, which expressions are defined (C117) |
| `Verif/VarSpec.lean`      | variables read and written by a program, substitution, rewriting without laws (C118) |
| `Verif/Lemmas/RingDiv.lean`, `Quotients.lean` | determinants and inverses over commutative rings; defined expressions under homomorphisms (C117) |
| `Verif/ProgSpec.lean`     | what a client program means in linear algebra; which programs divide or have indices out of range |
| `Verif/Complex.lean`      | element types: `num::Complex<T>` (transcribed from `num` 0.1, which is not in /repo) |
| `Verif/Rounding.lean`     | element types: floating point by the standard model of rounding; rounding to `p` binary digits |
| `Verif/Float.lean`        | element types: IEEE 754 binary formats, `f32` and `f64` |
| `Verif/SoftFloat.lean`    | `f32` and `f64` once more, executable and down to the bits |
| `Verif/Approx.lean`       | `approx::ApproxEq` of `f32` and `f64`, on values and on bits (transcribed from the crate `approx` 0.1, which is not in the repository: trusted) |
| `Verif/Spec.lean`         | the small specifications the theorems are stated against |
| `Verif/Lemmas/*.lean`     | helper lemmas |
| `Verif/Props/*.lean`      | the property theorems and, beside each, examples showing the hypotheses are met |

## Modelling decisions

* **Faults.** A computation is a program in a monad that can `throw .panic` or `throw .ub`.
  `ub` is raised by an unchecked access outside its array (`get_unchecked`, `ptr::read`, ...), so a
  theorem that a program equals `.ok x` says that it neither panics nor performs such an access.
* **Build mode.** `Target` has two independent flags, `debugAssertions` and `overflowChecks`, and the
  `usize` modulus `W` (2^16, 2^32, 2^64, ...).  Theorems quantify over all targets unless they say
  otherwise; `usize` subtraction/addition wraps when overflow checks are off.
* **Closures and element operations** (`FnMut`, `T: Add`, `T: Clone`) are arbitrary programs in an
  arbitrary lawful monad `m` with faults, so they may have state, may panic, and their call order is
  observable.  Instances: `Except Fault` (panics only), `ExceptT Fault (StateM s)` (state survives
  panics, i.e. what a `catch_unwind` observes).
* **Iterators** given to `collect` are a state type, a `next` program and a `count` program
  (user-overridable, because `from_iter` calls `count` in a debug assertion).  Standard adaptors over
  slices and vectors are the list of the pending element computations.
* **`[T; N]`** is a list with a proof that its length is `N`.  Every `N` is allowed, although the crate
  only implements `ArrayLen` for 0..=32.
* **Memory model.** For `IntoIter`, `Drop`, `from_iter` and `Chunks` a second, finer model has explicit slots
  (uninitialised / live / moved-out), logs each drop and each violation (out-of-range access, second
  read, second drop, drop of uninitialised memory) and unwinding.
* **Numbers.** Algebraic theorems are over arbitrary (commutative) semirings, rings and fields with
  exact equality (so `Ratio<BigInt>`, `BigInt`, `BigUint`).  Machine integers of `w` bits, with and without overflow
  checks, and fractions of them are modelled as element types of their own (C72-C76).  `f32`/`f64` are
  modelled by the standard model of rounding (C83-C86) and as IEEE 754 values with NaN, infinities, signed zeros and subnormals (C87).

## Property plan

C01-C06, C33: `from_iter`/`generate`/`clone` as monadic loops; proved equal to the in-order traversal.
C02, C04, C05, C07-C11, C70: memory model; invariants over arbitrary call histories, accounting by list permutations.
C12: memory-model `Chunks` refined to a deque of chunks.
C13-C17: indexing by case analysis; static indexing through a model of typenum numerals and trait bounds.
C18-C22: elementwise reduction to list traversals, then ring laws entry by entry.
C23-C26, C41-C47: folds related to `Finset.sum` / Mathlib `Matrix`; complex matrices (C47) through the ring homomorphisms conjugation, inclusion of the reals and `2 x 2` real blocks.
C27-C29: induction over the element list, for total preorders.
C30-C32, C34-C40, C66: entrywise characterisations.
C48-C53: elimination loop invariants (row operations preserve `Matrix.det`), Laplace fallback by induction on the size.
C54: case analysis over build modes.
C55-C57: Gauss-Jordan loop invariant `mat = inv * A`, leading principal minors.
C58, C67, C68: type-level model (impl selection over binary numerals; finite alias table).
C59-C63, C69: borrowing iterators refined to a deque for all histories.
C71: `Min` of typenum numerals (used by `diag`) computed by their comparison.
C64, C65: layout model of `Display` over lists of characters with an arbitrary width function.
C82: a second model of `Display` with effectful rendering and writing, shown equal to rendering, then writing the pieces of the C64 text.
C83: the standard model of rounding (`Ops.Rounds`); every operation is related (Lemmas/Param) to a calculus that carries the exact value, a bound on the magnitudes and a number of roundings, whose three components are computed separately by the exact theorems.
C84: `Ops.ExactInts`; induction on the folds; `num::pow` forms no power beyond the one asked for.
C85: relational transport (Lemmas/Param) of the whole model along a map of element types.
C86: law-free invariant of the elimination (Lemmas/ElimFree), with a backward-error invariant on top (Props/FloatDet); forward bounds for the closed formulas of `inverse`; for the Gauss-Jordan loops of size 4 and more a backward bound: stage by stage the run is read backwards as a product of elementary column matrices (Props/FloatInv).
C87: IEEE formats in `Verif/Float.lean`; a calculus of (exact value, magnitude, roundings, magnitude with underflow terms) related to the model by Lemmas/Param; a trapping variant of the arithmetic for the results with division.
C88: a predicate no operation loses (NaN) carried through the folds, the elimination (Lemmas/ElimFree) and the Gauss-Jordan loop (Lemmas/GJFree) without any algebraic law; then the IEEE values of C87.
C89: the entries as left-to-right sums (C41) with only the commutativity of one element operation; invariants of those sums for IEEE values; rounding commutes with powers of two.
C90: a second transcription of the arithmetic with element operations in an arbitrary monad (Model/Effects.lean); equations between programs.  The loops of `determinant` and `inverse` (n > 3) are equated with row operations on a table (Props/EffectsLoops).
C91, C93: that transcription with counting operations; a calculus (Lemmas/Cost) that adds up costs while proving that the values are those of the first transcription; the loop of `num::pow`.
C92: the same calculus; the elimination completes iff the leading minors are nonzero (C55); recurrences for the cofactor expansion compared with the factorial.
C94: a transcription of the comparisons with effectful questions (Model/Compare.lean); a specification of short-circuit conjunction by the calls made; induction over the questions, flattening of rows.
C95: `RowsIter`, `ColsIter` with cursors as state and an effectful clone (Model/CloneIter.lean); a queue specification that says what a panicking clone does to the queue; simulation by induction over histories, and `mapM` over the column-major entries for the transposes.
C96: the operations of `Matrix<T, N, N>` as element operations (Model/Block.lean); square matrices as a ring, so that the theorems for rings apply to both levels; the numbering of rows by pairs; for the determinant the commutative subring generated by the blocks, naturality (C85) and Mathlib's theorem of Silvester.
C25: the definition of `norm`/`normalized` over the reals.
C72, C73, C75, C76: a simulation relation (`Lemmas/Sim.lean`) between a run with overflow checks and the exact run, carried through every operation.
C77: the memory model without restrictions on the history; a poisoned-state invariant gives the converse direction.
C78, C79: the loops of `from_iter` and `op=` on owning iterators, refined to handing over the flattened element list until the operation panics.
C80, C81: the exact condition for `Some` (C56, C57) carried through transposition, scaling, products; leading minors of LU products, of positive definite and of diagonally dominant matrices.
C74: monotonicity of sums of naturals; the powers computed by `num::pow`.
C97: `Debug` over a state monad with panics, with arbitrary writes and arbitrary formatting of entries and (for other flags) of rows (Model/DebugIO.lean); the specification is a list of actions run up to the first failure; induction over the rows.  The texts follow by concatenating the pieces and C34.
C98: a graded relation between two runs of the model (Lemmas/Graded): elements differ by a factor from a commutative group, rows and columns carry their own factors; carried through all loops at once for any arithmetic whose operations respect the grading.  Instances: signs for IEEE values, powers of two for the trapping variant of C87.
C99: values on the extended real line; monotonicity of rounding (Lemmas/FloatLaws) makes `+` and `*` preserve three relations (at most, between zero and, dominated by), which one lemma about folds carries to sums, products and powers.  Substitution of `==` operands is C98 without a change of sign.  For `norm`: the rounded square root of a rounded square is the magnitude (Props/FloatNorm).
C100: a program is run by a big-step relation over the model's functions (Model/Program); one simulation lemma (Lemmas/Program `sim_eval`, `sim_exec`, `sim_run`) by induction over expressions and runs, applied to the identity.
C101: the same simulation between two element types, applied to the two builds.
C102: simulation into exact numbers, then soundness of the exact run against the denotation (`exact_eval`, `exact_exec`, `exact_run`) from the theorems for the single operations (C41, C45, C48, C53, C55, ...).
C103: the same soundness with the side condition that a panic needs a division or an index out of range; completeness by induction over the meaning; wrapping by simulation from the integers.
C104: the simulation of C100 again, with a relation instead of a function and failures required to correspond (Lemmas/ProgramRel, on Lemmas/Param); both directions by symmetry.
C105: an executable IEEE 754 in integers and fractions (SoftFloat), proved equal to the real-number one (Lemmas/SoftFloat: logarithm, rounding and square root of fractions); decoding and encoding inverse to each other by the normal form of a number (Lemmas/FloatBits); programs by C104 with the relation "same value".
C106: an invariant over the whole run (Props/Ownership `Good`): for every identity, destroyed + leaked + owned + pending = 1 if created and 0 otherwise, and every iterator held by a variable has the shape of C05/C12; one lemma per statement from C01 - C04, C78, C79, C40 and the single-step lemmas of Lemmas/Mem; induction over the program.
C107: the element comparison of `approx` on values (Verif/Approx.lean) reduced to reals by "the computed distance is the rounded distance" and monotonicity of rounding; on bits by a homomorphism to values; `ulps_eq` by the strict monotonicity of the decoding on patterns of one sign, which makes the difference of bits a count of values; matrices by C66 and C94.
C108: a specification in lists (Verif/OwnerSpec.lean); refinement with the function `table` (live elements of every variable, creations, destructions), one lemma per statement from the theorems behind C106, with C106's invariant providing the shape of iterators; induction over the program.
C109: a formatting function as a tree: write a piece, see whether it succeeded, go on; end with Ok, Err or a panic (Model/DebugAlt.lean).  Std's `PadAdapter` is a transformation of such trees.  The specification inserts four blanks before every character that starts a line; induction over the tree and over the pieces of `split_inclusive`.  That a failing destination gets a prefix of the writes is for entries that stop at the first failing write (`Honest`), preserved by both impls, hence for any nesting.

C110: the statements of C106 once more with a set of panicking destructors and Rust's unwinding rules (Model/Unwind.lean); the same balance (created = destroyed + leaked + held) as invariant, one lemma per statement; `C110_census` counts the panics of each statement (0, 1, 2 = ok, panic, abort); `C110_agrees` ties it to C106/C108 where no destructor that runs panics.  Rust's rules that are assumed: drop glue of arrays continues after a panic and aborts at a second one; `*a = b` stores `b` also when destroying the old value panics; unwinding destroys the locals of the crate's functions in the modelled order.
C111, C112: `collectOwn` (the `from_iter` of C106, over any element type) and `collectRev` (the same asking `next_back`) on the state that `run` of C07/C08 leaves; closed form of both in every state a proper history reaches, including the broken states `next_back` produces past the end (C112_exact); elements accounted for by permutation.
C113: the five iterators of `Verif/Model/Iter.lean` again, with no restriction on histories: `Explained` says what every call and observer answers as a function of the calls made and the results seen (two places modulo 2^w), proved by an invariant over all histories; `Collected` the same for `from_iter`.  This is the complete form of what C59-C63 and C69 state for restricted histories.
C114: the meaning of C102 and C103 compared for two programs; a set of rewriting rules (Verif/RewriteSpec.lean) is shown to keep the meaning, then C102 and C103 carry it over to runs.

C115: uncertain numbers (Verif/ErrorSpec.lean) are one more element type; the parametricity theorem for programs (C104), in a version where the zero tests need to agree only on numbers that can be divided by, relates them to IEEE floats, to the exact rational middles and to real inputs. The bound for all inputs uses the counting element types of C83 and C87.
C116: the meaning of C102 commutes with ring homomorphisms; the formula is the meaning over the ring of polynomials; degrees by induction; then the Schwartz-Zippel lemma, and the product rule.
C117: Gaussian elimination and Gauss-Jordan with invertible pivots over commutative rings; reciprocals are unique, so the meaning with `a * inverse b` commutes with ring homomorphisms on defined expressions; pairs (a dual number, a function near 0) and (a residue, a fraction) whose parts belong together form a subring with a division.

C118: induction over expressions and runs: a result depends only on the variables read, a run changes only the variables written; exchange, dead code, naming, inlining, hoisting out of loops and renaming follow; rewriting is sound by induction over the rewriting relation, its rules by the entry formulas of the operations, with no law about the elements.
C119: both sides evaluated: the operation by its entry formula, `generate` (or the chain of additions) by the law-free loop lemmas; variables stand for the operands.

Not in the client language: references held across statements, closures other than the arguments of `generate` and `map`, iterators other than `rows_iter().nth(i)` and `cols_iter().nth(j)`, drop order and element types with their own `Drop` (these are C01 - C13, C59 - C63, C67 - C71, and for whole programs C106), and reading through `T: Clone` with effects.

Expected to be **false of the code** (the negation is proved with a witness, and the part that does hold is proved as
`..._partial`): C05, C08, C09, C11, C16 (`Vector<T,U0>[U0]`), C31, C34 (zero rows, overflow checks), C51, C56, C61, C62, C68, C69, C112.

## Trusted base

* **Lean's kernel** (Lean 4.33.0), and Mathlib as a library of kernel-checked theorems.  No `native_decide`, no `bv_decide`, no
  own axioms.  Concrete examples use `decide`/`decide +kernel` (evaluation in the kernel).
* **Axioms.** Only Lean's three standard ones; the list at the end of this file (written by `tools/axioms.py` from
  `collectAxioms`) says which theorem uses which.
* **The transcription.** That the definitions in `lean/Verif/Model` say what the Rust source says, and that the Rust
  semantics they assume (evaluation order, `usize` arithmetic, drop and unwinding order, debug assertions) is right.  Each
  definition cites its lines so that this can be checked by reading.  The theorem statements and `Verif/Spec.lean` must be
  read to see that they say what `properties.jsonl` says.

### Modelled

* `src/vector.rs`: everything except what is listed below.
* `src/matrix/mod.rs`, `src/matrix/arith.rs`, `src/matrix/ops.rs`, `src/matrix/iter.rs`: all methods and operator impls.  The impls
  that the macros generate for the combinations `T`/`&T` are one definition each where their bodies differ, and otherwise one
  definition with the element operation as a parameter.
* `src/util.rs`, `src/prelude.rs` (the alias table), `src/macros.rs` (what the macros expand to), the program in the documentation of `src/lib.rs`, `examples/fib.rs`.
* From outside the crate, transcribed because results depend on them: `num::pow` (0.1), `Complex::conj`, `Ratio` (reduce, +, -, *, /),
  `str::lines`, `Iterator::{max, min, zip, take, rev, count, fold}`, `cmp::{max, min}`, slice equality, `debug_list`-style output of
  `Debug`, typenum numerals with `Cmp` and addition of 1.

### Not modelled

* Of `f32`/`f64`: which NaN an operation returns (C105 leaves it open), decimal conversion.  The values, `+ - * /`, `sqrt`, `powi(2)`, negation, `is_zero`, `==` and `<` are
  modelled (`Verif/Float.lean`, transcribed from IEEE 754, not from the crate); that the hardware and std follow IEEE 754 is trusted.
* `num` itself: its `Complex` and `Ratio` arithmetic, `num::pow` and the identities are transcribed (`Verif/Complex.lean`, `Verif/MachInt.lean`, `Model`), from `num` 0.1 as
  documented; that source is not in /repo.
* Width and precision flags (the crate ignores them in `Display` of `Matrix` and passes them on to the entries in `Debug`).  Std's `DebugList` and `PadAdapter` are transcribed, in the version before and after 1.36 (C109); std's source is not in /repo.
* `unicode-width` itself: the width function is a parameter, with the two build variants (with and without the feature) as instances.
* `Copy`; that `Deref`, `AsRef`, `AsMut`, `iter`, `iter_mut` expose the array unchanged is read off the source (`Vec.intoInner`, `asSlice`, `asSliceMut` stand for them).  Lifetimes, borrow checking, `Send`/`Sync`, inlining hints.
* The internals of `NoDrop` (a value whose destructor does not run) and of `mem::uninitialized`: in the memory model an array of slots in the state "uninitialised".
* Allocation failure; stack overflow.  (Panicking destructors and the abort at a second panic are modelled for programs that own elements, C110; elsewhere a destructor panics at most once.)
* The limit of `ArrayLen` to 0..=32: the model has every size.  typenum's division and product of numerals: `Prod<Row, Col>` and `Mod<N, I>` are taken as natural-number operations.
* Benchmarks (`benches/`).  (The crate's own tests and documentation examples are replayed on the model in `Verif/Conformance.lean`: a test of the transcription, not a proof.)

## Tools

`tools/manifest.py` writes `MANIFEST.json` from the theorem names and `tools/notes.json`; `tools/axioms.py` writes the list of axioms below, `tools/trace.py` the table.
`tools/floatcheck.py` compares `Verif/SoftFloat.lean` with this machine's floating point unit on 40000 random pairs of bit patterns (a test of the trusted transcription of IEEE 754; no mismatch).
`seeded/LOG.jsonl` is the record of the seeded bugs (one line per edit of the model).

## Where to find each property

Written by `tools/trace.py`.

<!-- trace begin -->
| property | title | model definitions in the statements | theorems in `Verif/Props/` |
|---|---|---|---|
| C01 | Collecting exactly N items | `collect`, `count`, `fromIter`, `fromIterMem`, `map` | Collect, FromIter |
| C02 | Collecting too few items | `collect`, `fromIter`, `fromIterMem`, `map`, `next` | Collect, FromIter |
| C03 | Collecting too many items | `collect`, `count`, `fromIter`, `fromIterMem`, `map` | Collect, FromIter |
| C04 | Collecting is panic-safe at every crash point | `fromIterMem`, `map` | FromIter |
| C05 | A panicking destructor during the too-few-items cleanup | `fromIterMem`, `map` | FromIter |
| C06 | Vector::generate and Matrix::generate call order | `after`, `generate`, `run` | Collect |
| C07 | Owning iterator, front-only use | `countOp`, `intoIter`, `map`, `next`, `run`, `sizeHintOp` | Own |
| C08 | Owning iterator, mixed front/back use | `intoIter`, `len`, `next`, `nextBack`, `run` | Own |
| C09 | Owning iterator: no call history causes an invalid memory access | `intoIter`, `next`, `nextBack`, `nth`, `one`, `outside`, `runDrop` | Own |
| C10 | Owning iterator: every element is yielded or dropped exactly once | `intoIter`, `runDrop` | Own |
| C11 | Owning iterator: panicking destructors | `intoIter`, `nth`, `runDrop` | Own |
| C12 | Chunks, any interleaving of front and back | `chunkRun`, `dropOp`, `get`, `intoIter`, `len`, `map`, `next`, `nextBack`, `run` | Chunks |
| C13 | Runtime indexing of vectors | `get`, `getUnchecked`, `index` | Index |
| C14 | Runtime indexing of matrices | `get`, `getUnchecked`, `index` | Index |
| C15 | Indexed assignment changes one element | `index`, `indexSet`, `setUnchecked` | Index |
| C16 | Statically checked vector indexing is always in bounds | `Canonical`, `getUnchecked`, `index`, `toNat`, `vecStaticIndex` | Static |
| C17 | Statically checked matrix indexing is always in bounds | `Canonical`, `getUnchecked`, `idxStatic`, `index`, `indexSet`, `matStaticIndex`, `setUnchecked`, `toNat` | Static |
| C18 | Elementwise + and - | `get` | Elementwise |
| C19 | Scalar operations and negation | `divScalar`, `get`, `mulScalar`, `neg` | Elementwise |
| C20 | Compound assignment equals the operator | `addAssign`, `divAssign`, `divAssignScalar`, `divScalar`, `mulAssign`, `mulAssignScalar`, `mulScalar`, `opVV`, `subAssign` | Elementwise |
| C21 | Compound assignment interrupted by a panic | `addAssign`, `divAssign`, `divAssignScalar`, `get`, `mulAssign`, `mulAssignScalar`, `subAssign` | Elementwise |
| C22 | Vectors and matrices form a module | `add`, `mul`, `mulScalar`, `neg`, `one`, `opVV`, `zero` | Elementwise |
| C23 | dot product | `add`, `dot`, `get`, `mul`, `mulScalar`, `opVV` | Products |
| C24 | cross product | `add`, `cross`, `dot`, `get`, `mul`, `neg`, `opVV`, `zero` | Products |
| C25 | norm and normalized over the reals | `add`, `dot`, `get`, `mul`, `mulScalar`, `norm`, `normalized`, `opVV`, `sqrt` | Norm |
| C26 | sum | `add`, `get`, `opVV`, `sum`, `transposed` | Products, Shape |
| C27 | max and min | `get`, `max`, `min` | Order |
| C28 | max_by and min_by | `get`, `log`, `map`, `maxBy`, `minBy`, `run`, `succ` | Order |
| C29 | clamp and clamped | `clamp`, `clamped`, `get` | Order |
| C30 | Equality is elementwise | `eq`, `get` | Misc |
| C31 | Eq promises reflexivity | `eq`, `get` | Misc |
| C32 | zero, is_zero, default, min_value, max_value | `default`, `get`, `isZero`, `map`, `maxValue`, `minValue`, `zero` | Misc |
| C33 | clone | `clone` | Collect |
| C34 | Debug output | `debug`, `get`, `map` | Misc |
| C35 | Vector::new, Matrix::new, len, is_empty, dim, rows, cols | `asSlice`, `asSliceMut`, `dim`, `get`, `index`, `intoInner`, `isEmpty`, `len`, `ncols`, `new`, `nrows` | Index |
| C36 | diag | `diag`, `get`, `min`, `val`, `zero` | Shape |
| C37 | map, all, any | `after`, `all`, `any`, `get`, `map`, `run`, `val` | Shape |
| C38 | transposed | `add`, `get`, `mul`, `mulScalar`, `opVV`, `transpose`, `transposed` | Shape |
| C39 | identity / one | `get`, `identity`, `mulVV`, `one`, `zero` | Products |
| C40 | Matrix from flat vector | `fromVector`, `get` | Chunks |
| C41 | Matrix multiplication | `add`, `any`, `debug`, `div`, `get`, `isZero`, `mul`, `mulAssign`, `mulVV`, `neg`, `one`, `unsigned`, `zero` | Products |
| C42 | Matrix multiplication laws | `add`, `mul`, `mulScalar`, `mulVV`, `opVV`, `transposed` | Products |
| C43 | a *= b is atomic under panic |  |  |
| C44 | Matrix times vector | `get`, `mulVV`, `mulVec`, `mulVecRef` | Products |
| C45 | pow | `identity`, `mulVV`, `pow` | Products |
| C46 | The documented Fibonacci program | `fibDoc`, `fibExample`, `map`, `toNat` | Products |
| C47 | conjugate and complex matrices | `add`, `cofactor`, `complex`, `conjugate`, `determinant`, `get`, `inverse`, `map`, `mul`, `mulVV`, `neg`, `one`, `opVV`, `pow`, `transposed`, `zero` | Complex, Shape |
| C48 | determinant is the determinant | `determinant`, `get`, `sign` | Det |
| C49 | Determinant laws users rely on | `determinant`, `get`, `identity`, `mul`, `mulScalar`, `mulVV`, `transposed` | Det |
| C50 | determinant for small integer matrices | `determinant` | Det |
| C51 | determinant for integer matrices of size >=4 | `any`, `cofactor`, `column`, `determinant`, `get`, `val` | Det, IntDet |
| C52 | determinant and inverse never divide by zero | `determinant`, `div`, `inverse` | DivZero |
| C53 | cofactor | `cofactor`, `determinant`, `get`, `val` | Det |
| C54 | cofactor rejects out-of-range indices | `cofactor`, `neg`, `one` | Det |
| C55 | inverse is sound | `determinant`, `identity`, `inverse`, `mulVV` | Inv |
| C56 | inverse finds every inverse | `identity`, `inverse`, `mulVV` | Inv |
| C57 | Exactly when inverse gives up (N>=4) | `inverse` | Inv |
| C58 | Determinant/Cofactor/Inverse implementations cover each size once | `ArrayLen`, `Canonical`, `HasMax`, `matches`, `toNat` | Static |
| C59 | Row and column iterators behave as double-ended queues | `machine`, `new`, `run` | BorrowIter |
| C60 | Row and column iterators never leave the matrix | `machine`, `new` | BorrowIter |
| C61 | len of the borrowing iterators | `len`, `machine`, `new`, `nextBack`, `run` | BorrowIter |
| C62 | nth beyond the end | `get`, `len`, `machine`, `new`, `next`, `nth`, `run` | BorrowIter |
| C63 | last | `last`, `machine`, `new`, `run` | AnyHistory, BorrowIter |
| C64 | Display never panics and is rectangular | `display`, `strLen` | Display |
| C65 | Display line count | `display`, `get`, `last`, `map`, `splitTerm`, `strLen`, `strLines`, `val` | Display |
| C66 | approximate equality | `approxEq`, `get` | Shape |
| C67 | vector! and matrix! infer the right size | `Canonical`, `matrixCountCol`, `matrixCountRow`, `toNat`, `vectorCount` | Static |
| C68 | Prelude aliases denote what they say | `Canonical`, `aliases`, `diag`, `f32`, `f64`, `min`, `tmin`, `toNat` | Static |
| C69 | Collecting a partly consumed borrowing iterator | `fromIter`, `machine`, `new`, `nextBack`, `nth`, `run`, `toIter` | BorrowIter |
| C70 | Consuming operations are panic-safe | `drop`, `get`, `mapOp`, `zipOp` | Consume |
| C71 | Min<Row,Col> is the minimum |  |  |
| C72 | Checked integers are exact or panic | `add`, `cofactor`, `complex`, `conjugate`, `cross`, `determinant`, `dot`, `get`, `mul`, `mulScalar`, `mulVec`, `mulVecRef`, `neg`, `pow`, `signed`, `sum`, `unsigned`, `uval`, `val` | Complex, MachInt |
| C73 | Wrapping integers are exact modulo 2^w | `add`, `cofactor`, `cross`, `determinant`, `dot`, `get`, `map`, `mul`, `mulScalar`, `mulVec`, `mulVecRef`, `neg`, `ofInt`, `one`, `pow`, `signed`, `sum`, `unsigned`, `uval`, `val`, `zero` | Wrap |
| C74 | Unsigned checked arithmetic succeeds exactly when the result is representable | `dot`, `fibDoc`, `fibExample`, `get`, `map`, `mulVec`, `mulVecRef`, `ofNat`, `sum`, `toNat`, `unsigned` | Unsigned |
| C75 | Checked fractions: exact or panic | `add`, `cofactor`, `complex`, `determinant`, `div`, `inverse`, `mul`, `neg`, `ratio`, `val` | Complex, Ratio |
| C76 | Debug and release builds agree | `add`, `clone`, `cofactor`, `cross`, `determinant`, `div`, `divScalar`, `dot`, `fromIter`, `generate`, `inverse`, `isZero`, `map`, `mul`, `mulScalar`, `mulVV`, `mulVec`, `mulVecRef`, `neg`, `opVV`, `pow`, `signed`, `sum`, `unsigned` | Builds |
| C77 | Exactly which uses of the owning iterator are memory safe | `intoIter`, `nth`, `runDrop` | OwnExact |
| C78 | Consuming operations account for every element | `consume`, `consume2`, `consumeMat`, `consumeMat2`, `map`, `run` | ConsumeMat |
| C79 | Assigning operators: left operand, effects and the consumed right operand | `addAssign`, `assignOwn`, `assignOwnMat`, `map`, `subAssign` | ConsumeMat |
| C80 | Laws of inverse | `determinant`, `identity`, `inverse`, `mul`, `mulScalar`, `mulVV`, `transposed` | InvLaws |
| C81 | Matrices whose inverse is always found | `get`, `inverse`, `mulVV`, `mulVec`, `transposed` | InvLaws |
| C82 | Display with effects and failing destinations | `display`, `displayIO`, `get`, `run` | DisplayIO |
| C83 | Rounding errors of floating point results | `add`, `cross`, `determinant`, `div`, `divScalar`, `dot`, `get`, `mul`, `mulScalar`, `mulVec`, `mulVecRef`, `neg`, `norm`, `normalized`, `pow`, `rnd`, `roundBin`, `rounded`, `sqrt`, `sum`, `val` | Rounding |
| C84 | Integer-valued floats are computed exactly | `abs`, `add`, `cross`, `determinant`, `dot`, `get`, `map`, `mul`, `mulScalar`, `mulVV`, `mulVec`, `mulVecRef`, `neg`, `pow`, `roundBin`, `rounded`, `signed`, `sum` | ExactInts |
| C85 | Computations commute with maps between element types | `add`, `clamp`, `clamped`, `clone`, `cofactor`, `cross`, `determinant`, `div`, `divScalar`, `dot`, `identity`, `index`, `indexSet`, `inverse`, `isZero`, `map`, `max`, `min`, `mul`, `mulScalar`, `mulVV`, `mulVec`, `mulVecRef`, `neg`, `opVV`, `pow`, `sum`, `transpose`, `transposed` | Natural |
| C86 | Determinants and inverses in floating point | `abs`, `block`, `cofactor`, `determinant`, `get`, `inverse`, `map`, `roundBin`, `rounded`, `val` | FloatDet, FloatInv |
| C87 | f32 and f64 within IEEE 754 | `IsFinite`, `Rep`, `abs`, `add`, `block`, `cross`, `determinant`, `div`, `divScalar`, `dot`, `eta`, `f32`, `f64`, `get`, `ieee`, `inverse`, `isZero`, `last`, `map`, `max`, `mul`, `mulVec`, `mulVecRef`, `neg`, `norm`, `pow`, `sign`, `sqrt`, `sum`, `val` | FloatNorm, FloatSpecial, Ieee, Scaling |
| C88 | NaN and infinities | `IsFinite`, `add`, `cofactor`, `cross`, `determinant`, `div`, `divScalar`, `dot`, `get`, `identity`, `ieee`, `inverse`, `isZero`, `mul`, `mulScalar`, `mulVec`, `mulVecRef`, `neg`, `norm`, `normalized`, `pow`, `sqrt`, `sum` | Special |
| C89 | Identities that hold to the last bit | `IsFinite`, `add`, `determinant`, `dot`, `get`, `identity`, `ieee`, `mul`, `mulVV`, `neg`, `one`, `pow`, `ratio`, `sign`, `signed`, `sum`, `transposed`, `unsigned`, `val`, `zero` | Bitwise |
| C90 | Element operations are called in a fixed order | `add`, `clone`, `cofactor`, `cross`, `determinant`, `div`, `divScalar`, `dot`, `get`, `identity`, `inverse`, `isZero`, `map`, `matSum`, `minor`, `ms`, `mul`, `mulRR`, `mulVV`, `mulVec`, `mulVecRef`, `neg`, `one`, `val`, `vecSum`, `zero` | Effects, EffectsLoops |
| C91 | Exact cost of products and sums | `add`, `calls`, `clone`, `counting`, `cross`, `div`, `divScalar`, `dot`, `identity`, `matSum`, `mul`, `mulRR`, `mulVV`, `mulVec`, `mulVecRef`, `one`, `sum`, `vecSum`, `zero` | Counts |
| C92 | Cost of determinant, cofactor and inverse | `CountsIf`, `add`, `calls`, `clone`, `cofactor`, `counting`, `determinant`, `div`, `get`, `inverse`, `isZero`, `minor`, `mul`, `neg`, `one`, `val`, `zero` | Counts, DetCost |
| C93 | Cost of powers | `add`, `calls`, `clone`, `counting`, `log`, `mul`, `one`, `pow`, `zero` | PowCost |
| C94 | Comparisons ask in order and no more than needed | `after`, `all`, `approxEq`, `approxEqM`, `clampM`, `clamped`, `clampedM`, `eq`, `eqM`, `get`, `isZero`, `isZeroM`, `liftRes`, `max`, `maxM`, `min`, `minM`, `one`, `relativeEqM`, `run`, `succ`, `ulpsEqM` | Compare |
| C95 | Cloning iterators clone only what they hand out | `after`, `clone`, `cloning`, `get`, `last`, `map`, `new`, `run`, `transposeE`, `transposedE` | CloneIter |
| C96 | Matrices of matrices behave like the big matrix | `block`, `determinant`, `eq`, `get`, `identity`, `isZero`, `mul`, `mulScalar`, `mulVV`, `mulVec`, `mulVecRef`, `neg`, `pow`, `sum`, `transposed`, `zero` | Block |
| C97 | Debug with failing destinations and entries with effects | `debug`, `debugIO`, `debugListIO`, `get`, `map`, `ofList`, `run` | DebugIO |
| C98 | Signs and powers of two in f32/f64 | `IsFinite`, `cofactor`, `cross`, `determinant`, `dot`, `get`, `ieee`, `inverse`, `isZero`, `mulVec`, `mulVecRef`, `neg`, `pow`, `sum`, `val` | Scaling |
| C99 | Comparisons, order and lengths in f32/f64 | `IsFinite`, `abs`, `beq`, `cofactor`, `cross`, `determinant`, `dot`, `eq`, `ext`, `get`, `ieee`, `inverse`, `isZero`, `max`, `mul`, `mulVec`, `mulVecRef`, `norm`, `normalized`, `pow`, `rnd`, `sign`, `sqrt`, `sum`, `val`, `zero` | FloatNorm, FloatOrder |
| C100 | Whole programs are memory safe | `Store`, `block`, `complex`, `div`, `eval`, `ieee`, `neg`, `ratio`, `rnd`, `rounded`, `signed`, `unsigned` | Programs, SafeTypes |
| C101 | Whole programs: builds agree | `Store`, `map`, `signed`, `unsigned`, `uval` | Programs |
| C102 | Whole programs compute the linear algebra they denote, or panic | `Store`, `ratio`, `signed`, `unsigned`, `uval` | Programs |
| C103 | Programs without division never panic over rings | `Store`, `eval`, `isZero`, `map`, `ofInt`, `signed`, `unsigned` | Programs |
| C104 | Whole programs do not depend on the representation of the elements | `Store`, `add`, `complex`, `div`, `mul`, `neg`, `one`, `zero` | Parametric |
| C105 | f32 and f64 bit by bit: results are reproducible | `IsFinite`, `Store`, `beq`, `ieee`, `isZero`, `map`, `mul`, `norm`, `normalized`, `sign`, `sqrt`, `toNat`, `val`, `zero` | FloatBits |
| C106 | Whole programs that own elements: every element has exactly one owner and is destroyed exactly once | `endScope`, `init`, `run` | Ownership |
| C107 | Approximate equality of f32 and f64 matrices means what its tolerances say | `IsFinite`, `Rep`, `after`, `beq`, `eq`, `eta`, `f32`, `get`, `max`, `min`, `round`, `sign`, `steps`, `toNat`, `val` | Approx |
| C108 | Whole programs that own elements do exactly what lists and queues would do | `endScope`, `init`, `map`, `run` | OwnerRefine |
| C109 | The alternate form {:#?} of Debug | `debugAlt`, `get`, `map`, `run`, `say` | DebugAlt |
| C110 | Whole programs whose elements' destructors may panic | `arrayDrop`, `collect`, `drop`, `endOf`, `endScope`, `endScopeU`, `execU`, `init`, `intoIter`, `map`, `new`, `nth`, `run`, `runU` | Unwind, UnwindCensus |
| C111 | Collecting what is left of an owning iterator | `chunkIter`, `chunkRun`, `collectOwn`, `drop`, `fromIter`, `intoIter`, `run` | OwnCollect |
| C112 | Collecting an owning iterator backwards | `collectRev`, `get`, `intoIter`, `next`, `run` | OwnCollect |
| C113 | The borrowing iterators after any history, in any build | `count`, `fromIter`, `len`, `machine`, `new`, `nth`, `run`, `sizeHint`, `toIter` | AnyHistory |
| C114 | Programs can be rewritten by the laws of linear algebra | `Store`, `add`, `bin`, `cross`, `diag`, `dot`, `eval`, `isZero`, `map`, `min`, `mul`, `mulVec`, `neg`, `one`, `pow`, `quot`, `ratio`, `scale`, `signed`, `transpose`, `transposed`, `unsigned`, `upd`, `updQuot`, `updScale`, `uval`, `zero` | Rewrite |
| C115 | Error bounds for whole expressions and programs in floating point | `IsFinite`, `Store`, `eta`, `eval`, `get`, `ieee`, `map`, `neg`, `one`, `round`, `val` | ErrorBound |
| C116 | Calculations without division are polynomials | `Store`, `eval`, `isZero`, `map` | Formula |
| C117 | Numbers without reciprocals, derivatives and modular arithmetic | `Store`, `cofactor`, `determinant`, `div`, `eval`, `get`, `identity`, `inverse`, `isZero`, `mulVV`, `sign`, `val` | Rings |
| C118 | Variables are values: nothing is aliased, and naming or writing out a subexpression changes nothing | `Store`, `act`, `bin`, `eval`, `map`, `mul`, `mulVec`, `put`, `quot`, `scale`, `transpose`, `transposed`, `upd`, `updQuot`, `updScale` | SafeTypes, Variables |
| C119 | Every operation is its formula, written out entry by entry | `add`, `bin`, `cross`, `diag`, `dot`, `map`, `min`, `mul`, `mulVec`, `neg`, `one`, `quot`, `scale`, `sign`, `transposed`, `val`, `zero` | Formulas |
<!-- trace end -->

## Axioms of each theorem

<!-- axioms begin -->
**`propext`** (8 theorems): C13_vec_index, C15_vec_set, C15_vec_set_panic, C65_str_lines, C68_aliases_partial, C68_false, Owner.C108_sample, C113_items.

**`Quot.sound`, `propext`** (196 theorems): C01_collect_exact, C01_collect_exact_iter, C01_memory, C02_collect_short, C02_collect_short_iter, C02_drops, C03_collect_long_release, C03_collect_long_iter, C03_memory_debug, C03_memory_release, C04_source_panics, C04_count_panics, C04_safe, C05_safe_iff, C05_partial, C05_false, C06_vec_generate, C06_mat_generate, C06_vec_generate_calls, C06_vec_generate_panic, C06_mat_generate_calls, C06_mat_generate_panic, C07_front_only, C07_size_hint, C07_next_sequence, C08_mixed_partial, C08_back_only, C10_exactly_once, C11_drop_partial, C11_false, C12_chunk_contents, C12_zero, C13_get_unchecked, C15_mat_set_panic, C16_false, C18_vec_order, C18_vec_ok, C18_vec_panic, C18_vec_forms_agree, C18_mat_order, C18_mat_ok, C18_mat_forms_agree, C19_vec_order, C19_vec_ok, C19_mat_order, C19_mat_ok, C20_vec_assign, C20_mat_assign, C21_vec_assign_panic, C21_vec_scalar_assign_panic, C21_mat_assign_panic, C21_mat_scalar_assign_panic, C22_vec_module, C22_mat_module, C24_cross, C28_vec_effects, C28_mat_effects, C29_vec_clamp, C29_mat_clamp, C29_crossed, C30_vec_eq, C30_mat_eq, C30_lawful, C30_equivalence, C31_eq_refl_partial, C31_false, C32_vec_const, C32_mat_const, C32_is_zero, C32_zero_is_zero, C32_default_calls, C33_vec_clone, C33_mat_clone, C33_vec_clone_id, C33_mat_clone_id, C34_vec_debug, C34_false, C35_new, C35_vector, C36_diag, C37_map, C37_map_ok, C37_all, C37_any, C37_all_any_pure, C38_transposed, C38_involutive, C38_in_place, C39_identity, C40_no_columns, C41_mul_assign, C43_mul_assign_atomic, C47_conjugate, C47_involution_real, C52_determinant, C52_inverse, C58_headers, C58_max_exists, C60_safe, C61_ref_iters_partial, C61_cloning_iters, C61_false, C62_len_after_overshoot, C62_false_wrap, C63_any_history, C65_height, C67_vector_macro, C67_matrix_rows, C67_matrix_cols, C69_ref_iters_partial, C69_cloning_iters, C69_false, C69_false_overshoot, C70_map_ok, C70_map_panic, C72_cross, C73_cross, C76_collect, C76_types, C76_vec, C76_mat, C77_safe_iff, C77_harmless, C78_vector, C78_matrix, C78_vector_panic_at, C82_render_panics, C85_det_small, C85_order, C88_vec, C88_elementwise, C88_elementwise_vec, C88_norm, C89_dot_comm, C89_add_comm, C89_det2_transposed, C89_neg_neg, C89_pow, C90_dot, C90_vec_sum, C90_mat_sum, C90_cross, C90_mul_vec_ref, C90_div_scalar, C90_identity, C90_det2, C90_det3, C90_cofactor, C90_inverse, C90_cofactor3, C90_inverse1, C90_inverse2, C90_inverse3, C91_dot, C91_vec_sum, C91_mat_sum, C91_cross, C91_mul_vec_ref, C91_div_scalar, C92_inv1, C92_inv2, C92_inv3, C94_is_zero, C94_vec_max, C94_mat_max, C94_vec_max_counts, C94_clamped, C94_clamp, C94_mat_clamp, C95_transposed, C95_transpose, C95_silent, Prog.C100_deterministic, Prog.C100_exact_types, Prog.C103_total, Owner.C106_misuse, Owner.C108_sample_matrices, C109_destination, Owner.C110_misuse, C113_any_history, C113_revived, Prog.C116_places, Prog.C118_expressions, Prog.C118_substitute, Prog.C118_naming, Prog.C118_inline, Prog.C118_inline_panics, Prog.C118_alike, Prog.C118_contexts, Prog.C119_vectors, Prog.C119_matrices, Prog.C119_sums, Prog.C119_cross, Prog.C119_determinant, Prog.C119_map, Prog.C119_lines.

**`Classical.choice`, `Quot.sound`, `propext`** (484 theorems): C03_collect_long_debug, C08_false, C09_safe_iff, C09_safe_partial, C09_false, C12_chunks, C14_mat_index, C14_get_unchecked, C15_mat_set, C15_set_unchecked, C16_static_index_partial, C16_static_index_complete, C17_mat_static_index, C17_mat_static_index_iff, C17_mat_static_index_mut, C18_mat_panic, C23_dot, C23_dot_laws, C24_cross_laws, C25_norm, C25_norm_euclidean, C25_norm_zero, C25_norm_homogeneous, C25_norm_triangle, C25_cauchy_schwarz, C25_normalized, C25_normalized_zero, C26_vec_sum, C26_mat_sum, C26_sum_laws, C26_sum_transposed, C27_vec_max, C27_vec_min, C27_mat_max, C27_mat_min, C28_vec_max_by, C28_vec_min_by, C28_mat_max_by, C28_mat_min_by, C28_vec_calls, C28_mat_calls, C29_idempotent, C34_mat_debug_partial, C38_linear, C39_neutral, C40_from_vector, C41_mul_entries, C41_mul_panic, C41_mul, C41_forms_agree, C42_mul_laws, C42_mul_comm_laws, C44_mul_vec, C44_mul_vec_assoc, C45_pow, C45_pow_laws, C46_fib_doc, C46_fib_example, C46_fib_u64, C47_types, C47_linear_algebra, C47_real, C47_adjoint, C47_hermitian, C47_gram, C47_positive_definite, C47_gram_inverse, C47_as_real, C47_as_real_determinant, C47_hom, C48_determinant, C48_leibniz, C49_mul, C49_transposed, C49_identity, C49_scalar, C49_equal_rows, C50_small, C51_false, C51_small_partial, C51_triangular_partial, C51_exact_division_partial, C51_false_every_size, C52_determinant_total, C52_inverse_total, C53_cofactor_ring, C53_cofactor, C53_minor, C53_laplace_row, C53_laplace_column, C53_alien_row, C54_out_of_range, C55_sound, C55_unique, C55_singular, C56_complete_partial, C56_false, C57_minors, C57_none, C58_determinant, C58_cofactor, C58_inverse, C59_deque, C59_checked, C62_exhausted_partial, C63_last, C64_display, C64_rectangular, C65_lines, C65_place, C66_approx_eq, C70_zip_ok, C70_zip_panic, C71_min, C72_complex, C72_types, C72_vec, C72_mat, C72_products, C72_det_small, C72_cofactor_small, C73_types, C73_ring, C73_vec, C73_mat, C73_products, C73_det_small, C73_cofactor_small, C74_vec, C74_products, C74_fib_doc, C74_fib_example, C74_fib_u64, C75_complex, C75_types, C75_fits, C75_overflow, C75_representable, C75_determinant, C75_cofactor, C75_inverse, C76_generic, C76_products, C76_linear_algebra, C78_two_vectors, C78_two_matrices, C79_vector, C79_matrix, C79_vector_value, C79_matrix_value, C80_transposed, C80_determinant, C80_product, C80_product_small, C80_twice, C80_twice_small, C80_scalar, C80_identity, C80_solves, C80_product_may_fail, C80_twice_may_fail, C81_lu, C81_lower, C81_upper, C81_positive_definite, C81_least_squares, C81_diagonally_dominant, C82_writes, C82_text, C82_limited, C83_dot, C83_vec_sum, C83_mat_sum, C83_vec_elementwise, C83_mat_elementwise, C83_mul, C83_mul_vec, C83_cross, C83_det_small, C83_pow, C83_no_cancellation, C83_det_sign, C83_norm, C83_normalized, C83_unit, C83_gamma, C83_types, C84_types, C84_dot, C84_vec_sum, C84_mat_sum, C84_mul, C84_mul_vec, C84_vec_elementwise, C84_mat_elementwise, C84_pow, C84_cross, C84_det_small, C84_mul_assoc, C85_vec, C85_mat, C85_cofactor_small, C85_linear_algebra, C85_types, C85_moves, C86_determinant, C86_inverse_small, C86_gamma, C86_types, C86_inverse, C86_stages_unique, C86_inverse_types, C87_norm, C87_nan, C87_signs, C87_div_zero, C87_dot, C87_vec_sum, C87_mat_sum, C87_mul, C87_mul_vec, C87_cross, C87_det_small, C87_ints, C87_no_trap, C87_determinant, C87_inverse_small, C87_inverse, C87_formats, C87_nearest, C88_cross, C88_mat, C88_determinant, C88_cofactor, C88_inverse, C88_inverse_first, C88_pow, C88_nan, C88_identity, C89_mul_transposed, C89_gram, C89_types, C89_dot_self, C89_sum_nonneg, C89_permutation, C89_permutation_right, C89_diag, C89_diag_right, C89_scale, C89_scale_right, C90_mul, C90_mul_ref, C90_mul_vec, C90_minor, C90_determinant, C90_cofactor2, C90_cofactor_bad, C91_mul, C91_mul_ref, C91_mul_vec, C91_identity, C92_upper, C92_zero, C92_elimination, C92_cofactor_small, C92_cofactor, C92_inverse, C93_pow, C93_pow_zero, C94_vec_eq, C94_mat_eq, C94_relative_eq, C94_ulps_eq, C94_mat_max_counts, C94_pure, C95_histories, C95_last, C96_mul, C96_pow, C96_mul_vec, C96_sum, C96_scale, C96_identity, C96_elementwise, C96_transposed, C96_eq_zero, C96_determinant, C96_determinant_twice, C96_determinant_may_fail, C97_vec, C97_mat, C97_mat_empty, C97_vec_entries, C97_mat_entries, C97_vec_writes, C97_mat_writes, C97_limited, C97_text, C98_signed, C98_signs_sums, C98_signs_products, C98_signs_pow, C98_signs_cross, C98_signs_determinant, C98_signs_inverse, C98_scale_sums, C98_scale_products, C98_scale_pow, C98_scale_cross, C98_scale_determinant, C98_scale_inverse, C99_norm, C99_norm_signs, C99_norm_monotone, C99_sum_ge, C99_norm_ge, C99_norm_single, C99_normalized, C99_normalized_special, C99_norm_limits, C99_eq, C99_is_zero, C99_substitute, C99_sum_monotone, C99_product_monotone, C99_nonneg_monotone, C99_magnitudes, Prog.C100_memory_safe, Prog.C100_expressions, Prog.C100_types, Prog.C100_big_numbers, Prog.C100_matrix_elements, Prog.C100_more_types, Prog.C101_transport, Prog.C101_builds_agree, Prog.C101_exact_integers, Prog.C101_bignum, Prog.C102_fractions, Prog.C102_integers, Prog.C102_types, Prog.C102_unique, Prog.C103_ring, Prog.C103_complete, Prog.C103_wrapping_types, Prog.C103_wrapping, Prog.C103_power_loop, Prog.C104_parametric, Prog.C104_termination, Prog.C104_closed, Prog.C104_types, FloatBits.C105_formats, FloatBits.C105_meaning, FloatBits.C105_patterns, FloatBits.C105_executable, FloatBits.C105_programs, FloatBits.C105_reproducible, FloatBits.C105_norm, FloatBits.C105_sqrt_eq, Owner.C106_ownership, Owner.C106_no_double_drop, Owner.C106_scope_end, Owner.C106_scope_end_panics, ApproxMat.C107_relative_total, ApproxMat.C107_relative_holds, ApproxMat.C107_relative_implies, ApproxMat.C107_relative_special, ApproxMat.C107_relative_reflexive, ApproxMat.C107_relative_symmetric, ApproxMat.C107_relative_monotone, ApproxMat.C107_relative_zero, ApproxMat.C107_relative_neighbours, ApproxMat.C107_relative_bits, ApproxMat.C107_default, ApproxMat.C107_ulps_distance, ApproxMat.C107_ulps_eq, ApproxMat.C107_ulps_ranges, ApproxMat.C107_ulps_wraps, ApproxMat.C107_ulps_laws, ApproxMat.C107_ulps_implies, ApproxMat.C107_examples, Owner.C108_refines, Owner.C108_allowed, Owner.C108_scope_end, Owner.C108_builds, Owner.C108_frame, C109_vec, C109_mat, C109_mat_empty, C109_vec_fails, C109_honest, C109_faithful_vec, C109_faithful_mat, C109_sample, C109_digits, Owner.C110_ownership, Owner.C110_no_double_drop, Owner.C110_scope_end, Owner.C110_agrees, Owner.C110_agrees_scope, Owner.C110_array_drop, Owner.C110_drop_array, Owner.C110_drop_iter, Owner.C110_short_collect, Owner.C110_nth_skips, Owner.C110_census, Owner.C110_census_step, Owner.C110_census_scope, Owner.C110_quiet, C111_collect, C111_every_element, C111_round_trip, C111_chunks, C112_reverse_partial, C112_exact, C112_false, C112_false_release, C112_fresh, C113_collect, C113_len_right, Prog.C114_ring, Prog.C114_expressions, Prog.C114_fractions, Prog.C114_fields, Prog.C114_field_expressions, Prog.C114_integers, Prog.C114_types, Prog.C114_parts, Prog.C114_products, Prog.C114_determinants, Prog.C114_entries, Prog.C114_vectors, Prog.C114_cofactors, Prog.C114_same_field, Prog.C114_division, Prog.C114_statements, Prog.C114_assign, Prog.C115_expressions, Prog.C115_programs, Prog.C115_rewrite, Prog.C115_relative_eq, Prog.C115_all_inputs, Prog.C115_rounding, Prog.C115_true_inputs, Prog.C115_true_programs, Prog.C115_inputs, Prog.C115_computed, Prog.C115_bits, Prog.C116_formula, Prog.C116_program, Prog.C116_fractions, Prog.C116_integers, Prog.C116_degree, Prog.C116_transfer, Prog.C116_testing, Prog.C116_congruence, Prog.C116_derivative, Prog.C116_derivative_programs, Prog.C116_dual, C117_determinant, C117_cofactor, C117_inverse, C117_inverse_some, Prog.C117_expressions, Prog.C117_programs, Prog.C117_panics, Prog.C117_program_panics, Prog.C117_dual, Prog.C117_modulo, Prog.C117_derivative, Prog.C117_derivative_programs, Prog.C117_modular, Prog.C117_modular_programs, Prog.C118_exchange_outcomes, Prog.C118_frame, Prog.C118_reads, Prog.C118_exchange, Prog.C118_dead, Prog.C118_hoist, Prog.C118_rename, Prog.C118_forms, Prog.C118_assign, Prog.C118_parts, Prog.C119_products, Prog.C119_cofactor.

<!-- axioms end -->
