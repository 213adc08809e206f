{
 "C05": {
  "status": "partial",
  "note": "False of the code when a received destructor panics: C05_safe_iff gives the exact condition, C05_false exhibits the double drop for every shape; the part that holds is C05_partial."
 },
 "C08": {
  "status": "partial",
  "note": "False of the code (next_back on an exhausted iterator reads a moved-out slot): C08_false for every non-empty vector; C08_mixed_partial covers every other history; C08_back_only the back-only histories. C77_safe_iff is the exact characterisation without any restriction on the history."
 },
 "C09": {
  "status": "partial",
  "note": "False of the code: C09_safe_iff characterises exactly the safe histories (nth arguments without usize overflow), C09_false gives invalid accesses for every vector, C09_safe_partial is the part that holds. C77_safe_iff is the exact characterisation without any restriction on the history."
 },
 "C11": {
  "status": "partial",
  "note": "False of the code when nth skips an element whose destructor panics (C11_false); C11_drop_partial covers all other cases. C77_safe_iff is the exact characterisation without any restriction on the history."
 },
 "C16": {
  "status": "partial",
  "note": "False of the code for U0 on an empty vector (C16_false); proved for every other accepted index, and completeness of the accepted set."
 },
 "C31": {
  "status": "partial",
  "note": "False of the code for element types whose equality is not reflexive (C31_false: the Eq impl does not require T: Eq); C31_eq_refl_partial is the part that holds."
 },
 "C34": {
  "status": "partial",
  "note": "Vectors: proved. Matrices: proved with at least one row (C34_mat_debug_partial); with zero rows false of the code in builds with overflow checks (C34_false, exact behaviour)."
 },
 "C51": {
  "status": "partial",
  "note": "False of the code at every size from 4 on (truncating integer division in the elimination): C51_false, C51_false_every_size. Proved: sizes up to 3; triangular matrices of every size; every matrix of every size on which no division leaves a remainder."
 },
 "C56": {
  "status": "partial",
  "note": "False of the code from size 4 on (no pivoting): C56_false for every size and field; sizes up to 3 proved; C57 gives the exact domain."
 },
 "C61": {
  "status": "partial",
  "note": "False of the code for rows_iter/cols_iter after next_back (C61_false; exact value in C61_cloning_iters) and after an nth past the end (C62_len_after_overshoot); proved for the reference iterators on in-range histories. Exactly when the reported length is right, for every history in every build: C113_len_right."
 },
 "C62": {
  "status": "partial",
  "note": "False of the code: len() after an overshoot (C62_len_after_overshoot) and wrapping nth (C62_false_wrap); the part that holds is C62_exhausted_partial. What happens after any nth, in every build: C113_any_history."
 },
 "C68": {
  "status": "partial",
  "note": "False of the code: Matrix2f64 is f32 (C68_false); all other aliases proved. The quantifier is this finite table."
 },
 "C69": {
  "status": "partial",
  "note": "False of the code: C69_false, C69_false_overshoot; exact outcome for the cloning iterators in C69_cloning_iters; reference iterators proved for in-range histories. The outcome for every history, build and length: C113_collect."
 },
 "C02": {
  "note": "The panic for every source; the drop accounting in the memory model (destructors that do not panic)."
 },
 "C25": {
  "note": "Exact real arithmetic (Mathlib reals), rounding excluded as the statement says."
 },
 "C46": {
  "note": "The documented program over unbounded naturals and wrapping u64; the example program over unbounded naturals."
 },
 "C72": {
  "status": "proved",
  "note": "C72_types shows that i*/u* of every width with overflow checks satisfy the hypothesis of the other C72 theorems."
 },
 "C73": {
  "status": "proved",
  "note": "C73_types shows that i*/u* of every width without overflow checks satisfy the hypothesis of the other C73 theorems, and when a residue is exact."
 },
 "C75": {
  "status": "proved",
  "note": "C75_types shows that Ratio of i* of every width satisfies the hypothesis of the other C75 theorems."
 },
 "C76": {
  "status": "proved",
  "note": "C76_types shows that i*/u* of every width satisfy the hypothesis of the other C76 theorems."
 },
 "C112": {
  "status": "partial",
  "note": "False of the code: C112_false (debug builds: after one next(), rev().collect() of the rest panics and destroys the element handed out before a second time), C112_false_release (asking for too many hands out elements twice). C112_exact says exactly when it is memory safe; C112_reverse_partial proves the claim there."
 }
}