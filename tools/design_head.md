# Formal model of rmjarvis/tmv in Lean 4 — design

## Approach

TMV is a C++ linear-algebra library.  Element storage is raw memory addressed by `ptr + i*stepi + j*stepj`;
views share it; algorithms update it in place.  The model has two layers.

* **Memory layer** (`Model/Mem, Vec, VecArith, Mat, Band, TriMat, SymMat, Arr, Perm*, ListInit, ...`).  Memory is a
  partial map from integer addresses to elements; an access outside the allocation is the distinct outcome
  `none` (undefined behaviour), as is an integer division by zero.  C++ loops become structural recursions on
  the trip count, recursive C++ functions become well-founded recursions with the same case distinctions (including
  the dispatch on majorness, steps, conjugation, unrolled loops and block sizes).  A theorem of the form
  `∃ m', op .. m = some m' ∧ ...` therefore also states that no access is out of bounds.  Frame conditions say that no other memory
  changed.
* **Exact-arithmetic layer** (`Model/LU, Tri*, CH, QR*, Givens, Bareiss, SymRK, ...`).  Numerical algorithms are
  transcribed as functions on matrices over a commutative ring, a field, an ordered (star) field, or ℝ/ℂ, again with the
  branch structure and the block/recursion sizes of the code (block sizes are parameters).

Specification side (`Spec/`): small files of vocabulary (`Holds`, `Frame`, `Covers`, `Live`, `IsLU`, ...), Mathlib's
`Matrix`, `det`, `Equiv.Perm`, `List.Perm`, `Finset.sum`.

Layout: `Verif/Model` (definitions, each citing file and lines), `Verif/Spec` (vocabulary of the statements),
`Verif/Lemmas` (helpers), `Verif/Props` (property theorems, non-vacuity examples, witnesses).

When the code violates a property as stated, the negation is proved on a concrete witness (`..._violated`), and
the strongest true part is kept under the suffix `_partial` (or with the excluded case as an explicit hypothesis).

## Trusted base

* Lean 4.33.0's kernel.  Every theorem depends on a subset of the axioms `propext`, `Classical.choice`,
  `Quot.sound`; none other, no `native_decide`, no `bv_decide`, no own axioms.  (`decide +kernel` is used on concrete
  examples only: it is evaluated by the kernel.)
* The faithfulness of the hand transcription; each definition cites the file and lines it models and says
  where it simplifies.
* The reading of the English properties by the statements in `Props/` and `Spec/`.

## What is not modelled

* BLAS and LAPACK code paths (`#ifdef BLAS`, `#ifdef LAP`), the small fixed-size classes, the divide-and-conquer
  and iterative SVD / eigenvalue code, QRP, band/tridiagonal decompositions, matrix functions (sqrt, pow), the
  statistics of rounding: floating point rounding, overflow and NaN are outside the model, theorems are about the
  algorithm in exact arithmetic.
* Mixed real/complex operands: one element type per theorem, complex numbers being the star ring case.
* Debug-only code (`TMVAssert`, XDEBUG); the preconditions asserted there appear as hypotheses.
* Template instantiation, expression-template plumbing beyond the calls cited, compiler behaviour, exceptions thrown by
  `std::vector`, `new` (except where cited), stream state beyond the IO model.
* Aligned small-buffer `StackArray`; signals, multi-threading except the OpenMP split named in C47.

