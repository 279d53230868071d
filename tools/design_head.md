# Formal model of cicwi/PyCorrectedEmissionCT (corrct) in Lean 4

Generated by `tools/mkdesign.py` from `tools/design_head.md`, `properties.jsonl`, `MANIFEST.json`, the doc-strings of the
theorems, `tools/coverage.py` (which functions of the code the model cites) and `tools/axioms.json`.

## 1. Layout

* `lean/Verif/Model/*.lean` – the model: definitions that follow the Python functions branch by branch; each cites
  `src/corrct/<file>:<lines>` and says where it simplifies. Exceptions are values (`Except`, `Option`).
* `lean/Verif/Spec/*.lean` – small independent specifications (the documented functionals, what a proximal operator, an adjoint,
  a solution … is). They do not import the model, except where a statement is about a record of the model.
* `lean/Verif/Lemmas/*.lean` – helper lemmas.
* `lean/Verif/Props/*.lean` – the theorems about the properties, named `Cnn_…`, with `example`s that satisfy their hypotheses.
* A property that the code violates is stated anyway: a theorem that refutes it on the model, with a concrete witness
  (`Cnn_…_violated`, of the form `¬ ∀ …`), plus the part that is true (`Cnn_…_partial`).

## 2. Trusted base

* Lean 4.33.0: its kernel, and the elaborator as far as it decides what the *statements* mean. Nothing rests on compiled code.
* Mathlib (definitions used in statements: ℝ, ℂ, finite sums, `ZMod`, `Matrix`, `Real.exp/log/sqrt/sin/cos`, `Finset`, `List`, …).
* Axioms: only `propext`, `Classical.choice` and `Quot.sound`; section 7 lists what each theorem depends on. No axiom is added.
* That the model says what the Python code does. This was checked by reading only (nothing could be run): every definition cites
  the lines it follows. The seeded bugs in `seeded/LOG.jsonl` test that the theorems notice changes of the model.

## 3. Numbers and arrays

* Arrays are functions from a finite index type (the multi-indices), or from ℕ positions together with the sizes, or lists.
* Floating-point numbers are exact reals. Rounding, dtypes, overflow, NaN, infinities and signed zeros are **not** modelled.
  A division by zero is either an explicit error value (`Err.nonFinite`) or excluded by a hypothesis; where neither is the
  case, Lean's convention `x / 0 = 0` is harmless because the theorem has the hypothesis that rules it out.
* In-place updates are functions that return the new array. Where two names of the code denote the *same* array object and the
  code writes through one of them, the model has an explicit heap or an explicit alias (`Operator.aliasBack`, `NormOp`, `RegHeap`).
* Numbers of iterations, sizes, numbers of angles, materials, threads, … are arbitrary: no theorem has a bound on them.

## 4. Contracts of external code

These enter as parameters with the hypotheses written in the theorems; what these libraries really do is not verified.

| external code | contract |
|---|---|
| ASTRA, scikit-image projectors | one forward and one back-projection per angle; linear / mutually adjoint / with an absolute row sum only where a theorem says so |
| ASTRA object store | `create` gives a fresh handle or raises, `delete` does not raise (Model/AstraLifecycle) |
| PyWavelets | Model/Wavelets: `swtn`/`iswtn`, `wavedecn`/`waverecn` are functions, `iswtn (swtn x) = x` where needed, orthonormality only where stated. Model/StationaryWavelets: `swtn`/`iswtn` are written out (periodic convolution with dilated filters, mean of the two phases in the inverse) from the documented algorithm; the tables of filters are arbitrary |
| NumPy FFT | exact discrete Fourier sums (over `ZMod n`) |
| NumPy/SciPy `lstsq`, `Polynomial.fit`, `qr`, `svd` | a minimiser of the stated least squares problem; exact factors |
| `np.argsort`, random permutations | any permutation that sorts / any permutation |
| `ThreadPoolExecutor` | tasks run once each, complete in any order, a future holds the result or the exception of its task |
| xraylib | any tables (functions of element, energy, line), of which some calls fail |
| `scipy.optimize.minimize`, `least_squares`, matplotlib, tqdm, h5py, JSON, timing | not modelled |

