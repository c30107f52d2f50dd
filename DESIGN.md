# Formal model of kalmankit — design

(Generated by `tools/gen_design.py` from `tools/design_head.md`, `properties.jsonl`, the docstrings of the property
theorems and `tools/design_notes.json`.)

## 1. What is modelled

Source: `/repo/src/kalmankit/{utils,standard,extended}.py`, all of it, the version logic of
`/repo/src/kalmankit/_version.py`, and the model-building helpers of `/repo/examples`.
Nothing of the project is executed; the model was written by reading the code.

The model is a set of total Lean functions that follow the Python functions statement by statement.  Arrays have dynamic
shapes, exceptions are values, methods thread the object.  Every definition cites file and lines.

| module | contents |
|---|---|
| `Model/Numpy.lean` | the numpy subset used: rank 0-2 arrays with dtype tag (`int64`/`float64`), `@`, `+`, `-` with broadcasting, `.T`, `np.atleast_1d`, `np.identity`, `np.zeros`, `np.full_like`, `np.isnan(..).all()`, `np.linalg.solve`, row assignment, `len`, iteration, indexing; sequences of rank <= 2 arrays; `ValueError`, `TypeError`, `IndexError`, `LinAlgError`; the method monad `Py` (an exception keeps the mutations done so far) |
| `Model/Utils.lean` | `check_none_and_broadcast`, `is_nan_all` |
| `Model/Standard.lean` | `KalmanFilter`: constructor, `predict`, `update`, `filter`, `smooth` |
| `Model/Extended.lean` | `ExtendedKalmanFilter`: constructor, `predict`, `update`, `filter`, `smooth`; callbacks are pure functions that may raise |
| `Model/Threads.lean` | the same methods split at every access to the shared object, for schedules and crash points |
| `Model/Heap.lean` | `KalmanFilter` with references: buffers, views (`a[k]`, `a.T`, `np.atleast_1d`), allocation, in-place row writes |
| `Model/Stateful.lean` | `ExtendedKalmanFilter` with callbacks that keep state, assign to attributes of the object, call its methods (C142-C145) |
| `Model/Iterators.lean` | both classes with generators or other one-shot iterators in place of the sequences `A`, `H`, `B`, `Q`, `R`, `U` (C146, C147) |
| `Model/Subclass.lean` | `filter` and `smooth` of both classes as inherited by a subclass that overrides `predict` and `update` with programs of its own (C149, C150, C152); `smooth` with an overridden `filter` (C158) |
| `Model/Shared.lean` | several objects whose `kalman_gains` refer to shared list objects: calls, `copy.copy`, `copy.deepcopy`, saved references, rebinding (C154) |
| `Model/HeapExt.lean` | `ExtendedKalmanFilter` with references; callbacks are arbitrary programs on the same memory |
| `Model/Version.lean` | `_version.py`: `run_command`, `versions_from_parentdir`, `git_versions_from_keywords`, `git_pieces_from_vcs`, all `render_*` styles, `render`, `get_versions`, and the two evaluations in `__init__.py`; git is an arbitrary function from command lines to outcomes |
| `Model/Build.lean` | `versioneer.py` as used by `setup.py`: `git_get_keywords`, `versions_from_file`, `get_versions`, `get_version`, `write_to_version_file` with `SHORT_VERSION_PY`, `json.dumps`/`json.loads` of the version dictionary, the two regular expressions, and what importing a written `_version.py` yields (value of the Python string literal, then `json.loads`); `run_command`, `versions_from_parentdir`, `git_versions_from_keywords`, `git_pieces_from_vcs` and `render*` there are textually the functions of `_version.py` (compared as syntax trees) |
| `Model/Install.lean` | `python versioneer.py setup`: `get_config_from_root`, `do_setup`, `do_vcs_install`, `scan_setup_py`, `setup_command` on files, with every point at which the process can be killed |
| `Model/Root.lean` | `versioneer.get_root`, and `versioneer.get_versions` for any configuration |
| `Model/Examples.lean` | model matrices and callbacks of `/repo/examples` |
| `Spec/*` | specifications that do not use the model: textbook Kalman, extended Kalman and RTS recursions on Mathlib matrices, batch cost, probability model (also with noise other than told), moving-average set-up, threads and schedules, memory |
| `Proofs/*` | lemmas, refinements |
| `Props/*` | the property theorems; only these are cited in MANIFEST.json |
| `Test/*` | concrete backends, encodings and runs used to show that hypotheses are satisfiable and that the model computes the documented results |

Arithmetic is a parameter, the class `Backend F` (`add`, `sub`, `gemm`, `solve`, `isnan`, the NaN constants).  Four kinds
of theorem follow:

* **structural** theorems hold for *every* `Backend`, so in particular for IEEE-754 doubles with any BLAS/LAPACK whose
  results are functions of operand values and shapes (C01-C10, C13-C22, C60-C65, C78-C81, C136-C143, C145-C149, C151, C152, C154,
  C88 in part);
* **NaN** theorems hold for every backend in which NaN propagates through `+`, `-`, dot products (C11, C12, C23);
* **exact** theorems are about the backend `Fl` = NaN or an exact real number, where `solve` is the exact solution when the
  determinant is nonzero and LinAlgError when it is zero (C24-C59, C66-C69, C82-C85,
  and those after C88 that are about the filters and not listed below).  What LAPACK does on operands that
  contain NaN, and what a NaN becomes when cast to int64, are arbitrary functions (`Platform`) over which the theorems
  quantify;
* **approximation** theorems (C86, C87, C94, C108, C114, C125, C126, C130, C169, C170) compare every arithmetic that is accurate enough with the exact one;
* **floating-point** theorems (C131, C132, C135, C156) are about arithmetics with rounding, overflow and NaN as such, without a closeness assumption.

The link between dynamically shaped arrays and matrices is the predicate `Represents kf Z U b ss` (`Spec/Textbook.lean`):
the object and data hold the initial belief `b` and the list of linear steps `ss`, in any of the layouts numpy accepts
(1-d states, 1-d or 0-d scalar observations, column layouts where the code accepts them), for any dtype.
`Test/Encode.lean` shows that every `b`, `ss` is represented by some call, so no exact theorem is vacuous.

## 2. Trusted base

* Lean 4.33.0's kernel.
* Axioms: every theorem cited in MANIFEST.json depends on at most `propext`, `Classical.choice`, `Quot.sound` (checked by
  `vcheck` and by `#print axioms`); no other axiom is declared, no compiled evaluation is used.
* Mathlib's definitions used in statements: `Matrix`, `Matrix.PosSemidef`/`PosDef`, `Matrix.det`, `⁻¹`, real numbers,
  `MeasureTheory` integrals, independence, Gaussian processes, the multivariate Gaussian measure, Lebesgue measure and densities, conditional expectation, `Filter.Tendsto`.
* That the model reads `/repo` and numpy's documented semantics correctly.  Points where numpy's behaviour matters and was
  taken from its documentation: `a @ b` raises ValueError on shape mismatch or 0-d operands; broadcasting rules; `a.T` of
  rank < 2 is `a`; `np.full_like(int array, nan)` stores an implementation-defined integer; assignment `a[k] = v`
  broadcasts and drops leading axes of length 1; `np.linalg.solve(a, b)` needs square 2-d `a`, treats 1-d `b` as a vector,
  and otherwise requires matching leading size.

Not modelled:

* infinities, except in C132-C135 (IEEE numbers with infinities and NaN, without signed zeros); floating-point rounding in the exact theorems (rounding is covered by the structural ones, and
  C86, C87, C94, C108, C114, C125, C126, C130 bound its effect for every arithmetic that is accurate enough, without explicit constants; C156 has explicit constants for one model; C94 has underflow
  and overflow, with infinities identified with NaN);
* int64 overflow, int-to-float rounding, dtypes other than int64 and float64 (complex, float32, object);
* per-step arrays of rank >= 3; Python lists and numbers in place of arrays, except in C136-C138 (`Model/Lists.lean`), which reduce
  them to arrays; tuples, bools, None inside lists, pandas objects;
* parameters that are iterators which raise or which read one another (C146, C147, C157 have independent one-shot iterators, possibly
  one for several parameters);
* subclasses other than those that override `predict`, `update` and `filter` (C149, C150, C152, C158), monkey patching, assigning to the private identity matrix or values other than arrays (and `None` for `B`) to attributes (C151, `Spec/Heap.lean`);
* callbacks of the extended filter that replace a callback or a method of the object while a call is running (C78-C81 cover
  callbacks that read, write and return arbitrary arrays, C142-C145 callbacks that keep state of their own, assign to other
  attributes or call methods; all other theorems take them as pure functions);
* numpy warnings, memory exhaustion, time; the GIL (threads may switch between any two accesses to the object);
* deallocation and buffer reuse (the heap only grows);
* plotting and random number generation in `/repo/examples`;
* in `_version.py`: verbose output, Windows paths, surrogates, Python's limit on the length of integer literals;
* in `/repo/versioneer.py`: the TOML and INI parsers (parameters), the setuptools
  command classes other than what they write, the text of the long `_version.py`, JSON numbers and nested values, Python escapes that
  `json.dumps` never writes. Universal newlines of `open` are not modelled (files with `\n` only).

## 3. Findings about the code

Facts proved about the code that a user may not expect:

* `B=None`/`U=None` with integer `A`/`Z` is *not* "no control": `np.full_like` stores the integer cast of NaN, so
  `is_nan_all` is false and garbage is added (C10; `utils.py` 33).
* A scalar `R_k` or `Q_k` inside a sequence broadcasts to a full matrix of that constant, not to a multiple of the identity;
  two sensors are then taken as perfectly correlated (C53).
* `filter` stops at the shortest parameter sequence and returns zero rows for the remaining data, without an error (C02);
  `smooth` then raises IndexError, or if only `H` or `R` is short takes the state after the last
  measurement as known to be zero (C88).
* One NaN observation makes every later state NaN, and the whole smoothed trajectory (C11, C12); NaN is not "missing data".
* A control vector that is only partly NaN is not ignored; it makes the state NaN (C23).
* `predict`/`update` record a gain even if the call later raises (C07); `kalman_gains` is never reset (C06).
* The extended filter hands NaN controls to the callbacks when `U=None` (C52).
* Callbacks that count their calls to follow a time-varying model work in `filter` but not in `smooth`, whose backward pass calls
  `jacobian_A` twice and `f` once more per row, out of step; after a LinAlgError the counter of `h` is one behind (C144).
* Empty data: `filter` returns empty arrays, `smooth` raises IndexError (C16).
* The constructors keep references to the caller's arrays (C65, C81).
* An `f` that changes its argument in place moves the initial state of the object: a second `filter` starts elsewhere, and
  `smooth` is wrong at once; `f` and `h` must not share a result buffer (examples beside C79).
* `import kalmankit` from a checkout raises AttributeError if `git show` (or `git rev-list`) fails after `git describe` worked
  (C74); `_version.py` tests the results of the other commands only.
* An archive of a commit with several release tags gets the least as a string: `10.0` before `2.0`; without marked tags a
  branch named `v2` counts as a release (C76).
* A git tag with a double quote or backslash in it makes an installed package fail at import: `json.dumps` writes a backslash
  that the Python literal around the JSON text consumes (example beside C103). Source distributions are not affected (C102).
* `python versioneer.py setup` on this repository adds the `__version__` lines to `__init__.py` once more, because they were
  reformatted with double quotes (example beside C129). It glues its entry onto an unterminated last line of `.gitattributes`; killed
  at the wrong moment it leaves a `.gitattributes` that further calls take for correct but git does not (C129). It can lose
  `__init__.py` when killed while replacing the lines of older versions, and empties the version file if `VCS` is not git (C128).
* In floating point `filter` can return negative variances and asymmetric covariances, for harmless inputs and at every
  precision, because `update` computes `(I - K H) P`; only for `H = 1` signs are safe (C131). Confirmed in binary64: -2.2e-16.
* `R = np.inf` as a number, with two or more sensors, raises nothing and turns state, covariance and gain into NaN or infinities;
  `np.diag([np.inf, ...])` ignores the observation exactly, as intended. One infinite sensor among two can make the gain of the *other*
  one NaN, depending on the pivot that LAPACK chooses (C135): infinite noise does not mean "missing data".
* One finite component of the last filtered state certifies that everything before was finite (C132).
* `python DIR/setup.py` started in a directory with a `pyproject.toml` or `setup.py` of its own takes version and settings from there (C163).
* `pyproject.toml` asks for `versioneer==0.26` at build time while the repository contains version 0.29; a build in isolation with
  `setuptools.build_meta` does not have the root directory on `sys.path`, so it runs the former, which is not modelled.
* Without `tomllib`/`tomli` the settings in `pyproject.toml` are silently not used (C129).
* Nested lists work for `B`, `Q`, `R`, `Z`, `U` and the covariance, but rows of `A` and `H`, and the Jacobians, must be arrays
  (AttributeError), not both of `B[k]`, `U[k]` may be lists (TypeError), and a list `z` with a list from `h` raises TypeError after the
  gain has been recorded (C136-C138).
* Vectors of variances in place of covariance matrices raise nothing: as `Q` or `R` they are repeated as every row of a full matrix
  (not put on a diagonal); as `Pk` and `Q` with as many sensors as states every state component gets the same correction (C139-C141).
* Generators (`itertools.repeat(A)` and the like) as parameters work for one `filter` call; a second call on the same object goes on
  where the first stopped, and if it was the data `Z` that ended first, `A`, `H`, `B`, `U` have lost one more item than `Q`, `R`, so the second
  call pairs rows of different times, without an error. Only endless repetitions are safe. `smooth` raises TypeError, after the whole
  forward pass (C146, C147).
* A constant model passed as single matrices without time axis raises ValueError if it is done for all of `A`, `H`, `Q`, `R`; but `A` alone with a
  control input, `H` alone with as many sensors as states, and `Q` or `R` alone are silently taken row by row, and only as many
  steps as the matrix has rows are processed (C148).
* A subclass whose `filter` also returns the initial belief as row 0 gets from the inherited `smooth` a trajectory that is out of step by
  one row and leaves out one filtered belief, without an error (C158).
* `copy.copy(kf)` gives an object with the same list `kalman_gains`: gains of calls on the copy appear in the original and vice versa; `copy.deepcopy` does not (C154). Results are never affected.
* Reusing an object by assigning to its attributes: `kf.B = None` is a TypeError later; an object built with `B=None` silently ignores
  rows beyond the length of its first `A`; an object built for one state and given a model with more states (with `state_size` assigned too)
  silently computes `(ones - K H) P` (C151).
* The version `unknown`, reported if the output of `git describe` cannot be parsed, is not a PEP 440 version (C73).

## 4. Method

1. `Props/*` states each property about the model's API functions; specifications are in `Spec/*`.
2. Loops are handled by invariants and induction on the list of rows; two-run properties by simultaneous induction.
3. Exact properties go through one refinement: `Represents.returns` / `.singular` (filter = textbook recursion or LinAlgError)
   and `.smoothReturns` / `.smoothSingular`; the mathematics is then about Mathlib matrices.
4. Beside the theorems are `example`s that instantiate their hypotheses on concrete non-trivial data.
5. Mutation testing: `tools/mutate.py` edits the model in a scratch copy and rebuilds; results are in `seeded/LOG.jsonl`.

## 5. Properties

### C01 — Output shapes and alignment

*Property.* Whenever KalmanFilter.filter, KalmanFilter.smooth, ExtendedKalmanFilter.filter or ExtendedKalmanFilter.smooth returns, the first result has exactly len(Z) rows of shape (state_size,) and the second exactly len(Z) rows of shape (state_size, state_size).

*Model and proof.* Standard/Extended, any backend. Invariant of the loop: the zero-initialised output keeps its row count and every row its shape, because assignment broadcasts to the row shape.

- `KK.C01_filter_shapes` (Props/Interface.lean): C01 for `KalmanFilter.filter`.
- `KK.C01_ekf_filter_shapes` (Props/Interface.lean): C01 for `ExtendedKalmanFilter.filter`.
- `KK.C01_smooth_shapes` (Props/Interface.lean): C01 for `KalmanFilter.smooth`.
- `KK.C01_ekf_smooth_shapes` (Props/Interface.lean): C01 for `ExtendedKalmanFilter.smooth`.

### C02 — Mismatched lengths truncate silently

*Property.* filter never raises because A, H, B, U, Q or R is shorter than Z: it processes exactly the common-prefix length T of all sequences; rows T.. of both results are zero, rows before T equal those obtained with Z cut to length T, and exactly T gains are recorded.

*Model and proof.* Any backend. The loop writes exactly one row per element of the zip; its length is the minimum of the lengths; the remaining rows are the initial zeros.

- `KK.C02_truncation` (Props/Runs.lean): C02: for sequences of any lengths, the run behaves exactly like the run in which every sequence is cut to the common length `T` (same exception, if any, and same gains); when it returns, the rows are those of the cut run followed by zero rows, and exactly `T` gains were added.
- `KK.C02_ekf_truncation` (Props/Runs.lean): C02 for the extended filter.

### C03 — Causality / prefix stability

*Property.* The k-th filtered mean and covariance depend only on the first k+1 observations: filter(Z[:j], U) returns the first j rows of filter(Z, U), and filtering any Z' that agrees with Z on the first j rows gives the same first j rows.

*Model and proof.* Any backend. The zip of prefixes is a prefix of the zip; the loop on a concatenation is the loop on the first part followed by the loop on the second.

- `KK.C03_prefix` (Props/Runs.lean): C03: filtering the first `j` observations returns the first `j` rows of the full run.
- `KK.C03_ekf_prefix` (Props/Runs.lean): C03 for the extended filter.
- `KK.C03_causal` (Props/Runs.lean): C03: two filters with the same initial state, whose parameters and data agree on the first `j` rows (and may differ arbitrarily afterwards), return the same first `j` rows and record the same first gains.
- `KK.C03_ekf_causal` (Props/Runs.lean): C03: two filters with the same initial state, whose parameters and data agree on the first `j` rows (and may differ arbitrarily afterwards), return the same first `j` rows and record the same first gains.

### C04 — Streaming restart

*Property.* Filtering Z in one call gives the same rows and gains as filtering Z[:j] and then filtering Z[j:] with a second filter whose initial xk, Pk are the last posterior of the first run and whose A, B, H, Q, R (and U) are cut at j.

*Model and proof.* Any backend. Same append lemma; assigning a row of the right shape stores it unchanged, so the stored row can be fed back as initial state.

- `KK.C04_restart` (Props/Runs.lean): C04: one run over `Z` equals a run over `Z[:j]` continued by a second filter that starts from the last posterior of the first and uses the remaining parameters and data: same rows, same gains, same exception.
- `KK.C04_ekf_restart` (Props/Runs.lean): C04: one run over `Z` equals a run over `Z[:j]` continued by a second filter that starts from the last posterior of the first and uses the remaining parameters and data: same rows, same gains, same exception.

### C05 — Calls do not disturb the object; results are history independent

*Property.* No sequence of predict/update/filter/smooth calls, successful or raising, changes the object's A, xk, B, Pk, H, Q, R, f, h, jacobians or state_size, and the outcome (value or exception) of a call is the same after any history of calls as on a fresh object.

*Model and proof.* Any backend. State machine of API calls; induction on histories: only the gain list changes and no result reads it.

- `KK.C05_history_independent` (Props/History.lean): C05: whatever calls were made before (with whatever arguments, successful or raising), all attributes except `kalman_gains` are unchanged and any further call has the same outcome as on the original object.
- `KK.C05_ekf_history_independent` (Props/History.lean): C05 for the extended filter.

### C06 — kalman_gains is an append-only ledger

*Property.* kalman_gains starts empty, is never reset or truncated by any call, a successful update appends exactly one gain, a successful filter appends exactly one gain per processed step, smooth appends exactly what the corresponding filter call appends (its backward pass appends nothing), predict appends nothing.

*Model and proof.* Any backend. Same induction; the ledger after a history is the concatenation of what each call appends.

- `KK.C06_gain_ledger` (Props/History.lean): C06: `kalman_gains` is empty on a new object; after any history it is what was there before followed by what each call records on its own, in order; `predict` records nothing, `update` at most one gain and exactly one if it returns, `filter` exactly one per processed step if it returns, `smooth` exactly what the `filter` call with the same arguments records.
- `KK.C06_ekf_gain_ledger` (Props/History.lean): C06 for the extended filter.

### C07 — Gains recorded when a run fails part-way

*Property.* If filter raises while processing step k, the gains of steps 0..k-1 stay recorded; if the failure is the solve of step k (e.g. singular innovation covariance) nothing is recorded for step k.

*Model and proof.* Any backend. Induction on the failing step: the gains of the completed steps, plus the failing step's own gain if it fails after its gain is known.

- `KK.C07_partial_failure` (Props/Failure.lean): C07: if `filter` raises `e`, there is a step `k` such that filtering the first `k` observations returns and filtering the first `k+1` raises the same `e` with the same gains; the record then consists of the gains of steps `0..k-1`, followed by at most the gain of step `k`, and by nothing if `e` is LinAlgError.
- `KK.C07_ekf_partial_failure` (Props/Failure.lean): C07 for the extended filter (for LinAlgError: provided `h` itself does not raise LinAlgError).

### C08 — Covariances and gains do not depend on the data

*Property.* For the standard filter the returned covariances and the recorded gains depend only on Pk, A, H, Q, R (and state_size): two successful runs of equal length that differ only in xk, B, Z and U give identical covariances and gains; the same holds for smoothed covariances.

*Model and proof.* Any backend. Simultaneous induction on two runs whose observations have equal shapes; covariance and gain computations never read the data.

- `KK.C08_data_independent` (Props/Failure.lean): C08: two runs with the same `Pk`, `A`, `H`, `Q`, `R`, `state_size` and arbitrary `xk`, `B`, observations and controls return the same covariances and record the same gains.
- `KK.C08_smooth_data_independent` (Props/Failure.lean): C08 for `smooth`: smoothed covariances (and gains) do not depend on the data either.

### C09 — B=None / U=None means no control (float data)

*Property.* With float arrays, passing U=None (or B=None) makes predict compute exactly A x (no control term) at every step, whatever the other one is, and in exact arithmetic the run equals the run with an all-zero control input.

*Model and proof.* Any backend with `isnan nan`. The sentinel array is all-NaN, so `predict` takes the branch without control. In exact arithmetic the run without control is moreover shown equal to the run with any `B` and control zero.

- `KK.C09_none_U` (Props/Control.lean): C09: `U=None` with float observations switches the control off whatever `B` is.
- `KK.C09_none_B` (Props/Control.lean): C09: a filter constructed with `B=None` and float `A` has its control switched off whatever `U` is.
- `KK.C09_predict` (Props/Control.lean): C09: with the control switched off, `predict` computes `A x` and `A (P A') + Q` and nothing else.
- `KK.C09_control_irrelevant` (Props/Control.lean): C09: runs with the control switched off do not depend on `B` and `U` at all (values, exceptions, gains; `filter` and `smooth`).
- `KK.C09_zero_control` (Props/ZeroControl.lean): C09: a run whose control is switched off (`B=None`, `U=None`, or NaN rows) equals, in exact arithmetic, the run with any control matrices `B'` and the all-zero control: same result or exception and same gains for `filter`, and for `smooth` when no sequence is shorter than `Z`.

### C10 — B=None / U=None with integer data

*Property.* The None sentinel is np.full_like(broad_to, nan); for an integer broad_to the sentinel is not NaN, so the control branch is NOT skipped: U=None with integer Z (or B=None with integer A) feeds the platform's NaN-to-int value into the prediction. The claim 'None always means no control' is therefore false of the code; it holds exactly when one of the two sentinels is made from a float array.

*Model and proof.* Exact backend. Positive theorem for integer arrays plus a concrete counterexample run.

- `KK.C10_int_sentinel` (Props/Control.lean): C10, the sentinel: made from a non-empty integer array it is not NaN, and `predict` then adds `B @ sentinel`.
- `KK.C10_none_none` (Props/Control.lean): C10, positive part: the control is switched off exactly when, at each step, one of the two sentinels was made from a float (or empty) array or the other array is all-NaN anyway.
- `KK.C10_none_is_not_no_control` (Props/Control.lean): C10, the defect: "`U=None` means no control" is false. The same filter on the same number, once as float64 and once as int64: without control the state stays 0, with the integer sentinel it is the cast NaN value times 1/2.

### C11 — A NaN observation poisons every later state

*Property.* A missing observation is not skipped: if any component of z_k is NaN, every component of every state returned by filter at steps >= k is NaN (steps < k are unaffected), while covariances and gains are as without the NaN.

*Model and proof.* Every backend with NaN propagation. Invariant: all entries of the running state are NaN.

- `KK.C11_nan_observation` (Props/Nan.lean): C11: if some component of the observation of a processed step `k` is NaN, then every component of every state returned for the processed steps `j ≥ k` is NaN; the rows before `k` are those of the run on `Z[:k]`, and the covariances are those of any other successful run on data of the same length.

### C12 — A NaN observation poisons the whole smoothed trajectory

*Property.* If any component of any z_k is NaN then every component of every mean returned by smooth is NaN.

*Model and proof.* As C11, backward induction through the smoother.

- `KK.C12_nan_smooth` (Props/Nan.lean): C12: if every parameter sequence is as long as the data and some component of some observation is NaN, then every component of every smoothed mean is NaN.

### C13 — EKF filter equals the standard filter on linear models

*Property.* If f(x,u)=A x + B u, h(x)=H x, jacobian_A=A, jacobian_H=H and no control is all-NaN, ExtendedKalmanFilter.filter returns exactly what KalmanFilter.filter returns with those matrices repeated at every step (same values, same exception, same gains).

*Model and proof.* Any backend. Callbacks `f(x,u)=A@x+B@u` etc.; step equality, then induction. *Limits.* constant A, B, H, as callbacks cannot depend on the time step.

- `KK.C13_ekf_eq_kf` (Props/Linear.lean): C13 with control: `f(x, u) = A x + B u`, `h(x) = H x`, constant Jacobians, no all-NaN control.
- `KK.C13_ekf_eq_kf_no_control` (Props/Linear.lean): C13 without control: `f(x, u) = A x` whatever `u` is, and the standard filter's `B` (or the control) is all-NaN.

### C14 — EKF smoother equals the standard smoother on linear models

*Property.* Under the same conditions ExtendedKalmanFilter.smooth returns exactly what KalmanFilter.smooth returns.

*Model and proof.* As C13 for the backward loop. *Limits.* as C13.

- `KK.C14_ekf_smooth_eq_kf` (Props/Linear.lean): C14 with control.
- `KK.C14_ekf_smooth_eq_kf_no_control` (Props/Linear.lean): C14 without control.

### C15 — The last smoothed estimate is the last filtered one

*Property.* Whenever smooth returns, its last mean and covariance are the last ones of filter on the same data; with a single observation smooth and filter return the same arrays.

*Model and proof.* Any backend. The last row is assigned once and not touched by the backward loop; re-assignment of a well-shaped row is the identity.

- `KK.C15_last_smoothed` (Props/Interface.lean): C15: the last smoothed row is the last filtered row; with one observation the results coincide.
- `KK.C15_ekf_last_smoothed` (Props/Interface.lean): C15 for the extended filter.

### C16 — Empty observation sequence

*Property.* On an empty Z, filter returns empty results, records no gain and never raises for iterable parameters, whereas smooth always raises IndexError.

*Model and proof.* Any backend; evaluation on the empty sequence.

- `KK.C16_empty` (Props/Interface.lean): C16: on empty data `filter` returns two empty results and leaves the object alone, `smooth` raises IndexError.
- `KK.C16_ekf_empty` (Props/Interface.lean): C16 for the extended filter.

### C17 — A wrong state_size is rejected at run time

*Property.* If state_size is given and differs from the dimension n of a well-shaped model, filter on a non-empty Z raises (ValueError, or LinAlgError if the solve is singular) and never returns; a negative state_size makes the constructor raise ValueError; state_size=None and state_size=0 both mean xk.shape[0].

*Model and proof.* Any backend; shape computation through one step.

- `KK.C17_wrong_state_size` (Props/Rejected.lean): C17: whenever the model is well shaped with the default `state_size`, an explicit non-zero `state_size` different from the dimension makes `filter` and `smooth` raise ValueError or LinAlgError on non-empty data, whatever the wrong size is (negative sizes do not get that far: `C17_default_state_size`).
- `KK.C17_default_state_size` (Props/Rejected.lean): C17, defaulting: `None` and `0` both mean `xk.shape[0]`, a positive value is taken as is, a negative one makes the constructor raise ValueError.

### C18 — Column-vector initial states are rejected unless 1x1

*Property.* A model of dimension n >= 2 with xk of shape (n,1) (and vector observations or scalar ones) never yields filtered states: filter on a non-empty Z raises.

*Model and proof.* Any backend; the posterior state of the first step is an (n,1) array (or an earlier operation raises), which cannot be assigned to a row of length state_size. The extended filter likewise, for callbacks written for column vectors.

- `KK.C18_column_state` (Props/Rejected.lean): C18: a model of dimension `n >= 2` whose initial state is an `(n,1)` column is rejected with ValueError or LinAlgError by `filter` and `smooth` on non-empty data, for every `state_size`. (`hl`: the same model with some `(n,)` initial state is well shaped.)
- `KK.C18_ekf_column_state` (Props/Rejected.lean): C18 for the extended filter: a model of dimension `n >= 2` written for `(n,1)` column vectors is rejected by `filter` and `smooth` on non-empty data, with ValueError, LinAlgError or an exception of a callback.

### C19 — A scalar R or Q is rejected

*Property.* The documentation allows R to be a float; filter and smooth nevertheless raise TypeError for a 0-d A, H, B, U, Q or R (they are iterated), even on empty Z, and leave kalman_gains unchanged.

*Model and proof.* Any backend; iterating a 0-d array raises TypeError.

- `KK.C19_scalar_parameter` (Props/Interface.lean): C19: a 0-d array for any sequence parameter or argument makes `filter` and `smooth` raise TypeError, and the object (in particular `kalman_gains`) is unchanged.
- `KK.C19_ekf_scalar_parameter` (Props/Interface.lean): C19 for the extended filter.

### C20 — predict does not accept None controls

*Property.* The documentation of predict says Bk and uk can be None; predict raises TypeError for Bk=None, and for uk=None unless Bk is all-NaN.

*Model and proof.* Any backend; `np.isnan(None)` raises TypeError.

- `KK.C20_predict_none` (Props/Interface.lean): C20: `predict` raises TypeError for `Bk = None`, and for `uk = None` unless `Bk` is all-NaN.

### C21 — is_nan_all decides 'every entry is NaN'

*Property.* is_nan_all(a) is True iff every entry of a is NaN; it is True on every empty array, False on every non-empty integer array, and one non-NaN entry anywhere makes it False.

*Model and proof.* Any backend; entrywise characterisation.

- `KK.C21_is_nan_all` (Props/Interface.lean): C21: `is_nan_all` answers True exactly when every entry is NaN; integers are never NaN; an empty array of either dtype counts as all-NaN; it never raises on an array.

### C22 — check_none_and_broadcast contract

*Property.* A non-None argument is returned unchanged; for None the result has the shape of broad_to and, if broad_to is float, is_nan_all holds of it and of each of its rows.

*Model and proof.* Any backend; shape, dtype and entries of the result.

- `KK.C22_check_none_and_broadcast` (Props/Interface.lean): C22: `check_none_and_broadcast` returns a given array unchanged; for `None` it returns an array with the rows, shapes and dtypes of `broad_to`, each float row of which `is_nan_all` accepts (a 0-d `broad_to` gives a 0-d array of the same dtype, NaN if it is a float array).

### C23 — Partially-NaN controls are not ignored

*Property.* If neither B_k nor u_k is entirely NaN the control term is added: a u_k with some NaN component makes every component of the prediction NaN.

*Model and proof.* Every backend with NaN propagation; B@u has a NaN entry where the row of B meets the NaN entry.

- `KK.C23_partial_nan_control` (Props/Nan.lean): C23: a control vector with some NaN component, not switched off (neither it nor `B` is entirely NaN), makes every component of the prediction NaN, and of every state that `filter` returns from that step on.

### C24 — filter computes the Kalman recursion

*Property.* In exact arithmetic, for every documented array layout (vector or scalar observations, matrix or scalar noise, (n,) or 1x1 initial state), if every innovation covariance H P- H' + R is invertible then filter returns exactly the textbook sequence x- = A x + B u, P- = A P A' + Q, K = P- H' (H P- H' + R)^-1, x = x- + K (z - H x-), P = (I - K H) P-, and records exactly the gains K; no symmetry of P or R is needed.

*Model and proof.* Exact backend. Refinement of the array loop to the textbook recursion, for all accepted layouts.

- `KK.C24_filter_textbook` (Props/Textbook.lean): C24: if every innovation covariance of the textbook run is invertible, `filter` returns exactly the textbook means and covariances (followed, if the data are longer than the shortest parameter sequence, by the zero rows of C02) and appends exactly the textbook gains; nothing else of the object changes.
- `KK.C24_update` (Props/Textbook.lean): C24 for a single `update`: posterior mean `x + K (z - H x)`, posterior covariance `(I - K H) P`, one gain recorded; LinAlgError and no gain if `S` is singular.
- `KK.C24_predict` (Props/Textbook.lean): C24 for a single `predict`.

### C25 — filter raises LinAlgError exactly on a singular innovation covariance

*Property.* In exact arithmetic a well-shaped run returns iff the innovation covariance is invertible at every step; otherwise it raises LinAlgError at the first singular step k, with exactly k gains recorded.

*Model and proof.* As C24; `det S = 0` at the first singular step.

- `KK.C25_linalgerror` (Props/Textbook.lean): C25: a represented run returns iff every innovation covariance is invertible; if step `k` is the first singular one, `filter` raises LinAlgError and exactly the gains of the first `k` steps have been recorded.

### C26 — Covariances are symmetric positive semidefinite and no exception is raised

*Property.* If Pk and every Q are symmetric PSD and every R symmetric PD, filter returns and every returned covariance is symmetric PSD (exact arithmetic).

*Model and proof.* Matrix algebra over the reals: Joseph form, induction.

- `KK.C26_psd` (Props/Covariance.lean): C26: PSD initial covariance and process noise, PD measurement noise: `filter` returns, and every returned covariance row is a symmetric positive semidefinite matrix.

### C27 — Positive definiteness is preserved

*Property.* If Pk and every R are PD, every Q PSD and every A invertible (or every Q PD), every returned covariance is PD (exact arithmetic).

*Model and proof.* Schur/determinant arguments, induction.

- `KK.C27_pd` (Props/Covariance.lean): C27: with PD initial covariance and measurement noise, PSD process noise, and at each step an invertible transition or a PD process noise, all covariances of processed steps are positive definite.

### C28 — A measurement never increases uncertainty

*Property.* For PSD prior and PD R the posterior covariance returned by update is below the prior in the Loewner order; in particular every variance, in every direction, and the trace do not increase.

*Model and proof.* `P - P' = K S K'` is PSD.

- `KK.C28_update_reduces` (Props/Covariance.lean): C28: for PSD prior and PD measurement noise `update` returns a covariance below the prior in the Loewner order; every directional variance and the trace do not increase.

### C29 — The short covariance form equals the Joseph form

*Property.* The covariance (I-KH)P returned by update equals (I-KH)P(I-KH)' + K R K' and P - K S K' (symmetric P and R, invertible S, exact arithmetic).

*Model and proof.* Matrix identity from `K S = P H'`.

- `KK.C29_joseph` (Props/Covariance.lean): C29: symmetric prior and measurement noise, regular `S`: the returned covariance equals the Joseph form and `P - K S K'`, for the gain `K` that the call records.

### C30 — The gain is optimal

*Property.* For any other gain L the error covariance (I-LH)P(I-LH)' + L R L' exceeds the covariance returned by update by the PSD matrix (L-K)S(L-K)'; hence K minimises the trace and every directional variance.

*Model and proof.* Completion of squares.

- `KK.C30_gain_optimal` (Props/Covariance.lean): C30: any other gain `L` gives an error covariance exceeding the returned one by `(L-K) S (L-K)'`, which is PSD; so `K` minimises every directional variance and the trace.

### C31 — Information form

*Property.* For PD prior and R, the posterior returned by update satisfies P+^-1 = P-^-1 + H'R^-1 H and P+^-1 x+ = P-^-1 x- + H'R^-1 z.

*Model and proof.* Woodbury identity.

- `KK.C31_information` (Props/Covariance.lean): C31: PD prior and measurement noise: information form.

### C32 — Only noise ratios matter

*Property.* Multiplying Pk, all Q and all R by the same non-zero c leaves all filtered and smoothed means and all gains unchanged and multiplies all covariances by c (exact arithmetic).

*Model and proof.* Relational induction on two textbook runs, transported by the refinement.

- `KK.C32_noise_ratio` (Props/Equivariance.lean): C32: multiply the initial covariance and all process and measurement noise covariances by `c ≠ 0`: `filter` and `smooth` raise LinAlgError exactly when they did before; otherwise all means and gains are the same and all covariances are multiplied by `c`.

### C33 — Equivariance under change of state coordinates

*Property.* Replacing the state by M x (M invertible), i.e. A by M A M^-1, B by M B, H by H M^-1, Q by M Q M', xk by M xk, Pk by M Pk M', turns every returned mean into M mean and every covariance into M cov M' (filter and smooth).

*Model and proof.* As C32.

- `KK.C33_state_coordinates` (Props/Equivariance.lean): C33: describe the same system by the state `M x`, `M` invertible (`A` becomes `M A M⁻¹`, the control contribution `M (B u)`, `H` becomes `H M⁻¹`, `Q` becomes `M Q M'`, the initial mean `M x`, the initial covariance `M P M'`): `filter` and `smooth` raise LinAlgError exactly when they did before; otherwise every mean becomes `M` times the mean, every covariance `M P M'`, every gain `M K`.

### C34 — Independent measurements can be processed one at a time

*Property.* Stacking two observations with independent noise (block H, block-diagonal R) at one time step gives the same posterior as two successive updates, in either order.

*Model and proof.* Block matrix algebra on stacked measurements. *Limits.* single update; no whole-run form.

- `KK.C34_sequential` (Props/Extremes.lean): C34: two measurements of one state with independent noises. If processing them one at a time (`update` with the first, then `update` of the result with the second) does not raise, then one `update` with the stacked measurement does not raise and returns the same mean and covariance; likewise if they are processed in the other order.
- `KK.C34_sequential_pd` (Props/Extremes.lean): C34, unconditional form: with a PSD prior and PD noises nothing raises: both orders and the stacked `update` return the same mean and covariance.

### C35 — Invariance under relabelling of measurements

*Property.* Replacing z, H, R by T z, T H, T R T' for invertible T (e.g. permuting sensors or changing units) leaves all returned means and covariances unchanged and turns each gain K into K T^-1.

*Model and proof.* Induction over the run; one invertible matrix per step, the beliefs do not change.

- `KK.C35_measurement_coordinates` (Props/Equivariance.lean): C35: replace `z`, `H`, `R` of every step by `T z`, `T H`, `T R T'`, with an invertible `T` for each step (e.g. a permutation of sensors or a change of units): `filter` and `smooth` raise LinAlgError exactly when they did before; otherwise all means and covariances are unchanged and every gain `K` becomes `K T⁻¹`.

### C36 — Superposition

*Property.* Filtered and smoothed means are linear in (xk, Z, U) jointly: for fixed A,B,H,Q,R,Pk the run on a combination a*d1+b*d2 of two data sets returns the combination of the two runs' means.

*Model and proof.* Simultaneous induction on three runs.

- `KK.C36_superposition` (Props/Superposition.lean): C36: three runs of one model (same `A`, `H`, `Q`, `R`, initial covariance): with initial mean, controls and observations of a first data set, of a second, and of the combination `α·first + β·second`. Either all raise LinAlgError or all return; then gains and covariances agree, and the filtered (smoothed) means of the combination are the same combination of the filtered (smoothed) means.

### C37 — Exact tracking of noise-free data

*Property.* If the observations are generated without noise by the model itself from the initial state xk, every filtered and every smoothed mean equals the true state, whatever Pk, Q, R are (as long as the run does not raise).

*Model and proof.* Induction: zero innovation keeps the mean on the true trajectory.

- `KK.C37_exact_tracking` (Props/Superposition.lean): C37: let the true states follow the model without noise from the given initial mean, and let every observation be exactly `H` times the true state. If `filter` (`smooth`) does not raise LinAlgError then every mean it returns is the true state, whatever the initial covariance and the noise covariances are.

### C38 — Perfect measurement

*Property.* With H invertible and R = 0 the filtered mean is H^-1 z and the covariance is 0 after the step (if the prior is invertible).

*Model and proof.* Matrix algebra.

- `KK.C38_perfect_measurement` (Props/Extremes.lean): C38: without measurement noise (`R = 0`, regular `S`) `update` returns a mean that reproduces the observation exactly, `H x' = z`, with no remaining uncertainty in the measured directions, `H P' = 0`.
- `KK.C38_perfect_invertible` (Props/Extremes.lean): C38 for an invertible `H`: the mean becomes `H⁻¹ z` and the covariance 0.

### C39 — Uninformative measurement / certain prior

*Property.* If H = 0, or if the prior covariance is 0, update leaves mean and covariance unchanged (R invertible); hence with Pk = 0 and all Q = 0 the filter ignores the data and returns the open-loop prediction.

*Model and proof.* Matrix algebra, induction.

- `KK.C39_useless` (Props/Extremes.lean): C39: if `H = 0` or the prior covariance is 0, and `R` is invertible, `update` returns the prior mean and covariance unchanged.
- `KK.C39_certain_run` (Props/Extremes.lean): C39 for whole runs: with initial covariance 0, all `Q` zero and all `R` invertible, `filter` ignores the observations: it returns the open-loop prediction with covariance 0.

### C40 — Moving-average use: precision-weighted mean

*Property.* In the README/quickstart moving-average layout (A=H=1, Q=0, R=r>0, P0=p>0) the k-th state is (x0/p + sum z_i/r)/(1/p + (k+1)/r) and the k-th covariance 1/(1/p+(k+1)/r), so states are weighted averages that stay between the smallest and largest of x0 and the data.

*Model and proof.* Scalar recursion in the documented set-up, closed form by induction.

- `KK.C40_precision_weighted_mean` (Props/MovingAverage.lean): C40: in the documented moving-average set-up with no process noise (`q = 0`), the constructor and `filter` succeed and, for every data array, state `k` is the precision-weighted mean of the initial guess and the first `k + 1` observations, with the matching variance.
- `KK.C40_weighted_average` (Props/MovingAverage.lean): C40, any process noise: the states stay between any bounds of the initial guess and the data, every gain lies in `[0, 1)`, and consecutive states satisfy `x_{k+1} = (1 - K_{k+1}) x_k + K_{k+1} z_{k+1}` with the recorded gain (an exponentially weighted moving average whose weight is the gain, as the documentation says).

### C41 — smooth computes the RTS recursion

*Property.* In exact arithmetic, if the filter run and every predicted covariance A P A'+Q (steps 1..T-1) are invertible, smooth returns exactly the textbook RTS backward recursion with G = P A' (A P A'+Q)^-1 using the transition (A, B u, Q) of step k+1; otherwise it raises LinAlgError.

*Model and proof.* Refinement of the backward loop to the RTS recursion.

- `KK.C41_smooth_rts` (Props/Smoother.lean): C41: with every parameter sequence as long as the (non-empty) data, `smooth` returns exactly the RTS recursion if all innovation covariances (forward pass) and all predicted covariances of steps `1 .. T-1` (backward pass) are invertible, and raises LinAlgError otherwise.

### C42 — Smoothing does not increase uncertainty

*Property.* Under PD conditions smooth returns and every smoothed covariance is symmetric PSD and below the filtered covariance in the Loewner order.

*Model and proof.* Loewner induction backwards in time.

- `KK.C42_smoothed_le` (Props/Smoother.lean): C42: PD initial covariance and measurement noise, PSD process noise, and at each step an invertible transition or PD process noise: `filter` and `smooth` return, and at every time the smoothed covariance is symmetric positive definite and below the filtered one in the Loewner order.

### C43 — The filter solves the batch least-squares problem

*Property.* With PD Pk, Q, R the last filtered mean is the last component of the unique minimiser of the full batch cost |x_-1 - xk|^2_{Pk^-1} + sum |x_k - A x_{k-1} - B u|^2_{Q^-1} + sum |z_k - H x_k|^2_{R^-1}.

*Model and proof.* Completion of squares along the trajectory; uniqueness of the minimiser.

- `KK.C43_filter_batch` (Props/Batch.lean): C43: with positive definite `Pk`, `Q`, `R`, `filter` returns, and its mean at every time `k` is the last state of the trajectory that minimises, over all trajectories, the batch cost of the data up to and including time `k`; the least cost is the sum of the normalised squared innovations.

### C44 — The smoother solves the batch least-squares problem

*Property.* The smoothed means are exactly the components of the unique minimiser of the same batch cost.

*Model and proof.* As C43, backwards.

- `KK.C44_smooth_batch` (Props/Batch.lean): C44: with positive definite `Pk`, `Q`, `R` and full-length parameter sequences, `smooth` returns, and its means, preceded by some estimate of the state before the first step, are exactly the unique trajectory of least batch cost for the whole data.

### C45 — Reported covariance is the true error covariance; estimates are unbiased

*Property.* If the true system follows the model with square-integrable, zero-mean, mutually uncorrelated initial error and noises with covariances Pk, Q, R, then running filter on the random observations gives estimates whose error has mean zero and covariance exactly the returned covariance at every step.

*Model and proof.* Mathlib probability: orthogonality invariant (error uncorrelated with all past observations).

- `KK.C45_normalised_error` (Props/Innovation.lean): C45 (normalised errors): wherever the returned covariance is invertible, the normalised estimation error squared `(x - xh)' P⁻¹ (x - xh)` is `n` on average.
- `KK.C45_calibrated` (Props/Stochastic.lean): C45: if the system follows the model with zero-mean square-integrable uncorrelated noises of covariances `Pk`, `Q`, `R` (whatever their distribution), then at every step the returned mean is an unbiased estimate of the true state, and the returned covariance, which does not depend on the data, is exactly the covariance of its error.

### C46 — Best linear unbiased estimate

*Property.* Under the same hypotheses no affine function of the observations z_0..z_k estimates any linear functional of x_k with smaller mean square error than the filtered mean.

*Model and proof.* Projection theorem from the orthogonality invariant.

- `KK.C46_best_affine` (Props/Stochastic.lean): C46: under the same hypotheses the returned mean of step `k` is an affine function of the observations up to step `k`, and no affine function of them has a smaller mean square error, for any linear functional of the state.

### C47 — Gaussian noise: best possible estimate

*Property.* If moreover initial error and noises are jointly Gaussian, the filtered mean is the conditional expectation of x_k given z_0..z_k, and no measurable function of the observations has smaller mean square error (README: 'the filter will output the best possible estimate').

*Model and proof.* Uncorrelated jointly Gaussian variables are independent; conditional expectation. *Limits.* Gaussian noises on an arbitrary probability space; existence of one is shown in `Test/GaussianSpace.lean`.

- `KK.C47_best_estimate` (Props/Stochastic.lean): C47: if moreover the noises are jointly Gaussian, the returned mean of step `k` is the conditional expectation of the state given the observations up to step `k`, its error is independent of them, and no measurable function of them has a smaller mean square error, for any linear functional of the state.

### C48 — Smoother: true error covariance and optimality

*Property.* Under the hypotheses of the two previous properties the smoothed mean is unbiased, its error covariance is exactly the returned smoothed covariance, and it is the best affine (for Gaussian noise: best measurable) estimate given all observations.

*Model and proof.* Backward orthogonality invariant.

- `KK.C48_smoother` (Props/Stochastic.lean): C48: the smoothed means are unbiased estimates, the smoothed covariances are exactly their error covariances, and each is the best affine estimate given *all* observations; for jointly Gaussian noise it is the conditional expectation given all observations, and the best of all measurable estimates.

### C49 — Monotonicity in the noise specification

*Property.* Increasing Pk, any Q or any R in the Loewner order never decreases any returned filtered covariance.

*Model and proof.* Riccati monotonicity through optimality of the gain (C30).

- `KK.C49_monotone` (Props/Monotone.lean): C49: take two calls of `filter` on models with the same `A`, `H` (data and controls may differ) where the second has larger initial covariance, process noise and measurement noise in the Loewner order (any of them may be equal). Both return, and at every step the second covariance is above the first in the Loewner order; in particular every directional variance and the trace do not decrease.

### C50 — EKF covariance soundness for arbitrary callbacks

*Property.* Whatever f, h, jacobian_A and jacobian_H return (well-shaped), with PSD Pk and Q and PD R, ExtendedKalmanFilter.filter returns and all covariances are symmetric PSD; update never increases the covariance.

*Model and proof.* The linear algebra of C26-C28, C42 applied along the linearisation chosen by the callbacks.

- `KK.C50_ekf_psd` (Props/ExtExact.lean): C50 (filter): whatever the callbacks compute, PSD initial covariance and process noise and PD measurement noise make `filter` return, and every returned covariance is symmetric positive semidefinite.
- `KK.C50_update_reduces` (Props/ExtExact.lean): C50 (update): whatever the callbacks compute, for PSD prior and PD measurement noise `update` returns a PSD covariance below the prior in the Loewner order.
- `KK.C50_smooth_le` (Props/ExtExact.lean): C50 (smooth): PD initial covariance, process and measurement noise: whatever the callbacks compute, `filter` and `smooth` return, and at every time the smoothed covariance is positive definite and below the filtered one.

### C51 — EKF computes the extended recursion at the right linearisation points

*Property.* ExtendedKalmanFilter.filter evaluates f and jacobian_A at the previous posterior mean and h and jacobian_H at the predicted mean, and returns exactly the textbook EKF recursion; smooth linearises f at the filtered mean with the control of step k+1.

*Model and proof.* Refinement to a typed EKF recursion. *Limits.* callbacks pure and total on the visited states.

- `KK.C51_filter_textbook` (Props/ExtExact.lean): C51 (filter): if every innovation covariance is invertible, `ExtendedKalmanFilter.filter` returns exactly the textbook extended recursion (`Spec/ExtTextbook.lean`: `f`, `jacobian_A` at the previous posterior mean, `h`, `jacobian_H` at the predicted mean), followed by the zero rows of C02, and appends exactly its gains.
- `KK.C51_filter_linalgerror` (Props/ExtExact.lean): C51 (singular innovation covariance): `filter` returns iff every innovation covariance is invertible; if step `k` is the first singular one it raises LinAlgError after recording exactly the first `k` gains.
- `KK.C51_smooth_textbook` (Props/ExtExact.lean): C51 (smooth): on full-length non-empty data `ExtendedKalmanFilter.smooth` returns exactly the extended RTS recursion, linearised at the filtered means with the control of the following step; it raises LinAlgError iff an innovation covariance or a predicted covariance of the backward pass is singular.
- `KK.C51_predict` (Props/ExtExact.lean): C51 (single `predict`): mean `f(x, u)`, covariance `J P J' + Q` with `J = jacobian_A(x, u)`.
- `KK.C51_update` (Props/ExtExact.lean): C51 (single `update`): `J = jacobian_H(x)`, `K = P J' (J P J' + R)⁻¹`, mean `x + K (z - h(x))`, covariance `(I - K J) P`, one gain recorded; LinAlgError and no gain if `J P J' + R` is singular.

### C52 — EKF with U=None hands NaN controls to the callbacks

*Property.* With U=None and float Z the EKF calls f and jacobian_A with an all-NaN array shaped like z_k, so a control-dependent f (e.g. A x + B u) yields NaN states, unlike KalmanFilter; callbacks that ignore u are unaffected: any U of sufficient length gives the same result.

*Model and proof.* Evaluation of what the callbacks receive.

- `KK.C52_none_is_nan` (Props/Control.lean): C52: `U=None` is the same as passing a control array of NaN rows shaped like the observations.
- `KK.C52_ignores_control` (Props/Control.lean): C52: callbacks that ignore `u` give the same filter and smoother results for every control sequence that is long enough (including `None`).
- `KK.C52_control_dependent` (Props/Control.lean): C52: if `f` turns an all-NaN control into an all-NaN prediction (as `A x + B u` does), then with `U=None` and float observations every state returned for a processed step is NaN, although the standard filter ignores the control in that situation.

### C53 — Scalar noise entries broadcast to a full matrix

*Property.* A scalar R_k (or Q_k) with m (n) >= 2 acts as the matrix with that value in EVERY entry, not on the diagonal: the run equals the run with the all-entries-equal matrix and differs in general from the run with scalar times identity.

*Model and proof.* Broadcasting lemma; a counterexample.

- `KK.C53_scalar_noise_is_full_matrix` (Props/ScalarNoise.lean): C53. On a well-shaped run a scalar `Q_k` or `R_k` means the matrix with that value in EVERY entry: `filter` with the scalars replaced by those matrices gives the same result (value or exception) and records the same gains.
- `KK.C53_smooth_scalar_noise_is_full_matrix` (Props/ScalarNoise.lean): C53 for `smooth` (every sequence at least as long as `Z`).
- `KK.C53_ekf_scalar_noise_is_full_matrix` (Props/ScalarNoise.lean): C53 for the extended filter and smoother, whatever the (well-shaped) callbacks are.
- `KK.C53_duplicated_sensor_raises` (Props/ScalarNoise.lean): C53: with a scalar `R_k` and two sensors whose rows of `H_k` coincide (a duplicated sensor), the innovation covariance has two equal rows: `filter` raises LinAlgError, whatever the value of the scalar.
- `KK.C53_scalar_is_not_identity` (Props/ScalarNoise.lean): C53: a scalar variance is NOT "that variance for each sensor". There is a run with two sensors, `R_k` the scalar `1`, whose returned covariance is `0` (full confidence), while with `R_k` the identity matrix the returned covariance is `1/2`.

### C54 — Moving-average use: convergence to a steady state

*Property.* For A=H=1, Q=q>0, R=r>0 the covariances and gains converge to the positive root of the Riccati equation whatever P0 >= 0 is, and the influence of the initial mean decays to zero.

*Model and proof.* Scalar Riccati contraction, limits.

- `KK.C54_steady_state` (Props/MovingAverage.lean): C54: in the moving-average set-up with `q, r > 0` there are a positive root `P∞` of the Riccati equation `P∞ = (P∞ + q) r / (P∞ + q + r)` and a rate `ρ < 1` such that, for every initial mean, every initial variance `p >= 0` and every data array, the variance of step `k` is within `ρ^(2(k+1)) |p - P∞|` of `P∞`, the gain of step `k` within the same distance (over `r`) of `P∞ / r`, and runs on the same data from two initial means differ at step `k` by at most `ρ^(k+1)` times the initial difference.

### C55 — Pendulum examples work on any data

*Property.* For every DT>0, noise scale, initial state and any observations, the pendulum filters of examples/pendulum.py and examples/pendulum_smoothing.py are constructed, filter and smooth return, smoothed covariances are positive definite and below the filtered ones; jacobian_A and jacobian_H are the true derivatives of f and h.

*Model and proof.* Model matrices of the example, PSD facts by explicit factorisation. *Limits.* plotting and random data not modelled.

- `KK.C55_pendulum` (Props/Examples.lean): C55 (runs): both pendulum examples, for every time step `DT > 0`, gravity, noise scale and variance, initial state and *any* observations (any length, any dtype, at least one), construct their filter, and `filter` and `smooth` return one state and one covariance per observation; every smoothed covariance is positive definite and below the filtered one.
- `KK.C55_pendulum_jacobians` (Props/Examples.lean): C55 (Jacobians): on every state vector the four callbacks return arrays; `jacobian_A` and `jacobian_H` return the derivatives of the functions computed by `f` and `h`.

### C56 — Constant-velocity example works on any data

*Property.* For every DT, acceleration deviation, observation deviation and any observations, the filter of examples/constant_velocity_smoothing.py is constructed, filter and smooth return and all covariances are positive definite, smoothed below filtered, although transition_covariance is singular.

*Model and proof.* As C55. *Limits.* as C55.

- `KK.C56_constant_velocity` (Props/Examples.lean): C56: the constant-velocity example, for every `DT`, acceleration deviation, observation deviation `≠ 0`, initial variance `p > 0` and *any* observations (at least one, any dtype): the filter is constructed, `filter` and `smooth` return, every filtered and smoothed covariance is positive definite, and the smoothed one is below the filtered one - although the process noise `transition_covariance` is singular.

### C57 — Market-beta example works on any data

*Property.* For any two price series of equal length the filter of examples/market_beta.py is constructed from its integer initial state, filter returns one estimate per day and every covariance is positive definite.

*Model and proof.* As C55. *Limits.* as C55.

- `KK.C57_market_beta` (Props/Examples.lean): C57: the market-beta example, for *any* two price series of equal length: the filter is constructed (from an integer initial state), `filter` returns one estimate `(beta, alpha)` per day and every covariance is positive definite.

### C58 — A wrong initial mean never gains weight

*Property.* Two filter runs on the same model and data that start from different initial means (same positive definite covariance) return the same covariances and gains, and the squared distance of their estimates, measured in the reported covariance, never increases from one step to any later one.

*Model and proof.* The information-weighted distance contracts under update (C31) and does not grow under prediction.

- `KK.C58_contraction` (Props/Stability.lean): C58: two runs on the same model and data that start from different initial means, with PD initial covariance and measurement noise, PSD process noise, and at each step an invertible transition or PD process noise. Both return, with the same covariances and gains, and the squared distance of the two estimates, measured in the reported covariance (`d' P⁻¹ d`), never increases: neither from the initial to the first, nor between any two later estimates.

### C59 — Constant models converge to a steady state

*Property.* With constant A, H, Q, R the returned covariances are monotone (Loewner) once the first step goes up or down, stay on one side of any steady state, and converge to a steady state of the Riccati equation, at a rate that does not depend on the data; increasing sequences converge whenever some fixed gain keeps the error bounded.

*Model and proof.* Monotone bounded sequences of PSD matrices converge; Riccati map is monotone and continuous. *Limits.* the bound comes from a hypothesis on a fixed stabilising gain.

- `KK.C59_monotone` (Props/Riccati.lean): C59, monotonicity: constant model with PSD `Pk` and `Q` and PD `R`. `filter` returns a covariance for every step. If the covariance of the first step is above (below) the initial one in the Loewner order, the covariances never decrease (never increase) from step to step; and if `F` is a PSD steady state above (below) the initial covariance, it stays above (below) every returned one.
- `KK.C59_converges` (Props/Riccati.lean): C59, convergence: if the first step does not increase the covariance `P`, or if it does not decrease it and some fixed gain `L` (not nec. the filter's) keeps the error covariance below some bound `G` above `P`, then there is a PSD steady state `F` such that the covariances returned by any run of the constant model from `P`, whatever the data, controls and initial mean, come and stay arbitrarily close to `F`.

### C60 — Calls from several threads do not disturb each other

*Property.* Any number of threads, each making any sequence of predict/update/filter/smooth calls on one shared filter object, interleaved between any two accesses to the object: every finished thread got for each call exactly what it would have got alone, no attribute other than kalman_gains changes, kalman_gains grows by an order-preserving interleaving of what each thread records alone, and no call ever waits for another.

*Model and proof.* Every access to the shared object is a scheduling point; invariant over all schedules: the object differs from the initial one only by appended gains; refinement of each thread to its solo run.

- `KK.C60_threads` (Props/Threads.lean): C60: any number of threads, each making a sequence of calls with arbitrary arguments on one shared `KalmanFilter`, under an arbitrary schedule. All attributes other than `kalman_gains` are untouched. `kalman_gains` has grown by a list `log` in which the entries of each thread form an initial part of what the thread would have recorded alone, in the same order. A thread that has finished got, for each of its calls, exactly what it would have got alone, and all its gains are there.
- `KK.C60_threads_ext` (Props/Threads.lean): C60 for `ExtendedKalmanFilter`.
- `KK.C60_progress` (Props/Threads.lean): C60, progress: no call ever waits for another. Each thread needs a number of accesses that does not depend on the schedule; any schedule that gives it so many finishes it.
- `KK.C60_progress_ext` (Props/Threads.lean): 

### C61 — A call stopped at any point leaves the object usable

*Property.* If a call is stopped between any two accesses to the object (asynchronous exception, killed thread), the object is unchanged except that an initial part of the gains of the complete call has been appended to kalman_gains, and every later call returns what it would have returned anyway.

*Model and proof.* A stopped call is a prefix of the accesses; same invariant.

- `KK.C61_stopped` (Props/Threads.lean): C61: a call stopped at an arbitrary point leaves the object as it was, except that an initial part of the gains the complete call would have recorded is in `kalman_gains`; and whatever is called afterwards returns what it would have returned without the stopped call.
- `KK.C61_stopped_ext` (Props/Threads.lean): C61 for `ExtendedKalmanFilter`.

### C62 — Calls never write into the caller's arrays

*Property.* KalmanFilter(...), predict, update, filter and smooth change no array that existed before the call - not the data Z, not the controls U, not A, B, H, Q, R, xk, Pk, not arrays returned by earlier calls - whether they return or raise; the only attribute they change is kalman_gains, and they only append to it.

*Model and proof.* Heap model, any backend. Hoare-style triple for every primitive: cells below the initial length are unchanged; composed through bind and loops. *Limits.* KalmanFilter; the extended class is in C78.

- `KK.C62_filter_writes_nothing_old` (Props/Heap.lean): C62 for `filter`.
- `KK.C62_smooth_writes_nothing_old` (Props/Heap.lean): C62 for `smooth`.
- `KK.C62_predict_writes_nothing_old` (Props/Heap.lean): C62 for `predict`.
- `KK.C62_update_writes_nothing_old` (Props/Heap.lean): C62 for `update`.
- `KK.C62_new_writes_nothing_old` (Props/Heap.lean): C62 for the constructor: it changes no existing array.

### C63 — Results are freshly allocated

*Property.* The two arrays filter and smooth return are new, different from each other, share no memory with arguments, attributes, earlier results or recorded gains, and hold what the recursion on values gives; new gains are in new memory too; predict and update also return new arrays, even if arguments share memory.

*Model and proof.* Heap model, any backend. Simulation between heap and value programs with a frame: reads see the value model's arrays because only the two result buffers are written; recorded gains are allocated in increasing order, hence pairwise disjoint. *Limits.* KalmanFilter; the extended class is in C79.

- `KK.C63_filter_returns_new_arrays` (Props/Heap.lean): C63 for `filter`.
- `KK.C63_smooth_returns_new_arrays` (Props/Heap.lean): C63 for `smooth`.
- `KK.C63_predict_returns_new_arrays` (Props/Heap.lean): C63 for `predict`: both results are new arrays with the values of `predict`, also when arguments share memory.
- `KK.C63_update_returns_new_arrays` (Props/Heap.lean): C63 for `update`: both results are new arrays with the values of `update`.

### C64 — Overwriting results does not disturb the filter

*Property.* After any sequence of calls, allocations and in-place writes into arrays other than the constructor arguments and the object's own B and identity (in particular into returned states, covariances and recorded gains), filter and smooth return what they would have returned on the untouched object, and arrays the user kept still hold their values.

*Model and proof.* C62 as an invariant of arbitrary histories, then C63. *Limits.* KalmanFilter; the extended class is in C80.

- `KK.C64_filter_after_scribbles` (Props/Heap.lean): C64: let the object hold the values `kf` in arrays numbered below `n`. Whatever calls follow, and whatever is written into arrays numbered `n` or later - in particular into arrays returned by earlier calls and into recorded gains - a later `filter` returns what `filter` on the values `kf` returns.
- `KK.C64_smooth_after_scribbles` (Props/Heap.lean): C64 for `smooth`.
- `KK.C64_old_arrays_intact` (Props/Heap.lean): C64: arrays numbered below `n` - arguments the user keeps - still hold their values after any such history.

### C65 — Constructor arguments are held by reference

*Property.* The constructor stores the caller's arrays without copying: if they are changed in place afterwards (same dtype and shape), every later call behaves as that of an object constructed from the new values.

*Model and proof.* Evaluation of the constructor on the heap; in-place writes keep dtype and shape, so the sentinel and the identity stay right. *Limits.* KalmanFilter; the extended class is in C81.

- `KK.C65_constructor_keeps_references` (Props/Heap.lean): C65: the constructor raises exactly when it does on values; otherwise the new object holds the caller's own arrays, not copies, and the arrays it makes itself (the sentinel for `B=None`, the identity) are new.
- `KK.C65_in_place_change_is_seen` (Props/Heap.lean): C65: in-place changes to the caller's arrays after construction act on the object. Suppose the construction returned the object `o`, then the memory changed to `h'`: arrays that existed before the construction may hold new values of the same dtype and shape, the two arrays the constructor made are as they were. Then `o` holds exactly the values of an object constructed from the new values.

### C66 — Predictions are calibrated and optimal

*Property.* If the system follows the model with zero-mean square-integrable uncorrelated noises of covariances Pk, Q, R, then the one-step predictions A x + B u of the state and H (A x + B u) of the observation, formed from the mean returned for the previous step (the initial mean for the first), are unbiased, their error covariances are A P A' + Q and H (A P A' + Q) H' + R with the covariance returned for that step, and no affine function of the earlier observations (for Gaussian noise: no measurable function) has a smaller mean square error.

*Model and proof.* The orthogonality invariant of C45 before the update: predictions are good estimates with respect to the earlier data.

- `KK.C66_predictions` (Props/Innovation.lean): C66: the prediction `A x + B u` of the next state, and the prediction `H (A x + B u)` of the next observation, made from the mean returned for the previous step (the initial mean for the first one), are unbiased; the covariances of their errors are `A P A' + Q` and `H (A P A' + Q) H' + R` with the covariance returned for that step; no affine function of the earlier observations predicts better, and for jointly Gaussian noise no measurable one.

### C67 — Innovations are white

*Property.* Under the same hypotheses the innovations (each observation minus its prediction from the mean returned for the previous step) have zero mean, covariance S = H (A P A' + Q) H' + R which is invertible, are uncorrelated between steps, and r' S^-1 r has expectation m; for Gaussian noise each is independent of all earlier observations and innovations. (The basis of every consistency test of a filter.)

*Model and proof.* Innovations lie in the span of the data up to their step and are orthogonal to the span before it; trace identity for the normalised square; Gaussian independence as in C47.

- `KK.C67_white_innovations` (Props/Innovation.lean): C67: the innovations (each observation minus its prediction from the mean returned for the previous step) are a white sequence: zero mean, covariance `S = H (A P A' + Q) H' + R`, uncorrelated at different steps; `S` is invertible and the normalised innovation squared `r' S⁻¹ r` is `m` on average. For jointly Gaussian noise each innovation is independent of all earlier observations, and of all earlier innovations.

### C68 — Estimates are unbiased whatever the noise covariances

*Property.* If the noises have zero mean and the system follows A, B, H and the initial mean, every mean returned by filter and by smooth is an unbiased estimate of the true state, whatever the covariances, correlations and distributions of the noises and whatever Pk, Q, R the filter was told.

*Model and proof.* Errors are linear in the noises with fixed coefficients: they stay in the subspace of integrable zero-mean functions.

- `KK.C68_unbiased` (Props/Robust.lean): C68: whatever the covariances, correlations and distribution of the noise, and whatever `Pk`, `Q`, `R` the filter was told (even if they have nothing to do with the noise), every mean returned by `filter` is an unbiased estimate of the true state, as soon as the noises have zero mean and the system follows `A`, `B`, `H` and the initial mean.
- `KK.C68_unbiased_smooth` (Props/Robust.lean): C68 (smoother): the same for the means returned by `smooth`.

### C69 — Overestimating the noise is safe

*Property.* If the noises are uncorrelated and at most as large as Pk, Q, R say (in every direction), the covariances returned by filter and by smooth are conservative: the mean square error of every linear functional of the state is at most what the returned covariance says.

*Model and proof.* The recursion is run in the space of coefficients of the noise sources with the bilinear form of the told covariances (an instance of the invariant of C45, C48), then evaluated at the true noises, whose second moments are smaller source by source. *Limits.* told covariances symmetric.

- `KK.C69_conservative` (Props/Robust.lean): C69: if the noises are uncorrelated and *at most* as large as `Pk`, `Q`, `R` say, every covariance returned by `filter` is conservative: the mean square error of any linear functional of the state is at most what the returned covariance says.
- `KK.C69_conservative_smooth` (Props/Robust.lean): C69 (smoother): the same for the covariances returned by `smooth`.

### C70 — The version of a tagged checkout

*Property.* In a git checkout whose nearest release tag is vREL (possibly with hyphens), NUM commits back, get_versions() reports version REL if NUM=0 and the tree is clean, otherwise REL+NUM.gHASH[.dirty] (with '.' instead of '+' if REL already contains '+'), the full commit, the dirty flag, no error, and the commit date as ISO-8601.

*Model and proof.* Model of the string methods, the regular expression (greedy backtracking) and the commands; the describe output is parsed back because no suffix of NUM-gHASH matches the tail of the expression. *Limits.* Unicode decimal digits enter through the laws of class Unicode (ASCII digits are decimal, ASCII letters and the hyphen are not); posix paths.

- `KK.Version.C70_tagged_checkout` (Props/Version.lean): **C70.** In a git checkout whose nearest release tag is `vREL`, `get_versions()` reports `REL` exactly if the tree is clean at the tag and otherwise `REL+NUM.gHASH[.dirty]` (with `.` for `+` if the tag already has a local part), together with the commit, the dirty flag and the commit date in ISO-8601 form.

### C71 — Equal versions mean equal builds

*Property.* If two tagged checkouts report the same version (tags without '+'), they have the same release tag, the same number of commits since, the same dirty flag and, unless clean at the tag, the same abbreviated commit.

*Model and proof.* C70 and unique decomposition at the first +, dot, and end of the hash. *Limits.* tags without + (counterexample beside the theorem).

- `KK.Version.C71_version_identifies_build` (Props/Version.lean): **C71.** Two checkouts that report the same version (release tags without `+`) have the same release tag, the same number of commits since, the same dirty flag and, unless they are clean at the tag, the same abbreviated commit.

### C72 — The version of an untagged checkout

*Property.* In a git checkout without release tag, get_versions() reports 0+untagged.N.gHEX[.dirty] with N the number of commits and HEX the first seven digits of the commit, together with commit, dirty flag and date.

*Model and proof.* As C70.

- `KK.Version.C72_untagged_checkout` (Props/Version.lean): **C72.** In a git checkout without release tag, `get_versions()` reports `0+untagged.N.gHEX[.dirty]` with the number `N` of commits and the first seven digits of the commit.

### C73 — The version is valid under PEP 440

*Property.* If the release tag is v followed by a valid PEP 440 version (with epoch, pre-, post-, dev-release and local label or not), the reported version is valid, in every state of the checkout; so is that of an untagged checkout. The text 'unknown' reported for unparsable describe output is not valid.

*Model and proof.* C70, C72 and closure of local labels under dot-joining; the grammar of public versions is written out in Spec/Version.

- `KK.Version.C73_pep440` (Props/Version.lean): **C73.** If the release tag is a valid PEP 440 version (with or without local label), so is the reported version, however many commits and changes there are since.
- `KK.Version.C73_unknown_is_invalid` (Props/Version.lean): Not everything is a version: the text reported when the output of `git describe` cannot be parsed is not.
- `KK.Version.C73_pep440_untagged` (Props/Version.lean): **C73** without a release tag.

### C74 — Importing the package does not fail because of git

*Property.* Whatever git does (not installed, not executable, failing at any of the commands, unparsable output), import kalmankit yields a version string, provided git prints valid UTF-8 and git rev-list and git show work (and print something) wherever git rev-parse --git-dir works. The proviso is needed: with a failing git show the import raises AttributeError.

*Model and proof.* Case analysis of every command outcome; each exception other than NotThisMethod is excluded by a hypothesis. *Limits.* decoding errors and failing git show / rev-list are excluded by hypothesis (the second theorem shows the exception).

- `KK.Version.C74_import_succeeds` (Props/Version.lean): **C74.** Whatever state git is in (not installed, not a repository, failing commands, unparsable output), importing the package yields a version string, provided the output of git is valid UTF-8, and `git rev-list` and `git show` work (and print a date) wherever `git rev-parse --git-dir` works, and the keywords in the file are not damaged.
- `KK.Version.C74_git_show_fails` (Props/Version.lean): **C74**, the proviso is needed: in an otherwise healthy tagged checkout where `git show` fails, the import raises `AttributeError`.

### C75 — The version outside of a checkout

*Property.* Without usable git and without expanded keywords the version is the one in the name kalmankit-VERSION of the root directory, else of its parent, else of its grandparent; otherwise it is 0+unknown with an error message.

*Model and proof.* Path lemmas for dirname and basename, then the loop. *Limits.* paths with at least three directories above src.

- `KK.Version.C75_outside_checkout` (Props/Version.lean): **C75.** Outside of a git checkout (git missing, failing, or not a repository) and without expanded keywords, the version is the one in the name `kalmankit-VERSION` of the root directory or, failing that, of its parent or grandparent; if none has such a name it is `0+unknown` with an error message. There is no commit or date.

### C76 — The version of an archive

*Property.* In an archive made by git archive the version is determined by the ref names alone: the least (as a string) VERSION such that vVERSION is among the tags of the commit (among all ref names if no tag is marked) and starts with a digit, with the commit and its date; 0+unknown with the commit if there is none. Git is not consulted.

*Model and proof.* Splitting and stripping of the decoration gives back the ref names; sorted order and minimality give the first usable tag. *Limits.* ref names without comma and parentheses.

- `KK.Version.C76_archive` (Props/VersionArchive.lean): **C76.** In an archive made by `git archive` the version does not depend on git or on the directory: it is the least (in the order of strings) `VERSION` such that `vVERSION` is among the tags of the commit (or among all its ref names, if no tag is marked) and starts with a digit, reported with commit and date and as not dirty.
- `KK.Version.C76_archive_unknown` (Props/VersionArchive.lean): **C76** if there is no such tag: `0+unknown`, but the commit is reported.

### C77 — Styles agree on releases and round-trip

*Property.* A clean tree exactly at a release tag has the tag as its version in every documented style except git-describe-long, on every branch; git-describe-long gives back the text git describe printed, without the prefix of the tag.

*Model and proof.* Computation for each style; round trip from C70.

- `KK.Version.C77_release_in_every_style` (Props/VersionArchive.lean): **C77.** A clean tree exactly at a release tag has the tag as its version in every documented style (except `git-describe-long`), on every branch.
- `KK.Version.C77_describe_round_trip` (Props/VersionArchive.lean): **C77.** The style `git-describe-long` gives back what `git describe` printed, without the prefix of the tag.

### C78 — The extended filter never writes into the caller's arrays

*Property.* ExtendedKalmanFilter(...), predict, update, filter and smooth change no array that existed before the call, except arrays the user's callbacks write themselves - whether they return or raise, also if a callback raises; the only attribute they change is kalman_gains, and they only append to it, in new memory.

*Model and proof.* Heap model with callbacks as arbitrary programs on the memory; Hoare-style triple as in C62 relative to the set of arrays the callbacks write. *Limits.* callbacks see the memory, not the filter object.

- `KK.C78_filter_writes_only_scratch` (Props/HeapExt.lean): C78 for `filter`.
- `KK.C78_smooth_writes_only_scratch` (Props/HeapExt.lean): C78 for `smooth`.
- `KK.C78_update_writes_only_scratch` (Props/HeapExt.lean): C78 for `update`.
- `KK.C78_predict_writes_only_scratch` (Props/HeapExt.lean): C78 for `predict`, which moreover records no gain.
- `KK.C78_new_writes_nothing_old` (Props/HeapExt.lean): C78 for the constructor: it changes no existing array, and calls no callback.

### C79 — Callbacks may return new, captured or scratch arrays or their argument

*Property.* If each callback computes a function of the values of its arguments and writes nothing but scratch arrays of its own (it may return a new array, its argument, a captured constant array or one of its scratch arrays), then filter, smooth and update return what the recursion on values gives, in new arrays that share no memory with each other, older arrays or recorded gains; the gains are in distinct new arrays. predict returns a new covariance and the array f returned. Callbacks that change their argument in place, or two callbacks that share a scratch array, give wrong results (examples).

*Model and proof.* Simulation between heap and value programs as in C63, with the scratch arrays as a further frame set; disjointness of the scratch sets keeps values alive between callbacks. *Limits.* callbacks must be functions of values; the examples show what goes wrong otherwise.

- `KK.C79_filter_returns_new_arrays` (Props/HeapExt.lean): C79 for `filter`.
- `KK.C79_smooth_returns_new_arrays` (Props/HeapExt.lean): C79 for `smooth`.
- `KK.C79_predict_values` (Props/HeapExt.lean): C79 for `predict`: the predicted covariance is a new array; the predicted state is whatever array `f` returned, with the right value, and no scratch array except perhaps one of `f`.
- `KK.C79_update_returns_new_arrays` (Props/HeapExt.lean): C79 for `update`: both results are new arrays with the values of `update`. The state passed may be a scratch array of `f`, as after `predict`.

### C80 — Overwriting results does not disturb the extended filter

*Property.* After any sequence of calls, allocations and in-place writes into arrays other than the constructor arguments, captured constants and the identity of the object (in particular into returned arrays, recorded gains and scratch arrays of callbacks), filter and smooth return what they would have returned on the untouched object.

*Model and proof.* C78 as an invariant of arbitrary histories, then C79.

- `KK.C80_filter_after_scribbles` (Props/HeapExt.lean): C80: let the object hold the values `kf` in arrays numbered below `n`. Whatever calls follow, and whatever is written into scratch arrays and into arrays numbered `n` or later - in particular into arrays returned by earlier calls and into recorded gains - a later `filter` returns what `filter` on the values `kf` returns.
- `KK.C80_smooth_after_scribbles` (Props/HeapExt.lean): C80 for `smooth`.
- `KK.C80_old_arrays_intact` (Props/HeapExt.lean): C80: arrays numbered below `n` that are no scratch arrays - arguments and captured constants the user keeps - still hold their values after any such history, whatever the callbacks compute.

### C81 — The extended filter holds constructor arguments by reference

*Property.* ExtendedKalmanFilter(...) stores the caller's arrays and callbacks without copying and calls no callback: if the arrays are changed in place afterwards (xk keeping its shape), every later call behaves as that of an object constructed from the new values.

*Model and proof.* Evaluation of the constructor on the heap.

- `KK.C81_constructor_keeps_references` (Props/HeapExt.lean): C81: the constructor raises exactly when it does on values; otherwise the new object holds the caller's own arrays, not copies, the caller's own callbacks, and a new identity.
- `KK.C81_in_place_change_is_seen` (Props/HeapExt.lean): C81: in-place changes to the caller's arrays after construction act on the object. Suppose the construction returned the object `o`, then the memory changed to `h'`: arrays that existed before the construction may hold new values (the state of the same shape), the identity the constructor made is as it was. Then `o` holds exactly the values of an object constructed from the new values.

### C82 — Global convergence to the steady state

*Property.* For a constant model with PSD Q and PD R that is observable through H and controllable by Q, the covariance recursion has exactly one PSD steady state F, which is PD; from every PSD initial covariance (singular or arbitrarily large) and for all data and controls, filter returns, and from the n-th step on the covariances and the recorded gains are within C rho^k of F and the steady-state gain, with C and rho < 1 that depend on the model only.

*Model and proof.* Upper bound: a deadbeat observer built from observability makes the error independent of the initial one after n steps, and the filter is at least as good. Lower bound: zero variance after n steps in a direction contradicts controllability. The ratio of two covariances then contracts over n steps (comparison with the other run's gains), which gives uniqueness and the uniform rate; existence by monotone iteration from zero. *Limits.* constant models; observability and controllability in n steps (not the weaker detectability / stabilisability).

- `KK.C82_convergence` (Props/Convergence.lean): C82: a constant model with PSD `Q` and PD `R`, observable through `H` and controllable by `Q`. There is exactly one PSD steady state `F` of the covariance recursion, and it is PD. For every initial state (any PSD covariance, singular or huge), any data and any controls, `filter` returns, and from the `n`-th step on the returned covariances and the recorded gains are within `C ρ^k` of `F` and of the steady-state gain `(A F A' + Q) H' (H (A F A' + Q) H' + R)⁻¹`, where `C` and `ρ < 1` depend on the model only.

### C83 — Initial means are forgotten at a uniform rate

*Property.* For such a model, two runs with the same initial covariance and data but different initial means: from the n-th step on the difference of the estimates after step k is at most C rho^(k-j) times that after step j, with C and rho < 1 that depend on the model only.

*Model and proof.* The propagator of the error contracts by a fixed factor over n steps in the metric of the reported covariance, which is uniformly equivalent to the maximum norm. *Limits.* as C82.

- `KK.C83_forgetting` (Props/Forgetting.lean): C83: a constant model with PSD `Q` and PD `R`, observable and controllable. Two runs with the same (arbitrary PSD) initial covariance and the same data, but different initial means. From the `n`-th step on the difference between the two estimates decays geometrically: if all components differ by at most `r` after step `j`, they differ by at most `C ρ^(k-j) r` after step `k`, where `C` and `ρ < 1` depend on the model only - not on the data, the controls, the initial covariance or the initial means.

### C84 — Bounded data give bounded estimates

*Property.* For such a model, even if the system is unstable: estimates after step k are at most C rho^(k-j) times the estimate after step j plus C times the largest later measurement or control contribution, with C and rho < 1 that depend on the model only.

*Model and proof.* Variation of constants with the geometric decay of C83 and a uniform bound on the gains. *Limits.* as C82.

- `KK.C84_bounded` (Props/Forgetting.lean): C84: a constant model with PSD `Q` and PD `R`, observable and controllable - the system itself may be unstable. If the estimate after step `j` (`j ≥ n`, counting from one) is at most `r` in every component and all later measurements and control contributions are at most `D`, then the estimate after any later step `k` is at most `C ρ^(k-j) r + C D`, where `C` and `ρ < 1` depend on the model only. So bounded data give bounded estimates, however long the run.
- `KK.C84_bounded_start` (Props/Observer.lean): C84 from the first step on: bounded data give bounded estimates, with constants that depend on the model and the initial covariance.

### C85 — The whole initial state is forgotten

*Property.* For such a model, two runs on the same data from entirely different initial means and PSD covariances: the estimates after step k differ by at most C rho^(k-j) (r + D), where r bounds both estimates after step j and D the data after it, with C and rho < 1 that depend on the model only.

*Model and proof.* The difference obeys the recursion of C83 driven by the difference of the gains (geometric, C82) times the innovation (bounded, C84). *Limits.* as C82.

- `KK.C85_initial_state` (Props/Forgetting.lean): C85: a constant model with PSD `Q` and PD `R`, observable and controllable. Two runs on the same data from entirely different initial states - means and PSD covariances. If after step `j` both estimates are at most `r` in every component, and all later measurements and control contributions are at most `D`, then after any later step `k` the two estimates differ by at most `C ρ^(k-j) (r + D)`, where `C` and `ρ < 1` depend on the model only.

### C86 — Rounding and inexact inputs change the results only a little

*Property.* If in exact arithmetic KalmanFilter.filter (or smooth) returns, then for every eps > 0 there is an eta > 0 such that with any arithmetic whose operations are accurate to eta on operands of moderate size, and with parameters, data and controls within eta of the given ones, the call also returns, every state, covariance and recorded gain is within eps of the exact one (so of the textbook filter and RTS smoother), and NaN appears exactly where it appears in exact arithmetic. In exact arithmetic the results are continuous in all inputs.

*Model and proof.* Logical relation: families of programs along a filter converge to the exact program (operation by operation, through bind, loops and the object state); from convergence to epsilon-eta by a sequence of counterexamples. *Limits.* accuracy of the arithmetic is a hypothesis (Accurate), met by a fixed-point arithmetic that rounds every operation; no explicit error bound.

- `KK.C86_filter_consistent` (Props/Approx.lean): **C86** (`filter`). If the exact run returns, then for every `ε` there is an accuracy `η` such that every arithmetic accurate to `η`, on inputs within `η` of the given ones, also returns, with every entry of the states, the covariances and the recorded gains within `ε` of the exact one, and NaN exactly where the exact run has NaN.
- `KK.C86_smooth_consistent` (Props/Approx.lean): **C86** (`smooth`).
- `KK.C86_filter_textbook` (Props/Approx.lean): **C86**, against the textbook recursion: the rows are within `ε` of the textbook means and covariances.
- `KK.C86_smooth_rts` (Props/Approx.lean): **C86**, against the Rauch-Tung-Striebel recursion.
- `KK.C86_filter_continuous` (Props/Approx.lean): **C86**, exact arithmetic: the results depend continuously on the inputs; in particular inputs near ones for which the call returns cannot raise.
- `KK.C86_smooth_continuous` (Props/Approx.lean): **C86**, exact arithmetic, `smooth`.

### C87 — Rounding and inexact callbacks change the extended filter's results only a little

*Property.* If the callbacks of an ExtendedKalmanFilter are continuous where they return and the exact call of filter (or smooth) returns, then with accurate arithmetic, callbacks that compute the given ones accurately and inputs close to the given ones the call returns states, covariances and gains within eps of the exact ones. The pendulum examples meet the hypotheses for all observations.

*Model and proof.* As C86, with callbacks converging continuously. *Limits.* callbacks must be continuous; no explicit error bound.

- `KK.C87_ext_filter_consistent` (Props/Approx.lean): **C87** (`ExtendedKalmanFilter.filter`). If the callbacks are continuous and the exact run returns, then an arithmetic accurate to `η`, callbacks that compute the given ones to accuracy `η` and inputs within `η` give results within `ε`.
- `KK.C87_ext_smooth_consistent` (Props/Approx.lean): **C87** (`ExtendedKalmanFilter.smooth`).
- `KK.C87_pendulum_consistent` (Props/Approx.lean): **C87** (pendulum): both pendulum examples, with any observations, computed in an accurate arithmetic with accurate sine and cosine from accurate inputs, return filtered and smoothed estimates within `ε` of the exact extended filter and smoother.

### C88 — smooth with a parameter sequence shorter than the data

*Property.* If one of A, B, Q or the controls has fewer rows than Z (at least two observations), smooth never returns: it raises what filter raises, or IndexError if filter returns. If only H or R is short, smooth returns without an error: later rows are zero with zero covariance, and the earlier rows are smoothed as if the state after the last measurement had been observed to be exactly zero.

*Model and proof.* First part: any backend, the first iteration of the backward loop indexes row len(Z)-1 of each sequence. Second part: exact evaluation of the backward loop on the zero-padded filter results; a zero covariance has a zero smoother gain.

- `KK.C88_short_sequence` (Props/ShortSmooth.lean): C88: if one of `A`, `B`, `Q` or the controls has fewer rows than there are observations (at least two), `smooth` never returns: it raises what `filter` raises, and IndexError if `filter` returns. The gains of the forward pass stay recorded.
- `KK.C88_ekf_short_sequence` (Props/ShortSmooth.lean): C88 for the extended filter, whose only sequences besides the data are `Q`, `R` and the controls.
- `KK.C88_short_measurements` (Props/ShortSmooth.lean): C88: if only `H` or `R` is too short - measurements end after the steps `ss`, but `A`, `B`, `Q`, `U` and `Z` go on with steps `t :: ts` - then `smooth` returns, without an error, the wrong estimates: the mean of every later row is zero with covariance zero, and the earlier rows are smoothed *from* that, as if the state after the last measurement had been observed to be exactly zero.

### C89 — Independent systems may be filtered together or separately

*Property.* If the model is block diagonal in two groups of states and measurements, filter and smooth on the joint model return exactly the concatenated means, and block-diagonal covariances and gains, of the two separate calls; the joint call raises LinAlgError exactly if one of the separate ones does.

*Model and proof.* Block-diagonal algebra for one step of filter and smoother, induction over the run.

- `KK.C89_filter_subsystems` (Props/Subsystems.lean): C89: two calls that represent systems 1 and 2 over the same number of steps, and a call that represents the joint system. The joint `filter` raises LinAlgError exactly if one of the separate ones does. Otherwise its means are the concatenated means, its covariances and gains are block diagonal with the separate ones as blocks.
- `KK.C89_smooth_subsystems` (Props/Subsystems.lean): C89 for `smooth`.

### C90 — Smoothing adds exactly the information of later measurements

*Property.* With PD initial covariance and measurement noise, PSD process noise and invertible transitions (or PD process noise), at every time the inverse smoothed covariance is the inverse filtered covariance plus the information matrix of the later measurements, and the information vectors add likewise; this information depends only on the later steps, not on the initial belief or earlier data. smooth records the same gains as filter.

*Model and proof.* Backward induction: one RTS step equals adding the information pulled back through the transition (Woodbury-type identity for (1 + W Q)^-1 W, W may be singular). *Limits.* invertible smoothed covariances (PD initial covariance and the conditions of C42).

- `KK.C90_two_filter` (Props/TwoFilter.lean): C90: with PD initial covariance and measurement noise, PSD process noise and at each step an invertible transition or PD process noise, `filter` and `smooth` return and record the same gains, and at every time the smoothed estimate is the filtered one combined with the information `(Y, y)` that the *later* measurements alone contain about that state: inverse covariances add, and so do the inverse covariances applied to the means. `(Y, y)` does not depend on the initial belief nor on the data up to that time.

### C91 — More data never make smoothed estimates less certain

*Property.* Appending any number of further observations to the data never increases (Loewner order) the smoothed covariance of an earlier state, and leaves the filtered estimates of earlier states unchanged.

*Model and proof.* C90 and monotonicity of W -> (1 + W Q)^-1 W. *Limits.* as C90.

- `KK.C91_more_data` (Props/TwoFilter.lean): C91: appending data (any number of further steps, whatever they measure) never increases the smoothed covariance of an earlier state, and does not change its filtered estimate.

### C92 — Better or additional sensors never hurt

*Property.* If two models have the same transitions and at every step the first has no more process noise and measurements with at least the information H' R^-1 H of the second (also with different numbers of measurements), and no larger initial covariance, the filtered and smoothed covariances of the first are below those of the second at every time. In particular dropping sensors, or averaging them, never decreases a covariance.

*Model and proof.* Filter update written as (1 + P Y)^-1 P with Y = H' R^-1 H, monotone in P and Y; backward information by the same map; dropped sensors by a Schur-complement identity. *Limits.* as C90 for the smoother; PD measurement noise.

- `KK.C92_better_sensors_filter` (Props/TwoFilter.lean): C92 (filter): two runs with the same transition matrices, of which the first has at most the initial covariance and process noise of the second and measurements that are at least as informative (their number and kind may differ): the first covariance is below the second at every time.
- `KK.C92_better_sensors_smooth` (Props/TwoFilter.lean): C92 (smoother): the same for the smoothed covariances.
- `KK.C92_fewer_sensors` (Props/TwoFilter.lean): C92 (fewer sensors): using only the combinations `L z` of the measurements - some of the sensors, or averages of them - never gives a smaller covariance, filtered or smoothed, than using all.

### C93 — More noise never yields a smaller smoothed covariance

*Property.* With the same A and H and larger (Loewner) initial covariance, process noise and measurement noise, every smoothed covariance, directional variance and trace is at least as large.

*Model and proof.* C92; the inverse is antitone. *Limits.* as C90.

- `KK.C93_smooth_monotone` (Props/TwoFilter.lean): C93: more noise (initial covariance, process noise, measurement noise) never yields a smaller *smoothed* covariance.

### C94 — Floating-point arithmetic with enough digits gives the textbook results

*Property.* If the exact run returns, then for every tolerance there are a precision and an input accuracy such that on every machine of that precision - every elementary operation rounded with relative error u and underflow error mu, numbers up to M, dot products summed in any order with or without fused multiply-add, linear systems solved by Gaussian elimination with partial pivoting - filter and smooth (both classes; extended with continuous callbacks) return, NaN exactly where the exact run has NaN, and every entry of states, covariances and recorded gains is within the tolerance. In particular for binary arithmetic with enough digits and exponent range.

*Model and proof.* Spec/Float models the rounded operations, summation trees and Gaussian elimination; these are shown Accurate for small u, mu and large M (elimination by an ultrafilter argument: along any sequence of machines the pivot choices are eventually constant, then the Schur complement converges), then C86 and C87. *Limits.* no explicit error bound; infinities are identified with NaN; signed zeros are identified.

- `KK.C94_filter` (Props/Float.lean): C94 (`filter`): if the exact run returns, then for every `ε` there are a precision `δ` and an `η` such that on every machine of that precision, on inputs within `η` of the given ones, `filter` returns, with every entry of the states, the covariances and the recorded gains within `ε` of the exact one, and NaN exactly where the exact run has NaN.
- `KK.C94_smooth` (Props/Float.lean): C94 (`smooth`).
- `KK.C94_ext_filter` (Props/Float.lean): C94 (`ExtendedKalmanFilter.filter`, continuous callbacks; `kf₁` has callbacks that compute those of `kf` within `η`).
- `KK.C94_ext_smooth` (Props/Float.lean): C94 (`ExtendedKalmanFilter.smooth`).
- `KK.C94_binary` (Props/Float.lean): C94 for binary floating point, against the textbook: if the innovation covariances of the model are invertible (and for `smooth` the predicted covariances), then with enough binary digits and exponent range the results of `filter` and `smooth` on inputs within `η` of the model are within `ε` of the Kalman filter and the Rauch-Tung-Striebel smoother.

### C95 — Results do not depend on the coordinates chosen for state and measurement

*Property.* Describe the same (nonlinear or linear) system by the state M x + t and the measurement W z + w with invertible M, W: ExtendedKalmanFilter.filter and smooth (and KalmanFilter's, with the offset a shifted origin gives a linear measurement) raise LinAlgError exactly when they did before; otherwise every mean becomes M x + t, every covariance M P M', every gain M K W^-1.

*Model and proof.* Each coordinate change is a map of steps and beliefs that commutes with prediction, update and smoothing (StepMap) and with linearisation (LinMap); the four changes are composed and the run-level statement follows by induction.

- `KK.C95_ekf_coordinates` (Props/ExtCoord.lean): C95: describe the same nonlinear system by the state `y = M x + t`, `M` invertible, and the measurement `W z + w`, `W` invertible (the callbacks become `M f(M⁻¹ (y - t)) + t`, `W h(M⁻¹ (y - t)) + w` with the corresponding Jacobians; the noise covariances `M Q M'` and `W R W'`): `filter` and `smooth` raise LinAlgError exactly when they did before; otherwise every mean becomes `M x + t`, every covariance `M P M'`, every gain `M K W⁻¹`.
- `KK.C95_kf_coordinates` (Props/ExtCoord.lean): C95 (standard filter): the state `M x + t` and the measurement `W z + W H M⁻¹ t` (the offset a nonzero origin gives the measurement of a linear model).

### C96 — Only ratios of noise covariances matter to the extended filter

*Property.* Multiplying the initial covariance and all process and measurement noise covariances by the same nonzero number leaves all means and gains of ExtendedKalmanFilter.filter and smooth unchanged and multiplies all covariances by it; LinAlgError is raised in the same cases.

*Model and proof.* As C95 with the scaling map.

- `KK.C96_ekf_noise_ratio` (Props/ExtCoord.lean): C96: multiply the initial covariance and all process and measurement noise covariances by `c ≠ 0`: `ExtendedKalmanFilter.filter` and `smooth` raise LinAlgError exactly when they did before; otherwise all means and gains are the same and all covariances are multiplied by `c`.

### C97 — The extended filter tracks noise-free nonlinear trajectories exactly

*Property.* If the true states follow the state transition callback without noise from the given initial mean and every observation is exactly the measurement callback of the true state, every mean returned by ExtendedKalmanFilter.filter and smooth is the true state, whatever the Jacobian callbacks and the covariances are, unless LinAlgError is raised.

*Model and proof.* The linearisation along the run is noise free, so the linear statement of C29 applies.

- `KK.C97_ekf_exact_tracking` (Props/ExtCoord.lean): C97: let the true states follow the nonlinear model `f` without noise from the given initial mean, and let every observation be exactly `h` of the true state. If `filter` (`smooth`) does not raise LinAlgError then every mean it returns is the true state, whatever the Jacobian callbacks, the initial covariance and the noise covariances are.

### C98 — The extended filter is the standard filter on the model linearised along the run

*Property.* ExtendedKalmanFilter.filter and smooth return exactly what KalmanFilter returns on the model linearised at each previous filtered mean and its prediction; in particular for affine callbacks f(x) = A x + c, h(x) = H x + d they return what KalmanFilter returns on the observations z - d.

*Model and proof.* The textbook EKF recursion is the textbook KF recursion on the linearised run (induction); both classes are evaluated by their run theorems.

- `KK.C98_ekf_linearised` (Props/ExtCoord.lean): C98: `ExtendedKalmanFilter` returns what `KalmanFilter` returns on the model linearised along the run: at step `k`, with `x` the previous filtered mean (the initial mean for the first step) and `y = f(x)`, `A = jacobian_A(x)`, control contribution `f(x) - A x`, `H = jacobian_H(y)`, observation `z - h(y) + H y`.
- `KK.C98_ekf_affine` (Props/ExtCoord.lean): C98 (affine models): if `f(x) = A x + c` and `h(x) = H x + d` with the right Jacobians then the extended filter returns what the standard filter returns on the observations `z - d`.

### C99 — Bounded disturbances give bounded estimation errors

*Property.* For a constant observable and controllable model with PSD Q and PD R: whatever the true states are, if disturbances and measurement errors are at most D (no statistics assumed) and the initial estimate is off by at most r, the estimate after step k is off by at most C rho^(k+1) r + C D with C and rho < 1 depending only on the model and the initial covariance; without disturbances the estimates converge to the true state.

*Model and proof.* Variation of constants with the geometric decay of C83 from a fixed initial covariance. *Limits.* as C82.

- `KK.C99_observer` (Props/Observer.lean): C99: a constant model with PSD `Q` and PD `R`, observable and controllable, and an initial covariance `P`. Whatever the true states `x 0, x 1, ...` are, let `w` be the disturbances of the transitions, `x (k+1) = A x k + B u + w k`, and `v` the errors of the measurements, `z = H x (k+1) + v k` - no statistics assumed. If all disturbances and errors are at most `D` and the initial estimate is off by at most `r` then the estimate after step `k` is off by at most `C ρ^(k+1) r + C D`, where `C` and `ρ < 1` depend only on the model and `P`. In particular without disturbances the estimates converge to the true state.
- `KK.C99_converges` (Props/Observer.lean): C99 (no disturbances): from a wrong initial mean the estimates converge to the true states: for every error bound there is a number of steps, which depends only on the model, the initial covariance and the initial error, after which every estimate on noise-free data is within the bound.

### C100 — Gaps without measurements can be merged

*Property.* A run in which groups of steps without measurement (H = 0, invertible R, any z) precede measured steps, and the run in which each group and the measured step after it are one step (composed transition, accumulated offset and process noise): filter raises LinAlgError on both or neither, and the merged run returns exactly the rows of the measured steps of the first run; gains of unmeasured steps are zero. smooth likewise if it does not raise on the first run.

*Model and proof.* An unmeasured update is the identity; predictions and RTS steps compose; induction over gaps. *Limits.* a step without measurement is modelled by H = 0, the only way the API offers.

- `KK.C100_gaps` (Props/Gaps.lean): C100: a run in which groups of steps without measurement (`H = 0`, invertible `R`, any `z`) precede measured steps, and the run in which every such group and the step after it are replaced by one step (`A = A_k ... A_1` and so on). Both raise LinAlgError or both return, and the second returns exactly the rows of the measured steps of the first; the gains of the steps without measurement are zero. The same for `smooth`, if it does not raise LinAlgError on the first run.

### C101 — Steps without measurement give forecasts and change nothing else

*Property.* Appending steps without measurement to a run: filter returns the rows of the run followed by the forecasts x -> A x + B u, P -> A P A' + Q, whatever the observations in the appended rows; smooth returns the smoothed rows of the run followed by the same forecasts.

*Model and proof.* As C100; the RTS step of an unmeasured prediction returns the filtered belief. *Limits.* as C100.

- `KK.C101_forecast` (Props/Gaps.lean): C101: append any number of steps without measurement to a run on non-empty data. `filter` returns the rows of the run and then the forecasts `x ↦ A x + B u`, `P ↦ A P A' + Q`, whatever `z` is in the appended steps; `smooth` returns the smoothed rows of the run and then the same forecasts.

### C102 — Source distributions keep the version

*Property.* If the build (versioneer.get_versions) reports some version information in a source tree, it reports the same in every tree unpacked from a source distribution of it, of a tree unpacked from such a distribution, and so on, whatever the directory is called and whatever git says there; the _version.py written is the same to the byte. Any text whatsoever in the version information survives.

*Model and proof.* json.dumps and json.loads are modelled character by character and shown inverse on all version dictionaries; the written file has no keyword line and its JSON text is found by the regular expression; induction over the chain.

- `KK.Version.C102_sdist` (Props/Build.lean): **C102.** The version information survives the journey through source distributions: if the build reports `v` in the tree `t₀`, it reports `v` in every tree unpacked from a source distribution of `t₀`, of such a tree, and so on, whatever the directory is called and whether or not it lies in some git repository, and the file it writes is the same to the byte.
- `KK.Version.C102_any_text` (Props/Build.lean): Any version information whatsoever can be written and read back, also with quotes, backslashes, line breaks, triple quotes and characters of other alphabets.

### C103 — An installed package reports the version it was built with

*Property.* Importing a package built from a tree yields exactly the version information of the tree, if its strings contain no double quotes, backslashes, control characters, triple quotes or characters beyond the basic plane. In particular, after checking out a commit after a PEP 440 release tag, making source distributions of source distributions, building and installing, kalmankit.__version__ and the metadata are the version the checkout itself reports.

*Model and proof.* As C102 with one more decoding step, the Python string literal, which is the identity on harmless strings. *Limits.* an example shows that a double quote in the tag breaks the import.

- `KK.Version.C103_installed` (Props/Build.lean): **C103.** A package built from a tree with harmless version information reports, once installed, exactly that information.
- `KK.Version.C103_installed_from_checkout` (Props/Build.lean): In words: check out a release tagged `vREL` (or any commit after it), build source distributions, unpack them, build again, install: `kalmankit.__version__` is the version that the checkout itself reports.

### C104 — Build and checkout agree on the version

*Property.* In a tree with the long _version.py (a checkout or an unpacked git archive), versioneer.get_versions, which reads the file as text, and get_versions of the package in it return the same, whatever the keywords, git and the directory say; if one raises an exception so does the other.

*Model and proof.* The keyword lines are found and parsed; then both functions are the same sequence of attempts. *Limits.* the long file is described by its keyword lines (Spec/Build LongFile); that the file in /repo has this form was checked by a script.

- `KK.Version.C104_same_in_checkout` (Props/Build.lean): **C104.** The version computed by the build (`versioneer.py`, reading `_version.py` as text) and the one computed by the package in the same tree (`_version.py`, run from the checkout) are the same, whatever the keywords are and whatever git and the directory say; if one raises, so does the other.

### C105 — Versions grow with the history

*Property.* Of two checkouts after the same release tag the one with more commits since the tag has the newer kalmankit.__version__ in the order of PEP 440, whatever the hashes and whether or not the trees are modified; a modified tree is newer than the clean one at the same commit; every version is the release or newer than it, and older than every later release.

*Model and proof.* The parts of a PEP 440 version and the order of packaging.version are formalised (Spec/Pep440); the text determines the parts; comparison of keys. *Limits.* tags in PEP 440 normal form.

- `KK.Version.C105_newer_with_history` (Props/VersionOrder.lean): **C105.** `kalmankit.__version__` grows with the history: of two checkouts after the same release tag, the one with more commits since the tag has the newer version in the sense of PEP 440 (what `pip install --upgrade` compares), whatever the hashes are and whether or not the trees are modified; and a modified tree is newer than the clean one at the same commit.
- `KK.Version.C105_between_releases` (Props/VersionOrder.lean): **C105.** Every version between two releases: it is the release or newer than it, and older than every later release.
- `KK.Version.C105_text_determines` (Props/VersionOrder.lean): The parts of a version are determined by its text, so that the order is one of the version strings.

### C106 — The other styles have the documented parts and order

*Property.* render with the styles pep440-branch, -pre, -post, -post-branch and -old gives exactly the documented parts, so a valid PEP 440 version; more commits mean a newer version; where documented, branches or modified trees sort before master or the clean tree; -pre after a post-release N announces N + 1 (a bare .post counts as N = 0). Without a tag the version has the documented parts starting with 0.

*Model and proof.* Case analysis on the style against the parts of Spec/Pep440 stylePep; comparison of keys. *Limits.* for tags without post, dev and local parts, except -pre.

- `KK.Version.C106_styles` (Props/VersionOrder.lean): **C106.** The styles `pep440-branch`, `-pre`, `-post`, `-post-branch` and `-old` do what they are documented to do: after a release without local label, post-release and developmental suffix, the version has exactly the documented parts (and hence is valid).
- `KK.Version.C106_untagged` (Props/VersionOrder.lean): **C106.** Without a tag: the version has exactly the documented parts, in these styles and in `pep440`.
- `KK.Version.C106_pre_after_post` (Props/VersionOrder.lean): **C106.** `pep440-pre` after a post-release: the next one is announced.
- `KK.Version.C106_pre_after_bare_post` (Props/VersionOrder.lean): **C106.** A tag that ends in a bare `.post` counts as post-release 0 (PEP 440, implicit post-release number): with commits after it, `pep440-pre` announces post-release 1.
- `KK.Version.C106_styles` (Props/VersionOrder.lean): 
- `KK.Version.C106_newer_with_history` (Props/VersionOrder.lean): **C106.** In the styles `pep440-pre`, `-post`, `-post-branch` and `-old`, more commits since the release mean a newer version, whatever the commits and branches and whether or not the trees are modified; in the style `pep440-branch` this holds on the branch `master`.
- `KK.Version.C106_branch_sorts_backwards` (Props/VersionOrder.lean): **C106.** In the styles `pep440-branch` and `-post-branch` work on another branch appears older than the same work on `master`; in the style `pep440-branch` even older than the release it is based on.
- `KK.Version.C106_dirty_sorts_backwards` (Props/VersionOrder.lean): **C106.** In the styles `pep440-post` and `-old` a modified tree appears older than the clean one at the same commit.

### C107 — The branch reported

*Property.* git_pieces_from_vcs reports the branch that is checked out; if none is, master if it contains the commit, else the first branch listed by git that does, else none.

*Model and proof.* Symbolic evaluation of git_pieces_from_vcs on what git prints.

- `KK.Version.C107_on_branch` (Props/VersionOrder.lean): **C107.** The branch reported (it decides about `.dev0` in two styles, C106) is the one checked out.
- `KK.Version.C107_detached` (Props/VersionOrder.lean): **C107.** If no branch is checked out (e.g. on a build server), the branch reported is `master` if it contains the commit, else the first branch listed by git that does, else none.

### C108 — Rounding errors do not accumulate

*Property.* For a constant observable and controllable model with PSD Q, PD R and PSD initial covariance, and a bound on the entries and dimensions of the arrays: for every tolerance there is one accuracy (in binary floating point, one number of digits) such that on inputs given to that accuracy KalmanFilter.filter returns, without LinAlgError, in runs of any length, and every state, covariance and recorded gain is within the tolerance of the exact Kalman filter.

*Model and proof.* One step of the program in an inexact arithmetic is within any tolerance of the exact step, uniformly over bounded arrays (compactness by ultrafilters, Proofs/Compact and RoundStep); the exact recursion contracts perturbations of the covariance and of the mean (Proofs/RoundStable: C82/C83 started from any covariance near the exact one, blocks of fixed length), so the tolerances of the steps do not add up; induction over the run in RoundRun. *Limits.* as C82; no explicit error bound; infinities as in C94.

- `KK.C108_no_drift` (Props/NoDrift.lean): **C108**. A constant, observable, controllable model with PSD `Q`, PD `R` and PSD initial covariance, and a bound `D` on the entries (and dimensions) of the arrays given to the filter. For every `ε` there is one `η` such that *every* run on such data, however long, in every arithmetic that is accurate to `η`, on inputs within `η` of the model, returns, and every state, covariance and recorded gain is within `ε` of the textbook filter in exact arithmetic.
- `KK.C108_binary` (Props/NoDrift.lean): **C108** in binary floating point: a number of binary digits that suffices for runs of any length.

### C109 — Starting in the steady state, and the fixed-gain observer

*Property.* For a constant model, a filter started with a steady-state covariance F (a fixed point of the covariance recursion) returns F as every covariance, the gain of F as every recorded gain and the estimates of the observer with that fixed gain. For an observable and controllable model with PSD Q, PD R the estimates of KalmanFilter.filter from any PSD initial covariance and those of the fixed-gain observer from any initial estimate approach each other geometrically, with constants that depend on the model only.

*Model and proof.* A fixed point makes the recursion constant (induction); C85 compares any start with the start in the steady state. *Limits.* as C82 for the second part.

- `KK.C109_steady_start` (Props/Steady.lean): C109: a constant model whose initial covariance is a steady state `F` (with invertible innovation covariance). Every returned covariance is `F`, every recorded gain is the same, and the returned means are those of the observer with this fixed gain, which computes no covariances.
- `KK.C109_fixed_gain` (Props/Steady.lean): C109, the filter and the fixed-gain observer: an observable, controllable constant model with PSD `Q` and PD `R` has exactly one PSD steady state; from every initial mean and PSD covariance the means `filter` returns approach those of the observer with the steady gain started anywhere, on the same data: if after step `j` both are at most `r` and the data afterwards at most `D`, they differ by at most `C ρ^(k-j) (r + D)` after step `k`.

### C110 — Nothing is learned about what the observations do not see

*Property.* If the observations never see the directions W (H_k A_k ... A_1 W = 0 at every step) then an initial covariance >= W W' leaves filtered covariances >= (A_k...A_1 W)(A_k...A_1 W)' at every step, and two runs on the same data whose initial means differ by W a have the same gains and covariances and means that differ by exactly A_k...A_1 W a, filtered and smoothed. In particular for an unobservable eigenvector of a constant model the variance never falls below its initial share if the eigenvalue is at least 1 in modulus, and grows without bound if it is greater than 1.

*Model and proof.* In an unseen direction the update removes nothing: the lower bound W W' is carried by predict and preserved by update (monotonicity in the covariance); the shift of the mean is annihilated by H in the innovation; induction over the run. *Limits.* R PD, Q PSD for the covariance part.

- `KK.C110_uncertainty_stays` (Props/Unobservable.lean): C110, the covariances: if the observations never see the directions `W` (`H_k A_k ... A_1 W = 0` for all `k`) and the initial covariance has at least the uncertainty `W W'` in them, then every returned covariance has at least this uncertainty, carried along by the system: `P_k ≥ (A_k ... A_1 W) (A_k ... A_1 W)'`, however many observations are made.
- `KK.C110_offset_stays` (Props/Unobservable.lean): C110, the means: under the same condition two runs on the same data whose initial means differ by `W a` differ by exactly `A_k ... A_1 W a` after step `k` - filtered and smoothed -, and agree in all covariances and gains: the error is never corrected.
- `KK.C110_unobservable_mode` (Props/Unobservable.lean): C110, constant models: a direction `x` of the system with `A x = λ x` and `H x = 0` (so the model is not observable) and an initial covariance `P ≥ c x x'`. Then in every run `P_k ≥ c λ^(2k) x x'` after step `k`. So if `|λ| ≥ 1` the variance of a component `i` in which `x` is not zero never falls below `c x_i²`, however many observations are made, and if `|λ| > 1` it exceeds every bound.

### C111 — Fixed-lag smoothing: old estimates stop changing

*Property.* For a constant observable and controllable model with PSD Q, PD R and PSD initial covariance: if smooth is called on some data and again after further data have arrived, the smoothed covariance of a time k (k >= n) changes by at most C rho^(N-k), N being the end of the first run, and the smoothed estimate by at most C rho^(N-k) times the change of the estimate of time N; also by at most C rho^(N-k) (r + D) if the estimate of some earlier time is at most r and all later data at most D. C and rho < 1 depend on the model only. If one call raises LinAlgError so does the other.

*Model and proof.* The smoother gains telescope: the change of the smoothed belief at k is P_k Phi(N,k)' P_N^-1 times the change at N, Phi the propagator of the filter error, which decays (C83); with bounded data, an adjoint sum over the later innovations and C84. *Limits.* as C82; either both calls raise LinAlgError or both return.

- `KK.C111_fixed_lag` (Props/FixedLag.lean): C111: a constant model with PSD `Q` and PD `R`, observable and controllable; `smooth` is called on the data `ss`, and again when the further data `tt` have arrived. (Either both calls raise LinAlgError, or:) the smoothed belief of a time `k` (`k ≥ n`, counting from one) hardly changes if it lies far from the end of the first run: the covariance changes by at most `C ρ^(N-k)`, and the mean by at most `C ρ^(N-k) r` where `r` bounds the change of the estimate of time `N`, the end of the first run. `C` and `ρ < 1` depend on the model only.
- `KK.C111_bounded_data` (Props/FixedLag.lean): C111 with bounded data: if moreover the filtered estimate of a time `j ≤ k` (`j ≥ n`, counting from one) is at most `r` in every component and all later measurements and control contributions are at most `D`, then the smoothed estimate of time `k` changes by at most `C ρ^(N-k) (r + D)` when the data after `N` arrive, however many they are.

### C112 — Steady-state smoothed covariance

*Property.* For a constant observable and controllable model with PSD Q, PD R there is one matrix S, at most the steady-state covariance of the filter, such that smooth, from every PSD initial covariance and on runs of every length N, returns for time k (k >= n) a covariance within C (rho^k + rho^(N-k)) of S, or raises LinAlgError; C and rho < 1 depend on the model only.

*Model and proof.* C111 for the covariances makes the smoothed covariances started in the steady state a Cauchy sequence in the number of later steps; the dependence on the filtered covariance is Lipschitz by C90 and decays by C82. *Limits.* as C82.

- `KK.C112_steady_smoother` (Props/FixedLag.lean): C112: a constant model with PSD `Q` and PD `R`, observable and controllable. There is one matrix `S` - the steady-state smoothed covariance, at most the steady-state covariance of the filter - such that in every run of any length the smoothed covariance of a time far from both ends is close to `S`: time `k` (`k ≥ n`, counting from one) of `N` is within `C (ρ^k + ρ^(N-k))`. `C` and `ρ < 1` depend on the model only.

### C113 — Measurements one by one

*Property.* If the components of each measurement have independent noises of positive variance (R diagonal), a run in which every measurement of m+1 components is handed over as m+1 rows of one component (the first with the transition, control and process noise of the step, the others with identity transition, no control and no process noise) gives the same result: both runs of filter return, and the state and covariance after the last row of a group are those of the joint run. With PD initial covariance, PSD Q and at each step A invertible or Q PD, smooth returns in every row of the group the smoothed state and covariance of the joint run.

*Model and proof.* In information form an update adds H'R^-1 H and H'R^-1 z, which for diagonal R are sums over the components (absorb_absorb); induction over the run. In the smoother a step without motion and noise has gain one. *Limits.* diagonal R with positive entries; smoother under PD initial covariance and C42 conditions.

- `KK.C113_filter_one_by_one` (Props/Sequential.lean): C113: Measurements with independent noises may be handed to `filter` one at a time: the first with the transition, the others with an identity transition, no control and no process noise. The last belief of each group is the belief of the joint run.
- `KK.C113_smooth_one_by_one` (Props/Sequential.lean): C113: The smoother of the one-by-one run reports, at each of the `m + 1` rows of a group, the smoothed belief of the joint run.

### C114 — Rounding errors do not accumulate in the smoother

*Property.* For a constant observable and controllable model with PSD Q, PD R and PSD initial covariance, and a bound on the entries and dimensions of the arrays: for every tolerance there is one accuracy (in binary floating point, one number of digits) such that on inputs given to that accuracy, whenever the exact smoother exists (no predicted covariance of the backward pass is singular), KalmanFilter.smooth returns on data of any length, and every smoothed state and covariance and every recorded gain is within the tolerance of the exact smoother.

*Model and proof.* One step of the backward pass is within any tolerance of the exact step, uniformly over bounded arrays, also from a filtered belief that is only near the exact one (compactness, Proofs/RoundBack one_back); the RTS step is affine in the next smoothed belief and the products of smoother gains decay (C111) from the first step on, so the tolerances do not add up (back_near); downward induction over the loop of smooth, after C108 for the forward pass. *Limits.* as C108; one row of the model per observation.

- `KK.C114_no_drift_smooth` (Props/NoDriftSmooth.lean): **C114**. A constant, observable, controllable model with PSD `Q`, PD `R` and PSD initial covariance, and a bound `D` on the entries (and dimensions) of the arrays. For every `ε` there is one `η` such that every call of `smooth` on such data for which the textbook smoother exists, however long, in every arithmetic accurate to `η`, on inputs within `η` of the model, returns, with every smoothed state and covariance and every recorded gain within `ε` of the textbook smoother in exact arithmetic.
- `KK.C114_binary` (Props/NoDriftSmooth.lean): **C114** in binary floating point: a number of binary digits that suffices for runs of any length.

### C115 — Independent nonlinear systems may be filtered together or separately

*Property.* Take two systems for the extended filter, each with its own callbacks, noises and measurements, and the joint system: states and measurements concatenated, callbacks that apply each system's callback to its own part of the state, block diagonal Jacobians, noises and initial covariance. ExtendedKalmanFilter.filter and smooth on the joint system raise LinAlgError exactly if they do on one of the parts, and otherwise return the concatenated estimates, block diagonal covariances and gains of the separate calls.

*Model and proof.* The linearisation of the joint step at a joint belief is the joint step of the linearisations (ext_join_lin); hence by induction along the run, while it is solvable, and C89 (join_filtered, join_rts) for the linearised runs. *Limits.* exact arithmetic; the joint callbacks must be literally the pair of the separate ones on real vectors.

- `KK.C115_filter_subsystems` (Props/ExtSubsystems.lean): C115: two calls of the extended filter that represent systems 1 and 2 over the same number of steps, and a call that represents the joint system. The joint `filter` raises LinAlgError exactly if one of the separate ones does. Otherwise its means are the concatenated means, its covariances and gains are block diagonal with the separate ones as blocks.
- `KK.C115_smooth_subsystems` (Props/ExtSubsystems.lean): C115 for `smooth`.

### C116 — Error bars and the posterior distribution

*Property.* If the noises are uncorrelated, with mean zero and covariances at most Pk, Q, R (any distributions), the probability that a linear functional c of the state is off by t or more from the mean returned by filter or smooth is at most c'Pc/t^2, P being the returned covariance. If they are jointly Gaussian with exactly these covariances, the conditional distribution of the state given the observations so far (for smooth: all observations) is the normal distribution with the returned mean and covariance; that of the next state and of the next observation given the observations so far is normal with mean A x + B u, covariance A P A' + Q, and mean H (A x + B u), covariance H (A P A' + Q) H' + R.

*Model and proof.* Error bars: Chebyshev from C69. Posterior: the error is a linear combination of the Gaussian sources (Good.gaussian) with mean 0 and covariance P (C45), so its law is the multivariate normal one (IsGaussian.ext); it is independent of the observations (C47) and the estimate is a function of them, so Fubini gives the joint law (posterior_of). *Limits.* exact arithmetic; Mathlib definitions of the multivariate normal distribution.

- `KK.C116_error_bars` (Props/Posterior.lean): C116 (any noise, filter): if the noises are uncorrelated and at most as large as the filter was told, the probability that a linear functional `c` of the state is off by `t` or more is at most `c' P c / t²` with the returned covariance `P`; whatever the distributions of the noises are.
- `KK.C116_error_bars_smooth` (Props/Posterior.lean): C116 (any noise, smoother).
- `KK.C116_posterior` (Props/Posterior.lean): C116 (Gaussian noise, filter): if the system follows the model with jointly Gaussian noises of the covariances the filter was told, then given the observations up to step `k` the state is normally distributed with the mean and the covariance returned for step `k`.
- `KK.C116_posterior_smooth` (Props/Posterior.lean): C116 (Gaussian noise, smoother): given all observations, the state of step `k` is normally distributed with the smoothed mean and covariance.
- `KK.C116_predictive` (Props/Posterior.lean): C116 (Gaussian noise, predictions): given the observations before step `k`, the state of step `k` is normally distributed with mean `A x + B u` and covariance `A P A' + Q`, and its observation with mean `H (A x + B u)` and covariance `H (A P A' + Q) H' + R`, where `x`, `P` are what was returned for the step before (or the initial values).

### C117 — The extended filter follows a nonlinear system

*Property.* Let the noise covariances handed to ExtendedKalmanFilter be at least q and r, let f and h be approximated near the true states by the Jacobians handed in, up to a quadratic error, with bounded Jacobians, and let the initial covariance lie between q and p. There are constants eps, C and rho < 1, depending only on these bounds and the dimensions, such that whatever the true states, the disturbances and the measurement errors are (no statistics; at most D <= eps), if the initial estimate is off by at most r0 <= eps and the returned covariances stay at most p, the k-th estimate returned by filter is off by at most C rho^k r0 + C D, in runs of any length. Nothing need be assumed about the covariances if every state can be read off one measurement (left inverse of the Jacobian of h with bounded entries), nor if the model linearised at the true states is observable over every stretch of N steps with a margin and the Jacobians are Lipschitz, nor for the pendulum examples, as long as the pendulum is not nearly horizontal.

*Model and proof.* The error measured by the inverse covariance is a Lyapunov function: e' = Psi e + eta with P' = Psi P Psi' + W, W at least a constant (joseph_lower), hence a contraction by 1 - delta (mahal_contract); the remainder eta is quadratic in e plus the disturbances (next_error), the gains are bounded because K R K' <= P'; induction over the run (run_observer). A priori bounds of the covariance: the filter is at least as good as the observer that reads the state off one measurement, for the pendulum as a deadbeat observer over two steps (two_step_upper), and in general (C117_observable) the bound of window_upper applied to the run linearised at the estimates, whose Gramians are close to those along the truth (gram_close, lower_close, ext_cov_upper). *Limits.* exact arithmetic; local: the size of eps is not estimated.

- `KK.C117_observable` (Props/ExtObservable.lean): C117 (observable along the true trajectory): nothing need be assumed about the covariances that `filter` returns, nor need the state be visible in one measurement, if the model linearised at the true states is observable over every stretch of `N` steps, with margin `γ`, and the Jacobians handed in change at most linearly (`l`) with the distance from the true states. The constants depend on the bounds and dimensions only.
- `KK.C117_observer` (Props/ExtObserver.lean): C117: noise covariances `Q ≥ q`, `R ≥ r`, an initial covariance between `q` and `p`, and bounds `a`, `κ`, `d` on the model near the true states. There are `ε`, `C` and `ρ < 1`, depending only on these bounds, such that whatever the true states `x 0, x 1, ...` of the system, with the disturbances `w` of the transitions and the errors `v` of the measurements - no statistics assumed - are: if disturbances and errors are at most `D ≤ ε`, the initial estimate is off by at most `r₀ ≤ ε`, and the covariances returned up to step `k` are at most `p`, then the estimate returned for step `k` is off by at most `C ρ^(k+1) r₀ + C D`.
- `KK.C117_full_state` (Props/ExtObserver.lean): C117 (every state can be read off one measurement): if moreover, near the true states, the Jacobian of `h` has a left inverse with entries at most `l`, and `R ≤ t`, nothing need be assumed about the covariances.
- `KK.C117_pendulum` (Props/ExtObserver.lean): C117 (the pendulum example of the repository): for every time step, gravity, noise scale, variance and initial covariance there are `ε`, `C` and `ρ < 1` such that for any initial estimate and any number of measurements `filter` returns estimates that follow the true angle and angular velocity of the pendulum - with disturbances and measurement errors at most `D ≤ ε`, an initial error at most `r₀ ≤ ε`, and as long as the pendulum is not nearly horizontal, `|cos| ≥ c₀` - up to `C ρ^(k+1) r₀ + C D`.

### C118 — Online use, one step at a time

*Property.* Calling predict and update by hand, once per time step with that step's parameters and data, starting from the constructor's xk and Pk, gives exactly the rows filter returns, raises the same exception at the same place if there is one, and leaves the object with the same recorded gains; for both classes and in any arithmetic. Where a measurement is missing the user may simply not call update: in exact arithmetic this is the run of filter on the model with H = 0 at those times (any invertible R, any z), except that no gain is recorded there; for ExtendedKalmanFilter the beliefs are those of the extended filter that only predicts at those times, and LinAlgError is raised exactly if an innovation covariance of a measured time is singular.

*Model and proof.* The loop of the user and the loop of filter are both equal to the trace of the step function over the zipped rows (byHand_eq, filter_iter); on data in the documented layout the assignment into the result arrays is the identity. Missing measurements: the update with H = 0 is the identity in exact arithmetic (unmeasured_next), induction over the run (mask_exact). *Limits.* the loop of the user is specified in Spec/ByHand.lean; missing measurements: exact arithmetic and a 1-d initial state; the extended run with missing measurements is specified in Spec/ExtPartly.lean.

- `KK.C118_by_hand` (Props/ByHand.lean): C118: in any arithmetic, for data in the documented layout, calling `predict` and `update` by hand, step after step from the constructor's initial state, gives exactly the rows `filter` returns, raises the same exception if there is one, and leaves the object in the same state (same recorded gains).
- `KK.C118_ext_by_hand` (Props/ByHand.lean): C118, extended filter.
- `KK.C118_missing` (Props/ByHand.lean): C118, measurements missing at some times: the user calls only `predict` there. In exact arithmetic this is the run of `filter` on the model with `H = 0` at those times (and any invertible `R`): both raise LinAlgError, or the loop collects arrays holding exactly the means and covariances `filter` returns, and records the gains of the times with a measurement.
- `KK.C118_ext_missing` (Props/ExtSubclass.lean): C118, extended filter, measurements missing at some times: in exact arithmetic the loop raises LinAlgError exactly if the innovation covariance of a time with a measurement is singular; otherwise it collects arrays holding exactly the beliefs of the extended filter that only predicts at the times without measurement, and records the gains of the other times.

### C119 — Time-varying models: covariances

*Property.* If all stretches of N steps are observable and controllable with a margin (observability and controllability Gramians at least gamma), with bounded A, H, Q and R and R at least r, then filter returns for every PSD initial covariance, and from the N-th row on every returned covariance lies between two positive bounds lo and hi that depend on N, the dimensions and these bounds only, not on the initial covariance, the data, or the length of the run. Two runs with the same matrices but different initial states, initial covariances and data return covariances that approach each other geometrically. Constant observable and controllable models are a special case.

*Model and proof.* Upper bound: by duality (dual_run) the quadratic form of the covariance after a window is the minimum of a cost over all linear observers; the observer built from the inverse of the observability Gramian has bounded cost independent of the initial covariance (window_upper). Lower bound: the noise that enters during a window dominates a multiple of the controllability Gramian (cost_lower, window_lower). The difference of two covariances is clo(P) (P - P') clo(P')' (covRun_sub) and both closed-loop products decay in the norm of the inverse covariance (mahal_contract, Margins.decay). Constant models: the Gramians of n equal steps are positive definite. *Limits.* exact arithmetic; existence of constants, no formula for them in the statement.

- `KK.C119_covariance` (Props/TimeVarying.lean): C119: a time-varying model in which all stretches of `N` steps are observable and controllable with margin `γ`. From the `N`-th estimate on, the covariances are between `lo` and `hi`, two positive constants that depend on the dimensions and on `N`, `a`, `r` and `γ` only - not on the steps, the data, the length of the run or the initial covariance.
- `KK.C119_forgets` (Props/TimeVarying.lean): C119: two runs with the same matrices, with any two initial covariances and any data. The entries of their covariances approach each other geometrically, and the constants depend on the dimensions and on `N`, `a`, `r` and `γ` only.
- `KK.C119_constant` (Props/TimeVarying.lean): C119: the constant models of C82-C85 and C99 are uniform: for an observable and controllable model there are constants with which every run of it, with any data, is a `UniformModel`.

### C120 — Time-varying models: the filter as an observer

*Property.* For the models of C119 with an initial covariance between 0 and p there are constants C and rho < 1, depending only on the bounds, such that whatever the true states, disturbances and measurement errors are (no statistics; at most D), if the initial state is off by at most t, the k-th estimate returned by filter is off by at most C rho^(k+1) t + C D. In particular bounded data give bounded estimates.

*Model and proof.* The error is itself a run on the disturbances (error_run); the closed loop decays over windows (Margins.decay), the gains are bounded through R >= r, and the first N steps are bounded by the growth of the covariance (cov_growth, run_bound_start). *Limits.* exact arithmetic.

- `KK.C120_observer` (Props/TimeVarying.lean): C120: the filter as an observer of a time-varying system. Whatever the true states `x 0, x 1, ...` are, let `w` be the disturbances of the transitions, `x (k+1) = A_k x k + B_k u_k + w k`, and `v` the errors of the measurements, `z_k = H_k x (k+1) + v k` - no statistics assumed. If all disturbances and errors are at most `D` and the initial estimate is off by at most `t` then the estimate after step `k` is off by at most `C ρ^(k+1) t + C D`, where `C` and `ρ < 1` depend on the dimensions, `N`, `a`, `r`, `γ` and the bound `p` of the initial covariance only.
- `KK.C120_bounded` (Props/TimeVarying.lean): C120: bounded data give bounded estimates.

### C121 — Time-varying models: the initial state is forgotten

*Property.* For the models of C119, two calls of filter on the same data from different initial states and covariances return estimates whose difference decays geometrically: if from the N-th row on both states in row j are within t and the data of rows j+1 to k within D, then the states in row k differ by at most C rho^(k-j) (t + D), with C and rho < 1 depending only on the bounds.

*Model and proof.* Difference of two runs as one perturbed closed loop (cross_list); the perturbation is the difference of the gains times a bounded innovation, which decays with the covariances (cov_close, gainAt_sub, belief_close). *Limits.* exact arithmetic; as C85 it bounds the difference in terms of the estimates in row j.

- `KK.C121_initial_state` (Props/TimeVarying.lean): C121: two runs on the same steps from different initial means and covariances. From the `N`-th estimate on, the difference between the two estimates decays geometrically: if after step `j` both are within `t`, and the data of steps `j+1, ..., k` are within `D`, then after step `k` they differ by at most `C ρ^(k-j) (t + D)`.

### C122 — Time-varying models: fixed-lag smoothing

*Property.* For the models of C119, smooth called on a run of L >= N rows and again after further rows have arrived: either both calls raise LinAlgError or both return, and the smoothed row k (k >= N, counting from one) changes little if it lies far from the end of the first run: its covariance by at most C rho^(L-k), its state by at most C rho^(L-k) times the change of row L, and by at most C rho^(L-k) (t + D) if the state in row L of the first run is within t and the later data within D. C and rho < 1 depend only on the bounds of the model, not on the number of further rows. With an initial covariance between 0 and p (and constants that depend on p too) this holds for all rows.

*Model and proof.* As C111, step by step: the smoother gain times the next filtered covariance is P times the transposed closed loop (gain_back), which needs an invertible predicted covariance only, so the change at k is P_k clo' P_L^-1 times the change at L (frontV_append); clo decays (C119), P_L is bounded below. *Limits.* exact arithmetic; either both calls raise LinAlgError or both return.

- `KK.C122_fixed_lag` (Props/LagVarying.lean): C122: fixed-lag smoothing with a time-varying model (`UniformModel`: all stretches of `N` steps are observable and controllable with margin `γ`); `smooth` is called on the data `ss`, and again when the further data `tt` have arrived. Either both calls raise LinAlgError or the smoothed belief of each time `k` (`k ≥ N`, counting from one) hardly changes if it lies far from the end of the first run: the covariance changes by at most `C ρ^(L-k)`, `L` the length of the first run, and the mean by at most `C ρ^(L-k) t` where `t` bounds the change of the estimate of time `L`, and also by at most `C ρ^(L-k) (t + D)` if `t` bounds the estimate of time `L` of the first run and `D` the later data. `C` and `ρ < 1` depend on the dimensions, `N`, `a`, `r` and `γ` only.
- `KK.C122_from_start` (Props/LagVarying.lean): C122 from the first time on: if the initial covariance is at most `p` then the same bounds hold for all times `k`, with constants that depend on `p` too.

### C123 — Time-varying models: the smoother as an observer

*Property.* For the models of C119 with an initial covariance between 0 and p there are constants C and rho < 1, depending only on the bounds, such that whatever the true states, disturbances and measurement errors are (no statistics; at most D), if the initial state is off by at most t and smooth does not raise LinAlgError, then the smoothed state in row k is off by at most C rho^(k+1) t + C D, in runs of any length.

*Model and proof.* The smoothing error is itself a smoothing run on the disturbances (error_front); the smoothed minus the filtered state is P_k times the sum of the transposed closed loops on the later innovations (front_adjV), a geometric sum; the filtering errors by C120. *Limits.* exact arithmetic.

- `KK.C123_smoother_observer` (Props/LagVarying.lean): C123: the smoother as an observer of a time-varying system. Whatever the true states `x 0, x 1, ...` are, let `w` be the disturbances of the transitions, `x (k+1) = A_k x k + B_k u_k + w k`, and `v` the errors of the measurements, `z_k = H_k x (k+1) + v k` - no statistics assumed. If all disturbances and errors are at most `D` and the initial estimate is off by at most `t` then (if `smooth` does not raise LinAlgError) the smoothed estimate of time `k` is off by at most `C ρ^(k+1) t + C D`, however long the run; `C` and `ρ < 1` depend on the dimensions, `N`, `a`, `r`, `γ` and the bound `p` of the initial covariance only.

### C124 — Time-varying models: smoothing forgets the initial belief

*Property.* For the models of C119, two calls of smooth on the same rows from different initial states and PSD covariances, neither of which raises LinAlgError: from row N on the smoothed covariances of row k differ by at most C rho^k, and if the filtered states in row j (N <= j <= k) are within t and all later data within D then the smoothed states in row k differ by at most C rho^(k-j) (t + D). C and rho < 1 depend only on the bounds.

*Model and proof.* The smoothed belief combines the filtered one with the information of the later rows (frontV_combines), the same for both runs; hence formulas for the differences that are linear in the differences of the filtered beliefs (combines_close, combines_mean), which decay by C119 and C121. *Limits.* exact arithmetic.

- `KK.C124_forgets` (Props/LagVarying.lean): C124: smoothing forgets the initial belief. Two smoothing runs on the same time-varying steps from different initial means and covariances (PSD), neither of which raises LinAlgError. For times `k ≥ N` (counting from one) the entries of the smoothed covariances differ by at most `C ρ^k`, and if the filtered estimates of a time `j ≤ k`, `j ≥ N`, are within `t` and all later data within `D` then the smoothed estimates of time `k` differ by at most `C ρ^(k-j) (t + D)`. `C` and `ρ < 1` depend on the dimensions, `N`, `a`, `r` and `γ` only.

### C125 — Time-varying models: rounding errors do not accumulate in filter

*Property.* For the models of C119, with an initial covariance between 0 and p, an initial state and inputs within D and a tolerance eps > 0, there is one accuracy (in binary floating point: one number of digits and one exponent range) such that filter, carried out in any arithmetic of this accuracy on inputs given to this accuracy, raises no exception and returns states and covariances, and records gains, within eps of the exact ones, in runs of any length. The accuracy depends only on the bounds, not on the model, the data or the number of rows.

*Model and proof.* As C108 with the time-varying closed loop: one step is within any tolerance of the exact one uniformly over bounded arrays, gains are uniformly continuous in the covariance on the compact set of models (unif_gainAt, ultrafilters), the products of closed loops decay over windows from any bounded start (Margins.settled_start), hence perturbations that are small in every step stay small (stay_near_var); induction over the run (run_near_of). *Limits.* no explicit error bound; infinities as in C94.

- `KK.C125_no_drift_varying` (Props/NoDriftVarying.lean): **C125**. Models that change from step to step, whose matrices are bounded by `a`, whose measurement noise is at least `r`, and in which every stretch of `N` steps is observable and controllable with margin `γ`; initial covariances at most `p`, and a bound `D` on the initial state and on the entries (and dimensions) of the arrays given to the filter. For every `ε` there is one `η` such that every run, of every such model, from every such initial belief, on such data, however long, in every arithmetic that is accurate to `η`, on inputs within `η` of the model, returns, and every state, covariance and recorded gain is within `ε` of the textbook filter in exact arithmetic.
- `KK.C125_binary` (Props/NoDriftVarying.lean): **C125** in binary floating point: a number of binary digits that suffices for all such models and runs of any length.

### C126 — Time-varying models: rounding errors do not accumulate in smooth

*Property.* As C125 for smooth, when there is one row of the model per observation and the covariances predicted in the steps before the N-th (except the first) are at least kappa > 0: one accuracy, depending only on the bounds and kappa, suffices for smooth to raise no exception and to return smoothed states and covariances within eps of the exact ones in runs of any length.

*Model and proof.* As C114: the RTS step is affine in the next smoothed belief and products of smoother gains along the run decay (backProdV_decay, from the closed loop of C122); the predicted covariances are bounded below after N steps by C119, before by hypothesis. *Limits.* no explicit error bound; infinities as in C94; one row of the model per observation.

- `KK.C126_no_drift_smooth_varying` (Props/NoDriftVarying.lean): **C126**. Models as in C125, initial covariances at most `p`, a bound `D` on the initial state and the arrays, and a bound `κ > 0` below the predicted covariances of the steps before the `N`-th (later ones need no assumption; the smoother has to invert them). For every `ε` there is one `η` such that every call of `smooth`, on every such model and data, however long, in every arithmetic accurate to `η`, on inputs within `η` of the model, returns, with every smoothed state and covariance and every recorded gain within `ε` of the textbook smoother in exact arithmetic.
- `KK.C126_binary` (Props/NoDriftVarying.lean): **C126** in binary floating point: a number of binary digits that suffices for all such models and data of any length.

### C127 — The extended smoother follows a nonlinear system

*Property.* For the systems of C117, with process and measurement noise covariances between positive bounds and one row of them per observation, ExtendedKalmanFilter.smooth does not raise, and there are eps, C and rho < 1, depending only on the bounds, such that whatever the true states are, if disturbances and measurement errors are at most D <= eps (no statistics), the initial estimate is off by at most r0 <= eps, and the covariances that filter returns stay at most p, then the smoothed state of row k is off by at most C rho^(k+1) r0 + C D, in runs of any length. Nothing need be assumed about the covariances if the model is observable along the true trajectory over every stretch of N steps, with Jacobians that change at most linearly; nor for the system of pendulum_smoothing.py as long as the pendulum is not nearly horizontal.

*Model and proof.* The extended smoother is the linear smoother on the run linearised at the estimates (C98). Bounded covariances and Q >= q make the products of closed loops decay (settled_of_upper, mahal_contract); the smoothing error is itself a smoothing run on the disturbances plus linearisation remainders (lin_errors, error_front, exists_front), applied to the tail from row k on, where the remainders are bounded by the filter error of C117. *Limits.* exact arithmetic; local: the size of eps is not estimated.

- `KK.C127_smoother_observer` (Props/ExtSmoother.lean): C127: noise covariances `q ≤ Q ≤ a`, `r ≤ R ≤ a`, an initial covariance between `q` and `p`, and bounds `a`, `κ`, `d` on the model near the true states, one row of `Q` and `R` per observation. `smooth` does not raise, and there are `ε`, `C` and `ρ < 1`, depending only on these bounds, such that whatever the true states `x 0, x 1, ...` of the system, with the disturbances `w` of the transitions and the errors `v` of the measurements - no statistics assumed - are: if disturbances and errors are at most `D ≤ ε`, the initial estimate is off by at most `r₀ ≤ ε`, and the covariances that `filter` returns are at most `p`, then the smoothed estimate of time `k` is off by at most `C ρ^(k+1) r₀ + C D`, however long the run.
- `KK.C127_observable` (Props/ExtSmoother.lean): C127 (observable along the true trajectory): nothing need be assumed about the covariances if the model linearised at the true states is observable over every stretch of `N` steps, with margin `γ`, and the Jacobians handed in change at most linearly (`l`) with the distance from the true states.
- `KK.C127_pendulum` (Props/ExtSmoother.lean): C127 (pendulum_smoothing.py): for every time step, gravity, noise scale, variance and initial covariance there are `ε`, `C` and `ρ < 1` such that for any initial estimate and any positive number of measurements `smooth` returns estimates that follow the true angle and angular velocity of the pendulum - with disturbances and measurement errors at most `D ≤ ε`, an initial error at most `r₀ ≤ ε`, and as long as the pendulum is not nearly horizontal, `|cos| ≥ c₀` - up to `C ρ^(k+1) r₀ + C D`.

### C128 — The installer keeps what files contain, whenever it is killed

*Property.* python versioneer.py setup in this project (configured for git), killed at any moment or not at all: nothing is removed from any file other than src/kalmankit/_version.py, text is added only at the end of src/kalmankit/__init__.py and .gitattributes, and no other file is created or changed - provided __init__.py does not contain the three lines that older versions of versioneer added. If it does, a completed call replaces them and keeps the rest, but the call can be killed while the file is empty. If the configuration cannot be read, only setup.cfg is touched, at its end. With a VCS setting other than git the call empties the version file and raises KeyError.

*Model and proof.* The installer is a process that reads, empties and extends files (Cmd); Killed describes the files at every crash point. Inversion of Killed along the process. *Limits.* directories exist, files can be read and written, one process; TOML and INI parsers and the text of the long _version.py are parameters; run in the project root.

- `KK.Version.C128_text_is_kept` (Props/Install.lean): C128: `python versioneer.py setup` in the configured project, killed at any moment - or not at all - keeps what the files contained: nothing is removed from any file other than `src/kalmankit/_version.py`, text is added only at the end of `__init__.py` and `.gitattributes`, and no file except these is created. (`__init__.py` must not contain the three lines that older versions of versioneer added.)
- `KK.Version.C128_unconfigured` (Props/Install.lean): C128 (no configuration): if the configuration cannot be read, whatever happens and whenever the installer is killed, no file other than `setup.cfg` is touched, and that one only gets text added at its end.
- `KK.Version.C128_old_lines_lost` (Props/Install.lean): C128 (the lines of older versions): if `__init__.py` does contain them, the installer can be killed at a moment when the file is empty - what it contained is lost.
- `KK.Version.C128_other_vcs` (Props/Install.lean): C128 (another version control system): a configuration for anything but git makes the installer empty the version file and raise KeyError.
- `KK.Version.C128_old_lines_replaced` (Props/Install.lean): C128 (the lines of older versions): a call that is not killed replaces them by the new ones, and keeps what is before and after.

### C129 — The installer does its work once

*Property.* python versioneer.py setup in this project: it raises nothing, exits with 0 exactly if setup.py contains the three things it looks for and none of the two it complains about, and afterwards _version.py contains the generated text, an existing __init__.py the lines that set __version__, and .gitattributes marks _version.py with export-subst; a second call changes no file - if .gitattributes ends with a newline and has no line about a longer path that begins with that of _version.py, and __init__.py does not contain the lines of older versions. If .gitattributes does not end with a newline, two calls suffice and further ones change nothing; but if a call was killed when exactly the path had been written, no number of calls repairs the file. The settings are those of pyproject.toml, whatever setup.cfg contains, and equal those compiled into _version.py; with any other settings, no tag prefix, and one written as two quotation marks, mean the empty prefix; without a TOML parser they are not seen, and the installer writes a sample setup.cfg and exits with 1.

*Model and proof.* The files after a call as an explicit function of the files before (rest_run, run_eq); the added lines cannot create the old ones across the seam (old_append, by the tails of the old lines), a marked line is recognised (present_append), recognised lines are marks unless they are about a longer path (marks_of_present). *Limits.* as C128.

- `KK.Version.C129_once` (Props/Install.lean): C129: `python versioneer.py setup` in the configured project raises nothing; the exit code is 0 exactly if `setup.py` contains the three things it looks for and none of the two it complains about; afterwards `_version.py` contains the generated text, an existing `__init__.py` the two lines that set `__version__`, and `.gitattributes` marks `_version.py` for substitution. A second call changes no file. Conditions: `.gitattributes`, if there is one, ends with a newline and has no line about a longer path that begins with `src/kalmankit/_version.py`; `__init__.py` does not contain the lines that older versions of versioneer added (also not at its end without a newline).
- `KK.Version.C129_twice` (Props/Install.lean): C129 (two calls): if `.gitattributes` does not end with a newline - because someone left it so, or because an earlier call was killed - the first call may add its entry to the last line, where it has no effect. After two calls the file is in order and further calls change no file.
- `KK.Version.C129_not_repaired` (Props/Install.lean): C129 (not repaired): if a call was killed at the moment when exactly the path had been written to an empty `.gitattributes`, no number of further calls makes the file mark `_version.py`.
- `KK.Version.C129_settings` (Props/Install.lean): C129 (where the settings come from): with a TOML parser, the section `[tool.versioneer]` of `pyproject.toml` decides, whatever `setup.cfg` contains, and for the section of this project the settings are those compiled into `_version.py`.
- `KK.Version.C129_settings_any` (Props/Install.lean): C129 (other settings): whatever section is found, its settings are used as they are, except that no tag prefix, and one written as two quotation marks, means the empty prefix; without the setting `VCS` a `KeyError` is raised.
- `KK.Version.C129_no_toml` (Props/Install.lean): C129 (no TOML parser): on a Python before 3.11 without `tomli` the settings in `pyproject.toml` are not seen: the installer - there being no `setup.cfg` in this project - writes one with a sample section, changes nothing else and exits with code 1.

### C130 — The extended filter follows a nonlinear system in inexact arithmetic; errors do not accumulate

*Property.* For the systems of C117 that are observable along the true trajectory over every stretch of N steps, with Jacobians that change at most linearly, with process and measurement noise covariances between positive bounds and inputs and true states of size at most Y: there are eps, C and rho < 1, and for every tolerance tau an accuracy (in floating point: a precision), such that ExtendedKalmanFilter.filter, carried out in any arithmetic of this accuracy on attributes and data given to this accuracy, with callbacks that compute the model and its Jacobians to this accuracy, raises no exception, in runs of any length; and if disturbances and measurement errors are at most D <= eps and the initial estimate is off by at most r0 <= eps, the returned state of row k is off by at most C rho^(k+1) r0 + C D + tau. The accuracy does not depend on the system, the true trajectory or the number of rows.

*Model and proof.* One step of the program, with inexact callbacks and arithmetic, is within any tolerance of the exact step uniformly over bounded arrays (Proofs/ExtRoundStep, compactness by ultrafilters). The covariances of the inexact run stay near an exact time-varying run along the truth (cov_near_var), hence bounded above and below; the estimation error obeys the Lyapunov inequality of C117 with one more disturbance of size tau (err_step, round_observer), so the errors of the steps do not add up; induction over the run (ext_round_run). *Limits.* no explicit accuracy; local: the size of eps is not estimated; infinities as in C94.

- `KK.C130_ext_no_drift` (Props/ExtNoDrift.lean): **C130**: as `C117_observable` (the system follows the model up to disturbances and observation errors `D`, the model linearised along the true states is observable over stretches of `N` steps), but in an arithmetic with rounding errors, with attributes and observations rounded, and with callbacks that compute `f`, `jacobian_A`, `h`, `jacobian_H` inexactly: for every tolerance `τ` there is an accuracy `η` such that `filter` returns in runs of any length, and the returned means follow the true states up to `τ` more than in exact arithmetic. `η` depends on the bounds and `τ`, not on the length of the run: neither rounding nor linearisation errors accumulate.
- `KK.C130_ext_no_drift_float` (Props/ExtNoDrift.lean): **C130** in floating point: on every floating-point unit of a certain precision (e.g. binary formats with enough digits), with the order of summation chosen by the BLAS.

### C131 — Covariances in floating point: what survives and what does not

*Property.* Scalar state observed directly (H = 1), in any arithmetic whose operations round to some format (to nearest, up, down, towards zero; overflow to NaN), with a non-negative initial variance, Q and R: every gain recorded by filter or update is in [0, 1] or NaN, and every returned variance is >= 0 or NaN (for update: also at most the given one), in runs of any length. This ends with H = 1: in every binary format of at least 12 digits with rounding to nearest there are an H between 1 and 2 and an R > 0, numbers of the format, such that filter with A = 1, Pk = Q = 1/2 raises nothing and returns a negative variance; and a filter with two states, A = identity, Q = 0 and a symmetric positive definite Pk whose returned covariance is not symmetric - whatever the observation.

*Model and proof.* Monotone rounding preserves signs and comparisons with numbers of the format; induction over the trace of the run (trace_one). Counterexamples: H = 1 + k e with k^2 e just below 1/2 (e = 2^(1-p)) makes H H round down, the gain round up and K H round to 1 + e, so that (1 - K H) P = -e; with a second state the entry (0,1) is -3e/4, which no difference of numbers near 3/4 (multiples of e/2) equals. *Limits.* infinities are identified with NaN; the counterexamples are single-step runs.

- `KK.C131_update` (Props/FloatVariance.lean): **C131** (`update`): a scalar state observed directly (`H = 1`), in any arithmetic that rounds every operation to some format: the gain recorded is between 0 and 1 and the returned variance between 0 and the given one (or NaN). The given variance `v` must be a number of the format, as the variances that `predict` returns are.
- `KK.C131_direct` (Props/FloatVariance.lean): **C131** (`filter`): the same for runs of any length, whatever the transition factors, controls and data: no returned variance is negative, and all gains recorded (also if the call raises an exception) are between 0 and 1.
- `KK.C131_negative` (Props/FloatVariance.lean): **C131** (negative variances): in every binary format with at least 12 digits, rounding to nearest, there is a filter for a scalar state, with `Pk = 1/2`, `A = 1`, `Q = 1/2`, an `H` between 1 and 2 and an `R > 0`, all numbers of the format, such that `filter` returns without an exception, for every observation, and the returned variance is negative.
- `KK.C131_asymmetric` (Props/FloatVariance.lean): **C131** (asymmetric covariances): in every such format there is a filter for two states, of which the first is observed, with the symmetric positive definite covariance `[[1, 3/4], [3/4, 1]]`, `A` the identity and `Q = 0`, such that `filter` returns without an exception, for every observation, and the returned covariance is not symmetric.

### C132 — Non-finite numbers are permanent in filter, and nothing hides them

*Property.* filter returned on rows in the documented layout (at least one state variable and sensor). A NaN or an infinity in the initial state, or in the observation, A, H or (unless switched off) B or control of row k, or in a returned state, leaves no finite component in any state from row k on (for a returned state: from the next row on); one in the initial covariance leaves no finite entry in any result or gain; one in a returned covariance or in Q of row k leaves none in the states, covariances and gains of all later rows; one in A or H of row k none in the covariances from row k on. Conversely, one single finite component in the last processed state proves that all earlier states and covariances and everything the filter has read, R excepted, were finite. In IEEE 754 with any rounding, overflow, any summation order and pivoting.

*Model and proof.* Absorbing (Spec/NonFinite.lean) is what is needed of the arithmetic: bad numbers survive sums, differences and dot products, and a linear system all of whose numbers are bad has no good unknown; proved for IEEE arithmetic with infinities by induction over the summation trees and over Gaussian elimination (C132_ieee). Every step as explicit formulas (step_form), then induction over the rows (run_at). *Limits.* the sign of zero is not represented; a BLAS that skips zero factors (0 * inf = 0) is not covered; calls that returned.

- `KK.C132_means` (Props/NonFinite.lean): C132, means: a bad number in the initial state, or in the observation, the transition matrix, the observation matrix or the control (unless switched off) of step `k`, or in an already returned state, makes every component of every state from then on bad.
- `KK.C132_covariances` (Props/NonFinite.lean): C132, covariances: a bad number in the initial covariance spoils every entry of everything the filter computes; one in a returned covariance or in the process noise of step `k` spoils every entry of the states, covariances and gains of all later steps; one in the transition or observation matrix of step `k` spoils every entry of the covariances from step `k` on.
- `KK.C132_check` (Props/NonFinite.lean): C132, as a health check: if one single component of the last state is good, then every component of every returned state is good, and so are all observations, transition and observation matrices and (where used) controls of the processed steps, the initial state and covariance, and, of all steps but the last, all returned covariances and all process noise covariances.
- `KK.C132_ieee` (Props/NonFinite.lean): C132, the numbers: in IEEE 754 arithmetic with infinities and NaN - any rounding, with overflow to infinity, any order of the dot products, with or without fused multiply-add, any choice of equally large pivots - the numbers that are not finite are absorbing.

### C133 — Non-finite numbers are permanent in the extended filter, whatever the callbacks do

*Property.* ExtendedKalmanFilter.filter returned on rows in the documented layout. Whatever the callbacks compute, a NaN or an infinity in the initial covariance leaves no finite entry in any result or gain; one in a returned covariance, in Q of row k, or in a Jacobian returned by a callback in row k, leaves none in the states, covariances and gains of all later rows. One in the observation of row k, or in the predicted observation that the callback returned, leaves no finite component in the state of row k; one in the predicted state leaves a non-finite component in it.

*Model and proof.* As C132, with the results of the callbacks as given. *Limits.* as C132.

- `KK.C133_covariances` (Props/NonFinite.lean): C133, covariances: whatever the callbacks do, a bad number in the initial covariance spoils every entry of everything the extended filter computes; one in a returned covariance, in the process noise of step `k`, or in a Jacobian that a callback returned at step `k`, spoils every entry of the states, covariances and gains of all later steps.
- `KK.C133_means` (Props/NonFinite.lean): C133, means: a bad number in the observation of step `k`, or in the observation that the callback `h` predicts, spoils every component of the state returned for that step; one in the state that the callback `f` predicts shows in that state.

### C134 — Smoothing spreads non-finite numbers backwards over all rows

*Property.* smooth (of either class) returned on rows in the documented layout: a NaN or an infinity in one smoothed state leaves no finite component in any earlier smoothed state, and one in a smoothed covariance none in any earlier smoothed covariance. Hence, for the standard class, if a NaN or an infinity occurs in the initial state or in the observation, A, H or used control of any row, or in a filtered covariance other than the last, then no smoothed state has a finite component - including those of rows before it.

*Model and proof.* Induction backwards over the loop of smooth (back_bad): the next smoothed state enters through a difference, a product and a sum. *Limits.* as C132; standard class: one row of the model per observation.

- `KK.C134_smooth` (Props/NonFinite.lean): C134 for `KalmanFilter.smooth`: a bad number in a smoothed mean makes every component of all earlier smoothed means bad, and the same for smoothed covariances.
- `KK.C134_ext_smooth` (Props/NonFinite.lean): C134 for `ExtendedKalmanFilter.smooth`, whatever the callbacks compute.
- `KK.C134_from_data` (Props/NonFinite.lean): C134, from the data: if the filtering pass of `smooth` meets a bad number (in the initial state, or in the observation, matrices or control of a step), or a filtered covariance of any step but the last is bad somewhere, then every component of every smoothed mean is bad.

### C135 — Infinite measurement noise in floating point

*Property.* In IEEE 754 with any rounding, summation order and pivoting: if R is the diagonal matrix of infinities (or, with one sensor, the number np.inf) and everything else in the update is finite, then update and the row of filter (of either class) raise nothing, record a zero gain and return the prediction unchanged to the last bit. But with two or more sensors the number np.inf, which numpy adds to every entry of H P H', leaves no finite entry in the gain, the new state and the new covariance, whatever the other arguments and the callbacks' results, and raises nothing. If of two sensors only the second has infinite noise and the computed innovation covariance is larger off the diagonal than in its upper left entry, then the gain of the first sensor is NaN, and the new state and covariance have no finite entry.

*Model and proof.* Gaussian elimination with infinities on the diagonal: every pivot is infinite, all factors are zero (gaussIeee_inf); then products with the zero gain and the identity are exact (evalIeee_zero, evalIeee_unit). With all entries infinite, factors are inf/inf (gaussIeee_all_bad). Two sensors: explicit elimination (gaussIeee_two_nan). *Limits.* the sign of zero is not represented; LAPACK may multiply by reciprocals of pivots instead of dividing (with the same result in these cases).

- `KK.C135_ext_update` (Props/ExtInfNoise.lean): C135, extended class, `update`: with infinite measurement noise the given state and covariance are returned unchanged, to the last bit, and a zero gain is recorded - as long as everything else is finite.
- `KK.C135_ext_filter` (Props/ExtInfNoise.lean): C135, extended class, `filter`: a step whose measurement noise is infinite returns the prediction, to the last bit, and a zero gain.
- `KK.C135_ext_trap` (Props/ExtInfNoise.lean): C135, extended class, the trap: with two or more sensors the *number* `np.inf` as measurement noise raises nothing (unless a callback does), and makes every entry of the gain, of the new state and of the new covariance infinite or NaN.
- `KK.C135_update` (Props/InfNoise.lean): C135, `update`: with infinite measurement noise the given state and covariance are returned unchanged, to the last bit, and a zero gain is recorded - as long as everything else is finite.
- `KK.C135_filter` (Props/InfNoise.lean): C135, `filter`: a step whose measurement noise is infinite returns the prediction, to the last bit, and a zero gain.
- `KK.C135_trap` (Props/InfNoise.lean): C135, the trap: with two or more sensors the *number* `np.inf` as measurement noise (which numpy adds to every entry of `H @ P @ H.T`) raises nothing, and makes every entry of the gain, of the new state and of the new covariance infinite or NaN, whatever the other arguments.
- `KK.C135_one_sensor` (Props/InfNoise.lean): C135, one of two sensors: if only the second sensor has infinite noise, the outcome depends on the pivot. If the computed innovation covariance has a larger entry off the diagonal than the (finite) one of the first sensor, `update` raises nothing, but the gain of the *first* sensor is NaN, and the new state and covariance have no finite entry.

### C136 — Python lists and numbers stand for the arrays they convert to

*Property.* KalmanFilter used with Python lists or numbers instead of arrays - for rows of B, Q, R, Z, U, for whole sequences, for the initial state (if state_size is given) or covariance, or for arguments of predict and update: as long as the rows of A and H (and Pk in update) are arrays and in no row B and U are both lists, every call does exactly what it does with np.asarray of those values: same result or same exception, same gains recorded, nothing else changed. Without a control sequence this holds for lists of observations whose rows have one shape and one dtype.

*Model and proof.* A second model of the same lines with Python values (Model/Lists.lean: arrays, numbers, flat and nested lists; @, -, .T, np.isnan, np.full_like as Python and numpy dispatch them), and a simulation: every operation on values equals the operation on the arrays they convert to (Proofs/Lists.lean), by induction over the rows of the zip and over the backward loop. *Limits.* lists inside a row hold numbers only; tuples, bools, None inside lists, object arrays, pandas objects are not modelled.

- `KK.C136_new` (Props/Lists.lean): C136, constructor: it stores what it got; with `B = None` the stored `B` is `np.full_like(np.asarray(A), np.nan)`.
- `KK.C136_predict` (Props/Lists.lean): C136, `predict`: lists for any arguments but `Ak`, and not for both `Bk` and `uk`.
- `KK.C136_update` (Props/Lists.lean): C136, `update`: lists for any arguments but `Hk` and `Pk`.
- `KK.C136_filter` (Props/Lists.lean): C136, `filter`: with lists or numbers in place of rows of `B`, `Q`, `R`, `Z`, `U`, of the initial state or covariance, the call does exactly what it does with the arrays they stand for: same result or same exception, same gains recorded, nothing else changed.
- `KK.C136_smooth` (Props/Lists.lean): C136, `smooth`: likewise.
- `KK.C136_no_control` (Props/Lists.lean): C136, no control: if the observations are a list whose rows have one shape and one dtype (say, all floats), then `filter(Z)` is what it is with the array `np.array(Z)`.

### C137 — Where lists are not accepted

*Property.* If KalmanFilter.filter returned, then in every processed row the transition and observation matrices were arrays, and of control matrix and control at least one was an array or one of them was all NaN: a nested list (or a number) in A or H, or lists in both B and U, make it raise. predict with a list for Ak raises AttributeError (unless computing the mean raised before), with lists for both Bk and uk TypeError when the control is used; update with a list for Hk raises AttributeError, and with a list for Hk or Pk always raises and records nothing. The constructor raises AttributeError on a list as initial state unless state_size is given. Without a control sequence, a list of observations of different shapes raises ValueError before any row is processed.

*Model and proof.* Case analysis on each operator of predict and update; induction over the feedback loop for filter (loop_needs). *Limits.* as C136.

- `KK.C137_new` (Props/Lists.lean): C137, constructor: an initial state that is a list or a number raises AttributeError unless `state_size` is given.
- `KK.C137_predict_transition` (Props/Lists.lean): C137, `predict`: a transition matrix that is a list (or a number) always raises; AttributeError unless the mean raised before.
- `KK.C137_predict_control` (Props/Lists.lean): C137, `predict`: a control matrix and a control that are both lists (or numbers) raise TypeError when the control is used.
- `KK.C137_update` (Props/Lists.lean): C137, `update`: an observation matrix that is a list (or a number) raises AttributeError, and nothing is recorded; so does a covariance that is a list, if nothing raised before.
- `KK.C137_filter` (Props/Lists.lean): C137, `filter`: if it returned, then in every processed row the transition and observation matrices were arrays, and of control matrix and control at least one was an array or one of them was all NaN. So a nested list in `A` or `H`, or lists in both `B` and `U`, make `filter` raise.
- `KK.C137_ragged` (Props/Lists.lean): C137, ragged observations: without a control sequence, a list of observations whose rows differ in shape raises ValueError before any row is processed - even though `filter` accepts it when a control sequence is given.

### C138 — Lists in the extended filter: callbacks f and h may return lists, Jacobians may not

*Property.* ExtendedKalmanFilter whose callbacks f and h return Python lists or numbers, or whose Q, R, Z, U, initial covariance hold them: as long as the Jacobians return arrays and no observation and predicted observation are both lists, filter and smooth do exactly what they do with np.asarray of those values. A Jacobian A that is a list makes predict raise AttributeError; a Jacobian H that is a list makes update raise AttributeError and record nothing; an observation and a predicted observation that are both lists make update raise TypeError after the gain was recorded.

*Model and proof.* As C136, with callbacks that take and return Python values; predict returns whatever f returned. *Limits.* callbacks are pure functions; lists as in C136.

- `KK.C138_filter` (Props/Lists.lean): C138, `filter` of the extended class: with lists or numbers in place of rows of `Q`, `R`, `Z`, `U`, of the initial covariance, or of what the callbacks `f` and `h` return, the call does exactly what it does with the arrays they stand for - provided the Jacobians return arrays and observation and predicted observation are not both lists.
- `KK.C138_smooth` (Props/Lists.lean): C138, `smooth` of the extended class.
- `KK.C138_jacobian_A` (Props/Lists.lean): C138, failures of `predict`: a Jacobian `A` that is a list or a number raises AttributeError (unless `f` raises first).
- `KK.C138_jacobian_H` (Props/Lists.lean): C138, failures of `update`: a Jacobian `H` that is a list raises AttributeError and nothing is recorded.
- `KK.C138_lists_clash` (Props/Lists.lean): C138, failures of `update`: an observation and a predicted observation that are both lists raise TypeError - after the gain was recorded.

### C139 — Noise and observations of smaller shape are broadcast

*Property.* filter and smooth (of either class) with rows of Q, R and observations that fit the shapes (n,n), (m,m) and (m,) only by numpy broadcasting - numbers, vectors, single rows or columns - do exactly what they do with np.broadcast_to of every row: same results, same exceptions, same gains recorded. (If no control sequence is given: for KalmanFilter with observations of float dtype; ExtendedKalmanFilter: with a control sequence, since the default one takes the shape of the observations and is handed to the callbacks.)

*Model and proof.* np.broadcast_to specified by indices (Spec/Broadcast.lean) and shown equal to what +/- of the model do with the smaller array; then trace_rel_inv (runs over rows that no step can tell apart) and back_congr. *Limits.* rows of rank at most 2; the extended class with a control sequence, since without one the callbacks see a sentinel of the shape of the observation.

- `KK.C139_broadcast` (Props/Broadcast.lean): C139: noise rows and observations that fit the documented shapes only by broadcasting are used exactly as if the caller had broadcast them: same results, same exceptions, same gains, for `filter` and `smooth`.
- `KK.C139_ext_broadcast` (Props/Broadcast.lean): C139 for `ExtendedKalmanFilter`.

### C140 — Exactly the shapes that broadcast are accepted

*Property.* Two or more state variables; xk, Pk, A and H of the documented shapes. If KalmanFilter.filter returned, then in every processed row Q broadcasts to (n,n), R to (m,m), the observation to (m,), and the control was switched off or B @ u is a number or a vector of length 1 or n. Conversely with such rows filter returns or raises LinAlgError. For ExtendedKalmanFilter with callbacks of the documented shapes the same holds for Q, R and the observations, both ways (it then returns or raises LinAlgError or what a callback raised). Whatever the shapes (up to rank 2 per row), filter on sequences raises nothing but ValueError, LinAlgError and, in the extended class, what a callback raised.

*Model and proof.* Inversion of a successful step (KalmanFilter.step_accepts, ExtendedKalmanFilter.step_accepts): the residual must end up a vector, because only a vector (or a 1-row matrix, impossible for n >= 2) can be stored in a row of the result; trace_at for runs. Exceptions: every operation of a step (step_raises) and trace_fail. *Limits.* n >= 2 (with one state variable (1,1)-shaped observations are accepted too); rows of rank at most 2.

- `KK.C140_accepted` (Props/Accept.lean): C140: with two or more state components and documented `x0`, `P0`, `A`, `H`, a call that returns was given noise matrices, observations and controls whose shapes fit by broadcasting; every other shape was rejected.
- `KK.C140_fits` (Props/Accept.lean): C140: conversely, shapes that fit are accepted: the call returns, or a singular innovation covariance raises LinAlgError.
- `KK.C140_exceptions` (Props/Accept.lean): C140: whatever the shapes, `filter` on sequences raises nothing but ValueError and LinAlgError.
- `KK.C140_ext_accepted` (Props/Accept.lean): C140 for `ExtendedKalmanFilter`: callbacks with the documented shapes, whatever `Q`, `R`, `Z`.
- `KK.C140_ext_fits` (Props/Accept.lean): C140 for `ExtendedKalmanFilter`: conversely, rows of `Q`, `R` and observations that fit are accepted: the call returns, or raises LinAlgError (a singular innovation covariance) or what a callback raised.
- `KK.C140_ext_exceptions` (Props/Accept.lean): C140 for `ExtendedKalmanFilter`: on sequences `filter` raises nothing but ValueError, LinAlgError and what a callback raised.

### C141 — Vectors of variances are not covariance matrices, but are accepted

*Property.* Q and R given as one vector of variances per row are accepted and mean the matrices with that vector in every row, not diagonal matrices (same results, exceptions, gains of filter and smooth). A vector p for the covariance given to predict, with a matrix Q, yields Q + (A (A p)) repeated in every row. If Pk and the rows of Q are vectors: with a number of sensors other than the number of states filter and smooth raise ValueError at the first row; with as many sensors as states filter returns or raises LinAlgError, and in what it returns every gain is a vector, every component of the predicted state is corrected by one and the same number, and every covariance matrix has equal rows.

*Model and proof.* Noise vectors: instance of C139. Vector covariances: shape analysis of a step whose covariance stays a vector (step_flat), then induction (trace_at_state). *Limits.* the rest of the call in the documented layout; KalmanFilter only.

- `KK.C141_noise_vectors` (Props/Variances.lean): C141: `Q` and `R` given as vectors of variances, one per row, are accepted and mean the matrices with that vector in every row - not diagonal matrices: same results, exceptions and gains as with those matrices.
- `KK.C141_rejected` (Props/Variances.lean): C141: with vectors for `Pk` and for the rows of `Q`, a number of sensors other than the number of states is rejected: ValueError at the first row.
- `KK.C141_accepted` (Props/Variances.lean): C141: with as many sensors as states such a call goes through: it returns or raises LinAlgError.
- `KK.C141_shared_correction` (Props/Variances.lean): C141: and what it returns is not an estimate: every gain is a vector, every component of the predicted state is corrected by the same number, and every returned covariance matrix has equal rows.
- `KK.C141_initial_variances` (Props/Variances.lean): C141, exact arithmetic: `predict` with a vector `p` for the covariance and a matrix `Q` returns `Q + (A (A p))` in every row, where the vector of variances would have meant `A diag(p) A' + Q`.

### C142 — Callbacks may keep state

*Property.* ExtendedKalmanFilter with callbacks that keep state of their own - caches, counters, logs, whatever - and leave the object alone: if in every state they can get into they compute the same functions f, h, jacobian_A, jacobian_H (or raise the same exceptions), then predict, update, filter and smooth return or raise exactly what they do with these functions, record the same gains and leave the object the same.

*Model and proof.* Model/Stateful.lean: the lines of extended.py with callbacks as programs over the user's state and the attributes. Simulation (Sim): programs built from matched callbacks are matched, by structural induction over the loops; then the pure instance is shown equal to Model/Extended.lean (filter_pure, smooth_pure). *Limits.* callbacks that replace callbacks or methods of the object during a call, or write into arrays in place (C78-C81), are excluded.

- `KK.C142_filter` (Props/Stateful.lean): C142 (filter): callbacks that keep caches, counters, logs or anything else, and leave the object alone: if whatever is in their state they compute the functions of `kf`, then `filter` returns or raises what it does with these functions, and leaves the object as with these functions.
- `KK.C142_smooth` (Props/Stateful.lean): C142 (smooth).
- `KK.C142_predict` (Props/Stateful.lean): C142 (predict).
- `KK.C142_update` (Props/Stateful.lean): C142 (update).

### C143 — Which callbacks are called, in which order and with which arguments

*Property.* ExtendedKalmanFilter.filter calls the callbacks four times per step and at no other time, in the order jacobian_A, f, jacobian_H, h: the first two with row k of the controls and the initial mean (k = 0) or the estimate that became row k-1 of the result, the last two with what f returned. smooth makes the calls of filter and then, for k = n-2 down to 0, calls jacobian_A, f and again jacobian_A with row k of the filtered states and row k+1 of the controls. If a call raises, the calls made are those of some complete steps and an initial part of one more; a callback that raises is the last one called and its exception is what the method raises; h is not called if the gain cannot be computed.

*Model and proof.* Callbacks wrapped so that each call is written down (Callbacks.logged); the wrapper is invisible (Sim); the list of calls by induction over the feedback loop and the backward loop (filterLoop_log_ok, filterLoop_log_error, smoothLoop_log_ok, smoothLoop_log_error). *Limits.* as C142.

- `KK.C143_logging_is_invisible` (Props/Calls.lean): C143 (writing the calls down changes nothing): with the calls written down, `filter` and `smooth` return or raise the same, and leave the user's state and the object the same.
- `KK.C143_filter_calls` (Props/Calls.lean): C143 (filter returns): the callbacks are called four times in each of the steps and in no other place, in the order `jacobian_A`, `f`, `jacobian_H`, `h`; step `k` asks `jacobian_A` and `f` at row `k` of the controls and at the initial mean (`k = 0`) or at the value stored in row `k - 1` of the result, and `jacobian_H` and `h` at what `f` returned.
- `KK.C143_filter_calls_until` (Props/Calls.lean): C143 (filter raises `e`): either before any callback is called, or after some complete steps and a last one that stops: a callback that raises is the last one called, and `e` is what it raised.
- `KK.C143_smooth_calls` (Props/Calls.lean): C143 (smooth returns): the calls of `filter`, and then, for `k = n - 2, …, 0`, the calls `jacobian_A`, `f`, `jacobian_A` at row `k` of what `filter` returned and row `k + 1` of the controls.
- `KK.C143_smooth_calls_until` (Props/Calls.lean): C143 (smooth raises `e`): `filter` did, or nothing is called after `filter`, or some complete steps of the backward pass are followed by one that stops.

### C144 — Time-varying models by counting calls work in filter, not in smooth

*Property.* Callbacks of an ExtendedKalmanFilter that count their calls and at call k use the model of step k: if all four counters stand at j, filter returns exactly the textbook extended filter with the models of steps j, j+1, ... (exact arithmetic), and leaves all counters at j + number of steps, so that the next call of filter goes on from there. If filter raises LinAlgError because of a singular innovation covariance, the counter of h is one behind the others. After smooth on n observations the counter of f is n-1 and that of jacobian_A 2(n-1) ahead: with n >= 2 they no longer agree; and the backward pass asks for models of steps that do not exist: if jacobian_A raises there, so does smooth, although filter returns.

*Model and proof.* One step with all counters at i is the step of the i-th model (one_counting), induction over the run with the exact step of C51; counters by induction over both loops. *Limits.* filter: exact arithmetic.

- `KK.C144_filter_time_varying` (Props/Counting.lean): C144 (filter): callbacks that count their calls and compute the functions of step `k` at their `k`-th call: if all counters stand at `j`, `filter` returns exactly the filtered means and covariances of the textbook extended filter with the models of steps `j`, `j + 1`, …, and all counters stand at `j + L` after `L` steps, so that the next call of `filter` goes on with the models from there.
- `KK.C144_counters_after_error` (Props/Counting.lean): C144 (after an error the counters disagree): if the innovation covariance of step `t` is the first singular one, `filter` raises LinAlgError, and leaves the counter of `h` one behind the others.
- `KK.C144_counters_after_smooth` (Props/Counting.lean): C144 (smooth, counters): when `smooth` returns on `n` observations with `L` steps, `h` and `jacobian_H` have been called `L` times, but `f` another `n - 1` times and `jacobian_A` another `2 (n - 1)` times: with two observations or more the counters no longer agree.
- `KK.C144_smooth_runs_out` (Props/Counting.lean): C144 (smooth runs past the models): in the situation of `C144_filter_time_varying`, with `L ≥ 2` observations and a `jacobian_A` that raises `e` at call `j + L` (there is no model for a step that does not exist), `filter` returns but `smooth` raises `e`: the backward pass does not go back to the models of the steps.

### C145 — Callbacks that assign to attributes or call methods of the filter

*Property.* ExtendedKalmanFilter.filter reads xk, Pk, Q, R and state_size once, at the start: callbacks that compute the same functions but assign anything to these attributes or to kalman_gains while the call runs do not change what it returns or raises. smooth reads Q and state_size once more after the forward pass: the same holds if callbacks leave these two alone. predict, update, filter and smooth do nothing to the object but append to kalman_gains, whether they return or raise, if that is so for the callbacks; so callbacks may call these methods of the same object: the results and exceptions of filter and smooth are the same, all attributes but kalman_gains are unchanged, and kalman_gains holds the earlier gains followed by a list that contains the gains of the call in order.

*Model and proof.* The simulation of C142 with weaker relations between the objects: equal identities; also equal Q and state_size; or all attributes equal and gains a sublist. *Limits.* the private identity matrix is not assigned to.

- `KK.C145_filter_reads_once` (Props/Stateful.lean): C145 (filter): `filter` reads the attributes once. Callbacks that compute the functions of `kf` may assign anything to `xk`, `Pk`, `Q`, `R`, `state_size` and `kalman_gains` of the object during the call (all but the private identity matrix): what `filter` returns or raises is not affected.
- `KK.C145_smooth_reads_twice` (Props/Stateful.lean): C145 (smooth): the same, but `Q` and `state_size` are read again after the forward pass.
- `KK.C145_filter_reentrant` (Props/Stateful.lean): C145 (callbacks that call methods of the object, filter): if the callbacks compute the functions of `kf` and do nothing to the object but append to `kalman_gains` (as calls of its own methods do, see below), then `filter` returns or raises what it does with these functions, all other attributes are unchanged, and `kalman_gains` holds the earlier gains followed by a list that has the gains of this call in it, in order.
- `KK.C145_smooth_reentrant` (Props/Stateful.lean): C145 (callbacks that call methods of the object, smooth).
- `KK.C145_methods_only_append` (Props/Stateful.lean): C145 (methods only append): if the callbacks do nothing to the object but append to `kalman_gains`, then this is so for `predict`, `update`, `filter` and `smooth`, whether they return or raise: so they may be called from callbacks in their turn.

### C146 — Generators and other one-shot iterators as parameters

*Property.* Where A, H, B, Q, R or the controls are iterators that can be read only once (generators, itertools.repeat), none of them used for two parameters: filter on n observations does exactly what it does with the arrays of their next n items. If it returned after T rows, T items were read from each iterator, or T + 1 if it and all arguments before it in the order A, H, B, U, Z, Q, R (extended class: U, Z, Q, R) had one more; if it raised in row k, k + 1 were read from each. So with itertools.repeat (here one object may serve several parameters) every call, after any calls before, is that of the constant model; but with generators that go on, the second call finds A, H and B one item further than Q and R: that item is lost and the rows no longer belong together. An iterator for Z raises TypeError; so does every call after B=None with an iterator for A; nothing is read then.

*Model and proof.* Model/Iterators.lean: `zip` as a program that asks its arguments in order and keeps what it took; invariant of the loop: every iterator has been read as often as rows were completed, induction over the observations; the loop is then the trace of Model/Standard on the zipped items. *Limits.* iterators that raise exceptions of their own or share state with each other are not modelled; one iterator object used for two parameters is modelled but not covered by the theorems.

- `KK.C146_filter` (Props/Iterators.lean): C146: with iterators for `A`, `H`, `B`, `Q`, `R` or the controls, `filter` on `n` observations does what it does with the arrays of the next `n` items: same result or exception, same gains; nothing else on the object changes.
- `KK.C146_ext_filter` (Props/Iterators.lean): 
- `KK.C146_read` (Props/Iterators.lean): C146, how far the iterators were read, if the call returned: `T` is the number of gains recorded. `A`, `H`, `B` and the controls are asked before the observations, `Q` and `R` after them: if there is nothing left but observations to stop the loop, one more item than there are observations is taken from the former and lost.
- `KK.C146_ext_read` (Props/Iterators.lean): 
- `KK.C146_raised` (Props/Iterators.lean): C146, if the call raised: either before anything was read, or in the middle of row `k`, and then exactly `k + 1` items have been read from every iterator, and `k` or `k + 1` gains recorded.
- `KK.C146_ext_raised` (Props/Iterators.lean): 
- `KK.C146_repeat` (Props/Iterators.lean): C146: with `itertools.repeat` for all parameters - one object for several of them or not -, every call - after whatever calls before - is that of the constant model, with as many copies of the matrices as there are observations.
- `KK.C146_ext_repeat` (Props/Iterators.lean): 
- `KK.C146_second` (Props/Iterators.lean): C146, two calls in a row with iterators that go on and on: the second call finds `Q` and `R` where the first one stopped, but `A`, `H` and `B` one further: one item of each was lost, and the rows of the model no longer belong together.
- `KK.C146_observations` (Props/Iterators.lean): C146: observations must have a length; nothing is read.
- `KK.C146_no_control` (Props/Iterators.lean): C146: `B=None` together with an iterator for `A` is accepted by the constructor, but every call of `filter` and `smooth` raises TypeError before anything is read.

### C147 — smooth and iterators

*Property.* smooth with iterators for H and R (extended class: R) only does what it does with the arrays of their next n items. With an iterator for A, Q, B or the controls (extended class: Q or the controls) and two or more observations it never returns, although the forward pass is done, the iterators are read and the gains recorded: it raises what filter raises, or TypeError, or IndexError if one of the others is an array with fewer rows than Z.

*Model and proof.* As C146; the backward loop indexes its sequences, and the first index is that of the last observation. *Limits.* as C146.

- `KK.C147_smooth` (Props/Iterators.lean): C147: `H` and `R` may be iterators for `smooth`, if `A`, `B`, `Q` and the controls are arrays.
- `KK.C147_raises` (Props/Iterators.lean): C147: with an iterator for `A`, `Q`, `B` or the controls `smooth` never returns on two or more observations, although the work of `filter` has been done, the iterators have been read and the gains recorded: it raises what `filter` raises, or TypeError, or IndexError if one of the others is an array shorter than `Z`.
- `KK.C147_ext_smooth` (Props/Iterators.lean): 
- `KK.C147_ext_raises` (Props/Iterators.lean): 

### C148 — A constant model passed without the time axis

*Property.* A, H, Q, R are sequences over time; a single matrix in the place of such a sequence is iterated row by row. If all four are single matrices, every call of filter or smooth on nonempty data raises ValueError at once, in any dimensions, with or without control, and leaves the object unchanged. If only A is one, the call raises at the first step when that has no control (ValueError with one gain recorded, or LinAlgError); but when every step has a control nothing is raised, and the result is that of the model whose transition matrix at step k repeats row k of A in all its rows. If only H is one, the call raises ValueError and leaves the object unchanged, except with as many sensors as states: then it returns or raises LinAlgError, gains are vectors and every state is the prediction with one number added to all components. If Q and R are (also in the extended class), nothing is raised for it and step k works with matrices that repeat row k of Q and R. Whenever such a call returns, at most as many steps are processed as the matrix has rows; all later rows of the result are zero.

*Model and proof.* Shape analysis of the first step (first_raises); for the silently accepted cases, step-by-step equality with the repeated rows (predict_single, C139) along an invariant on shapes (trace_rel_inv), or induction (trace_at_state). *Limits.* one parameter at a time (or Q and R together, or all four); smooth is covered where it raises; the rest of the call in the documented layout.

- `KK.C148_all_single` (Props/TimeAxis.lean): C148: if `A`, `H`, `Q`, `R` are all passed as single matrices, every call on nonempty data raises ValueError at once and leaves the object as it was - with or without a control input, in any dimensions.
- `KK.C148_single_A` (Props/TimeAxis.lean): C148: if only `A` is passed as a single matrix and the first step has no control, the call raises at the first step: the predicted state is a single number, which `H` cannot multiply. The gain has been recorded by then, unless computing it raised LinAlgError.
- `KK.C148_single_A_controlled` (Props/TimeAxis.lean): C148: if only `A` is passed as a single matrix and every processed step has a control, nothing is raised for it: the result is that of the model whose transition matrix at step `k` has the `k`-th row of `A` as each of its rows. (In arithmetics where every dot product is computed on its own.)
- `KK.C148_rest_zero` (Props/TimeAxis.lean): C148: a parameter passed as a single matrix with `r` rows ends the processing after `r` steps; all later rows of the result are zero.
- `KK.C148_single_noise` (Props/TimeAxis.lean): C148: `Q` and `R` passed as single matrices raise nothing: step `k` works with matrices all of whose rows are the `k`-th row of `Q` and of `R`.
- `KK.C148_ext_single_noise` (Props/TimeAxis.lean): C148: the same for the extended filter, which takes no other sequences: nothing is raised.
- `KK.C148_ext_rest_zero` (Props/TimeAxis.lean): C148: and with `Q` or `R` a single matrix of `r` rows, all rows of the result from the `r`-th on are zero.
- `KK.C148_single_H` (Props/TimeAxis.lean): C148: if only `H` is passed as a single matrix and there are not as many sensors as states, every call on nonempty data raises ValueError at once and leaves the object as it was.
- `KK.C148_single_square_H` (Props/TimeAxis.lean): C148: with as many sensors as states, a single matrix `H` is not rejected. The call returns or raises LinAlgError; every gain it records is a vector instead of a matrix, and each returned state is the prediction from the one before with the same number added to every component.

### C149 — Subclasses that only add something

*Property.* A subclass of either filter whose predict and update may do anything of their own (log, check, keep statistics, ask another object) but return or raise what the inherited methods would, change the inherited attributes exactly as these would, and keep an invariant of its own: filter and smooth of the subclass, which are inherited, return or raise the same, leave the same inherited attributes and keep the invariant.

*Model and proof.* Model/Subclass.lean: filter and smooth with self.predict and self.update looked up on an object with more state. Simulation of the loops of the base class step by step (Matched), with the invariant carried along. *Limits.* filter and smooth are not overridden; the overriding methods do not replace methods or callbacks of the object, nor write into arrays in place.

- `KK.C149_filter` (Props/Subclass.lean): C149: on an instance of a subclass of `KalmanFilter` whose `predict` and `update` only add something, `filter` returns and raises what it does on a `KalmanFilter` with the same attributes, leaves the inherited attributes as it does there, and keeps what the overriding methods keep.
- `KK.C149_smooth` (Props/Subclass.lean): C149, `smooth`.
- `KK.C149_ext_filter` (Props/Subclass.lean): C149, extended class.
- `KK.C149_ext_smooth` (Props/Subclass.lean): C149, extended class, `smooth`.
- `KK.C149_plain` (Props/Subclass.lean): C149: a subclass that overrides nothing, or calls the inherited method through `super()`, is such a subclass, whatever attributes it adds: these stay as they are.
- `KK.C149_ext_plain` (Props/Subclass.lean): C149, extended class.

### C150 — A subclass that skips missing measurements

*Property.* A subclass whose update returns its arguments x, P unchanged if the measurement is missing (however it recognises that) and calls the inherited update otherwise: filter does what the loop by hand does that always calls predict and calls update when there is a measurement (both classes, any arithmetic). In exact arithmetic the arrays filter and smooth return are those of KalmanFilter on the model with H = 0 at the missing times (smooth: if there are observations), with gains recorded for the measured times only; for ExtendedKalmanFilter the rows are the beliefs of the extended filter that only predicts at the missing times, and LinAlgError is raised exactly if an innovation covariance of a measured time is singular.

*Model and proof.* The loop of filter with the skipping update and the loop by hand are the same program over the zipped rows on data in the documented layout (skip_loop, Fills); then C118 (mask_exact, extPartly_exact). smooth: the backward pass never calls update, so it is that of the base class on the masked filtered beliefs (skipping_smooth). *Limits.* as C149; smooth in exact arithmetic: standard class, at least one observation, one row of the model per observation, invertible R, 1-d initial state.

- `KK.C150_ext_missing_filter` (Props/ExtSubclass.lean): C150, extended class, exact arithmetic: on data with missing measurements `filter` of the subclass raises LinAlgError exactly if the innovation covariance of a time with a measurement is singular; otherwise its rows are exactly the beliefs of the extended filter that only predicts at the times without measurement, and the gains of the other times are recorded.
- `KK.C150_skipping` (Props/Subclass.lean): C150: in any arithmetic, for data in the documented layout, `filter` of a subclass whose `update` returns its arguments when the measurement is missing is the loop that calls `predict` at every time and `update` at the times with a measurement: it raises the same exception, or its rows are what that loop collects; it leaves the inherited attributes as that loop does (in particular no gain is recorded at a time without measurement).
- `KK.C150_ext_skipping` (Props/Subclass.lean): C150, extended class.
- `KK.C150_missing_filter` (Props/Subclass.lean): C150, exact arithmetic: `filter` of the subclass on data with missing measurements raises or returns the same arrays as `KalmanFilter.filter` on the model with `H = 0` at the times without measurement (whatever the data are there, and for any invertible `R`), and records the gains of the times with a measurement.
- `KK.C150_missing_smooth` (Props/Subclass.lean): C150, exact arithmetic, `smooth`: the subclass raises or returns the same arrays as `KalmanFilter.smooth` on the model with `H = 0` at the times without measurement.

### C151 — Assigning to attributes between calls

*Property.* After any sequence of calls (returning or raising) and assignments to public attributes other than state_size, every call on the object does what it does on a new object built from the current values (with B given and the same state_size); the recorded gains are appended to those present; the calls in between leave no other trace. Exceptions to 'assigning works like constructing': kf.B = None makes filter and smooth raise TypeError; an object built with B=None keeps the row count of its first A, so that after assigning a longer model filter silently processes only that many rows, returns zeros after them, and smooth raises IndexError (with at most that many observations it does what a new object does); a model with another number of states raises ValueError or LinAlgError on nonempty data, also if state_size is assigned along with it, except on an object built for one state, where no error is raised for it and every covariance update uses the all-ones matrix in place of the identity.

*Model and proof.* Spec/Assign.lean: histories of calls and assignments. The identity matrix, and state_size if not assigned to, never change, calls change the gains only (exec_state), so the object is the new one with other gains. B=None: C09 on a prefix of the run (trace_take) and C88. Other sizes: the first step raises (step_wrong_size, step_stale), or broadcasts the 1x1 identity (correct_one, trace_rel_inv). *Limits.* assignments to the private identity matrix and assignments during a call (C145) are not included; values assigned are arrays, or None for B.

- `KK.C151_calls_in_between` (Props/Assign.lean): C151 (only assignments count): the object after any calls and assignments is, but for the recorded gains, the object after the assignments alone.
- `KK.C151_assigned` (Props/Assign.lean): C151 (assigned parameters work like constructor arguments): after any calls and assignments, except to `state_size`, every call does what it does on a new object built from the values the attributes have now, with `B` given, as long as the new object has the same `state_size`; the gains it records are added to those the object has.
- `KK.C151_B_none` (Props/Assign.lean): C151 (assigning None to `B`): this does not mean "no control": every call of `filter` and `smooth` raises TypeError and leaves the object as it is.
- `KK.C151_stale_length` (Props/Assign.lean): C151 (`B=None` at construction, longer data later): the marker that replaced `B` keeps the number of rows the first `A` had. If `A` and the rest are assigned to for more data, `filter` processes only that many rows, without an error: the rows of a new object with `B=None` up to there and zeros after it, and `smooth` raises IndexError.
- `KK.C151_without_control` (Props/Assign.lean): C151 (`B=None` at construction, at most as many observations as the first `A` had rows): `filter` and `smooth` do what they do on a new object with `B=None`.
- `KK.C151_other_size` (Props/Assign.lean): C151 (a model with another number of states, `state_size` not assigned to): `filter` and `smooth` raise ValueError or LinAlgError on nonempty data.
- `KK.C151_size_assigned` (Props/Assign.lean): C151 (a model with another number of states, `state_size` assigned to as well, object built for two or more states): the object keeps an identity matrix of the old size, and `filter` and `smooth` raise ValueError or LinAlgError on nonempty data.
- `KK.C151_size_assigned_from_one` (Props/Assign.lean): C151 (as before, object built for one state): nothing is raised for it; instead every covariance update uses the all-ones matrix in place of the identity.
- `KK.C151_ext_calls_in_between` (Props/Assign.lean): C151, extended filter (only assignments count).
- `KK.C151_ext_assigned` (Props/Assign.lean): C151, extended filter (assigned parameters and functions work like constructor arguments).

### C152 — Which overriding methods are called, in which order, with which arguments

*Property.* On an instance of any subclass that overrides predict and update (with programs that may raise, keep state, assign to attributes, return anything), the inherited filter calls, for row k = 0, 1, ..., self.predict(A[k], x, B[k], U[k], P, Q[k]) and then self.update(H[k], x', P', Z[k], R[k]) with x', P' what predict returned; what update returned is stored in row k of the results (rows without a step are zero) and is x, P of the next call; nothing else is called. The parameters, initial estimate and state_size are those at the time of the call, even if the methods assign to them. If it raises e, the calls stop in a step in which predict or update raised e or their result could not be stored. smooth then calls only predict, for k = n-2, ..., 0 with row k+1 of the parameters (as they are when filter has returned) and row k of what filter returned. Likewise for ExtendedKalmanFilter.

*Model and proof.* Methods wrapped so that each call is written down (Spec/MethodCalls.lean); the wrapper is invisible (Matched). Both feedback loops are instances of one loop over a row type (methodLoop), both backward loops of another (methodBack); the list of calls by induction over them. *Limits.* as C149.

- `KK.C152_logging_is_invisible` (Props/MethodCalls.lean): C152 (writing the calls down changes nothing): `filter` and `smooth` return or raise the same and leave the same attributes.
- `KK.C152_ext_logging_is_invisible` (Props/MethodCalls.lean): C152, extended class (writing the calls down changes nothing).
- `KK.C152_filter_calls` (Props/MethodCalls.lean): C152 (`filter` returns): on an instance of any subclass it has called, for every row `k` in turn, the subclass's `predict` with row `k` of `A`, `B`, `U`, `Q` and the current estimate, and then its `update` with row `k` of `H`, `Z`, `R` and what `predict` returned; what `update` returned is stored in row `k` of the results and is the estimate for the next row. `A`, …, `R`, the initial estimate and `state_size` are those the object had when `filter` was called.
- `KK.C152_filter_calls_until` (Props/MethodCalls.lean): C152 (`filter` raises `e`): either before any method is called, or after complete steps as above and a last one in which `predict` raises `e`, or `update` raises `e`, or what `update` returned cannot be stored.
- `KK.C152_ext_filter_calls` (Props/MethodCalls.lean): C152, extended class (`filter` returns).
- `KK.C152_ext_filter_calls_until` (Props/MethodCalls.lean): C152, extended class (`filter` raises `e`).
- `KK.C152_smooth_calls` (Props/MethodCalls.lean): C152 (`smooth` returns): after the calls of `filter` there is, for `k = n - 2, …, 0`, one call of `predict` with row `k + 1` of `A`, `B`, `U`, `Q`, as the object has them when `filter` has returned, and row `k` of what `filter` returned; and no call of `update`.
- `KK.C152_smooth_calls_until` (Props/MethodCalls.lean): C152 (`smooth` raises `e`): `filter` did; or after it returned, some calls of `predict` as above, possibly followed by one that raised `e`.
- `KK.C152_ext_smooth_calls` (Props/MethodCalls.lean): C152, extended class (`smooth` returns).
- `KK.C152_ext_smooth_calls_until` (Props/MethodCalls.lean): C152, extended class (`smooth` raises `e`).

### C153 — The likelihood computed from filter is the density of the data

*Property.* If the system follows the model with jointly Gaussian noises of covariances Pk, Q, R, and filter returns, then the product over the steps of the normal densities exp(-r'S^-1 r/2)/sqrt((2 pi)^m det S) of the innovations r = z - H(A x + B u), S = H(A P A' + Q)H' + R, formed from the means and covariances returned for the previous step, is as a function of the data the joint probability density of all observations (so that maximising it is maximum-likelihood estimation of model parameters); its logarithm is -1/2 sum (m log 2pi + log det S + r'S^-1 r). The normalised squared innovations r'S^-1 r, summed over any set of steps, have exactly the chi-squared distribution with m degrees of freedom per step, and every S is positive definite.

*Model and proof.* The predictive distributions of C116 are normal; the density of the multivariate normal distribution is derived from the product of real Gaussians by a change of variables (Proofs/Density.lean), the joint density by induction over the number of observations (rectangles, law_density). The estimates are functions of the earlier data only, and measurable. Chi-squared: the innovations multiplied by the inverse square root of S are independent standard normal (C67, law_density with zero means). *Limits.* exact arithmetic.

- `KK.C153_likelihood` (Props/Likelihood.lean): C153: if the system follows the model with jointly Gaussian noises of the covariances the filter was told, then the likelihood computed from the results of `filter` on the data `y`, as a function of `y`, is the joint probability density of all observations. (The innovation covariances are positive definite, and the covariances do not depend on the data.)
- `KK.C153_chi_square` (Props/Likelihood.lean): C153 (consistency test): under the same hypotheses the normalised squared innovations `r' S⁻¹ r`, summed over any set of steps, have the chi-squared distribution with `m` degrees of freedom per step: that of the sum of the squares of so many independent standard normal variables.
- `KK.C153_log` (Props/Likelihood.lean): C153: the logarithm of the likelihood.

### C154 — Copies of a filter object share its results never, its list of gains only if shallow

*Property.* kalman_gains is a list to which calls append in place. Whatever is done with an object and with its copies (calls that return or raise, copy.copy, copy.deepcopy, pickling, copies of copies, changing the list through a saved reference, binding the attribute to another list), every call on each of them has the outcome it has on the original new object. A shallow copy (copy.copy) and its original always have the same recorded gains, the gains of later calls on either; a deep copy (copy.deepcopy, a pickle round trip) starts with the gains present and then the two lists do not influence each other. A newly constructed object has an empty list of its own. Clearing the list through a saved reference is seen by every object that shares it; after kf.kalman_gains = [] the object records into the new list and a saved reference to the old one sees nothing of its later calls.

*Model and proof.* Objects hold the number of a list, lists are cells of a store; a call reads and replaces the contents of its cell. Frame lemma: a call leaves every object and all other lists as they are and appends what it records on an empty list (C12 machinery); the theorems by induction over the list of calls, C154_results over the list of actions. *Limits.* Calls do not overlap in time; other attributes are values (arrays shared between objects: C62-C65, C78-C81).

- `KK.C154_results` (Props/Shared.lean): C154: whatever is done with an object and its copies (calls that return or raise, shallow and deep copies, copies of copies, changing lists of gains, binding `kalman_gains` to other lists), every call on every one of these objects has the outcome that it has on the original, new object: sharing never affects results.
- `KK.C154_undisturbed` (Props/Shared.lean): C154 (several objects): whatever happens to an object and to others (also newly constructed ones), calls on it have the outcome that they would have at once.
- `KK.C154_ledgers` (Props/Shared.lean): C154: calls on objects change lists only by appending what they record, in the order of the calls, to the list that `kalman_gains` of the object refers to; everybody who refers to that list sees it.
- `KK.C154_shallow_copy` (Props/Shared.lean): C154 (shallow copies): after `kf_j = copy.copy(kf_i)` the two objects always have the same recorded gains: those present, followed by those of all later calls on either of them (and on other objects that share the list).
- `KK.C154_deep_copy` (Props/Shared.lean): C154 (deep copies, pickling): after `kf_j = copy.deepcopy(kf_i)` the copy starts with the gains present and gets those of calls on it only; calls on it add nothing to the gains of any other object, and calls on others nothing to its own.
- `KK.C154_new` (Props/Shared.lean): C154 (new objects): a newly constructed object starts with no gains and gets those of calls on it only; calls on it add nothing to the gains of any other object.
- `KK.C154_changed` (Props/Shared.lean): C154 (saved references): after the user changed the list that `kf_i.kalman_gains` refers to, through whatever reference (for instance `gains = kf.kalman_gains; gains.clear()`), the recorded gains are the new contents followed by those of later calls.
- `KK.C154_rebound` (Props/Shared.lean): C154 (rebinding): after `kf_i.kalman_gains = []` the object records into the new list; a reference kept to the old list sees nothing of later calls on this object.

### C155 — Constant parameters: filter is recursive least squares

*Property.* With A the identity, Q = 0 and no control (an unknown constant parameter vector, observed as z = H theta + noise), Pk and R positive definite: row k of filter is the regularised least-squares solution of all observations so far, the mean the unique minimiser of (theta-x0)'P0^-1(theta-x0) + sum (z-H theta)'R^-1(z-H theta), the covariance the inverse of P0^-1 + sum H'R^-1H; the final mean and covariance do not depend on the order in which the observations were processed; smooth returns the final estimate on every row. The error of row k is P_k (P0^-1 (x0 - theta) + sum H'R^-1 (z - H theta)). The covariances tend to zero with more and more observations if and only if the information sum H'R^-1H grows beyond all bounds in every direction; then, for observation errors of zero mean and covariances R, uncorrelated at different times, the mean square error tends to zero for every true parameter and every initial guess, and it equals squared bias plus variance in closed form.

*Model and proof.* Information form (C31) summed over the steps by induction; completing the square for the cost; backward gain is the identity; two-sided estimates between smallest information and largest covariance; mean square by an induction over the observations that carries orthogonality to later noise. *Limits.* Exact arithmetic (C94 for rounding).

- `KK.C155_least_squares` (Props/Regression.lean): C155: for a constant state (`A` the identity, no process noise, no control) with positive definite `Pk`, `R`, row `k` of `filter` is the solution of the least-squares problem of all observations so far with the prior guess: the returned mean is the unique minimiser of the weighted sum of squares, the covariance is the inverse of the accumulated information.
- `KK.C155_order` (Props/Regression.lean): C155 (order): two runs from the same guess whose steps with their observations are the same up to order end with the same mean and the same covariance.
- `KK.C155_smooth` (Props/Regression.lean): C155 (smoothing): for a constant state `smooth` returns the last filtered mean and covariance, the estimate from all data, on every row.
- `KK.C155_error` (Props/Regression.lean): C155 (error): whatever the parameter and the data, the error of row `k` is the returned covariance times (the error of the guess weighted by its information, plus the residuals at the true parameter weighted by theirs).
- `KK.C155_consistency` (Props/Regression.lean): C155 (consistency): row `k` of the covariances is the same in all runs, whatever the data; it tends to zero with growing `k` if and only if the observations determine every direction of the parameter ever better.
- `KK.C155_mean_square` (Props/Regression.lean): C155 (random errors): if the observations are `z = H θ + v` with zero-mean errors `v` of the covariances `R` told to the filter, uncorrelated at different times, then for every parameter `θ` and every guess the mean square error of row `k`, in every direction `a`, is what bias and variance say: `(a' P_k P⁻¹ (x - θ))² + a' P_k a - a' P_k P⁻¹ P_k a`; it tends to zero if the observations determine every direction ever better, however wrong the guess.

### C156 — Rounding in the documented moving average: explicit bounds for runs of any length

*Property.* The moving-average set-up of the documentation (A = H = 1, no control, constant q > 0 and r > 0, 1-d data), computed in any floating-point format with monotone rounding and unit roundoff u: if all observations and the initial guess are at most Z in size, the format is precise enough for the variances (8 u W <= r and 32 u <= kappa, with W = 2(p0+q+2r), kappa = q/(q+r)) and nothing under- or overflows, then filter succeeds for any number of observations, every returned number and recorded gain is finite, and differs from what the same call returns in exact arithmetic by at most 50 u W Z/(r kappa^2) (states), 10 u W/kappa (variances), 14 u W/(r kappa) (gains). The bounds do not depend on the number of observations: rounding errors do not accumulate.

*Model and proof.* The computed step is written out on 1 x 1 arrays (walk_prog, from Proofs/One.lean); its error per operation is bounded at the scale of the operand (walk_step); the recursions of variance and state contract by r/(q+r) and 1 - K <= 1 - kappa, so the errors add up as geometric series (walk_err); induction over the data (walk_trace). *Limits.* C85, C86 give bounds for every linear model that depend on the run; here they are explicit and uniform in its length, for the scalar random walk only. Sums of one product have no freedom of order, so the BLAS of numpy is fully covered.

- `KK.C156_uniform` (Props/WalkFloat.lean): **C156**: the moving-average set-up of the documentation, computed in floating point: the constructor and `filter` succeed, whatever the number of observations; every returned state, covariance and recorded gain is a number, and is as close to what the same call returns in exact arithmetic (`states`, `errors`, the gains of `kf'`) as the bounds say, which do not depend on the number of observations.

### C157 — One generator for several parameters

*Property.* Where the same iterator object is given for several of A, H, B, Q, R and the controls: its items are dealt out round by round in the order A, H, B, U, Z, Q, R (extended class: U, Z, Q, R), and filter does exactly what it does with the arrays of the items dealt. One generator for Q and R thus gives the first, third, fifth, ... item to Q and the second, fourth, ... to R. If filter returned after T rows, an iterator used c times was read T c times, plus once for each use before the first parameter that had nothing left in the next round; if it raised in row k, (k + 1) c times. smooth with one iterator for H and R and arrays for the rest does what it does with the arrays dealt.

*Model and proof.* Spec/Iterators.lean `dealt`: what each use of a shared iterator gets in round k. Invariant of the loop: after k rounds an iterator used c times has been read k c times (pull_dealt, by induction over the arguments of zip; filterLoop_inv). The rows are those of the filter with one virtual iterator per parameter, so the rest is C146. *Limits.* as C146; iterators that read one another (tee, map over another) are not included.

- `KK.C157_filter` (Props/Iterators.lean): C157: where one iterator may be used for several parameters, `filter` does what it does with the arrays of the items dealt to them round by round (`dealt`).
- `KK.C157_ext_filter` (Props/Iterators.lean): 
- `KK.C157_read` (Props/Iterators.lean): C157, how far the iterators were read, if the call returned: `T` is the number of gains recorded.
- `KK.C157_ext_read` (Props/Iterators.lean): 
- `KK.C157_raised` (Props/Iterators.lean): C157, how far the iterators were read, if the call raised in row `k`: `k + 1` items for each use.
- `KK.C157_ext_raised` (Props/Iterators.lean): 
- `KK.C157_smooth` (Props/Iterators.lean): C157: `smooth`, with one iterator for `H` and `R`.
- `KK.C157_noise` (Props/Iterators.lean): C157: one generator for `Q` and `R` of an otherwise ordinary filter: `Q` gets its first, third, fifth, ... item, `R` the second, fourth, ....

### C158 — A subclass that overrides filter: smooth runs over whatever it returned

*Property.* On an instance of a class that overrides filter (with any program), smooth calls that method once and is the Rauch-Tung-Striebel pass over the means and covariances it returned, whatever they are, with the attributes it left: the first len(Z)-1 of them, and the last one in the last place. If it returned len(Z) rows, these are all of them; with more rows (say the initial belief first) the rows in between are not used and the result is silently out of step; with fewer than len(Z)-1 it is IndexError; LinAlgError if a prediction is singular; what filter raises is raised, and the instance is left as filter left it. smooth depends on filter only through what it returned and the attributes it left, to the bit: it returns what a KalmanFilter with the same A, B, Q returns whose own filter gives the same rows. If filter, predict and update only add something (logging, counting, checks), smooth is that of the base class. Likewise for ExtendedKalmanFilter.

*Model and proof.* Model/Subclass.lean `smoothOf`: smooth with the result of any program in place of that of filter. Its loop with the inherited predict is the loop of the base class (smoothLoop_inherited), so a pass (`back`) over the rows returned; each step by the lemma of C44 for any beliefs (body_over, pass_exact). Additions: simulation as in C149. *Limits.* the rows returned have the layout of filter in the exact part (C158_rts), anything in the others; results with rows of other types than arrays are not included.

- `KK.C158_inherited` (Props/Override.lean): C158: a subclass that does not override `filter` is the case of a `filter` that is the inherited one.
- `KK.C158_ext_inherited` (Props/Override.lean): 
- `KK.C158_raises` (Props/Override.lean): C158: what the instance's `filter` raises, `smooth` raises, leaving the instance as that method left it.
- `KK.C158_ext_raises` (Props/Override.lean): 
- `KK.C158_adds` (Props/Override.lean): C158: if the overriding `filter`, `predict` and `update` only add something, `smooth` returns and raises what it does on a `KalmanFilter` with the same attributes, and leaves the inherited attributes as it does there.
- `KK.C158_ext_adds` (Props/Override.lean): 
- `KK.C158_same` (Props/Override.lean): C158: with the inherited `predict`, `smooth` depends on the instance's `filter` only through what it returned and the attributes it left, to the bit: if the `filter` of some `KalmanFilter` `kf`, with the same `A`, `B`, `Q` and number of states, returns the same for some measurements of the same number and the same controls, then the results of the two calls of `smooth` are the same, and the instance is as its `filter` left it.
- `KK.C158_ext_same` (Props/Override.lean): 
- `KK.C158_rts` (Props/Override.lean): C158: the meaning of `smooth` on an instance whose class overrides `filter`. If that method returned any `n` means and covariances `fs` (the last one `last`), `smooth` is the Rauch-Tung-Striebel pass over the first `len(Z) - 1` of them and the last one, with the models of the steps from the second on, whatever these beliefs are; LinAlgError if one of the predictions it needs is singular, and IndexError if there are fewer than `len(Z) - 1` of them.
- `KK.C158_ext_rts` (Props/Override.lean): 

### C159 — Confidence regions and the validation gate

*Property.* If the system follows the model with jointly Gaussian noises of the covariances the filter was told: the error of the mean returned by filter (smooth) is independent of the observations used and normal with mean 0 and the returned covariance P; so if P is invertible, the squared distance (x - xh)' P^-1 (x - xh) (NEES) has exactly the chi-squared distribution with n degrees of freedom, whatever was observed: a confidence ellipsoid has the stated probability even for the observations at hand. The same for the prediction of the next state, and for the next observation with the innovation covariance S (chi-squared with m degrees of freedom): a gate r' S^-1 r <= c accepts the right share of the rows whatever came before. If the noises are only uncorrelated with covariances at most those told, whatever their distribution, the squared distance is at most n in the mean and at least t with probability at most n / t.

*Model and proof.* The error is a vector of a Gaussian Hilbert space orthogonal to the observations (C27/C66: law and independence); whitening with the square root of P^-1 turns it into standard normals (normalise_sq, normalise_law), whose sum of squares is chi-squared by definition; independence gives the factorisation over every event of the observations. Any noise: C69 along the rows of P^(-1/2), then Markov. *Limits.* exact arithmetic; the second part for positive definite P.

- `KK.C159_filter` (Props/Region.lean): C159 (filter): if the system follows the model with jointly Gaussian noises of the covariances the filter was told, the error of the mean returned for step `k` is independent of the observations so far and normal with the returned covariance, and ellipsoids around the mean given by the covariance have exactly the chi-squared probability of containing the state, whatever was observed.
- `KK.C159_smooth` (Props/Region.lean): C159 (smoother): the same, with all observations.
- `KK.C159_gate` (Props/Region.lean): C159 (gate): the next state and the next observation, predicted from what was returned for the step before (or the initial values). The observation falls into the validation gate `r' S⁻¹ r ≤ c` with exactly the chi-squared probability, whatever was observed before.
- `KK.C159_any` (Props/Region.lean): C159 (any noise, filter): if the noises are uncorrelated and at most as large as the filter was told, whatever their distributions, the squared distance is at most `n` in the mean and exceeds `t` with probability at most `n / t`.
- `KK.C159_any_smooth` (Props/Region.lean): C159 (any noise, smoother).

### C160 — Every exception of smooth

*Property.* If filter raises, smooth raises the same; the object ends as filter left it. If filter returned on sequences, smooth raises IndexError exactly if there are no observations, or at least two and A, B, Q or the controls (a given sequence) are shorter than the data; otherwise it raises ValueError or LinAlgError, or returns as many rows as there are observations. With xk, Pk, A and H of the documented shapes and full-length parameters, smooth accepts every Q, R, B, observations and controls whose rows fit by broadcasting: it returns or raises LinAlgError; so with two or more state variables, no ValueError is possible after filter returned. (With a short H or R it is.) The same for ExtendedKalmanFilter, with what its callbacks raise.

*Model and proof.* A backward pass that raises raises in one iteration on computed rows (back_error, induction); each line of an iteration raises ValueError or LinAlgError only, and on the shapes of the state only LinAlgError (smooth_tail_fits); items exist when the sequences are full (C88 otherwise); C140 for the forward pass. *Limits.* as C140.

- `KK.C160_outcome` (Props/SmoothErrors.lean): C160: `smooth` first does what `filter` does. If `filter` returned, `smooth` raises IndexError exactly if there are no observations, or at least two and one of `A`, `B`, `Q` or the controls is shorter; otherwise it returns or raises ValueError or LinAlgError.
- `KK.C160_ext_outcome` (Props/SmoothErrors.lean): C160 for `ExtendedKalmanFilter`, where a callback may raise as well.
- `KK.C160_fits` (Props/SmoothErrors.lean): C160: with the documented `x0`, `P0`, `A`, `H`, full-length parameters and at least one observation, noise matrices, observations and controls whose shapes fit by broadcasting are accepted by `smooth`: it returns, or raises LinAlgError.
- `KK.C160_after_filter` (Props/SmoothErrors.lean): C160: so if `filter` returned on full-length parameters, `smooth` never raises ValueError, whatever the shapes of `Q`, `R`, `B`, the observations and the controls: it returns or a prediction is singular.
- `KK.C160_ext_fits` (Props/SmoothErrors.lean): C160 for `ExtendedKalmanFilter`: callbacks of the documented shapes.
- `KK.C160_ext_after_filter` (Props/SmoothErrors.lean): C160 for `ExtendedKalmanFilter`: after a `filter` that returned, no ValueError but from a callback.

### C161 — Smoothing does not depend on the direction of time

*Property.* Every linear model with positive definite covariances (with or without controls, varying from step to step) has a reversed model, which describes the same process from its last state to its first by regressing each state on the next. If the reversed model is given the measurements (with their H and R) in reverse order, smooth returns the means and covariances that smooth returns for the model, in reverse order; and the last estimate of filter on the reversed data is the first of smooth. For a stationary process the reversed model has transition matrix P A' P^-1 and the same initial belief; if A P = P A' (any stationary scalar process) the same model smooths reversed data to reversed results.

*Model and proof.* Spec/Reverse.lean defines the reversed model without the filter, from the laws implied before any data. Predicting a filtered belief is a smoothing step of the reversed model (predict_eq_rts), so the two-filter form (C90) shows that what a filtered belief knows is what is in the later data of the reversed run (filtered_combines, induction over the steps); both smoothed beliefs combine the implied law with the same information, which determines them. *Limits.* exact arithmetic; standard class.

- `KK.C161_exists` (Props/Reverse.lean): C161: every sound model has a reversed one.
- `KK.C161_reverse` (Props/Reverse.lean): C161: describe the process from its last state to its first, and hand the measurements over in reverse order: `smooth` returns the same means and covariances, in reverse order.
- `KK.C161_filter_last` (Props/Reverse.lean): C161: in particular the last estimate that `filter` gives of the reversed data is the first that `smooth` gives.
- `KK.C161_stationary` (Props/Reverse.lean): C161 for a stationary process (every step keeps the mean and covariance of the initial belief): the reversed model has the transition matrix `P A' P⁻¹`, and the same initial belief.
- `KK.C161_reversible` (Props/Reverse.lean): C161 for a stationary process that looks the same in both directions (`A P = P A'`; for instance any stationary scalar process, or any number of independent ones): `smooth` of the reversed data, by the same model, is `smooth` of the data, reversed.

### C162 — The joint distribution of the whole trajectory

*Property.* filter and smooth together return all second moments of the trajectory. With G_k = P_k A' (A P_k A' + Q)^-1 (P_k the covariance returned by filter for row k, A and Q of the next step), if the system follows the model with uncorrelated zero-mean noises of the covariances the filter was told, whatever their distribution, the covariance of the errors of the smoothed means of rows k <= l is G_k ... G_(l-1) times the smoothed covariance of row l. If the noises are jointly Gaussian, then given all observations the whole trajectory is jointly normal with the smoothed rows as mean and these blocks as covariance, and the conditional mean of a product of components of two states is the product of the smoothed means plus that covariance (what the expectation step of the EM algorithm needs).

*Model and proof.* In the L2 space of C45-C48 the error of a smoothed mean is the gain times the error of the next one plus something orthogonal to all data and all later states (Sys.smooth_split); induction over the steps gives the product of gains (smooth_cross). The errors of all rows stacked are a good estimate in the sense of C45, so the Gaussian theorems of C116 and C47, which hold in any dimension, apply to the stacked vector. *Limits.* exact arithmetic; standard class.

- `KK.C162_cross` (Props/Trajectory.lean): C162 (any noise): if the system follows the model with uncorrelated zero-mean noises of the covariances the filter was told, the covariance of the errors of the smoothed means of rows `k` and `l` is computed from what `filter` and `smooth` return: the product of the gains `P A' (A P A' + Q)⁻¹` of the steps from `k` to `l` and the smoothed covariance of the later one.
- `KK.C162_trajectory` (Props/Trajectory.lean): C162 (Gaussian noise): given all observations, the whole trajectory is jointly normally distributed: the means are the rows of `smooth`, the covariance between any two times is `crossCov`.
- `KK.C162_moments` (Props/Trajectory.lean): C162 (Gaussian noise, second moments): what the expectation step of the EM algorithm needs. The conditional mean, given all observations, of the product of component `i` of the state of row `k` and component `j` of the state of row `l` is the product of the smoothed means plus the covariance `crossCov`.

### C163 — Where the build looks for the project

*Property.* The version computed by setup.py (versioneer.get_versions) is that of the current directory if this contains setup.py, pyproject.toml or versioneer.py, whichever script is run; otherwise that of the directory of the script (VersioneerBadRootError if that contains none of the three). So python DIR/setup.py of a checkout started in any directory that is not itself a project gives what it gives when started in DIR, and that is the version the package in the checkout reports (or the same exception); started in another project's directory it gives that project's version, computed with that project's settings. With the settings of this project's pyproject.toml get_versions is the computation of C102-C104; without a TOML parser (Python before 3.11 without tomli) it raises OSError.

*Model and proof.* Model/Root.lean models get_root and the whole of get_versions for any configuration (handlers, assertions, keywords, file, git, parent directory); paths are joined and split as in Model/Install and Model/Version. For the settings of this project it is definitionally buildVersions, so C102-C104 apply. *Limits.* posix; real paths of the current directory and of sys.argv[0] are given; a directory other than /.

- `KK.Version.C163_root` (Props/Root.lean): C163 (root): the build works on the current directory if that contains `setup.py`, `pyproject.toml` or `versioneer.py`, whatever script is run; otherwise on the directory of the script, if that contains one of these; otherwise it raises VersioneerBadRootError.
- `KK.Version.C163_anywhere` (Props/Root.lean): C163 (any directory): `python DIR/setup.py` started in a directory that is not itself a project gives the version information it gives when started in `DIR`, or fails in the same way; whatever the configuration, the files and git are.
- `KK.Version.C163_other_project` (Props/Root.lean): C163 (another project): if the current directory contains `setup.py`, `pyproject.toml` or `versioneer.py`, the version information is that of the current directory, whatever script of whatever project is run.
- `KK.Version.C163_this_project` (Props/Root.lean): C163 (this project): in a directory with the configuration of this project, the build computes what `C102`-`C104` are about, for the tree in that directory.
- `KK.Version.C163_checkout` (Props/Root.lean): C163 (checkout): `python DIR/setup.py` of a checkout in `DIR`, started anywhere outside of projects, computes the version that the package in the checkout reports (`kalmankit.__version__`), or raises the same exception.
- `KK.Version.C163_no_toml` (Props/Root.lean): C163 (no TOML parser): on a Python before 3.11 without `tomli`, and without a `setup.cfg`, the build raises OSError whatever `pyproject.toml` says.

### C164 — Every step in its own coordinates; filtering deviations from a reference

*Property.* Describe the initial state by M_0 x + t_0 and the state after step k by M_(k+1) x + t_(k+1), with any invertible matrices and any offsets, and change the model accordingly (A to M_(k+1) A M_k^-1, the control contribution and the measurement by what the offsets contribute, H to H M_(k+1)^-1, Q to M_(k+1) Q M_(k+1)'). Then filter and smooth raise LinAlgError exactly when they did before, and otherwise row k of means, covariances and gains is the old row in the coordinates of that step. In particular a user may filter deviations from any reference trajectory, one that satisfies the model or not: subtract it from the initial mean, subtract H times it from the measurements, add A ref_k - ref_(k+1) to the control contribution; means become deviations, covariances and gains stay.

*Model and proof.* Each step commutes with a pair of frames (before, after); induction over the run with the frames shifted. C33 is the case of one frame without offset. *Limits.* exact arithmetic; statement for the representation of the model as numbers, like C33.

- `KK.C164_moving_frame` (Props/Frames.lean): C164: describe the initial state by `M 0 x + t 0` and the state after step `k` by `M (k + 1) x + t (k + 1)`, every `M k` invertible. The model of the described states has the transition `M (k + 1) A (M k)⁻¹`, the control contribution that makes the two descriptions agree, the observation matrix `H (M (k + 1))⁻¹`, the process noise `M (k + 1) Q M (k + 1)'`, the same measurement noise, and measurements shifted by what the offset contributes to them. `filter` and `smooth` raise LinAlgError exactly when they did before; otherwise row `k` of the means, covariances and gains is the old one expressed in the coordinates of the state after step `k`.
- `KK.C164_deviations` (Props/Frames.lean): C164: instead of the states, filter their deviations from any reference trajectory `x̄` (a planned path; it need not satisfy the model): start with the deviation of the initial mean, replace the control contribution `c` of step `k` by `c + A x̄ k - x̄ (k + 1)` and the measurement `z` by `z - H x̄ (k + 1)`, and keep all matrices. `filter` and `smooth` raise LinAlgError exactly when they did before; otherwise covariances and gains are unchanged and the means are the deviations of the old means from the reference.

### C165 — Convergence for models that are only detectable and stabilizable

*Property.* For a constant model with PSD Q and PD R in which whatever the measurements do not see and whatever the process noise does not reach is stable (detectable, stabilizable; weaker than C82), the covariance recursion has exactly one PSD steady state F, in which errors die out (the powers of (I - K H) A tend to zero); from every PSD initial covariance with entries up to p, for all data and controls, filter returns and for every step k the covariance and the recorded gain are within C rho^k (1 + p) of F and the steady-state gain, C and rho < 1 depending on the model only. Estimation errors stay within C rho^k times the initial error plus C times a bound of disturbances and measurement errors, and bounded data give bounded estimates. Observable and controllable models satisfy the conditions, and a model with any constant gain under which errors die out is detectable.

*Model and proof.* Covariances from zero increase and are bounded by the predictor with the stabilizing observer gain, so they converge; in the limit the energy y.Fy of the adjoint closed loop decreases by the noise it sees, so the noise terms die out, and feeding the missing output back through the stabilizing feedback makes the closed loop a stable system with vanishing input (no eigenvalues needed). Products of matrices that converge to a stable one decay geometrically (a submultiplicative family); this gives the rate, forgetting and boundedness. Stable means that the powers tend to zero. *Limits.* exact arithmetic; stabilizability is sufficient, not shown to be necessary; constants of C165_observer depend on the initial covariance.

- `KK.C165_convergence` (Props/Detectability.lean): C165: a constant model with PSD `Q` and PD `R` that is detectable through `H` and stabilizable by `Q`: whatever the measurements do not see, and whatever the process noise does not reach, is stable. There is exactly one PSD steady state `F` of the covariance recursion, and in it estimation errors die out: the powers of `(I - K H) A`, `K` the steady-state gain, tend to zero. For every initial state (any PSD covariance, with entries up to `p`), any data and any controls, `filter` returns, and for every step `k` the returned covariance and the recorded gain are within `C ρ^k (1 + p)` of `F` and `K`, where `C` and `ρ < 1` depend on the model only.
- `KK.C165_observer` (Props/Detectability.lean): C165: for such a model, started with any PSD covariance `P`: whatever the true states `x 0, x 1, ...` are, let `w` be the disturbances of the transitions and `v` the errors of the measurements. If they are at most `D` and the initial estimate is off by at most `r`, the estimate after step `k` is off by at most `C ρ^(k+1) r + C D`, where `C` and `ρ < 1` depend only on the model and `P`. Without disturbances the estimates converge to the true states, also those of components that are not observed.
- `KK.C165_bounded` (Props/Detectability.lean): C165: for such a model bounded data give bounded estimates, whether or not the system itself is stable.
- `KK.C165_conditions` (Props/Detectability.lean): C165: observable and controllable models (C82) are detectable and stabilizable; conversely a model with any steady state in which errors die out is detectable, so nothing weaker would do for `H`.

### C166 — Exactly the detectable models settle down

*Property.* KalmanFilter.filter with a constant model (PSD Q, PD R) whose process noise reaches everything that is not stable, e.g. PD Q: the covariance recursion has a steady state if and only if the model is detectable. If it is not, the filter never settles: whatever the bound, there are a component and a number of steps, the same for all initial states and data, after which every returned variance of this component is above it. If it is, the returned covariances stay within a constant times one plus the largest entry of the initial one - this also if Q reaches nothing, e.g. Q = 0.

*Model and proof.* If the covariances that start with certainty stay bounded, they increase to a limit, a steady state, whose closed loop is stable (C165), and I - K H stable means detectable; all other covariances are above them. The bound for detectable models is the predictor with the stabilizing observer gain, with the initial covariance as an additional input. *Limits.* exact arithmetic; growth is stated for noise that reaches what is not stable (without that a model that is not detectable may stay bounded).

- `KK.C166_steady` (Props/Undetectable.lean): C166: a constant model with PSD `Q` and PD `R` in which the process noise reaches whatever is not stable (for instance one with PD `Q`) has a steady state of the covariance recursion if and only if it is detectable.
- `KK.C166_grows` (Props/Undetectable.lean): C166: if such a model is not detectable, the filter never settles: whatever the bound `c`, there is a number of steps - the same for all initial states and all data - after which every covariance that `filter` returns has a variance above `c`.
- `KK.C166_bounded` (Props/Undetectable.lean): C166: in a detectable model, whatever the process noise reaches (any PSD `Q`, also `Q = 0`), all covariances that `filter` returns stay within a constant times one plus the largest entry of the initial one, for any data and any length of the run.

### C167 — Smoothed states from the filter, by carrying earlier states along

*Property.* Extend the state by further components that at every step turn into E x + D y (x the state before the step, y their old values), get no noise and are not measured. Whatever E and D are (time-varying) and whatever is believed about them at first, filter returns in the rows and columns of the state exactly what it returns for the plain model, gains included, or both raise LinAlgError. If they are uncorrelated at first, the last row contains as their estimate the recursion y = E x_k + D y with the states x_k returned by smooth of the plain model: running sums of smoothed states, states of some steps ago. If they take T x at one step and keep it, then in every later row their estimate and covariance are T x_s and T P_s T', x_s and P_s being what smooth says about that time given the measurements so far (fixed-point smoothing in one pass of filter).

*Model and proof.* Block algebra: the covariance between further components and state has the form T P, with T following a recursion of its own; by induction along the run the corrections of the further components add up to those of the backward pass. *Limits.* exact arithmetic; joint covariance of the further components only for the copied state.

- `KK.C167_filter` (Props/Carry.lean): C167: further components that only ever take in the state and themselves, without noise and without being measured, leave the rest alone: whatever they are and whatever the filter believes about them at first, `filter` returns exactly the estimates, covariances and gains of the plain model in the rows and columns of the state — or both raise LinAlgError.
- `KK.C167_means` (Props/Carry.lean): C167: further components that start from a mean `l.x` and turn, at every step after the first, into `E x + D y` end up, in the last row returned by `filter`, with the estimates obtained by putting the *smoothed* states of the plain model in the place of `x`: running sums of smoothed states, say, or states of some steps ago.
- `KK.C167_memory` (Props/Carry.lean): C167: further components that become `T x` at one step (`x` being the state before it) and are otherwise left alone keep up with what is learnt about that one state: in every later row of the one call of `filter`, their estimate and covariance are exactly what `smooth`, called on the measurements so far, says about `T x` at that time: `T x̂ₛ` and `T Pₛ Tᵀ`. (`ps` are the steps up to that state, `ss` the further ones that have been seen, `rest` those that have not.)

### C168 — Detectable models: the initial state is forgotten, the filter becomes a fixed-gain observer

*Property.* For a constant model with PSD Q and PD R that is detectable and stabilizable (weaker than C85 and C109: some components may be neither observed nor driven by noise), started with PSD covariances P, P': two calls of filter on the same data with different initial means and covariances return means that differ by at most C rho^(k+1) (r + D) after step k, where r bounds the initial means and D data and controls, and the means of filter differ by at most as much from those of the observer x' = A x + c + K (z - H (A x + c)) with the steady-state gain K, started anywhere, which computes no covariances. C and rho < 1 depend on the model and the initial covariances only.

*Model and proof.* The difference to the fixed-gain observer obeys the closed loop of the steady state, driven by the difference of the gains times the innovation: the first decays (C165), the second is bounded (C165), the closed loop is stable; variation of constants. *Limits.* exact arithmetic; the constants depend on the initial covariances.

- `KK.C168_fixed_gain` (Props/DetectForget.lean): C168: a constant model with PSD `Q` and PD `R` that is detectable and stabilizable, started with any PSD covariance `P`: the means `filter` returns approach those of the observer that uses the steady-state gain from the beginning and computes no covariances, started anywhere: if both initial means are at most `r` and data and controls at most `D`, they differ by at most `C ρ^(k+1) (r + D)` after step `k`, where `C` and `ρ < 1` depend on the model and `P` only.
- `KK.C168_forget` (Props/DetectForget.lean): C168, the whole initial state is forgotten: two filters with the same such model and data, started with covariances `P` and `P'` and any means up to `r`, return means that differ by at most `C ρ^(k+1) (r + D)` after step `k`; the covariances and gains approach each other too (C165).

### C169 — Rounding errors do not accumulate: models that are only detectable and stabilizable

*Property.* KalmanFilter.filter with a constant model with PSD Q, PD R and PSD initial covariance that is detectable and stabilizable (weaker than C108: components that are neither observed nor driven by noise are allowed if they are stable), on inputs with entries and dimensions up to a bound: for every tolerance there is one accuracy of the arithmetic (one number of binary digits) that suffices for runs of any length. Every such run on inputs within that accuracy of the model returns, with every state, covariance and recorded gain within the tolerance of the textbook filter in exact arithmetic: the errors of the single steps do not add up.

*Model and proof.* The proof of C108 uses three facts of the model and the initial covariance (`Settles`): products of closed-loop matrices decay, covariances stay bounded, bounded data give bounded states. All three follow for detectable and stabilizable models from the convergence to a stable steady state (C165). *Limits.* as C108: the accuracy depends on the model, the initial state, the bound and the tolerance, and is not computed.

- `KK.C169_no_drift` (Props/NoDriftDetect.lean): **C169**. A constant model with PSD `Q`, PD `R` and PSD initial covariance that is detectable and stabilizable (what is not observed, and what the process noise does not reach, is stable), and a bound `D` on the entries (and dimensions) of the arrays given to the filter. For every `ε` there is one `η` such that *every* run on such data, however long, in every arithmetic that is accurate to `η`, on inputs within `η` of the model, returns, and every state, covariance and recorded gain is within `ε` of the textbook filter in exact arithmetic.
- `KK.C169_binary` (Props/NoDriftDetect.lean): **C169** in binary floating point: a number of binary digits that suffices for runs of any length.

### C170 — Rounding errors do not accumulate in the smoother: models that are only detectable and stabilizable

*Property.* KalmanFilter.smooth with such a model whose predicted covariance is nonsingular in the steady state (always so if Q is PD, and for observable and controllable models): for every tolerance one accuracy (one number of binary digits) suffices for every call, on bounded data of any length, for which the textbook smoother exists; it returns, with every smoothed state and covariance and every recorded gain within the tolerance of the textbook smoother in exact arithmetic.

*Model and proof.* As C114, from the additional facts (`SettlesBack`) that products of smoother gains decay and predicted covariances stay away from singular ones. The smoother gain of the steady state is similar to the transposed closed loop, hence stable, and products of factors that converge to a stable matrix decay. *Limits.* as C114; a model whose steady predicted covariance is singular is not covered (the smoother inverts it).

- `KK.C170_no_drift_smooth` (Props/NoDriftDetect.lean): **C170**. The same for `smooth`, for a detectable and stabilizable model whose predicted covariance is nonsingular in the steady state: one accuracy suffices for every call of `smooth`, however long, for which the textbook smoother exists.
- `KK.C170_binary` (Props/NoDriftDetect.lean): **C170** in binary floating point.
- `KK.C170_conditions` (Props/NoDriftDetect.lean): **C170**. When the hypotheses hold: a positive definite `Q` makes every model stabilizable and every predicted covariance nonsingular, and observable and controllable models (C114) satisfy them all.

### C171 — Fixed lag and boundedness of the smoother: models that are only detectable and stabilizable

*Property.* KalmanFilter.smooth with a constant model (PSD Q, PD R) that is detectable and stabilizable (weaker than C111: components that are neither observed nor driven by noise are allowed if they are stable), started with covariance P, whose predicted covariance is nonsingular in the steady state. Smooth N observations, and then the same with any number of further observations: either the second call raises LinAlgError (the predicted covariance was singular at some step), or both return and the smoothed covariance of step k differs by at most C rho^(N-k), the smoothed mean by at most C rho^(N-k) times the change of the estimate of step N, and by at most C rho^(N-k) (r + D) if the initial mean is bounded by r and data and controls by D; so what smooth says about a step is final after a fixed lag, whatever comes later. For runs of any length all smoothed covariances are at most C and all smoothed means at most C (r + D). C and rho < 1 depend on the model and P only.

*Model and proof.* The backward recursions of the two runs differ at step k by a product of smoother gains applied to their difference at step N (`smoothAt_diff`), and products of smoother gains decay (`SettlesBack`, C170). Boundedness: the recursion is a stable one with bounded inputs (`back_bound`), the filter being bounded by C166. *Limits.* exact arithmetic; a model whose steady predicted covariance is singular is not covered (the smoother inverts it), nor a time-varying one.

- `KK.C171_fixed_lag` (Props/LagDetect.lean): C171: a constant model with PSD `Q` and PD `R`, detectable and stabilizable, whose predicted covariance is nonsingular in the steady state; initial covariance `P`. `smooth` is called on the data `ss`, and again when the further data `tt` have arrived. (Either the second call raises LinAlgError, or:) the smoothed belief of every step `k` hardly changes if it lies far from the end `N` of the first run: the covariance changes by at most `C ρ^(N-k)`, and the mean by at most `C ρ^(N-k) r` where `r` bounds the change of the estimate of the last step of the first run. `C` and `ρ < 1` depend on the model and `P` only.
- `KK.C171_bounded` (Props/LagDetect.lean): C171: for such a model bounded data give bounded smoothed estimates, whatever the length of the data and whether or not the system itself is stable, and the smoothed covariances are bounded whatever the data are.

### C172 — Smoothed covariances in the middle of a long run: models that are only detectable and stabilizable

*Property.* KalmanFilter.smooth with a constant model (PSD Q, PD R) that is detectable and stabilizable (weaker than C112), whose predicted covariance A F A' + Q is nonsingular in the steady state F of the filter. There is one matrix S, the only solution of S = F + G (S - (A F A' + Q)) G' with G = F A' (A F A' + Q)^-1, positive semidefinite and at most F, such that from every PSD initial covariance, in every run of any length, the smoothed covariance of step k of N is within C (rho^k + rho^(N-k)) of S (or the call raises LinAlgError); C and rho < 1 depend on the model and the initial covariance only.

*Model and proof.* The difference to S obeys the backward recursion with an inhomogeneity that tends to zero like the filter covariance tends to F (C165); products of smoother gains decay (C170), so the difference is small away from both ends. S is the limit of the backward recursion in the steady state; the equation has one solution because the smoother gain of the steady state is stable. *Limits.* exact arithmetic; a model whose steady predicted covariance is singular is not covered; unlike C112 the constants depend on the initial covariance.

- `KK.C172_steady_smoother` (Props/SteadySmooth.lean): C172: a constant model with PSD `Q` and PD `R`, detectable and stabilizable, whose predicted covariance `A F Aᵀ + Q` is nonsingular in the steady state `F` of the filter. There is one matrix `S` - the steady-state smoothed covariance, the only solution of `S = F + G (S - (A F Aᵀ + Q)) Gᵀ` with `G = F Aᵀ (A F Aᵀ + Q)⁻¹`, PSD and at most `F` - such that, from every PSD initial covariance `P`, in every run of any length the smoothed covariance of step `k` of `N` is within `C (ρ^k + ρ^(N-k))` of `S` (or `smooth` raises LinAlgError). `C` and `ρ < 1` depend on the model and `P` only.

### C173 — Detectable models: smooth forgets the initial state and becomes a smoother with fixed gains

*Property.* KalmanFilter.smooth with a constant model (PSD Q, PD R) that is detectable and stabilizable, whose predicted covariance A F A' + Q is nonsingular in the steady state F of the filter, started with PSD covariance P. If the call does not raise LinAlgError, the smoothed means differ after step k by at most C rho^(k+1) (r + D) from those of the smoother with the fixed gains K (of the steady-state filter) and G = F A' (A F A' + Q)^-1, which is started anywhere and computes no covariances; r bounds the initial means, D data and controls. Two calls on the same data from different initial means and covariances P, P' return covariances that differ by at most C rho^(k+1) and means that differ by at most C rho^(k+1) (r + D). C and rho < 1 depend on the model and the initial covariances only.

*Model and proof.* Both runs are compared with the run from the steady state. The differences obey the backward recursion with an inhomogeneity that fades: the filter runs approach each other (C168), the smoother gains converge at the same rate (C172), the smoothed beliefs are bounded (C171); products of smoother gains decay. From the steady state the textbook smoother is the fixed-gain one (`front_fixed`). *Limits.* exact arithmetic; a model whose steady predicted covariance is singular is not covered.

- `KK.C173_fixed_gains` (Props/SmoothForget.lean): C173, fixed gains: a constant model with PSD `Q` and PD `R`, detectable and stabilizable, whose predicted covariance is nonsingular in the steady state `F` of the filter. From every PSD initial covariance `P`: the means of `smooth` differ from those of the smoother with the fixed gains `K` (of the steady-state filter) and `G = F Aᵀ (A F Aᵀ + Q)⁻¹` (`fixedSmooth`, which computes no covariances), started anywhere, by at most `C ρ^(k+1) (r + D)` after step `k` (counted from 0), `r` bounding the initial means, `D` data and controls. `C` and `ρ < 1` depend on the model and `P` only.
- `KK.C173_forget` (Props/SmoothForget.lean): C173, the initial state is forgotten: two calls of `smooth` with the same such model and data, started with PSD covariances `P`, `P'` and any means up to `r`, return (if neither raises LinAlgError) covariances that differ by at most `C ρ^(k+1)` and means that differ by at most `C ρ^(k+1) (r + D)` after step `k`.

### C174 — The smoothed moving average is forward-backward exponential smoothing

*Property.* The moving-average set-up of the documentation (A = H = 1, constant Q = q > 0 and R = r > 0, Pk = p >= 0, any xk), with smooth instead of filter: the call returns for any number of data. The variance of row k of N (counted from 0) is within C (rho^(k+1) + rho^(N-1-k)) of q r / sqrt(q^2 + 4 q r), and the smoothed value is within C rho^(k+1) M of exponential smoothing of the data with weight g = (sqrt(q^2 + 4 q r) - q) / (2 r), applied forward from any starting value and then backward; M bounds the data, xk and the starting value. C and rho < 1 depend on p, q, r only.

*Model and proof.* C172 and C173 for the scalar random walk, whose steady state f solves f (f + q) = q r: the gain of the filter is f / r = g, that of the smoother f / (f + q) = 1 - g, and the equation of C172 gives S = f (f + q) / (2 f + q). The fixed-gain smoother with these gains is exponential smoothing forward and backward (`fixedSmooth_ma`). *Limits.* exact arithmetic; constant q and r.

- `KK.C174_exponential_smoothing` (Props/ExpSmooth.lean): C174: the moving average of the documentation (`A = H = 1`, `Q = q > 0`, `R = r > 0`, any `Pk = p ≥ 0`), smoothed: `smooth` returns for any data and any number of them; the variance of row `k` of `N` (counted from 0) is within `C (ρ^(k+1) + ρ^(N-1-k))` of `q r / √(q² + 4 q r)`; and the mean is within `C ρ^(k+1) M` of forward-backward exponential smoothing of the data with the weight `g = (√(q² + 4 q r) - q) / (2 r)` started anywhere (`M` bounds data, initial guess, and start). `C` and `ρ < 1` depend on `p`, `q`, `r` only.

### C175 — The smoothed moving average is order preserving and does not overshoot

*Property.* The moving-average set-up of the documentation (A = H = 1, constant Q = q > 0 and R = r > 0, Pk = p >= 0, any xk), with smooth: the call returns for any number of data. If the data and the initial guess of a second call are nowhere smaller than those of the first, no smoothed state of the second is smaller than that of the first, and the variances are equal. The smoothed states lie between the smallest and the largest of the data and the initial guess, and the smoothed variances between 0 and r.

*Model and proof.* The filter and the backward pass are scalar recursions with weights in [0, 1] that do not depend on the data (`ma_front`, `ma_rts`), so results grow with the data (`maSm_mono`); constant data are reproduced, which gives the bounds. The variances are bounded by those of the filter (`smp_mem`). *Limits.* exact arithmetic; constant q and r; a statement about this scalar model (a smoother with velocity states can overshoot).

- `KK.C175_order` (Props/SmoothOrder.lean): **C175**: the moving average of the documentation (`A = H = 1`, `Q = q > 0`, `R = r > 0`, any `Pk = p ≥ 0`), smoothed. Two calls of `smooth`, the second with data and initial guess that are nowhere smaller, both return; no smoothed state of the second is smaller than that of the first, and the variances are the same.
- `KK.C175_no_overshoot` (Props/SmoothOrder.lean): **C175**: the smoothed states stay between the smallest and the largest of the data and the initial guess, and the smoothed variances between 0 and `r`.
