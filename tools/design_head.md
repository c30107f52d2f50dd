# Formal model of kalmankit — design

(Generated by `tools/gen_design.py` from `tools/design_head.md`, `properties.jsonl`, the docstrings of the property
theorems and `tools/design_notes.json`.)

## 1. What is modelled

Source: `/repo/src/kalmankit/{utils,standard,extended}.py`, all of it, the version logic of
`/repo/src/kalmankit/_version.py`, and the model-building helpers of `/repo/examples`.
Nothing of the project is executed; the model was written by reading the code.

The model is a set of total Lean functions that follow the Python functions statement by statement.  Arrays have dynamic
shapes, exceptions are values, methods thread the object.  Every definition cites file and lines.

| module | contents |
|---|---|
| `Model/Numpy.lean` | the numpy subset used: rank 0-2 arrays with dtype tag (`int64`/`float64`), `@`, `+`, `-` with broadcasting, `.T`, `np.atleast_1d`, `np.identity`, `np.zeros`, `np.full_like`, `np.isnan(..).all()`, `np.linalg.solve`, row assignment, `len`, iteration, indexing; sequences of rank <= 2 arrays; `ValueError`, `TypeError`, `IndexError`, `LinAlgError`; the method monad `Py` (an exception keeps the mutations done so far) |
| `Model/Utils.lean` | `check_none_and_broadcast`, `is_nan_all` |
| `Model/Standard.lean` | `KalmanFilter`: constructor, `predict`, `update`, `filter`, `smooth` |
| `Model/Extended.lean` | `ExtendedKalmanFilter`: constructor, `predict`, `update`, `filter`, `smooth`; callbacks are pure functions that may raise |
| `Model/Threads.lean` | the same methods split at every access to the shared object, for schedules and crash points |
| `Model/Heap.lean` | `KalmanFilter` with references: buffers, views (`a[k]`, `a.T`, `np.atleast_1d`), allocation, in-place row writes |
| `Model/Stateful.lean` | `ExtendedKalmanFilter` with callbacks that keep state, assign to attributes of the object, call its methods (C142-C145) |
| `Model/Iterators.lean` | both classes with generators or other one-shot iterators in place of the sequences `A`, `H`, `B`, `Q`, `R`, `U` (C146, C147) |
| `Model/Subclass.lean` | `filter` and `smooth` of both classes as inherited by a subclass that overrides `predict` and `update` with programs of its own (C149, C150, C152); `smooth` with an overridden `filter` (C158) |
| `Model/Shared.lean` | several objects whose `kalman_gains` refer to shared list objects: calls, `copy.copy`, `copy.deepcopy`, saved references, rebinding (C154) |
| `Model/HeapExt.lean` | `ExtendedKalmanFilter` with references; callbacks are arbitrary programs on the same memory |
| `Model/Version.lean` | `_version.py`: `run_command`, `versions_from_parentdir`, `git_versions_from_keywords`, `git_pieces_from_vcs`, all `render_*` styles, `render`, `get_versions`, and the two evaluations in `__init__.py`; git is an arbitrary function from command lines to outcomes |
| `Model/Build.lean` | `versioneer.py` as used by `setup.py`: `git_get_keywords`, `versions_from_file`, `get_versions`, `get_version`, `write_to_version_file` with `SHORT_VERSION_PY`, `json.dumps`/`json.loads` of the version dictionary, the two regular expressions, and what importing a written `_version.py` yields (value of the Python string literal, then `json.loads`); `run_command`, `versions_from_parentdir`, `git_versions_from_keywords`, `git_pieces_from_vcs` and `render*` there are textually the functions of `_version.py` (compared as syntax trees) |
| `Model/Install.lean` | `python versioneer.py setup`: `get_config_from_root`, `do_setup`, `do_vcs_install`, `scan_setup_py`, `setup_command` on files, with every point at which the process can be killed |
| `Model/Root.lean` | `versioneer.get_root`, and `versioneer.get_versions` for any configuration |
| `Model/Examples.lean` | model matrices and callbacks of `/repo/examples` |
| `Spec/*` | specifications that do not use the model: textbook Kalman, extended Kalman and RTS recursions on Mathlib matrices, batch cost, probability model (also with noise other than told), moving-average set-up, threads and schedules, memory |
| `Proofs/*` | lemmas, refinements |
| `Props/*` | the property theorems; only these are cited in MANIFEST.json |
| `Test/*` | concrete backends, encodings and runs used to show that hypotheses are satisfiable and that the model computes the documented results |

Arithmetic is a parameter, the class `Backend F` (`add`, `sub`, `gemm`, `solve`, `isnan`, the NaN constants).  Four kinds
of theorem follow:

* **structural** theorems hold for *every* `Backend`, so in particular for IEEE-754 doubles with any BLAS/LAPACK whose
  results are functions of operand values and shapes (C01-C10, C13-C22, C60-C65, C78-C81, C136-C143, C145-C149, C151, C152, C154,
  C88 in part);
* **NaN** theorems hold for every backend in which NaN propagates through `+`, `-`, dot products (C11, C12, C23);
* **exact** theorems are about the backend `Fl` = NaN or an exact real number, where `solve` is the exact solution when the
  determinant is nonzero and LinAlgError when it is zero (C24-C59, C66-C69, C82-C85,
  and those after C88 that are about the filters and not listed below).  What LAPACK does on operands that
  contain NaN, and what a NaN becomes when cast to int64, are arbitrary functions (`Platform`) over which the theorems
  quantify;
* **approximation** theorems (C86, C87, C94, C108, C114, C125, C126, C130, C169, C170) compare every arithmetic that is accurate enough with the exact one;
* **floating-point** theorems (C131, C132, C135, C156) are about arithmetics with rounding, overflow and NaN as such, without a closeness assumption.

The link between dynamically shaped arrays and matrices is the predicate `Represents kf Z U b ss` (`Spec/Textbook.lean`):
the object and data hold the initial belief `b` and the list of linear steps `ss`, in any of the layouts numpy accepts
(1-d states, 1-d or 0-d scalar observations, column layouts where the code accepts them), for any dtype.
`Test/Encode.lean` shows that every `b`, `ss` is represented by some call, so no exact theorem is vacuous.

## 2. Trusted base

* Lean 4.33.0's kernel.
* Axioms: every theorem cited in MANIFEST.json depends on at most `propext`, `Classical.choice`, `Quot.sound` (checked by
  `vcheck` and by `#print axioms`); no other axiom is declared, no compiled evaluation is used.
* Mathlib's definitions used in statements: `Matrix`, `Matrix.PosSemidef`/`PosDef`, `Matrix.det`, `⁻¹`, real numbers,
  `MeasureTheory` integrals, independence, Gaussian processes, the multivariate Gaussian measure, Lebesgue measure and densities, conditional expectation, `Filter.Tendsto`.
* That the model reads `/repo` and numpy's documented semantics correctly.  Points where numpy's behaviour matters and was
  taken from its documentation: `a @ b` raises ValueError on shape mismatch or 0-d operands; broadcasting rules; `a.T` of
  rank < 2 is `a`; `np.full_like(int array, nan)` stores an implementation-defined integer; assignment `a[k] = v`
  broadcasts and drops leading axes of length 1; `np.linalg.solve(a, b)` needs square 2-d `a`, treats 1-d `b` as a vector,
  and otherwise requires matching leading size.

Not modelled:

* infinities, except in C132-C135 (IEEE numbers with infinities and NaN, without signed zeros); floating-point rounding in the exact theorems (rounding is covered by the structural ones, and
  C86, C87, C94, C108, C114, C125, C126, C130 bound its effect for every arithmetic that is accurate enough, without explicit constants; C156 has explicit constants for one model; C94 has underflow
  and overflow, with infinities identified with NaN);
* int64 overflow, int-to-float rounding, dtypes other than int64 and float64 (complex, float32, object);
* per-step arrays of rank >= 3; Python lists and numbers in place of arrays, except in C136-C138 (`Model/Lists.lean`), which reduce
  them to arrays; tuples, bools, None inside lists, pandas objects;
* parameters that are iterators which raise or which read one another (C146, C147, C157 have independent one-shot iterators, possibly
  one for several parameters);
* subclasses other than those that override `predict`, `update` and `filter` (C149, C150, C152, C158), monkey patching, assigning to the private identity matrix or values other than arrays (and `None` for `B`) to attributes (C151, `Spec/Heap.lean`);
* callbacks of the extended filter that replace a callback or a method of the object while a call is running (C78-C81 cover
  callbacks that read, write and return arbitrary arrays, C142-C145 callbacks that keep state of their own, assign to other
  attributes or call methods; all other theorems take them as pure functions);
* numpy warnings, memory exhaustion, time; the GIL (threads may switch between any two accesses to the object);
* deallocation and buffer reuse (the heap only grows);
* plotting and random number generation in `/repo/examples`;
* in `_version.py`: verbose output, Windows paths, surrogates, Python's limit on the length of integer literals;
* in `/repo/versioneer.py`: the TOML and INI parsers (parameters), the setuptools
  command classes other than what they write, the text of the long `_version.py`, JSON numbers and nested values, Python escapes that
  `json.dumps` never writes. Universal newlines of `open` are not modelled (files with `\n` only).

## 3. Findings about the code

Facts proved about the code that a user may not expect:

* `B=None`/`U=None` with integer `A`/`Z` is *not* "no control": `np.full_like` stores the integer cast of NaN, so
  `is_nan_all` is false and garbage is added (C10; `utils.py` 33).
* A scalar `R_k` or `Q_k` inside a sequence broadcasts to a full matrix of that constant, not to a multiple of the identity;
  two sensors are then taken as perfectly correlated (C53).
* `filter` stops at the shortest parameter sequence and returns zero rows for the remaining data, without an error (C02);
  `smooth` then raises IndexError, or if only `H` or `R` is short takes the state after the last
  measurement as known to be zero (C88).
* One NaN observation makes every later state NaN, and the whole smoothed trajectory (C11, C12); NaN is not "missing data".
* A control vector that is only partly NaN is not ignored; it makes the state NaN (C23).
* `predict`/`update` record a gain even if the call later raises (C07); `kalman_gains` is never reset (C06).
* The extended filter hands NaN controls to the callbacks when `U=None` (C52).
* Callbacks that count their calls to follow a time-varying model work in `filter` but not in `smooth`, whose backward pass calls
  `jacobian_A` twice and `f` once more per row, out of step; after a LinAlgError the counter of `h` is one behind (C144).
* Empty data: `filter` returns empty arrays, `smooth` raises IndexError (C16).
* The constructors keep references to the caller's arrays (C65, C81).
* An `f` that changes its argument in place moves the initial state of the object: a second `filter` starts elsewhere, and
  `smooth` is wrong at once; `f` and `h` must not share a result buffer (examples beside C79).
* `import kalmankit` from a checkout raises AttributeError if `git show` (or `git rev-list`) fails after `git describe` worked
  (C74); `_version.py` tests the results of the other commands only.
* An archive of a commit with several release tags gets the least as a string: `10.0` before `2.0`; without marked tags a
  branch named `v2` counts as a release (C76).
* A git tag with a double quote or backslash in it makes an installed package fail at import: `json.dumps` writes a backslash
  that the Python literal around the JSON text consumes (example beside C103). Source distributions are not affected (C102).
* `python versioneer.py setup` on this repository adds the `__version__` lines to `__init__.py` once more, because they were
  reformatted with double quotes (example beside C129). It glues its entry onto an unterminated last line of `.gitattributes`; killed
  at the wrong moment it leaves a `.gitattributes` that further calls take for correct but git does not (C129). It can lose
  `__init__.py` when killed while replacing the lines of older versions, and empties the version file if `VCS` is not git (C128).
* In floating point `filter` can return negative variances and asymmetric covariances, for harmless inputs and at every
  precision, because `update` computes `(I - K H) P`; only for `H = 1` signs are safe (C131). Confirmed in binary64: -2.2e-16.
* `R = np.inf` as a number, with two or more sensors, raises nothing and turns state, covariance and gain into NaN or infinities;
  `np.diag([np.inf, ...])` ignores the observation exactly, as intended. One infinite sensor among two can make the gain of the *other*
  one NaN, depending on the pivot that LAPACK chooses (C135): infinite noise does not mean "missing data".
* One finite component of the last filtered state certifies that everything before was finite (C132).
* `python DIR/setup.py` started in a directory with a `pyproject.toml` or `setup.py` of its own takes version and settings from there (C163).
* `pyproject.toml` asks for `versioneer==0.26` at build time while the repository contains version 0.29; a build in isolation with
  `setuptools.build_meta` does not have the root directory on `sys.path`, so it runs the former, which is not modelled.
* Without `tomllib`/`tomli` the settings in `pyproject.toml` are silently not used (C129).
* Nested lists work for `B`, `Q`, `R`, `Z`, `U` and the covariance, but rows of `A` and `H`, and the Jacobians, must be arrays
  (AttributeError), not both of `B[k]`, `U[k]` may be lists (TypeError), and a list `z` with a list from `h` raises TypeError after the
  gain has been recorded (C136-C138).
* Vectors of variances in place of covariance matrices raise nothing: as `Q` or `R` they are repeated as every row of a full matrix
  (not put on a diagonal); as `Pk` and `Q` with as many sensors as states every state component gets the same correction (C139-C141).
* Generators (`itertools.repeat(A)` and the like) as parameters work for one `filter` call; a second call on the same object goes on
  where the first stopped, and if it was the data `Z` that ended first, `A`, `H`, `B`, `U` have lost one more item than `Q`, `R`, so the second
  call pairs rows of different times, without an error. Only endless repetitions are safe. `smooth` raises TypeError, after the whole
  forward pass (C146, C147).
* A constant model passed as single matrices without time axis raises ValueError if it is done for all of `A`, `H`, `Q`, `R`; but `A` alone with a
  control input, `H` alone with as many sensors as states, and `Q` or `R` alone are silently taken row by row, and only as many
  steps as the matrix has rows are processed (C148).
* A subclass whose `filter` also returns the initial belief as row 0 gets from the inherited `smooth` a trajectory that is out of step by
  one row and leaves out one filtered belief, without an error (C158).
* `copy.copy(kf)` gives an object with the same list `kalman_gains`: gains of calls on the copy appear in the original and vice versa; `copy.deepcopy` does not (C154). Results are never affected.
* Reusing an object by assigning to its attributes: `kf.B = None` is a TypeError later; an object built with `B=None` silently ignores
  rows beyond the length of its first `A`; an object built for one state and given a model with more states (with `state_size` assigned too)
  silently computes `(ones - K H) P` (C151).
* The version `unknown`, reported if the output of `git describe` cannot be parsed, is not a PEP 440 version (C73).

## 4. Method

1. `Props/*` states each property about the model's API functions; specifications are in `Spec/*`.
2. Loops are handled by invariants and induction on the list of rows; two-run properties by simultaneous induction.
3. Exact properties go through one refinement: `Represents.returns` / `.singular` (filter = textbook recursion or LinAlgError)
   and `.smoothReturns` / `.smoothSingular`; the mathematics is then about Mathlib matrices.
4. Beside the theorems are `example`s that instantiate their hypotheses on concrete non-trivial data.
5. Mutation testing: `tools/mutate.py` edits the model in a scratch copy and rebuilds; results are in `seeded/LOG.jsonl`.

## 5. Properties
