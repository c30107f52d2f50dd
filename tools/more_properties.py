p("Pendulum examples work on any data",
  "For every DT>0, noise scale, initial state and any observations, the pendulum filters of examples/pendulum.py and examples/pendulum_smoothing.py are constructed, filter and smooth return, smoothed covariances are positive definite and below the filtered ones; jacobian_A and jacobian_H are the true derivatives of f and h.",
  "all constants, states and observation sequences",
  "The example is run on one random sequence; correctness of Jacobians is a statement about derivatives at every point.",
  ["examples/pendulum.py:f","examples/pendulum.py:jacobian_A","examples/pendulum.py:jacobian_H","examples/pendulum_smoothing.py"])
p("Constant-velocity example works on any data",
  "For every DT, acceleration deviation, observation deviation and any observations, the filter of examples/constant_velocity_smoothing.py is constructed, filter and smooth return and all covariances are positive definite, smoothed below filtered, although transition_covariance is singular.",
  "all constants and observation sequences",
  "The example is run on one random sequence.",
  ["examples/constant_velocity_smoothing.py:transition_covariance","examples/constant_velocity_smoothing.py:main"])
p("Market-beta example works on any data",
  "For any two price series of equal length the filter of examples/market_beta.py is constructed from its integer initial state, filter returns one estimate per day and every covariance is positive definite.",
  "all price series",
  "The example is run on one random sequence.",
  ["examples/market_beta.py:main"])
p("A wrong initial mean never gains weight",
  "Two filter runs on the same model and data that start from different initial means (same positive definite covariance) return the same covariances and gains, and the squared distance of their estimates, measured in the reported covariance, never increases from one step to any later one.",
  "all models with PD covariance and measurement noise and PSD process noise (A invertible or Q PD), all data, all pairs of initial means, any length",
  "A relation between two runs over an unbounded number of steps.",
  ["src/kalmankit/standard.py:KalmanFilter.filter"])
p("Constant models converge to a steady state",
  "With constant A, H, Q, R the returned covariances are monotone (Loewner) once the first step goes up or down, stay on one side of any steady state, and converge to a steady state of the Riccati equation, at a rate that does not depend on the data; increasing sequences converge whenever some fixed gain keeps the error bounded.",
  "all constant models with PSD P and Q and PD R, all data and lengths",
  "A statement about limits of arbitrarily long runs.",
  ["src/kalmankit/standard.py:KalmanFilter.filter"])
p("Calls from several threads do not disturb each other",
  "Any number of threads, each making any sequence of predict/update/filter/smooth calls on one shared filter object, interleaved between any two accesses to the object: every finished thread got for each call exactly what it would have got alone, no attribute other than kalman_gains changes, kalman_gains grows by an order-preserving interleaving of what each thread records alone, and no call ever waits for another.",
  "all programs, all numbers of threads, all schedules, both filter classes",
  "Interleavings cannot be enumerated and cannot be forced by a test.",
  ["src/kalmankit/standard.py:KalmanFilter.filter","src/kalmankit/standard.py:KalmanFilter.update","src/kalmankit/extended.py:ExtendedKalmanFilter.filter"])
p("A call stopped at any point leaves the object usable",
  "If a call is stopped between any two accesses to the object (asynchronous exception, killed thread), the object is unchanged except that an initial part of the gains of the complete call has been appended to kalman_gains, and every later call returns what it would have returned anyway.",
  "all calls with arbitrary arguments, all stopping points, all later histories, both filter classes",
  "The set of crash points and later histories is unbounded.",
  ["src/kalmankit/standard.py:KalmanFilter.filter","src/kalmankit/standard.py:KalmanFilter.update","src/kalmankit/extended.py:ExtendedKalmanFilter.update"])

p("Calls never write into the caller's arrays",
  "KalmanFilter(...), predict, update, filter and smooth change no array that existed before the call - not the data Z, not the controls U, not A, B, H, Q, R, xk, Pk, not arrays returned by earlier calls - whether they return or raise; the only attribute they change is kalman_gains, and they only append to it.",
  "all memories, all objects, all arguments (also arguments that share memory with each other or with attributes), returning and raising calls",
  "in-place writes through views depend on which arrays share memory; no finite set of aliasing patterns covers them",
  ["src/kalmankit/standard.py:KalmanFilter.filter", "src/kalmankit/standard.py:KalmanFilter.smooth", "src/kalmankit/standard.py:KalmanFilter.update", "src/kalmankit/standard.py:KalmanFilter.predict", "src/kalmankit/utils.py:check_none_and_broadcast"])
p("Results are freshly allocated",
  "The two arrays filter and smooth return are new, different from each other, share no memory with arguments, attributes, earlier results or recorded gains, and hold what the recursion on values gives; new gains are in new memory too; predict and update also return new arrays, even if arguments share memory.",
  "all memories, all objects, all arguments however they share memory",
  "absence of sharing is a statement about every memory layout",
  ["src/kalmankit/standard.py:KalmanFilter.filter", "src/kalmankit/standard.py:KalmanFilter.smooth", "src/kalmankit/standard.py:KalmanFilter.update"])
p("Overwriting results does not disturb the filter",
  "After any sequence of calls, allocations and in-place writes into arrays other than the constructor arguments and the object's own B and identity (in particular into returned states, covariances and recorded gains), filter and smooth return what they would have returned on the untouched object, and arrays the user kept still hold their values.",
  "all histories of calls and writes of any length",
  "ranges over unbounded histories of user writes",
  ["src/kalmankit/standard.py:KalmanFilter.filter", "src/kalmankit/standard.py:KalmanFilter.smooth"])
p("Constructor arguments are held by reference",
  "The constructor stores the caller's arrays without copying: if they are changed in place afterwards (same dtype and shape), every later call behaves as that of an object constructed from the new values.",
  "all constructor arguments and all in-place changes",
  "aliasing between the caller's arrays and the object holds for every memory and every later write",
  ["src/kalmankit/standard.py:KalmanFilter.__init__", "src/kalmankit/utils.py:check_none_and_broadcast"])
p("Predictions are calibrated and optimal",
  "If the system follows the model with zero-mean square-integrable uncorrelated noises of covariances Pk, Q, R, then the one-step predictions A x + B u of the state and H (A x + B u) of the observation, formed from the mean returned for the previous step (the initial mean for the first), are unbiased, their error covariances are A P A' + Q and H (A P A' + Q) H' + R with the covariance returned for that step, and no affine function of the earlier observations (for Gaussian noise: no measurable function) has a smaller mean square error.",
  "all models, lengths, probability spaces and noises with these covariances",
  "A statement about expectations over all noise realisations and about all competing predictors.",
  ["src/kalmankit/standard.py:KalmanFilter.filter", "src/kalmankit/standard.py:KalmanFilter.predict"])
p("Innovations are white",
  "Under the same hypotheses the innovations (each observation minus its prediction from the mean returned for the previous step) have zero mean, covariance S = H (A P A' + Q) H' + R which is invertible, are uncorrelated between steps, and r' S^-1 r has expectation m; for Gaussian noise each is independent of all earlier observations and innovations. (The basis of every consistency test of a filter.)",
  "all models, lengths, probability spaces and noises with these covariances",
  "A statement about the joint distribution of residuals of all steps.",
  ["src/kalmankit/standard.py:KalmanFilter.filter"])
p("Estimates are unbiased whatever the noise covariances",
  "If the noises have zero mean and the system follows A, B, H and the initial mean, every mean returned by filter and by smooth is an unbiased estimate of the true state, whatever the covariances, correlations and distributions of the noises and whatever Pk, Q, R the filter was told.",
  "all models, all told covariances for which the call returns, all integrable zero-mean noises",
  "A statement about expectations over all noise realisations.",
  ["src/kalmankit/standard.py:KalmanFilter.filter", "src/kalmankit/standard.py:KalmanFilter.smooth"])
p("Overestimating the noise is safe",
  "If the noises are uncorrelated and at most as large as Pk, Q, R say (in every direction), the covariances returned by filter and by smooth are conservative: the mean square error of every linear functional of the state is at most what the returned covariance says.",
  "all models with symmetric told covariances, all uncorrelated zero-mean noises within them",
  "A statement about expectations over all noise realisations and all noise covariances within the bound.",
  ["src/kalmankit/standard.py:KalmanFilter.filter", "src/kalmankit/standard.py:KalmanFilter.smooth"])
p("The version of a tagged checkout",
  "In a git checkout whose nearest release tag is vREL (possibly with hyphens), NUM commits back, get_versions() reports version REL if NUM=0 and the tree is clean, otherwise REL+NUM.gHASH[.dirty] (with '.' instead of '+' if REL already contains '+'), the full commit, the dirty flag, no error, and the commit date as ISO-8601.",
  "all tags without newline, all numbers, hashes, dates and branches (also detached heads), posix and Windows executables",
  "The set of tags and describe outputs is unbounded; ambiguity of the regular expression (hyphens and digits inside tags) is a statement about all strings.",
  ["src/kalmankit/_version.py:get_versions","src/kalmankit/_version.py:git_pieces_from_vcs","src/kalmankit/_version.py:render_pep440","src/kalmankit/__init__.py"])
p("Equal versions mean equal builds",
  "If two tagged checkouts report the same version (tags without '+'), they have the same release tag, the same number of commits since, the same dirty flag and, unless clean at the tag, the same abbreviated commit.",
  "all pairs of checkouts",
  "Injectivity over all pairs of inputs.",
  ["src/kalmankit/_version.py:render_pep440","src/kalmankit/_version.py:plus_or_dot"])
p("The version of an untagged checkout",
  "In a git checkout without release tag, get_versions() reports 0+untagged.N.gHEX[.dirty] with N the number of commits and HEX the first seven digits of the commit, together with commit, dirty flag and date.",
  "all commit lists, hashes and dates",
  "Unbounded inputs.",
  ["src/kalmankit/_version.py:git_pieces_from_vcs","src/kalmankit/_version.py:render_pep440"])
p("The version is valid under PEP 440",
  "If the release tag is v followed by a valid PEP 440 version (with epoch, pre-, post-, dev-release and local label or not), the reported version is valid, in every state of the checkout; so is that of an untagged checkout. The text 'unknown' reported for unparsable describe output is not valid.",
  "all valid release versions and all checkouts",
  "A statement about a grammar.",
  ["src/kalmankit/_version.py:render_pep440","src/kalmankit/_version.py:render"])
p("Importing the package does not fail because of git",
  "Whatever git does (not installed, not executable, failing at any of the commands, unparsable output), import kalmankit yields a version string, provided git prints valid UTF-8 and git rev-list and git show work (and print something) wherever git rev-parse --git-dir works. The proviso is needed: with a failing git show the import raises AttributeError.",
  "all behaviours of all commands, both platforms, both evaluations during the import",
  "The combinations of outcomes of the commands and outputs are unbounded.",
  ["src/kalmankit/_version.py:get_versions","src/kalmankit/_version.py:run_command","src/kalmankit/_version.py:git_pieces_from_vcs","src/kalmankit/__init__.py"])
p("The version outside of a checkout",
  "Without usable git and without expanded keywords the version is the one in the name kalmankit-VERSION of the root directory, else of its parent, else of its grandparent; otherwise it is 0+unknown with an error message.",
  "all paths",
  "Unbounded inputs.",
  ["src/kalmankit/_version.py:versions_from_parentdir","src/kalmankit/_version.py:get_versions"])
p("The version of an archive",
  "In an archive made by git archive the version is determined by the ref names alone: the least (as a string) VERSION such that vVERSION is among the tags of the commit (among all ref names if no tag is marked) and starts with a digit, with the commit and its date; 0+unknown with the commit if there is none. Git is not consulted.",
  "all sets of ref names, dates and commits, all behaviours of git",
  "Unbounded inputs.",
  ["src/kalmankit/_version.py:git_versions_from_keywords","src/kalmankit/_version.py:get_versions"])
p("Styles agree on releases and round-trip",
  "A clean tree exactly at a release tag has the tag as its version in every documented style except git-describe-long, on every branch; git-describe-long gives back the text git describe printed, without the prefix of the tag.",
  "all tags, commits, branches, styles",
  "Unbounded inputs.",
  ["src/kalmankit/_version.py:render","src/kalmankit/_version.py:render_git_describe_long"])
p("The extended filter never writes into the caller's arrays",
  "ExtendedKalmanFilter(...), predict, update, filter and smooth change no array that existed before the call, except arrays the user's callbacks write themselves - whether they return or raise, also if a callback raises; the only attribute they change is kalman_gains, and they only append to it, in new memory.",
  "all memories, objects, arguments (also sharing memory) and callbacks (arbitrary programs on the memory)",
  "In-place writes through views depend on which arrays share memory, and the callbacks are arbitrary code.",
  ["src/kalmankit/extended.py:ExtendedKalmanFilter.filter","src/kalmankit/extended.py:ExtendedKalmanFilter.smooth","src/kalmankit/extended.py:ExtendedKalmanFilter.update","src/kalmankit/extended.py:ExtendedKalmanFilter.predict"])
p("Callbacks may return new, captured or scratch arrays or their argument",
  "If each callback computes a function of the values of its arguments and writes nothing but scratch arrays of its own (it may return a new array, its argument, a captured constant array or one of its scratch arrays), then filter, smooth and update return what the recursion on values gives, in new arrays that share no memory with each other, older arrays or recorded gains; the gains are in distinct new arrays. predict returns a new covariance and the array f returned. Callbacks that change their argument in place, or two callbacks that share a scratch array, give wrong results (examples).",
  "all memories, objects, data, callbacks of this kind",
  "Absence of interference is a statement about every memory layout and every callback.",
  ["src/kalmankit/extended.py:ExtendedKalmanFilter.filter","src/kalmankit/extended.py:ExtendedKalmanFilter.smooth","src/kalmankit/extended.py:ExtendedKalmanFilter.update"])
p("Overwriting results does not disturb the extended filter",
  "After any sequence of calls, allocations and in-place writes into arrays other than the constructor arguments, captured constants and the identity of the object (in particular into returned arrays, recorded gains and scratch arrays of callbacks), filter and smooth return what they would have returned on the untouched object.",
  "all histories of calls and writes of any length, all callbacks as before",
  "Ranges over unbounded histories of user writes.",
  ["src/kalmankit/extended.py:ExtendedKalmanFilter.filter","src/kalmankit/extended.py:ExtendedKalmanFilter.smooth"])
p("The extended filter holds constructor arguments by reference",
  "ExtendedKalmanFilter(...) stores the caller's arrays and callbacks without copying and calls no callback: if the arrays are changed in place afterwards (xk keeping its shape), every later call behaves as that of an object constructed from the new values.",
  "all constructor arguments and all in-place changes",
  "Aliasing between the caller's arrays and the object holds for every memory and every later write.",
  ["src/kalmankit/extended.py:ExtendedKalmanFilter.__init__"])
p("Global convergence to the steady state",
  "For a constant model with PSD Q and PD R that is observable through H and controllable by Q, the covariance recursion has exactly one PSD steady state F, which is PD; from every PSD initial covariance (singular or arbitrarily large) and for all data and controls, filter returns, and from the n-th step on the covariances and the recorded gains are within C rho^k of F and the steady-state gain, with C and rho < 1 that depend on the model only.",
  "all observable and controllable constant models of any dimension (stable or not), all initial states, data, controls, lengths of the run",
  "Asymptotic, with constants uniform over all initial covariances and runs.",
  ["src/kalmankit/standard.py:KalmanFilter.filter","src/kalmankit/standard.py:KalmanFilter.update"])
p("Initial means are forgotten at a uniform rate",
  "For such a model, two runs with the same initial covariance and data but different initial means: from the n-th step on the difference of the estimates after step k is at most C rho^(k-j) times that after step j, with C and rho < 1 that depend on the model only.",
  "all observable and controllable constant models, initial covariances and means, data, controls, pairs of steps",
  "Uniform over unbounded runs and all data.",
  ["src/kalmankit/standard.py:KalmanFilter.filter"])
p("Bounded data give bounded estimates",
  "For such a model, even if the system is unstable: estimates after step k are at most C rho^(k-j) times the estimate after step j plus C times the largest later measurement or control contribution, with C and rho < 1 that depend on the model only.",
  "all observable and controllable constant models, initial states, bounded data and controls of any length",
  "Uniform over unbounded runs.",
  ["src/kalmankit/standard.py:KalmanFilter.filter"])
p("The whole initial state is forgotten",
  "For such a model, two runs on the same data from entirely different initial means and PSD covariances: the estimates after step k differ by at most C rho^(k-j) (r + D), where r bounds both estimates after step j and D the data after it, with C and rho < 1 that depend on the model only.",
  "all observable and controllable constant models, pairs of initial states, bounded data and controls of any length",
  "Uniform over unbounded runs.",
  ["src/kalmankit/standard.py:KalmanFilter.filter"])
p("Rounding and inexact inputs change the results only a little",
  "If in exact arithmetic KalmanFilter.filter (or smooth) returns, then for every eps > 0 there is an eta > 0 such that with any arithmetic whose operations are accurate to eta on operands of moderate size, and with parameters, data and controls within eta of the given ones, the call also returns, every state, covariance and recorded gain is within eps of the exact one (so of the textbook filter and RTS smoother), and NaN appears exactly where it appears in exact arithmetic. In exact arithmetic the results are continuous in all inputs.",
  "all filter objects, data, controls (NaN included) for which the exact call returns; all eps; all accurate arithmetics and nearby inputs",
  "Quantifies over every rounding behaviour and every nearby input.",
  ["src/kalmankit/standard.py:KalmanFilter.filter","src/kalmankit/standard.py:KalmanFilter.smooth"])
p("Rounding and inexact callbacks change the extended filter's results only a little",
  "If the callbacks of an ExtendedKalmanFilter are continuous where they return and the exact call of filter (or smooth) returns, then with accurate arithmetic, callbacks that compute the given ones accurately and inputs close to the given ones the call returns states, covariances and gains within eps of the exact ones. The pendulum examples meet the hypotheses for all observations.",
  "all extended filter objects with continuous callbacks, data and controls for which the exact call returns; all eps; all accurate arithmetics, callbacks and nearby inputs",
  "Quantifies over every rounding behaviour, every implementation of the callbacks and every nearby input.",
  ["src/kalmankit/extended.py:ExtendedKalmanFilter.filter","src/kalmankit/extended.py:ExtendedKalmanFilter.smooth","examples/pendulum.py"])
p("smooth with a parameter sequence shorter than the data",
  "If one of A, B, Q or the controls has fewer rows than Z (at least two observations), smooth never returns: it raises what filter raises, or IndexError if filter returns. If only H or R is short, smooth returns without an error: later rows are zero with zero covariance, and the earlier rows are smoothed as if the state after the last measurement had been observed to be exactly zero.",
  "all filter objects, sequences of any lengths, any arithmetic (first part); all models with PD process noise, any number of missing measurements (second part)",
  "All combinations of lengths, and the numerical effect for every model.",
  ["src/kalmankit/standard.py:KalmanFilter.smooth","src/kalmankit/extended.py:ExtendedKalmanFilter.smooth"])
p("Independent systems may be filtered together or separately",
  "If the model is block diagonal in two groups of states and measurements, filter and smooth on the joint model return exactly the concatenated means, and block-diagonal covariances and gains, of the two separate calls; the joint call raises LinAlgError exactly if one of the separate ones does.",
  "all pairs of linear models of any dimensions and equal length, all data and controls",
  "Needs all dimensions, parameters and lengths.",
  ["src/kalmankit/standard.py:KalmanFilter.filter","src/kalmankit/standard.py:KalmanFilter.smooth"])
p("Smoothing adds exactly the information of later measurements",
  "With PD initial covariance and measurement noise, PSD process noise and invertible transitions (or PD process noise), at every time the inverse smoothed covariance is the inverse filtered covariance plus the information matrix of the later measurements, and the information vectors add likewise; this information depends only on the later steps, not on the initial belief or earlier data. smooth records the same gains as filter.",
  "all such models of any dimension and length, all data and controls, every time",
  "An identity between two passes over the data of any length and dimension.",
  ["src/kalmankit/standard.py:KalmanFilter.smooth","src/kalmankit/standard.py:KalmanFilter.filter"])
p("More data never make smoothed estimates less certain",
  "Appending any number of further observations to the data never increases (Loewner order) the smoothed covariance of an earlier state, and leaves the filtered estimates of earlier states unchanged.",
  "all models as in C90, all prefixes and all appended data, any lengths",
  "Compares runs of any two lengths.",
  ["src/kalmankit/standard.py:KalmanFilter.smooth"])
p("Better or additional sensors never hurt",
  "If two models have the same transitions and at every step the first has no more process noise and measurements with at least the information H' R^-1 H of the second (also with different numbers of measurements), and no larger initial covariance, the filtered and smoothed covariances of the first are below those of the second at every time. In particular dropping sensors, or averaging them, never decreases a covariance.",
  "all pairs of models in this relation, any dimensions, lengths, data and controls",
  "Compares pairs of models of different measurement dimensions over unbounded runs.",
  ["src/kalmankit/standard.py:KalmanFilter.filter","src/kalmankit/standard.py:KalmanFilter.smooth"])
p("More noise never yields a smaller smoothed covariance",
  "With the same A and H and larger (Loewner) initial covariance, process noise and measurement noise, every smoothed covariance, directional variance and trace is at least as large.",
  "all pairs of such models, any dimensions, lengths, data and controls",
  "An order statement over all models and lengths.",
  ["src/kalmankit/standard.py:KalmanFilter.smooth"])
p("Floating-point arithmetic with enough digits gives the textbook results",
  "If the exact run returns, then for every tolerance there are a precision and an input accuracy such that on every machine of that precision - every elementary operation rounded with relative error u and underflow error mu, numbers up to M, dot products summed in any order with or without fused multiply-add, linear systems solved by Gaussian elimination with partial pivoting - filter and smooth (both classes; extended with continuous callbacks) return, NaN exactly where the exact run has NaN, and every entry of states, covariances and recorded gains is within the tolerance. In particular for binary arithmetic with enough digits and exponent range.",
  "all filter objects and inputs on which the exact run returns, all tolerances, all rounding functions, summation orders and pivot choices",
  "Ranges over all machines, orders of summation and inputs.",
  ["src/kalmankit/standard.py:KalmanFilter.filter","src/kalmankit/standard.py:KalmanFilter.smooth","src/kalmankit/extended.py:ExtendedKalmanFilter.filter","src/kalmankit/extended.py:ExtendedKalmanFilter.smooth"])
p("Results do not depend on the coordinates chosen for state and measurement",
  "Describe the same (nonlinear or linear) system by the state M x + t and the measurement W z + w with invertible M, W: ExtendedKalmanFilter.filter and smooth (and KalmanFilter's, with the offset a shifted origin gives a linear measurement) raise LinAlgError exactly when they did before; otherwise every mean becomes M x + t, every covariance M P M', every gain M K W^-1.",
  "all invertible M, W, all offsets, all models of any dimension and length, all callbacks, data and controls",
  "Compares infinitely many pairs of models and runs of any length.",
  ["src/kalmankit/extended.py:ExtendedKalmanFilter.filter","src/kalmankit/extended.py:ExtendedKalmanFilter.smooth","src/kalmankit/standard.py:KalmanFilter.filter","src/kalmankit/standard.py:KalmanFilter.smooth"])
p("Only ratios of noise covariances matter to the extended filter",
  "Multiplying the initial covariance and all process and measurement noise covariances by the same nonzero number leaves all means and gains of ExtendedKalmanFilter.filter and smooth unchanged and multiplies all covariances by it; LinAlgError is raised in the same cases.",
  "all nonzero factors, all nonlinear models, data and lengths",
  "Quantifies over all models, callbacks and run lengths.",
  ["src/kalmankit/extended.py:ExtendedKalmanFilter.filter","src/kalmankit/extended.py:ExtendedKalmanFilter.smooth"])
p("The extended filter tracks noise-free nonlinear trajectories exactly",
  "If the true states follow the state transition callback without noise from the given initial mean and every observation is exactly the measurement callback of the true state, every mean returned by ExtendedKalmanFilter.filter and smooth is the true state, whatever the Jacobian callbacks and the covariances are, unless LinAlgError is raised.",
  "all nonlinear models, Jacobians, covariances, lengths",
  "Needs all models, callbacks and lengths.",
  ["src/kalmankit/extended.py:ExtendedKalmanFilter.filter","src/kalmankit/extended.py:ExtendedKalmanFilter.smooth"])
p("The extended filter is the standard filter on the model linearised along the run",
  "ExtendedKalmanFilter.filter and smooth return exactly what KalmanFilter returns on the model linearised at each previous filtered mean and its prediction; in particular for affine callbacks f(x) = A x + c, h(x) = H x + d they return what KalmanFilter returns on the observations z - d.",
  "all nonlinear models, data, controls and lengths",
  "Relates two classes on all inputs; the linearisation point depends on the whole history.",
  ["src/kalmankit/extended.py:ExtendedKalmanFilter.filter","src/kalmankit/extended.py:ExtendedKalmanFilter.smooth","src/kalmankit/standard.py:KalmanFilter.filter"])
p("Bounded disturbances give bounded estimation errors",
  "For a constant observable and controllable model with PSD Q and PD R: whatever the true states are, if disturbances and measurement errors are at most D (no statistics assumed) and the initial estimate is off by at most r, the estimate after step k is off by at most C rho^(k+1) r + C D with C and rho < 1 depending only on the model and the initial covariance; without disturbances the estimates converge to the true state.",
  "all such models, all true trajectories, disturbances, controls and run lengths",
  "A uniform bound over infinitely long runs and all disturbance sequences.",
  ["src/kalmankit/standard.py:KalmanFilter.filter"])
p("Gaps without measurements can be merged",
  "A run in which groups of steps without measurement (H = 0, invertible R, any z) precede measured steps, and the run in which each group and the measured step after it are one step (composed transition, accumulated offset and process noise): filter raises LinAlgError on both or neither, and the merged run returns exactly the rows of the measured steps of the first run; gains of unmeasured steps are zero. smooth likewise if it does not raise on the first run.",
  "all models, numbers, positions and lengths of gaps, all data (also in the unmeasured steps)",
  "Compares runs of different lengths for every placement of the gaps.",
  ["src/kalmankit/standard.py:KalmanFilter.filter","src/kalmankit/standard.py:KalmanFilter.smooth"])
p("Steps without measurement give forecasts and change nothing else",
  "Appending steps without measurement to a run: filter returns the rows of the run followed by the forecasts x -> A x + B u, P -> A P A' + Q, whatever the observations in the appended rows; smooth returns the smoothed rows of the run followed by the same forecasts.",
  "all models, non-empty runs, numbers of appended steps, data",
  "Compares runs of any two lengths.",
  ["src/kalmankit/standard.py:KalmanFilter.filter","src/kalmankit/standard.py:KalmanFilter.smooth"])
p("Source distributions keep the version",
  "If the build (versioneer.get_versions) reports some version information in a source tree, it reports the same in every tree unpacked from a source distribution of it, of a tree unpacked from such a distribution, and so on, whatever the directory is called and whatever git says there; the _version.py written is the same to the byte. Any text whatsoever in the version information survives.",
  "all version information, all chains of source distributions, all directories and git outcomes",
  "Chains of builds of any length, all strings.",
  ["versioneer.py:get_versions","versioneer.py:versions_from_file","versioneer.py:write_to_version_file","versioneer.py:git_get_keywords"])
p("An installed package reports the version it was built with",
  "Importing a package built from a tree yields exactly the version information of the tree, if its strings contain no double quotes, backslashes, control characters, triple quotes or characters beyond the basic plane. In particular, after checking out a commit after a PEP 440 release tag, making source distributions of source distributions, building and installing, kalmankit.__version__ and the metadata are the version the checkout itself reports.",
  "all version information with harmless strings, all tags, commits, chains of source distributions",
  "All strings and all chains of builds.",
  ["versioneer.py:write_to_version_file","versioneer.py:get_version","src/kalmankit/__init__.py"])
p("Build and checkout agree on the version",
  "In a tree with the long _version.py (a checkout or an unpacked git archive), versioneer.get_versions, which reads the file as text, and get_versions of the package in it return the same, whatever the keywords, git and the directory say; if one raises an exception so does the other.",
  "all keywords, git outcomes and directories",
  "Two independent implementations compared on all environments.",
  ["versioneer.py:get_versions","versioneer.py:git_get_keywords","src/kalmankit/_version.py:get_versions"])
p("Versions grow with the history",
  "Of two checkouts after the same release tag the one with more commits since the tag has the newer kalmankit.__version__ in the order of PEP 440, whatever the hashes and whether or not the trees are modified; a modified tree is newer than the clean one at the same commit; every version is the release or newer than it, and older than every later release.",
  "all releases, numbers of commits, hashes, states of the trees",
  "All pairs of checkouts; string comparison would be wrong (9 and 10 commits).",
  ["src/kalmankit/_version.py:render_pep440","src/kalmankit/_version.py:git_pieces_from_vcs"])
p("The other styles have the documented parts and order",
  "render with the styles pep440-branch, -pre, -post, -post-branch and -old gives exactly the documented parts, so a valid PEP 440 version; more commits mean a newer version; where documented, branches or modified trees sort before master or the clean tree; -pre after a post-release N announces N + 1 (a bare .post counts as N = 0). Without a tag the version has the documented parts starting with 0.",
  "all releases without post, dev and local parts (for -pre also post-releases), trees without tags, commits, branches, states of the tree",
  "All inputs of a family of formatting functions and an order on their results.",
  ["src/kalmankit/_version.py:render","src/kalmankit/_version.py:pep440_split_post"])
p("The branch reported",
  "git_pieces_from_vcs reports the branch that is checked out; if none is, master if it contains the commit, else the first branch listed by git that does, else none.",
  "all checkouts, branch names and lists of branches",
  "All outputs of git branch.",
  ["src/kalmankit/_version.py:git_pieces_from_vcs"])
p("Rounding errors do not accumulate",
  "For a constant observable and controllable model with PSD Q, PD R and PSD initial covariance, and a bound on the entries and dimensions of the arrays: for every tolerance there is one accuracy (in binary floating point, one number of digits) such that on inputs given to that accuracy KalmanFilter.filter returns, without LinAlgError, in runs of any length, and every state, covariance and recorded gain is within the tolerance of the exact Kalman filter.",
  "all such models, bounds and tolerances, all data within the bound, all run lengths, all sufficiently accurate arithmetics",
  "One accuracy for infinitely many run lengths; a test only sees finitely long runs on one machine.",
  ["src/kalmankit/standard.py:KalmanFilter.filter","src/kalmankit/standard.py:KalmanFilter.predict","src/kalmankit/standard.py:KalmanFilter.update"])
p("Starting in the steady state, and the fixed-gain observer",
  "For a constant model, a filter started with a steady-state covariance F (a fixed point of the covariance recursion) returns F as every covariance, the gain of F as every recorded gain and the estimates of the observer with that fixed gain. For an observable and controllable model with PSD Q, PD R the estimates of KalmanFilter.filter from any PSD initial covariance and those of the fixed-gain observer from any initial estimate approach each other geometrically, with constants that depend on the model only.",
  "all constant models, steady-state covariances, initial beliefs, data, run lengths",
  "All run lengths and data; the constants do not depend on the run.",
  ["src/kalmankit/standard.py:KalmanFilter.filter","src/kalmankit/standard.py:KalmanFilter.update"])
p("Nothing is learned about what the observations do not see",
  "If the observations never see the directions W (H_k A_k ... A_1 W = 0 at every step) then an initial covariance >= W W' leaves filtered covariances >= (A_k...A_1 W)(A_k...A_1 W)' at every step, and two runs on the same data whose initial means differ by W a have the same gains and covariances and means that differ by exactly A_k...A_1 W a, filtered and smoothed. In particular for an unobservable eigenvector of a constant model the variance never falls below its initial share if the eigenvalue is at least 1 in modulus, and grows without bound if it is greater than 1.",
  "all models, directions, run lengths, data",
  "All run lengths and data.",
  ["src/kalmankit/standard.py:KalmanFilter.filter","src/kalmankit/standard.py:KalmanFilter.smooth"])
p("Fixed-lag smoothing: old estimates stop changing",
  "For a constant observable and controllable model with PSD Q, PD R and PSD initial covariance: if smooth is called on some data and again after further data have arrived, the smoothed covariance of a time k (k >= n) changes by at most C rho^(N-k), N being the end of the first run, and the smoothed estimate by at most C rho^(N-k) times the change of the estimate of time N; also by at most C rho^(N-k) (r + D) if the estimate of some earlier time is at most r and all later data at most D. C and rho < 1 depend on the model only. If one call raises LinAlgError so does the other.",
  "all such models, initial states, data, both lengths",
  "All run lengths and data with the same constants.",
  ["src/kalmankit/standard.py:KalmanFilter.smooth"])
p("Steady-state smoothed covariance",
  "For a constant observable and controllable model with PSD Q, PD R there is one matrix S, at most the steady-state covariance of the filter, such that smooth, from every PSD initial covariance and on runs of every length N, returns for time k (k >= n) a covariance within C (rho^k + rho^(N-k)) of S, or raises LinAlgError; C and rho < 1 depend on the model only.",
  "all such models, initial states, data, run lengths",
  "All run lengths.",
  ["src/kalmankit/standard.py:KalmanFilter.smooth"])
p("Measurements one by one",
  "If the components of each measurement have independent noises of positive variance (R diagonal), a run in which every measurement of m+1 components is handed over as m+1 rows of one component (the first with the transition, control and process noise of the step, the others with identity transition, no control and no process noise) gives the same result: both runs of filter return, and the state and covariance after the last row of a group are those of the joint run. With PD initial covariance, PSD Q and at each step A invertible or Q PD, smooth returns in every row of the group the smoothed state and covariance of the joint run.",
  "all models, initial states, data, run lengths, numbers of components",
  "All dimensions and run lengths.",
  ["src/kalmankit/standard.py:KalmanFilter.filter","src/kalmankit/standard.py:KalmanFilter.smooth"])
p("Rounding errors do not accumulate in the smoother",
  "For a constant observable and controllable model with PSD Q, PD R and PSD initial covariance, and a bound on the entries and dimensions of the arrays: for every tolerance there is one accuracy (in binary floating point, one number of digits) such that on inputs given to that accuracy, whenever the exact smoother exists (no predicted covariance of the backward pass is singular), KalmanFilter.smooth returns on data of any length, and every smoothed state and covariance and every recorded gain is within the tolerance of the exact smoother.",
  "all such models, bounds and tolerances, all data within the bound, all run lengths, all sufficiently accurate arithmetics",
  "One accuracy for infinitely many run lengths; a test only sees finitely long runs on one machine.",
  ["src/kalmankit/standard.py:KalmanFilter.smooth","src/kalmankit/standard.py:KalmanFilter.filter"])
p("Independent nonlinear systems may be filtered together or separately",
  "Take two systems for the extended filter, each with its own callbacks, noises and measurements, and the joint system: states and measurements concatenated, callbacks that apply each system's callback to its own part of the state, block diagonal Jacobians, noises and initial covariance. ExtendedKalmanFilter.filter and smooth on the joint system raise LinAlgError exactly if they do on one of the parts, and otherwise return the concatenated estimates, block diagonal covariances and gains of the separate calls.",
  "all pairs of nonlinear systems, initial beliefs, data, run lengths",
  "All callbacks, dimensions, data and run lengths.",
  ["src/kalmankit/extended.py:ExtendedKalmanFilter.filter","src/kalmankit/extended.py:ExtendedKalmanFilter.smooth"])
p("Error bars and the posterior distribution",
  "If the noises are uncorrelated, with mean zero and covariances at most Pk, Q, R (any distributions), the probability that a linear functional c of the state is off by t or more from the mean returned by filter or smooth is at most c'Pc/t^2, P being the returned covariance. If they are jointly Gaussian with exactly these covariances, the conditional distribution of the state given the observations so far (for smooth: all observations) is the normal distribution with the returned mean and covariance; that of the next state and of the next observation given the observations so far is normal with mean A x + B u, covariance A P A' + Q, and mean H (A x + B u), covariance H (A P A' + Q) H' + R.",
  "all models, run lengths, probability spaces and noises with these covariances, all linear functionals, all events",
  "A statement about probabilities over all noise sequences; simulation only samples them.",
  ["src/kalmankit/standard.py:KalmanFilter.filter","src/kalmankit/standard.py:KalmanFilter.smooth"])
p("The extended filter follows a nonlinear system",
  "Let the noise covariances handed to ExtendedKalmanFilter be at least q and r, let f and h be approximated near the true states by the Jacobians handed in, up to a quadratic error, with bounded Jacobians, and let the initial covariance lie between q and p. There are constants eps, C and rho < 1, depending only on these bounds and the dimensions, such that whatever the true states, the disturbances and the measurement errors are (no statistics; at most D <= eps), if the initial estimate is off by at most r0 <= eps and the returned covariances stay at most p, the k-th estimate returned by filter is off by at most C rho^k r0 + C D, in runs of any length. Nothing need be assumed about the covariances if every state can be read off one measurement (left inverse of the Jacobian of h with bounded entries), nor if the model linearised at the true states is observable over every stretch of N steps with a margin and the Jacobians are Lipschitz, nor for the pendulum examples, as long as the pendulum is not nearly horizontal.",
  "all nonlinear models within the bounds, true trajectories, bounded disturbances and measurement errors, run lengths",
  "One constant for infinitely many trajectories, models and run lengths.",
  ["src/kalmankit/extended.py:ExtendedKalmanFilter.filter","examples/pendulum.py"])
p("Online use, one step at a time",
  "Calling predict and update by hand, once per time step with that step's parameters and data, starting from the constructor's xk and Pk, gives exactly the rows filter returns, raises the same exception at the same place if there is one, and leaves the object with the same recorded gains; for both classes and in any arithmetic. Where a measurement is missing the user may simply not call update: in exact arithmetic this is the run of filter on the model with H = 0 at those times (any invertible R, any z), except that no gain is recorded there; for ExtendedKalmanFilter the beliefs are those of the extended filter that only predicts at those times, and LinAlgError is raised exactly if an innovation covariance of a measured time is singular.",
  "all data in the documented layout, run lengths, arithmetics, and patterns of missing measurements",
  "An equality between two ways of using the API over runs of every length, including the failing ones.",
  ["src/kalmankit/standard.py:KalmanFilter.predict","src/kalmankit/standard.py:KalmanFilter.update","src/kalmankit/standard.py:KalmanFilter.filter","src/kalmankit/extended.py:ExtendedKalmanFilter.filter"])
p("Time-varying models: covariances",
  "If all stretches of N steps are observable and controllable with a margin (observability and controllability Gramians at least gamma), with bounded A, H, Q and R and R at least r, then filter returns for every PSD initial covariance, and from the N-th row on every returned covariance lies between two positive bounds lo and hi that depend on N, the dimensions and these bounds only, not on the initial covariance, the data, or the length of the run. Two runs with the same matrices but different initial states, initial covariances and data return covariances that approach each other geometrically. Constant observable and controllable models are a special case.",
  "all time-varying models within the bounds, initial states and covariances, data, run lengths",
  "One pair of bounds and one rate for infinitely many models and run lengths.",
  ["src/kalmankit/standard.py:KalmanFilter.filter"])
p("Time-varying models: the filter as an observer",
  "For the models of C119 with an initial covariance between 0 and p there are constants C and rho < 1, depending only on the bounds, such that whatever the true states, disturbances and measurement errors are (no statistics; at most D), if the initial state is off by at most t, the k-th estimate returned by filter is off by at most C rho^(k+1) t + C D. In particular bounded data give bounded estimates.",
  "all time-varying models within the bounds, true trajectories, bounded disturbances and measurement errors, run lengths",
  "One constant for infinitely many models, trajectories and run lengths.",
  ["src/kalmankit/standard.py:KalmanFilter.filter"])
p("Time-varying models: the initial state is forgotten",
  "For the models of C119, two calls of filter on the same data from different initial states and covariances return estimates whose difference decays geometrically: if from the N-th row on both states in row j are within t and the data of rows j+1 to k within D, then the states in row k differ by at most C rho^(k-j) (t + D), with C and rho < 1 depending only on the bounds.",
  "all time-varying models within the bounds, pairs of initial states and covariances, data, run lengths",
  "One constant and rate for infinitely many models and run lengths.",
  ["src/kalmankit/standard.py:KalmanFilter.filter"])
p("Time-varying models: fixed-lag smoothing",
  "For the models of C119, smooth called on a run of L >= N rows and again after further rows have arrived: either both calls raise LinAlgError or both return, and the smoothed row k (k >= N, counting from one) changes little if it lies far from the end of the first run: its covariance by at most C rho^(L-k), its state by at most C rho^(L-k) times the change of row L, and by at most C rho^(L-k) (t + D) if the state in row L of the first run is within t and the later data within D. C and rho < 1 depend only on the bounds of the model, not on the number of further rows. With an initial covariance between 0 and p (and constants that depend on p too) this holds for all rows.",
  "all time-varying models within the bounds, initial beliefs, data, run lengths and numbers of later rows",
  "One constant and rate for infinitely many models and run lengths.",
  ["src/kalmankit/standard.py:KalmanFilter.smooth"])
p("Time-varying models: the smoother as an observer",
  "For the models of C119 with an initial covariance between 0 and p there are constants C and rho < 1, depending only on the bounds, such that whatever the true states, disturbances and measurement errors are (no statistics; at most D), if the initial state is off by at most t and smooth does not raise LinAlgError, then the smoothed state in row k is off by at most C rho^(k+1) t + C D, in runs of any length.",
  "all time-varying models within the bounds, true trajectories, bounded disturbances and measurement errors, run lengths",
  "One constant for infinitely many models, trajectories and run lengths.",
  ["src/kalmankit/standard.py:KalmanFilter.smooth"])
p("Time-varying models: smoothing forgets the initial belief",
  "For the models of C119, two calls of smooth on the same rows from different initial states and PSD covariances, neither of which raises LinAlgError: from row N on the smoothed covariances of row k differ by at most C rho^k, and if the filtered states in row j (N <= j <= k) are within t and all later data within D then the smoothed states in row k differ by at most C rho^(k-j) (t + D). C and rho < 1 depend only on the bounds.",
  "all time-varying models within the bounds, pairs of initial beliefs, data, run lengths",
  "One constant and rate for infinitely many models and run lengths.",
  ["src/kalmankit/standard.py:KalmanFilter.smooth"])
p("Time-varying models: rounding errors do not accumulate in filter",
  "For the models of C119, with an initial covariance between 0 and p, an initial state and inputs within D and a tolerance eps > 0, there is one accuracy (in binary floating point: one number of digits and one exponent range) such that filter, carried out in any arithmetic of this accuracy on inputs given to this accuracy, raises no exception and returns states and covariances, and records gains, within eps of the exact ones, in runs of any length. The accuracy depends only on the bounds, not on the model, the data or the number of rows.",
  "all time-varying models within the bounds, initial beliefs, data, run lengths, arithmetics and summation orders of sufficient accuracy",
  "One accuracy for infinitely many models and unboundedly long runs.",
  ["src/kalmankit/standard.py:KalmanFilter.filter"])
p("Time-varying models: rounding errors do not accumulate in smooth",
  "As C125 for smooth, when there is one row of the model per observation and the covariances predicted in the steps before the N-th (except the first) are at least kappa > 0: one accuracy, depending only on the bounds and kappa, suffices for smooth to raise no exception and to return smoothed states and covariances within eps of the exact ones in runs of any length.",
  "all time-varying models within the bounds, initial beliefs, data, run lengths, arithmetics and summation orders of sufficient accuracy",
  "One accuracy for infinitely many models and unboundedly long runs.",
  ["src/kalmankit/standard.py:KalmanFilter.smooth"])
p("The extended smoother follows a nonlinear system",
  "For the systems of C117, with process and measurement noise covariances between positive bounds and one row of them per observation, ExtendedKalmanFilter.smooth does not raise, and there are eps, C and rho < 1, depending only on the bounds, such that whatever the true states are, if disturbances and measurement errors are at most D <= eps (no statistics), the initial estimate is off by at most r0 <= eps, and the covariances that filter returns stay at most p, then the smoothed state of row k is off by at most C rho^(k+1) r0 + C D, in runs of any length. Nothing need be assumed about the covariances if the model is observable along the true trajectory over every stretch of N steps, with Jacobians that change at most linearly; nor for the system of pendulum_smoothing.py as long as the pendulum is not nearly horizontal.",
  "all nonlinear systems within the bounds, true trajectories, bounded disturbances and errors, run lengths",
  "One region, constant and rate for infinitely many systems, trajectories and run lengths.",
  ["src/kalmankit/extended.py:ExtendedKalmanFilter.smooth","examples/pendulum_smoothing.py"])
p("The installer keeps what files contain, whenever it is killed",
  "python versioneer.py setup in this project (configured for git), killed at any moment or not at all: nothing is removed from any file other than src/kalmankit/_version.py, text is added only at the end of src/kalmankit/__init__.py and .gitattributes, and no other file is created or changed - provided __init__.py does not contain the three lines that older versions of versioneer added. If it does, a completed call replaces them and keeps the rest, but the call can be killed while the file is empty. If the configuration cannot be read, only setup.cfg is touched, at its end. With a VCS setting other than git the call empties the version file and raises KeyError.",
  "all contents of the files, all points at which the process can be killed (also in the middle of a write)",
  "Every crash point and every file content.",
  ["versioneer.py:do_setup","versioneer.py:do_vcs_install","versioneer.py:setup_command","versioneer.py:get_config_from_root"])
p("The installer does its work once",
  "python versioneer.py setup in this project: it raises nothing, exits with 0 exactly if setup.py contains the three things it looks for and none of the two it complains about, and afterwards _version.py contains the generated text, an existing __init__.py the lines that set __version__, and .gitattributes marks _version.py with export-subst; a second call changes no file - if .gitattributes ends with a newline and has no line about a longer path that begins with that of _version.py, and __init__.py does not contain the lines of older versions. If .gitattributes does not end with a newline, two calls suffice and further ones change nothing; but if a call was killed when exactly the path had been written, no number of calls repairs the file. The settings are those of pyproject.toml, whatever setup.cfg contains, and equal those compiled into _version.py; with any other settings, no tag prefix, and one written as two quotation marks, mean the empty prefix; without a TOML parser they are not seen, and the installer writes a sample setup.cfg and exits with 1.",
  "all contents of the files, numbers of calls, parsers",
  "Every file content and any number of calls.",
  ["versioneer.py:do_setup","versioneer.py:do_vcs_install","versioneer.py:scan_setup_py","versioneer.py:setup_command","versioneer.py:get_config_from_root"])
p("The extended filter follows a nonlinear system in inexact arithmetic; errors do not accumulate",
  "For the systems of C117 that are observable along the true trajectory over every stretch of N steps, with Jacobians that change at most linearly, with process and measurement noise covariances between positive bounds and inputs and true states of size at most Y: there are eps, C and rho < 1, and for every tolerance tau an accuracy (in floating point: a precision), such that ExtendedKalmanFilter.filter, carried out in any arithmetic of this accuracy on attributes and data given to this accuracy, with callbacks that compute the model and its Jacobians to this accuracy, raises no exception, in runs of any length; and if disturbances and measurement errors are at most D <= eps and the initial estimate is off by at most r0 <= eps, the returned state of row k is off by at most C rho^(k+1) r0 + C D + tau. The accuracy does not depend on the system, the true trajectory or the number of rows.",
  "all nonlinear systems within the bounds, true trajectories, disturbances, run lengths, arithmetics, callbacks and summation orders of sufficient accuracy",
  "One accuracy for infinitely many systems and unboundedly long runs.",
  ["src/kalmankit/extended.py:ExtendedKalmanFilter.filter","src/kalmankit/extended.py:ExtendedKalmanFilter.predict","src/kalmankit/extended.py:ExtendedKalmanFilter.update"])
p("Covariances in floating point: what survives and what does not",
  "Scalar state observed directly (H = 1), in any arithmetic whose operations round to some format (to nearest, up, down, towards zero; overflow to NaN), with a non-negative initial variance, Q and R: every gain recorded by filter or update is in [0, 1] or NaN, and every returned variance is >= 0 or NaN (for update: also at most the given one), in runs of any length. This ends with H = 1: in every binary format of at least 12 digits with rounding to nearest there are an H between 1 and 2 and an R > 0, numbers of the format, such that filter with A = 1, Pk = Q = 1/2 raises nothing and returns a negative variance; and a filter with two states, A = identity, Q = 0 and a symmetric positive definite Pk whose returned covariance is not symmetric - whatever the observation.",
  "all roundings, run lengths, transition factors, controls, data; all precisions from 12 digits on, summation orders, fused or not",
  "All number formats and unbounded run lengths; the counterexamples exist at every precision.",
  ["src/kalmankit/standard.py:KalmanFilter.update","src/kalmankit/standard.py:KalmanFilter.filter","src/kalmankit/standard.py:KalmanFilter.predict"])

p("Non-finite numbers are permanent in filter, and nothing hides them",
  "filter returned on rows in the documented layout (at least one state variable and sensor). A NaN or an infinity in the initial state, or in the observation, A, H or (unless switched off) B or control of row k, or in a returned state, leaves no finite component in any state from row k on (for a returned state: from the next row on); one in the initial covariance leaves no finite entry in any result or gain; one in a returned covariance or in Q of row k leaves none in the states, covariances and gains of all later rows; one in A or H of row k none in the covariances from row k on. Conversely, one single finite component in the last processed state proves that all earlier states and covariances and everything the filter has read, R excepted, were finite. In IEEE 754 with any rounding, overflow, any summation order and pivoting.",
  "all models, data, run lengths, positions of the number; roundings, summation orders, choices of pivots",
  "The number can sit anywhere in a run of any length.",
  ["src/kalmankit/standard.py:KalmanFilter.filter","src/kalmankit/standard.py:KalmanFilter.predict","src/kalmankit/standard.py:KalmanFilter.update"])
p("Non-finite numbers are permanent in the extended filter, whatever the callbacks do",
  "ExtendedKalmanFilter.filter returned on rows in the documented layout. Whatever the callbacks compute, a NaN or an infinity in the initial covariance leaves no finite entry in any result or gain; one in a returned covariance, in Q of row k, or in a Jacobian returned by a callback in row k, leaves none in the states, covariances and gains of all later rows. One in the observation of row k, or in the predicted observation that the callback returned, leaves no finite component in the state of row k; one in the predicted state leaves a non-finite component in it.",
  "all callbacks, data, run lengths, positions of the number; roundings, summation orders, choices of pivots",
  "The number can sit anywhere in a run of any length, and callbacks are arbitrary.",
  ["src/kalmankit/extended.py:ExtendedKalmanFilter.filter","src/kalmankit/extended.py:ExtendedKalmanFilter.predict","src/kalmankit/extended.py:ExtendedKalmanFilter.update"])
p("Smoothing spreads non-finite numbers backwards over all rows",
  "smooth (of either class) returned on rows in the documented layout: a NaN or an infinity in one smoothed state leaves no finite component in any earlier smoothed state, and one in a smoothed covariance none in any earlier smoothed covariance. Hence, for the standard class, if a NaN or an infinity occurs in the initial state or in the observation, A, H or used control of any row, or in a filtered covariance other than the last, then no smoothed state has a finite component - including those of rows before it.",
  "all models, data, run lengths, callbacks, positions of the number; roundings, summation orders, choices of pivots",
  "The number can sit anywhere in a run of any length.",
  ["src/kalmankit/standard.py:KalmanFilter.smooth","src/kalmankit/extended.py:ExtendedKalmanFilter.smooth"])
p("Infinite measurement noise in floating point",
  "In IEEE 754 with any rounding, summation order and pivoting: if R is the diagonal matrix of infinities (or, with one sensor, the number np.inf) and everything else in the update is finite, then update and the row of filter (of either class) raise nothing, record a zero gain and return the prediction unchanged to the last bit. But with two or more sensors the number np.inf, which numpy adds to every entry of H P H', leaves no finite entry in the gain, the new state and the new covariance, whatever the other arguments and the callbacks' results, and raises nothing. If of two sensors only the second has infinite noise and the computed innovation covariance is larger off the diagonal than in its upper left entry, then the gain of the first sensor is NaN, and the new state and covariance have no finite entry.",
  "all sizes, states, covariances, observation matrices, data; roundings, summation orders, choices of pivots",
  "All sizes, data and arithmetics; the outcome depends on pivoting.",
  ["src/kalmankit/standard.py:KalmanFilter.update","src/kalmankit/standard.py:KalmanFilter.filter"])
p("Python lists and numbers stand for the arrays they convert to",
  "KalmanFilter used with Python lists or numbers instead of arrays - for rows of B, Q, R, Z, U, for whole sequences, for the initial state (if state_size is given) or covariance, or for arguments of predict and update: as long as the rows of A and H (and Pk in update) are arrays and in no row B and U are both lists, every call does exactly what it does with np.asarray of those values: same result or same exception, same gains recorded, nothing else changed. Without a control sequence this holds for lists of observations whose rows have one shape and one dtype.",
  "all models, data, numbers, shapes, mixtures of lists, numbers and arrays, run lengths; every arithmetic",
  "All mixtures of lists and arrays in runs of any length.",
  ["src/kalmankit/standard.py:KalmanFilter.__init__","src/kalmankit/standard.py:KalmanFilter.predict","src/kalmankit/standard.py:KalmanFilter.update","src/kalmankit/standard.py:KalmanFilter.filter","src/kalmankit/standard.py:KalmanFilter.smooth","src/kalmankit/utils.py:check_none_and_broadcast"])
p("Where lists are not accepted",
  "If KalmanFilter.filter returned, then in every processed row the transition and observation matrices were arrays, and of control matrix and control at least one was an array or one of them was all NaN: a nested list (or a number) in A or H, or lists in both B and U, make it raise. predict with a list for Ak raises AttributeError (unless computing the mean raised before), with lists for both Bk and uk TypeError when the control is used; update with a list for Hk raises AttributeError, and with a list for Hk or Pk always raises and records nothing. The constructor raises AttributeError on a list as initial state unless state_size is given. Without a control sequence, a list of observations of different shapes raises ValueError before any row is processed.",
  "all models, data, mixtures of lists, numbers and arrays, run lengths; every arithmetic",
  "The offending row can be anywhere in a run of any length, and any of the seven sequences may mix lists and arrays.",
  ["src/kalmankit/standard.py:KalmanFilter.__init__","src/kalmankit/standard.py:KalmanFilter.predict","src/kalmankit/standard.py:KalmanFilter.update","src/kalmankit/standard.py:KalmanFilter.filter"])
p("Lists in the extended filter: callbacks f and h may return lists, Jacobians may not",
  "ExtendedKalmanFilter whose callbacks f and h return Python lists or numbers, or whose Q, R, Z, U, initial covariance hold them: as long as the Jacobians return arrays and no observation and predicted observation are both lists, filter and smooth do exactly what they do with np.asarray of those values. A Jacobian A that is a list makes predict raise AttributeError; a Jacobian H that is a list makes update raise AttributeError and record nothing; an observation and a predicted observation that are both lists make update raise TypeError after the gain was recorded.",
  "all callbacks, data, mixtures of lists, numbers and arrays, run lengths; every arithmetic",
  "Callbacks are arbitrary; all mixtures of lists and arrays in runs of any length.",
  ["src/kalmankit/extended.py:ExtendedKalmanFilter.predict","src/kalmankit/extended.py:ExtendedKalmanFilter.update","src/kalmankit/extended.py:ExtendedKalmanFilter.filter","src/kalmankit/extended.py:ExtendedKalmanFilter.smooth"])
p("Noise and observations of smaller shape are broadcast",
  "filter and smooth (of either class) with rows of Q, R and observations that fit the shapes (n,n), (m,m) and (m,) only by numpy broadcasting - numbers, vectors, single rows or columns - do exactly what they do with np.broadcast_to of every row: same results, same exceptions, same gains recorded. (If no control sequence is given: for KalmanFilter with observations of float dtype; ExtendedKalmanFilter: with a control sequence, since the default one takes the shape of the observations and is handed to the callbacks.)",
  "all models, data, run lengths, smaller shapes in any mixture; every arithmetic",
  "Every mixture of shapes in runs of any length.",
  ["src/kalmankit/standard.py:KalmanFilter.filter","src/kalmankit/standard.py:KalmanFilter.smooth","src/kalmankit/extended.py:ExtendedKalmanFilter.filter","src/kalmankit/extended.py:ExtendedKalmanFilter.smooth"])
p("Exactly the shapes that broadcast are accepted",
  "Two or more state variables; xk, Pk, A and H of the documented shapes. If KalmanFilter.filter returned, then in every processed row Q broadcasts to (n,n), R to (m,m), the observation to (m,), and the control was switched off or B @ u is a number or a vector of length 1 or n. Conversely with such rows filter returns or raises LinAlgError. For ExtendedKalmanFilter with callbacks of the documented shapes the same holds for Q, R and the observations, both ways (it then returns or raises LinAlgError or what a callback raised). Whatever the shapes (up to rank 2 per row), filter on sequences raises nothing but ValueError, LinAlgError and, in the extended class, what a callback raised.",
  "all shapes of Q, R, B, controls and observations, run lengths, models, data; every arithmetic",
  "A wrong shape can sit in any row; all sizes.",
  ["src/kalmankit/standard.py:KalmanFilter.filter","src/kalmankit/extended.py:ExtendedKalmanFilter.filter"])
p("Vectors of variances are not covariance matrices, but are accepted",
  "Q and R given as one vector of variances per row are accepted and mean the matrices with that vector in every row, not diagonal matrices (same results, exceptions, gains of filter and smooth). A vector p for the covariance given to predict, with a matrix Q, yields Q + (A (A p)) repeated in every row. If Pk and the rows of Q are vectors: with a number of sensors other than the number of states filter and smooth raise ValueError at the first row; with as many sensors as states filter returns or raises LinAlgError, and in what it returns every gain is a vector, every component of the predicted state is corrected by one and the same number, and every covariance matrix has equal rows.",
  "all sizes, models, data, run lengths; every arithmetic (the formula for predict: exact arithmetic)",
  "All sizes and runs of any length.",
  ["src/kalmankit/standard.py:KalmanFilter.predict","src/kalmankit/standard.py:KalmanFilter.filter","src/kalmankit/standard.py:KalmanFilter.smooth"])
p("Callbacks may keep state",
  "ExtendedKalmanFilter with callbacks that keep state of their own - caches, counters, logs, whatever - and leave the object alone: if in every state they can get into they compute the same functions f, h, jacobian_A, jacobian_H (or raise the same exceptions), then predict, update, filter and smooth return or raise exactly what they do with these functions, record the same gains and leave the object the same.",
  "all callbacks with any state, any invariant of this state, all data, run lengths, exceptions; every arithmetic",
  "The state of the callbacks and its history are arbitrary; runs of any length.",
  ["src/kalmankit/extended.py:ExtendedKalmanFilter.predict","src/kalmankit/extended.py:ExtendedKalmanFilter.update","src/kalmankit/extended.py:ExtendedKalmanFilter.filter","src/kalmankit/extended.py:ExtendedKalmanFilter.smooth"])
p("Which callbacks are called, in which order and with which arguments",
  "ExtendedKalmanFilter.filter calls the callbacks four times per step and at no other time, in the order jacobian_A, f, jacobian_H, h: the first two with row k of the controls and the initial mean (k = 0) or the estimate that became row k-1 of the result, the last two with what f returned. smooth makes the calls of filter and then, for k = n-2 down to 0, calls jacobian_A, f and again jacobian_A with row k of the filtered states and row k+1 of the controls. If a call raises, the calls made are those of some complete steps and an initial part of one more; a callback that raises is the last one called and its exception is what the method raises; h is not called if the gain cannot be computed.",
  "all callbacks with any state and effects on the object, all data, run lengths, exceptions; every arithmetic",
  "Callbacks are arbitrary programs; runs of any length; an exception can occur at any point.",
  ["src/kalmankit/extended.py:ExtendedKalmanFilter.predict","src/kalmankit/extended.py:ExtendedKalmanFilter.update","src/kalmankit/extended.py:ExtendedKalmanFilter.filter","src/kalmankit/extended.py:ExtendedKalmanFilter.smooth"])
p("Time-varying models by counting calls work in filter, not in smooth",
  "Callbacks of an ExtendedKalmanFilter that count their calls and at call k use the model of step k: if all four counters stand at j, filter returns exactly the textbook extended filter with the models of steps j, j+1, ... (exact arithmetic), and leaves all counters at j + number of steps, so that the next call of filter goes on from there. If filter raises LinAlgError because of a singular innovation covariance, the counter of h is one behind the others. After smooth on n observations the counter of f is n-1 and that of jacobian_A 2(n-1) ahead: with n >= 2 they no longer agree; and the backward pass asks for models of steps that do not exist: if jacobian_A raises there, so does smooth, although filter returns.",
  "all sequences of models, initial counter values, data, run lengths; filter and the smoother error: exact arithmetic; counters after smooth: every arithmetic",
  "All sequences of models and runs of any length.",
  ["src/kalmankit/extended.py:ExtendedKalmanFilter.filter","src/kalmankit/extended.py:ExtendedKalmanFilter.smooth"])
p("Callbacks that assign to attributes or call methods of the filter",
  "ExtendedKalmanFilter.filter reads xk, Pk, Q, R and state_size once, at the start: callbacks that compute the same functions but assign anything to these attributes or to kalman_gains while the call runs do not change what it returns or raises. smooth reads Q and state_size once more after the forward pass: the same holds if callbacks leave these two alone. predict, update, filter and smooth do nothing to the object but append to kalman_gains, whether they return or raise, if that is so for the callbacks; so callbacks may call these methods of the same object: the results and exceptions of filter and smooth are the same, all attributes but kalman_gains are unchanged, and kalman_gains holds the earlier gains followed by a list that contains the gains of the call in order.",
  "all callbacks with any state, values assigned, methods called, data, run lengths, exceptions; every arithmetic",
  "The callbacks are arbitrary programs that may interfere at any of the calls of a run of any length.",
  ["src/kalmankit/extended.py:ExtendedKalmanFilter.predict","src/kalmankit/extended.py:ExtendedKalmanFilter.update","src/kalmankit/extended.py:ExtendedKalmanFilter.filter","src/kalmankit/extended.py:ExtendedKalmanFilter.smooth"])
p("Generators and other one-shot iterators as parameters",
  "Where A, H, B, Q, R or the controls are iterators that can be read only once (generators, itertools.repeat), none of them used for two parameters: filter on n observations does exactly what it does with the arrays of their next n items. If it returned after T rows, T items were read from each iterator, or T + 1 if it and all arguments before it in the order A, H, B, U, Z, Q, R (extended class: U, Z, Q, R) had one more; if it raised in row k, k + 1 were read from each. So with itertools.repeat (here one object may serve several parameters) every call, after any calls before, is that of the constant model; but with generators that go on, the second call finds A, H and B one item further than Q and R: that item is lost and the rows no longer belong together. An iterator for Z raises TypeError; so does every call after B=None with an iterator for A; nothing is read then.",
  "all iterators, finite or not, positions they have been read to, mixtures with arrays, run lengths, histories of calls, exceptions; every arithmetic",
  "Iterators carry hidden state from call to call; the effect depends on the whole history and on which sequence ends first.",
  ["src/kalmankit/standard.py:KalmanFilter.filter","src/kalmankit/extended.py:ExtendedKalmanFilter.filter","src/kalmankit/utils.py:check_none_and_broadcast"])
p("smooth and iterators",
  "smooth with iterators for H and R (extended class: R) only does what it does with the arrays of their next n items. With an iterator for A, Q, B or the controls (extended class: Q or the controls) and two or more observations it never returns, although the forward pass is done, the iterators are read and the gains recorded: it raises what filter raises, or TypeError, or IndexError if one of the others is an array with fewer rows than Z.",
  "all iterators, finite or not, positions, mixtures with arrays, run lengths >= 2; every arithmetic",
  "Iterators carry hidden state from call to call; all mixtures of iterators and arrays of all lengths.",
  ["src/kalmankit/standard.py:KalmanFilter.smooth","src/kalmankit/extended.py:ExtendedKalmanFilter.smooth"])
p("A constant model passed without the time axis",
  "A, H, Q, R are sequences over time; a single matrix in the place of such a sequence is iterated row by row. If all four are single matrices, every call of filter or smooth on nonempty data raises ValueError at once, in any dimensions, with or without control, and leaves the object unchanged. If only A is one, the call raises at the first step when that has no control (ValueError with one gain recorded, or LinAlgError); but when every step has a control nothing is raised, and the result is that of the model whose transition matrix at step k repeats row k of A in all its rows. If only H is one, the call raises ValueError and leaves the object unchanged, except with as many sensors as states: then it returns or raises LinAlgError, gains are vectors and every state is the prediction with one number added to all components. If Q and R are (also in the extended class), nothing is raised for it and step k works with matrices that repeat row k of Q and R. Whenever such a call returns, at most as many steps are processed as the matrix has rows; all later rows of the result are zero.",
  "all matrices, dimensions, data, run lengths, controls; every arithmetic (A with control: every arithmetic that computes dot products one by one)",
  "All dimensions, data and run lengths; which mistakes are detected must be known for every input.",
  ["src/kalmankit/standard.py:KalmanFilter.filter","src/kalmankit/standard.py:KalmanFilter.smooth","src/kalmankit/extended.py:ExtendedKalmanFilter.filter"])
p("Subclasses that only add something",
  "A subclass of either filter whose predict and update may do anything of their own (log, check, keep statistics, ask another object) but return or raise what the inherited methods would, change the inherited attributes exactly as these would, and keep an invariant of its own: filter and smooth of the subclass, which are inherited, return or raise the same, leave the same inherited attributes and keep the invariant.",
  "all such subclasses with any additional state, all data, run lengths, exceptions; every arithmetic",
  "The overriding methods are arbitrary programs; runs of any length; an exception can occur at any point.",
  ["src/kalmankit/standard.py:KalmanFilter.filter","src/kalmankit/standard.py:KalmanFilter.smooth","src/kalmankit/extended.py:ExtendedKalmanFilter.filter","src/kalmankit/extended.py:ExtendedKalmanFilter.smooth"])
p("A subclass that skips missing measurements",
  "A subclass whose update returns its arguments x, P unchanged if the measurement is missing (however it recognises that) and calls the inherited update otherwise: filter does what the loop by hand does that always calls predict and calls update when there is a measurement (both classes, any arithmetic). In exact arithmetic the arrays filter and smooth return are those of KalmanFilter on the model with H = 0 at the missing times (smooth: if there are observations), with gains recorded for the measured times only; for ExtendedKalmanFilter the rows are the beliefs of the extended filter that only predicts at the missing times, and LinAlgError is raised exactly if an innovation covariance of a measured time is singular.",
  "all ways to mark missing measurements, sets of missing times, data in the documented layout, run lengths; first part: every arithmetic, second part: exact arithmetic",
  "All patterns of missing measurements in runs of any length.",
  ["src/kalmankit/standard.py:KalmanFilter.update","src/kalmankit/standard.py:KalmanFilter.filter","src/kalmankit/standard.py:KalmanFilter.smooth","src/kalmankit/extended.py:ExtendedKalmanFilter.update","src/kalmankit/extended.py:ExtendedKalmanFilter.filter"])
p("Assigning to attributes between calls",
  "After any sequence of calls (returning or raising) and assignments to public attributes other than state_size, every call on the object does what it does on a new object built from the current values (with B given and the same state_size); the recorded gains are appended to those present; the calls in between leave no other trace. Exceptions to 'assigning works like constructing': kf.B = None makes filter and smooth raise TypeError; an object built with B=None keeps the row count of its first A, so that after assigning a longer model filter silently processes only that many rows, returns zeros after them, and smooth raises IndexError (with at most that many observations it does what a new object does); a model with another number of states raises ValueError or LinAlgError on nonempty data, also if state_size is assigned along with it, except on an object built for one state, where no error is raised for it and every covariance update uses the all-ones matrix in place of the identity.",
  "all sequences of calls and assignments, arguments and data; every arithmetic; other number of states: models and data in the documented layout; the exceptions: KalmanFilter",
  "Arbitrary histories of calls and assignments on one object.",
  ["src/kalmankit/standard.py:KalmanFilter.__init__","src/kalmankit/standard.py:KalmanFilter.filter","src/kalmankit/standard.py:KalmanFilter.smooth","src/kalmankit/standard.py:KalmanFilter.update","src/kalmankit/extended.py:ExtendedKalmanFilter.__init__","src/kalmankit/utils.py:check_none_and_broadcast"])
p("Which overriding methods are called, in which order, with which arguments",
  "On an instance of any subclass that overrides predict and update (with programs that may raise, keep state, assign to attributes, return anything), the inherited filter calls, for row k = 0, 1, ..., self.predict(A[k], x, B[k], U[k], P, Q[k]) and then self.update(H[k], x', P', Z[k], R[k]) with x', P' what predict returned; what update returned is stored in row k of the results (rows without a step are zero) and is x, P of the next call; nothing else is called. The parameters, initial estimate and state_size are those at the time of the call, even if the methods assign to them. If it raises e, the calls stop in a step in which predict or update raised e or their result could not be stored. smooth then calls only predict, for k = n-2, ..., 0 with row k+1 of the parameters (as they are when filter has returned) and row k of what filter returned. Likewise for ExtendedKalmanFilter.",
  "all subclasses overriding predict and update, all states of the instance, data, run lengths, exceptions; every arithmetic",
  "The overriding methods are arbitrary programs; runs of any length; an exception can occur at any point.",
  ["src/kalmankit/standard.py:KalmanFilter.filter","src/kalmankit/standard.py:KalmanFilter.smooth","src/kalmankit/extended.py:ExtendedKalmanFilter.filter","src/kalmankit/extended.py:ExtendedKalmanFilter.smooth"])
p("The likelihood computed from filter is the density of the data",
  "If the system follows the model with jointly Gaussian noises of covariances Pk, Q, R, and filter returns, then the product over the steps of the normal densities exp(-r'S^-1 r/2)/sqrt((2 pi)^m det S) of the innovations r = z - H(A x + B u), S = H(A P A' + Q)H' + R, formed from the means and covariances returned for the previous step, is as a function of the data the joint probability density of all observations (so that maximising it is maximum-likelihood estimation of model parameters); its logarithm is -1/2 sum (m log 2pi + log det S + r'S^-1 r). The normalised squared innovations r'S^-1 r, summed over any set of steps, have exactly the chi-squared distribution with m degrees of freedom per step, and every S is positive definite.",
  "all linear models, numbers of states, measurements and steps, all data, all Gaussian noises with the covariances told; exact arithmetic",
  "A statement about probability distributions over all data; runs of any length.",
  ["src/kalmankit/standard.py:KalmanFilter.filter","src/kalmankit/standard.py:KalmanFilter.predict","src/kalmankit/standard.py:KalmanFilter.update"])
p("Copies of a filter object share its results never, its list of gains only if shallow",
  "kalman_gains is a list to which calls append in place. Whatever is done with an object and with its copies (calls that return or raise, copy.copy, copy.deepcopy, pickling, copies of copies, changing the list through a saved reference, binding the attribute to another list), every call on each of them has the outcome it has on the original new object. A shallow copy (copy.copy) and its original always have the same recorded gains, the gains of later calls on either; a deep copy (copy.deepcopy, a pickle round trip) starts with the gains present and then the two lists do not influence each other. A newly constructed object has an empty list of its own. Clearing the list through a saved reference is seen by every object that shares it; after kf.kalman_gains = [] the object records into the new list and a saved reference to the old one sees nothing of its later calls.",
  "both classes, all objects, all sequences of such actions on any number of objects, all arguments, any arithmetic",
  "Any number of objects and actions in any order, including calls that raise halfway.",
  ["src/kalmankit/standard.py:KalmanFilter.update","src/kalmankit/extended.py:ExtendedKalmanFilter.update","src/kalmankit/standard.py:KalmanFilter.__init__","src/kalmankit/extended.py:ExtendedKalmanFilter.__init__"])
p("Constant parameters: filter is recursive least squares",
  "With A the identity, Q = 0 and no control (an unknown constant parameter vector, observed as z = H theta + noise), Pk and R positive definite: row k of filter is the regularised least-squares solution of all observations so far, the mean the unique minimiser of (theta-x0)'P0^-1(theta-x0) + sum (z-H theta)'R^-1(z-H theta), the covariance the inverse of P0^-1 + sum H'R^-1H; the final mean and covariance do not depend on the order in which the observations were processed; smooth returns the final estimate on every row. The error of row k is P_k (P0^-1 (x0 - theta) + sum H'R^-1 (z - H theta)). The covariances tend to zero with more and more observations if and only if the information sum H'R^-1H grows beyond all bounds in every direction; then, for observation errors of zero mean and covariances R, uncorrelated at different times, the mean square error tends to zero for every true parameter and every initial guess, and it equals squared bias plus variance in closed form.",
  "all numbers of parameters, sensors, observations, all regressors H_k, all positive definite P0, R_k, all data; exact arithmetic",
  "All data, orders and numbers of observations; limits; expectations.",
  ["src/kalmankit/standard.py:KalmanFilter.filter","src/kalmankit/standard.py:KalmanFilter.smooth","src/kalmankit/standard.py:KalmanFilter.update"])
p("Rounding in the documented moving average: explicit bounds for runs of any length",
  "The moving-average set-up of the documentation (A = H = 1, no control, constant q > 0 and r > 0, 1-d data), computed in any floating-point format with monotone rounding and unit roundoff u: if all observations and the initial guess are at most Z in size, the format is precise enough for the variances (8 u W <= r and 32 u <= kappa, with W = 2(p0+q+2r), kappa = q/(q+r)) and nothing under- or overflows, then filter succeeds for any number of observations, every returned number and recorded gain is finite, and differs from what the same call returns in exact arithmetic by at most 50 u W Z/(r kappa^2) (states), 10 u W/kappa (variances), 14 u W/(r kappa) (gains). The bounds do not depend on the number of observations: rounding errors do not accumulate.",
  "all such formats and rounding modes, numbers of observations, data, p0, q, r, dtypes of the arguments",
  "Infinitely many data arrays of unbounded length, and every format; a test compares a few runs with a tolerance chosen by hand.",
  ["src/kalmankit/standard.py:KalmanFilter.filter","src/kalmankit/standard.py:KalmanFilter.update","src/kalmankit/standard.py:KalmanFilter.predict","examples/moving_average.py:main","docs/source/quickstart.rst"])
p("One generator for several parameters",
  "Where the same iterator object is given for several of A, H, B, Q, R and the controls: its items are dealt out round by round in the order A, H, B, U, Z, Q, R (extended class: U, Z, Q, R), and filter does exactly what it does with the arrays of the items dealt. One generator for Q and R thus gives the first, third, fifth, ... item to Q and the second, fourth, ... to R. If filter returned after T rows, an iterator used c times was read T c times, plus once for each use before the first parameter that had nothing left in the next round; if it raised in row k, (k + 1) c times. smooth with one iterator for H and R and arrays for the rest does what it does with the arrays dealt.",
  "all ways of sharing iterators among parameters, finite or not, positions, mixtures with arrays, run lengths, histories of calls, exceptions; every arithmetic",
  "Every way of sharing, every length and every earlier history.",
  ["src/kalmankit/standard.py:KalmanFilter.filter","src/kalmankit/standard.py:KalmanFilter.smooth","src/kalmankit/extended.py:ExtendedKalmanFilter.filter"])
p("A subclass that overrides filter: smooth runs over whatever it returned",
  "On an instance of a class that overrides filter (with any program), smooth calls that method once and is the Rauch-Tung-Striebel pass over the means and covariances it returned, whatever they are, with the attributes it left: the first len(Z)-1 of them, and the last one in the last place. If it returned len(Z) rows, these are all of them; with more rows (say the initial belief first) the rows in between are not used and the result is silently out of step; with fewer than len(Z)-1 it is IndexError; LinAlgError if a prediction is singular; what filter raises is raised, and the instance is left as filter left it. smooth depends on filter only through what it returned and the attributes it left, to the bit: it returns what a KalmanFilter with the same A, B, Q returns whose own filter gives the same rows. If filter, predict and update only add something (logging, counting, checks), smooth is that of the base class. Likewise for ExtendedKalmanFilter.",
  "all programs overriding filter, all arrays returned, states of the instance, data, run lengths, exceptions; every arithmetic, the RTS formula in exact arithmetic",
  "The overriding method is an arbitrary program returning arbitrary arrays; runs of any length.",
  ["src/kalmankit/standard.py:KalmanFilter.smooth","src/kalmankit/extended.py:ExtendedKalmanFilter.smooth"])
p("Confidence regions and the validation gate",
  "If the system follows the model with jointly Gaussian noises of the covariances the filter was told: the error of the mean returned by filter (smooth) is independent of the observations used and normal with mean 0 and the returned covariance P; so if P is invertible, the squared distance (x - xh)' P^-1 (x - xh) (NEES) has exactly the chi-squared distribution with n degrees of freedom, whatever was observed: a confidence ellipsoid has the stated probability even for the observations at hand. The same for the prediction of the next state, and for the next observation with the innovation covariance S (chi-squared with m degrees of freedom): a gate r' S^-1 r <= c accepts the right share of the rows whatever came before. If the noises are only uncorrelated with covariances at most those told, whatever their distribution, the squared distance is at most n in the mean and at least t with probability at most n / t.",
  "all models (time-varying), numbers of states and observations, steps, run lengths, regions, events about the observations; exact arithmetic",
  "A statement about probabilities conditioned on arbitrary events; simulation gives a finite sample of one system.",
  ["src/kalmankit/standard.py:KalmanFilter.filter","src/kalmankit/standard.py:KalmanFilter.smooth"])
p("Every exception of smooth",
  "If filter raises, smooth raises the same; the object ends as filter left it. If filter returned on sequences, smooth raises IndexError exactly if there are no observations, or at least two and A, B, Q or the controls (a given sequence) are shorter than the data; otherwise it raises ValueError or LinAlgError, or returns as many rows as there are observations. With xk, Pk, A and H of the documented shapes and full-length parameters, smooth accepts every Q, R, B, observations and controls whose rows fit by broadcasting: it returns or raises LinAlgError; so with two or more state variables, no ValueError is possible after filter returned. (With a short H or R it is.) The same for ExtendedKalmanFilter, with what its callbacks raise.",
  "all sequences, of any lengths, and (outcome) of any shapes up to rank 2 per row; models, data; every arithmetic",
  "Every combination of shapes and lengths; tests try a few.",
  ["src/kalmankit/standard.py:KalmanFilter.smooth","src/kalmankit/extended.py:ExtendedKalmanFilter.smooth"])
p("Smoothing does not depend on the direction of time",
  "Every linear model with positive definite covariances (with or without controls, varying from step to step) has a reversed model, which describes the same process from its last state to its first by regressing each state on the next. If the reversed model is given the measurements (with their H and R) in reverse order, smooth returns the means and covariances that smooth returns for the model, in reverse order; and the last estimate of filter on the reversed data is the first of smooth. For a stationary process the reversed model has transition matrix P A' P^-1 and the same initial belief; if A P = P A' (any stationary scalar process) the same model smooths reversed data to reversed results.",
  "all models (time-varying) with positive definite initial covariance and measurement noise, and an invertible transition or positive definite process noise at each step; any data of at least one observation; exact arithmetic",
  "Two different models on two different inputs, of any length, must agree in every row; a test compares one.",
  ["src/kalmankit/standard.py:KalmanFilter.smooth","src/kalmankit/standard.py:KalmanFilter.filter"])
p("The joint distribution of the whole trajectory",
  "filter and smooth together return all second moments of the trajectory. With G_k = P_k A' (A P_k A' + Q)^-1 (P_k the covariance returned by filter for row k, A and Q of the next step), if the system follows the model with uncorrelated zero-mean noises of the covariances the filter was told, whatever their distribution, the covariance of the errors of the smoothed means of rows k <= l is G_k ... G_(l-1) times the smoothed covariance of row l. If the noises are jointly Gaussian, then given all observations the whole trajectory is jointly normal with the smoothed rows as mean and these blocks as covariance, and the conditional mean of a product of components of two states is the product of the smoothed means plus that covariance (what the expectation step of the EM algorithm needs).",
  "all models (time-varying), distributions, pairs of rows, run lengths, events about the data; exact arithmetic",
  "A statement about the joint distribution of states of arbitrarily many times given the data.",
  ["src/kalmankit/standard.py:KalmanFilter.smooth","src/kalmankit/standard.py:KalmanFilter.filter"])
p("Where the build looks for the project",
  "The version computed by setup.py (versioneer.get_versions) is that of the current directory if this contains setup.py, pyproject.toml or versioneer.py, whichever script is run; otherwise that of the directory of the script (VersioneerBadRootError if that contains none of the three). So python DIR/setup.py of a checkout started in any directory that is not itself a project gives what it gives when started in DIR, and that is the version the package in the checkout reports (or the same exception); started in another project's directory it gives that project's version, computed with that project's settings. With the settings of this project's pyproject.toml get_versions is the computation of C102-C104; without a TOML parser (Python before 3.11 without tomli) it raises OSError.",
  "all directories, scripts, file systems, configurations, outcomes of git",
  "Depends on the whole file system and on what git does in every directory.",
  ["versioneer.py:get_root","versioneer.py:get_versions","versioneer.py:get_config_from_root","setup.py"])
p("Every step in its own coordinates; filtering deviations from a reference",
  "Describe the initial state by M_0 x + t_0 and the state after step k by M_(k+1) x + t_(k+1), with any invertible matrices and any offsets, and change the model accordingly (A to M_(k+1) A M_k^-1, the control contribution and the measurement by what the offsets contribute, H to H M_(k+1)^-1, Q to M_(k+1) Q M_(k+1)'). Then filter and smooth raise LinAlgError exactly when they did before, and otherwise row k of means, covariances and gains is the old row in the coordinates of that step. In particular a user may filter deviations from any reference trajectory, one that satisfies the model or not: subtract it from the initial mean, subtract H times it from the measurements, add A ref_k - ref_(k+1) to the control contribution; means become deviations, covariances and gains stay.",
  "all time-varying models, frames, offsets, reference trajectories, data, run lengths; exact arithmetic",
  "Relates two different models over all inputs and all frames.",
  ["src/kalmankit/standard.py:KalmanFilter.filter","src/kalmankit/standard.py:KalmanFilter.smooth"])
p("Convergence for models that are only detectable and stabilizable",
  "For a constant model with PSD Q and PD R in which whatever the measurements do not see and whatever the process noise does not reach is stable (detectable, stabilizable; weaker than C82), the covariance recursion has exactly one PSD steady state F, in which errors die out (the powers of (I - K H) A tend to zero); from every PSD initial covariance with entries up to p, for all data and controls, filter returns and for every step k the covariance and the recorded gain are within C rho^k (1 + p) of F and the steady-state gain, C and rho < 1 depending on the model only. Estimation errors stay within C rho^k times the initial error plus C times a bound of disturbances and measurement errors, and bounded data give bounded estimates. Observable and controllable models satisfy the conditions, and a model with any constant gain under which errors die out is detectable.",
  "all detectable and stabilizable constant models of any dimension, stable or not; all initial states, data, controls, disturbances, lengths of the run",
  "A limit statement over infinitely long runs of all models of a class.",
  ["src/kalmankit/standard.py:KalmanFilter.filter","src/kalmankit/standard.py:KalmanFilter.update","src/kalmankit/standard.py:KalmanFilter.kalman_gains"])
p("Exactly the detectable models settle down",
  "KalmanFilter.filter with a constant model (PSD Q, PD R) whose process noise reaches everything that is not stable, e.g. PD Q: the covariance recursion has a steady state if and only if the model is detectable. If it is not, the filter never settles: whatever the bound, there are a component and a number of steps, the same for all initial states and data, after which every returned variance of this component is above it. If it is, the returned covariances stay within a constant times one plus the largest entry of the initial one - this also if Q reaches nothing, e.g. Q = 0.",
  "all constant models, initial states with PSD covariance, data, controls, run lengths",
  "run lengths without bound, all models, and existence of a limit: a test sees finitely many steps",
  ["src/kalmankit/standard.py:KalmanFilter.filter","src/kalmankit/standard.py:KalmanFilter.update","src/kalmankit/standard.py:KalmanFilter.predict"])
p("Smoothed states from the filter, by carrying earlier states along",
  "Extend the state by further components that at every step turn into E x + D y (x the state before the step, y their old values), get no noise and are not measured. Whatever E and D are (time-varying) and whatever is believed about them at first, filter returns in the rows and columns of the state exactly what it returns for the plain model, gains included, or both raise LinAlgError. If they are uncorrelated at first, the last row contains as their estimate the recursion y = E x_k + D y with the states x_k returned by smooth of the plain model: running sums of smoothed states, states of some steps ago. If they take T x at one step and keep it, then in every later row their estimate and covariance are T x_s and T P_s T', x_s and P_s being what smooth says about that time given the measurements so far (fixed-point smoothing in one pass of filter).",
  "all time-varying models with PD initial covariance, PD R, PSD Q and invertible A or PD Q (the first part: all models), all E, D, T, data, run lengths; exact arithmetic",
  "Relates two methods on two different models over all inputs.",
  ["src/kalmankit/standard.py:KalmanFilter.filter","src/kalmankit/standard.py:KalmanFilter.smooth","src/kalmankit/standard.py:KalmanFilter.kalman_gains"])
p("Detectable models: the initial state is forgotten, the filter becomes a fixed-gain observer",
  "For a constant model with PSD Q and PD R that is detectable and stabilizable (weaker than C85 and C109: some components may be neither observed nor driven by noise), started with PSD covariances P, P': two calls of filter on the same data with different initial means and covariances return means that differ by at most C rho^(k+1) (r + D) after step k, where r bounds the initial means and D data and controls, and the means of filter differ by at most as much from those of the observer x' = A x + c + K (z - H (A x + c)) with the steady-state gain K, started anywhere, which computes no covariances. C and rho < 1 depend on the model and the initial covariances only.",
  "all detectable and stabilizable constant models of any dimension; all initial states, bounded data and controls, lengths of the run; exact arithmetic",
  "A statement about infinitely long runs of all models of a class.",
  ["src/kalmankit/standard.py:KalmanFilter.filter","src/kalmankit/standard.py:KalmanFilter.update","src/kalmankit/standard.py:KalmanFilter.predict"])
p("Rounding errors do not accumulate: models that are only detectable and stabilizable",
  "KalmanFilter.filter with a constant model with PSD Q, PD R and PSD initial covariance that is detectable and stabilizable (weaker than C108: components that are neither observed nor driven by noise are allowed if they are stable), on inputs with entries and dimensions up to a bound: for every tolerance there is one accuracy of the arithmetic (one number of binary digits) that suffices for runs of any length. Every such run on inputs within that accuracy of the model returns, with every state, covariance and recorded gain within the tolerance of the textbook filter in exact arithmetic: the errors of the single steps do not add up.",
  "all detectable and stabilizable constant models of any dimension; all bounded data and controls, run lengths, accurate arithmetics, perturbed inputs",
  "One accuracy for infinitely many runs of unbounded length: tests see finitely many runs in one arithmetic.",
  ["src/kalmankit/standard.py:KalmanFilter.filter","src/kalmankit/standard.py:KalmanFilter.predict","src/kalmankit/standard.py:KalmanFilter.update"])
p("Rounding errors do not accumulate in the smoother: models that are only detectable and stabilizable",
  "KalmanFilter.smooth with such a model whose predicted covariance is nonsingular in the steady state (always so if Q is PD, and for observable and controllable models): for every tolerance one accuracy (one number of binary digits) suffices for every call, on bounded data of any length, for which the textbook smoother exists; it returns, with every smoothed state and covariance and every recorded gain within the tolerance of the textbook smoother in exact arithmetic.",
  "all detectable and stabilizable constant models of any dimension with nonsingular steady predicted covariance; all bounded data and controls, run lengths, accurate arithmetics, perturbed inputs",
  "One accuracy for infinitely many runs of unbounded length: tests see finitely many runs in one arithmetic.",
  ["src/kalmankit/standard.py:KalmanFilter.smooth","src/kalmankit/standard.py:KalmanFilter.filter"])
p("Fixed lag and boundedness of the smoother: models that are only detectable and stabilizable",
  "KalmanFilter.smooth with a constant model (PSD Q, PD R) that is detectable and stabilizable (weaker than C111: components that are neither observed nor driven by noise are allowed if they are stable), started with covariance P, whose predicted covariance is nonsingular in the steady state. Smooth N observations, and then the same with any number of further observations: either the second call raises LinAlgError (the predicted covariance was singular at some step), or both return and the smoothed covariance of step k differs by at most C rho^(N-k), the smoothed mean by at most C rho^(N-k) times the change of the estimate of step N, and by at most C rho^(N-k) (r + D) if the initial mean is bounded by r and data and controls by D; so what smooth says about a step is final after a fixed lag, whatever comes later. For runs of any length all smoothed covariances are at most C and all smoothed means at most C (r + D). C and rho < 1 depend on the model and P only.",
  "all detectable and stabilizable constant models of any dimension with nonsingular steady predicted covariance; all initial states, bounded data and controls, further data, run lengths, steps",
  "One constant for runs of unbounded length and all later data; tests see finitely many.",
  ["src/kalmankit/standard.py:KalmanFilter.smooth","src/kalmankit/standard.py:KalmanFilter.filter"])
p("Smoothed covariances in the middle of a long run: models that are only detectable and stabilizable",
  "KalmanFilter.smooth with a constant model (PSD Q, PD R) that is detectable and stabilizable (weaker than C112), whose predicted covariance A F A' + Q is nonsingular in the steady state F of the filter. There is one matrix S, the only solution of S = F + G (S - (A F A' + Q)) G' with G = F A' (A F A' + Q)^-1, positive semidefinite and at most F, such that from every PSD initial covariance, in every run of any length, the smoothed covariance of step k of N is within C (rho^k + rho^(N-k)) of S (or the call raises LinAlgError); C and rho < 1 depend on the model and the initial covariance only.",
  "all detectable and stabilizable constant models of any dimension with nonsingular steady predicted covariance; all initial states, data, controls, run lengths, steps",
  "A limit statement about runs of unbounded length of all models of a class.",
  ["src/kalmankit/standard.py:KalmanFilter.smooth","src/kalmankit/standard.py:KalmanFilter.filter"])
p("Detectable models: smooth forgets the initial state and becomes a smoother with fixed gains",
  "KalmanFilter.smooth with a constant model (PSD Q, PD R) that is detectable and stabilizable, whose predicted covariance A F A' + Q is nonsingular in the steady state F of the filter, started with PSD covariance P. If the call does not raise LinAlgError, the smoothed means differ after step k by at most C rho^(k+1) (r + D) from those of the smoother with the fixed gains K (of the steady-state filter) and G = F A' (A F A' + Q)^-1, which is started anywhere and computes no covariances; r bounds the initial means, D data and controls. Two calls on the same data from different initial means and covariances P, P' return covariances that differ by at most C rho^(k+1) and means that differ by at most C rho^(k+1) (r + D). C and rho < 1 depend on the model and the initial covariances only.",
  "all detectable and stabilizable constant models of any dimension with nonsingular steady predicted covariance; all initial states, bounded data and controls, run lengths, steps; exact arithmetic",
  "A statement about runs of unbounded length of all models of a class.",
  ["src/kalmankit/standard.py:KalmanFilter.smooth","src/kalmankit/standard.py:KalmanFilter.filter"])
p("The smoothed moving average is forward-backward exponential smoothing",
  "The moving-average set-up of the documentation (A = H = 1, constant Q = q > 0 and R = r > 0, Pk = p >= 0, any xk), with smooth instead of filter: the call returns for any number of data. The variance of row k of N (counted from 0) is within C (rho^(k+1) + rho^(N-1-k)) of q r / sqrt(q^2 + 4 q r), and the smoothed value is within C rho^(k+1) M of exponential smoothing of the data with weight g = (sqrt(q^2 + 4 q r) - q) / (2 r), applied forward from any starting value and then backward; M bounds the data, xk and the starting value. C and rho < 1 depend on p, q, r only.",
  "all p >= 0, q > 0, r > 0, initial guesses, data, run lengths, array types; exact arithmetic",
  "A statement about runs of unbounded length and all values of the settings.",
  ["src/kalmankit/standard.py:KalmanFilter.smooth","examples/moving_average.py"])
p("The smoothed moving average is order preserving and does not overshoot",
  "The moving-average set-up of the documentation (A = H = 1, constant Q = q > 0 and R = r > 0, Pk = p >= 0, any xk), with smooth: the call returns for any number of data. If the data and the initial guess of a second call are nowhere smaller than those of the first, no smoothed state of the second is smaller than that of the first, and the variances are equal. The smoothed states lie between the smallest and the largest of the data and the initial guess, and the smoothed variances between 0 and r.",
  "all p >= 0, q > 0, r > 0, initial guesses, data, run lengths, rows, array types; exact arithmetic",
  "A statement about all pairs of runs of any length and all values of the settings.",
  ["src/kalmankit/standard.py:KalmanFilter.smooth","examples/moving_average.py"])
