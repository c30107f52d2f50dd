import json
N={}
def n(i,a,b=''): N[i]=[a,b]
n('C01','Standard/Extended, any backend. Invariant of the loop: the zero-initialised output keeps its row count and every row its shape, because assignment broadcasts to the row shape.')
n('C02','Any backend. The loop writes exactly one row per element of the zip; its length is the minimum of the lengths; the remaining rows are the initial zeros.')
n('C03','Any backend. The zip of prefixes is a prefix of the zip; the loop on a concatenation is the loop on the first part followed by the loop on the second.')
n('C04','Any backend. Same append lemma; assigning a row of the right shape stores it unchanged, so the stored row can be fed back as initial state.')
n('C05','Any backend. State machine of API calls; induction on histories: only the gain list changes and no result reads it.')
n('C06','Any backend. Same induction; the ledger after a history is the concatenation of what each call appends.')
n('C07','Any backend. Induction on the failing step: the gains of the completed steps, plus the failing step\'s own gain if it fails after its gain is known.')
n('C08','Any backend. Simultaneous induction on two runs whose observations have equal shapes; covariance and gain computations never read the data.')
n('C09','Any backend with `isnan nan`. The sentinel array is all-NaN, so `predict` takes the branch without control. In exact arithmetic the run without control is moreover shown equal to the run with any `B` and control zero.')
n('C10','Exact backend. Positive theorem for integer arrays plus a concrete counterexample run.')
n('C11','Every backend with NaN propagation. Invariant: all entries of the running state are NaN.')
n('C12','As C11, backward induction through the smoother.')
n('C13','Any backend. Callbacks `f(x,u)=A@x+B@u` etc.; step equality, then induction.','constant A, B, H, as callbacks cannot depend on the time step.')
n('C14','As C13 for the backward loop.','as C13.')
n('C15','Any backend. The last row is assigned once and not touched by the backward loop; re-assignment of a well-shaped row is the identity.')
n('C16','Any backend; evaluation on the empty sequence.')
n('C17','Any backend; shape computation through one step.')
n('C18','Any backend; the posterior state of the first step is an (n,1) array (or an earlier operation raises), which cannot be assigned to a row of length state_size. The extended filter likewise, for callbacks written for column vectors.')
n('C19','Any backend; iterating a 0-d array raises TypeError.')
n('C20','Any backend; `np.isnan(None)` raises TypeError.')
n('C21','Any backend; entrywise characterisation.')
n('C22','Any backend; shape, dtype and entries of the result.')
n('C23','Every backend with NaN propagation; B@u has a NaN entry where the row of B meets the NaN entry.')
n('C24','Exact backend. Refinement of the array loop to the textbook recursion, for all accepted layouts.')
n('C25','As C24; `det S = 0` at the first singular step.')
n('C26','Matrix algebra over the reals: Joseph form, induction.')
n('C27','Schur/determinant arguments, induction.')
n('C28','`P - P\' = K S K\'` is PSD.')
n('C29','Matrix identity from `K S = P H\'`.')
n('C30','Completion of squares.')
n('C31','Woodbury identity.')
n('C32','Relational induction on two textbook runs, transported by the refinement.')
n('C33','As C32.')
n('C34','Block matrix algebra on stacked measurements.','single update; no whole-run form.')
n('C35','Induction over the run; one invertible matrix per step, the beliefs do not change.')
n('C36','Simultaneous induction on three runs.')
n('C37','Induction: zero innovation keeps the mean on the true trajectory.')
n('C38','Matrix algebra.')
n('C39','Matrix algebra, induction.')
n('C40','Scalar recursion in the documented set-up, closed form by induction.')
n('C41','Refinement of the backward loop to the RTS recursion.')
n('C42','Loewner induction backwards in time.')
n('C43','Completion of squares along the trajectory; uniqueness of the minimiser.')
n('C44','As C43, backwards.')
n('C45','Mathlib probability: orthogonality invariant (error uncorrelated with all past observations).')
n('C46','Projection theorem from the orthogonality invariant.')
n('C47','Uncorrelated jointly Gaussian variables are independent; conditional expectation.','Gaussian noises on an arbitrary probability space; existence of one is shown in `Test/GaussianSpace.lean`.')
n('C48','Backward orthogonality invariant.')
n('C49','Riccati monotonicity through optimality of the gain (C30).')
n('C50','The linear algebra of C26-C28, C42 applied along the linearisation chosen by the callbacks.')
n('C51','Refinement to a typed EKF recursion.','callbacks pure and total on the visited states.')
n('C52','Evaluation of what the callbacks receive.')
n('C53','Broadcasting lemma; a counterexample.')
n('C54','Scalar Riccati contraction, limits.')
n('C55','Model matrices of the example, PSD facts by explicit factorisation.','plotting and random data not modelled.')
n('C56','As C55.','as C55.')
n('C57','As C55.','as C55.')
n('C58','The information-weighted distance contracts under update (C31) and does not grow under prediction.')
n('C59','Monotone bounded sequences of PSD matrices converge; Riccati map is monotone and continuous.','the bound comes from a hypothesis on a fixed stabilising gain.')
n('C60','Every access to the shared object is a scheduling point; invariant over all schedules: the object differs from the initial one only by appended gains; refinement of each thread to its solo run.')
n('C61','A stopped call is a prefix of the accesses; same invariant.')
n('C62','Heap model, any backend. Hoare-style triple for every primitive: cells below the initial length are unchanged; composed through bind and loops.','KalmanFilter; the extended class is in C78.')
n('C63','Heap model, any backend. Simulation between heap and value programs with a frame: reads see the value model\'s arrays because only the two result buffers are written; recorded gains are allocated in increasing order, hence pairwise disjoint.','KalmanFilter; the extended class is in C79.')
n('C64','C62 as an invariant of arbitrary histories, then C63.','KalmanFilter; the extended class is in C80.')
n('C65','Evaluation of the constructor on the heap; in-place writes keep dtype and shape, so the sentinel and the identity stay right.','KalmanFilter; the extended class is in C81.')
n('C66','The orthogonality invariant of C45 before the update: predictions are good estimates with respect to the earlier data.')
n('C67','Innovations lie in the span of the data up to their step and are orthogonal to the span before it; trace identity for the normalised square; Gaussian independence as in C47.')
n('C68','Errors are linear in the noises with fixed coefficients: they stay in the subspace of integrable zero-mean functions.')
n('C69','The recursion is run in the space of coefficients of the noise sources with the bilinear form of the told covariances (an instance of the invariant of C45, C48), then evaluated at the true noises, whose second moments are smaller source by source.','told covariances symmetric.')
n('C70','Model of the string methods, the regular expression (greedy backtracking) and the commands; the describe output is parsed back because no suffix of NUM-gHASH matches the tail of the expression.','Unicode decimal digits enter through the laws of class Unicode (ASCII digits are decimal, ASCII letters and the hyphen are not); posix paths.')
n('C71','C70 and unique decomposition at the first +, dot, and end of the hash.','tags without + (counterexample beside the theorem).')
n('C72','As C70.')
n('C73','C70, C72 and closure of local labels under dot-joining; the grammar of public versions is written out in Spec/Version.')
n('C74','Case analysis of every command outcome; each exception other than NotThisMethod is excluded by a hypothesis.','decoding errors and failing git show / rev-list are excluded by hypothesis (the second theorem shows the exception).')
n('C75','Path lemmas for dirname and basename, then the loop.','paths with at least three directories above src.')
n('C76','Splitting and stripping of the decoration gives back the ref names; sorted order and minimality give the first usable tag.','ref names without comma and parentheses.')
n('C77','Computation for each style; round trip from C70.')
n('C78','Heap model with callbacks as arbitrary programs on the memory; Hoare-style triple as in C62 relative to the set of arrays the callbacks write.','callbacks see the memory, not the filter object.')
n('C79','Simulation between heap and value programs as in C63, with the scratch arrays as a further frame set; disjointness of the scratch sets keeps values alive between callbacks.','callbacks must be functions of values; the examples show what goes wrong otherwise.')
n('C80','C78 as an invariant of arbitrary histories, then C79.')
n('C81','Evaluation of the constructor on the heap.')
n('C82','Upper bound: a deadbeat observer built from observability makes the error independent of the initial one after n steps, and the filter is at least as good. Lower bound: zero variance after n steps in a direction contradicts controllability. The ratio of two covariances then contracts over n steps (comparison with the other run\'s gains), which gives uniqueness and the uniform rate; existence by monotone iteration from zero.','constant models; observability and controllability in n steps (not the weaker detectability / stabilisability).')
n('C83','The propagator of the error contracts by a fixed factor over n steps in the metric of the reported covariance, which is uniformly equivalent to the maximum norm.','as C82.')
n('C84','Variation of constants with the geometric decay of C83 and a uniform bound on the gains.','as C82.')
n('C85','The difference obeys the recursion of C83 driven by the difference of the gains (geometric, C82) times the innovation (bounded, C84).','as C82.')
n('C86','Logical relation: families of programs along a filter converge to the exact program (operation by operation, through bind, loops and the object state); from convergence to epsilon-eta by a sequence of counterexamples.','accuracy of the arithmetic is a hypothesis (Accurate), met by a fixed-point arithmetic that rounds every operation; no explicit error bound.')
n('C87','As C86, with callbacks converging continuously.','callbacks must be continuous; no explicit error bound.')
n('C88','First part: any backend, the first iteration of the backward loop indexes row len(Z)-1 of each sequence. Second part: exact evaluation of the backward loop on the zero-padded filter results; a zero covariance has a zero smoother gain.')
n('C89','Block-diagonal algebra for one step of filter and smoother, induction over the run.')
n('C90','Backward induction: one RTS step equals adding the information pulled back through the transition (Woodbury-type identity for (1 + W Q)^-1 W, W may be singular).','invertible smoothed covariances (PD initial covariance and the conditions of C42).')
n('C91','C90 and monotonicity of W -> (1 + W Q)^-1 W.','as C90.')
n('C92','Filter update written as (1 + P Y)^-1 P with Y = H\' R^-1 H, monotone in P and Y; backward information by the same map; dropped sensors by a Schur-complement identity.','as C90 for the smoother; PD measurement noise.')
n('C93','C92; the inverse is antitone.','as C90.')
n('C94','Spec/Float models the rounded operations, summation trees and Gaussian elimination; these are shown Accurate for small u, mu and large M (elimination by an ultrafilter argument: along any sequence of machines the pivot choices are eventually constant, then the Schur complement converges), then C86 and C87.','no explicit error bound; infinities are identified with NaN; signed zeros are identified.')
n('C95','Each coordinate change is a map of steps and beliefs that commutes with prediction, update and smoothing (StepMap) and with linearisation (LinMap); the four changes are composed and the run-level statement follows by induction.')
n('C96','As C95 with the scaling map.')
n('C97','The linearisation along the run is noise free, so the linear statement of C29 applies.')
n('C98','The textbook EKF recursion is the textbook KF recursion on the linearised run (induction); both classes are evaluated by their run theorems.')
n('C99','Variation of constants with the geometric decay of C83 from a fixed initial covariance.','as C82.')
n('C100','An unmeasured update is the identity; predictions and RTS steps compose; induction over gaps.','a step without measurement is modelled by H = 0, the only way the API offers.')
n('C101','As C100; the RTS step of an unmeasured prediction returns the filtered belief.','as C100.')
n('C158','Model/Subclass.lean `smoothOf`: smooth with the result of any program in place of that of filter. Its loop with the inherited predict is the loop of the base class (smoothLoop_inherited), so a pass (`back`) over the rows returned; each step by the lemma of C44 for any beliefs (body_over, pass_exact). Additions: simulation as in C149.','the rows returned have the layout of filter in the exact part (C158_rts), anything in the others; results with rows of other types than arrays are not included.')
n('C102','json.dumps and json.loads are modelled character by character and shown inverse on all version dictionaries; the written file has no keyword line and its JSON text is found by the regular expression; induction over the chain.')
n('C103','As C102 with one more decoding step, the Python string literal, which is the identity on harmless strings.','an example shows that a double quote in the tag breaks the import.')
n('C104','The keyword lines are found and parsed; then both functions are the same sequence of attempts.','the long file is described by its keyword lines (Spec/Build LongFile); that the file in /repo has this form was checked by a script.')
n('C105','The parts of a PEP 440 version and the order of packaging.version are formalised (Spec/Pep440); the text determines the parts; comparison of keys.','tags in PEP 440 normal form.')
n('C106','Case analysis on the style against the parts of Spec/Pep440 stylePep; comparison of keys.','for tags without post, dev and local parts, except -pre.')
n('C107','Symbolic evaluation of git_pieces_from_vcs on what git prints.')
n('C108','One step of the program in an inexact arithmetic is within any tolerance of the exact step, uniformly over bounded arrays (compactness by ultrafilters, Proofs/Compact and RoundStep); the exact recursion contracts perturbations of the covariance and of the mean (Proofs/RoundStable: C82/C83 started from any covariance near the exact one, blocks of fixed length), so the tolerances of the steps do not add up; induction over the run in RoundRun.','as C82; no explicit error bound; infinities as in C94.')
n('C109','A fixed point makes the recursion constant (induction); C85 compares any start with the start in the steady state.','as C82 for the second part.')
n('C110','In an unseen direction the update removes nothing: the lower bound W W\' is carried by predict and preserved by update (monotonicity in the covariance); the shift of the mean is annihilated by H in the innovation; induction over the run.','R PD, Q PSD for the covariance part.')
n('C111','The smoother gains telescope: the change of the smoothed belief at k is P_k Phi(N,k)\' P_N^-1 times the change at N, Phi the propagator of the filter error, which decays (C83); with bounded data, an adjoint sum over the later innovations and C84.','as C82; either both calls raise LinAlgError or both return.')
n('C112','C111 for the covariances makes the smoothed covariances started in the steady state a Cauchy sequence in the number of later steps; the dependence on the filtered covariance is Lipschitz by C90 and decays by C82.','as C82.')
n('C113','In information form an update adds H\'R^-1 H and H\'R^-1 z, which for diagonal R are sums over the components (absorb_absorb); induction over the run. In the smoother a step without motion and noise has gain one.','diagonal R with positive entries; smoother under PD initial covariance and C42 conditions.')
n('C114','One step of the backward pass is within any tolerance of the exact step, uniformly over bounded arrays, also from a filtered belief that is only near the exact one (compactness, Proofs/RoundBack one_back); the RTS step is affine in the next smoothed belief and the products of smoother gains decay (C111) from the first step on, so the tolerances do not add up (back_near); downward induction over the loop of smooth, after C108 for the forward pass.','as C108; one row of the model per observation.')
n('C115','The linearisation of the joint step at a joint belief is the joint step of the linearisations (ext_join_lin); hence by induction along the run, while it is solvable, and C89 (join_filtered, join_rts) for the linearised runs.','exact arithmetic; the joint callbacks must be literally the pair of the separate ones on real vectors.')
n('C116','Error bars: Chebyshev from C69. Posterior: the error is a linear combination of the Gaussian sources (Good.gaussian) with mean 0 and covariance P (C45), so its law is the multivariate normal one (IsGaussian.ext); it is independent of the observations (C47) and the estimate is a function of them, so Fubini gives the joint law (posterior_of).','exact arithmetic; Mathlib definitions of the multivariate normal distribution.')
n('C117','The error measured by the inverse covariance is a Lyapunov function: e\' = Psi e + eta with P\' = Psi P Psi\' + W, W at least a constant (joseph_lower), hence a contraction by 1 - delta (mahal_contract); the remainder eta is quadratic in e plus the disturbances (next_error), the gains are bounded because K R K\' <= P\'; induction over the run (run_observer). A priori bounds of the covariance: the filter is at least as good as the observer that reads the state off one measurement, for the pendulum as a deadbeat observer over two steps (two_step_upper), and in general (C117_observable) the bound of window_upper applied to the run linearised at the estimates, whose Gramians are close to those along the truth (gram_close, lower_close, ext_cov_upper).','exact arithmetic; local: the size of eps is not estimated.')
n('C118','The loop of the user and the loop of filter are both equal to the trace of the step function over the zipped rows (byHand_eq, filter_iter); on data in the documented layout the assignment into the result arrays is the identity. Missing measurements: the update with H = 0 is the identity in exact arithmetic (unmeasured_next), induction over the run (mask_exact).','the loop of the user is specified in Spec/ByHand.lean; missing measurements: exact arithmetic and a 1-d initial state; the extended run with missing measurements is specified in Spec/ExtPartly.lean.')
n('C119','Upper bound: by duality (dual_run) the quadratic form of the covariance after a window is the minimum of a cost over all linear observers; the observer built from the inverse of the observability Gramian has bounded cost independent of the initial covariance (window_upper). Lower bound: the noise that enters during a window dominates a multiple of the controllability Gramian (cost_lower, window_lower). The difference of two covariances is clo(P) (P - P\') clo(P\')\' (covRun_sub) and both closed-loop products decay in the norm of the inverse covariance (mahal_contract, Margins.decay). Constant models: the Gramians of n equal steps are positive definite.','exact arithmetic; existence of constants, no formula for them in the statement.')
n('C120','The error is itself a run on the disturbances (error_run); the closed loop decays over windows (Margins.decay), the gains are bounded through R >= r, and the first N steps are bounded by the growth of the covariance (cov_growth, run_bound_start).','exact arithmetic.')
n('C121','Difference of two runs as one perturbed closed loop (cross_list); the perturbation is the difference of the gains times a bounded innovation, which decays with the covariances (cov_close, gainAt_sub, belief_close).','exact arithmetic; as C85 it bounds the difference in terms of the estimates in row j.')
n('C122','As C111, step by step: the smoother gain times the next filtered covariance is P times the transposed closed loop (gain_back), which needs an invertible predicted covariance only, so the change at k is P_k clo\' P_L^-1 times the change at L (frontV_append); clo decays (C119), P_L is bounded below.','exact arithmetic; either both calls raise LinAlgError or both return.')
n('C123','The smoothing error is itself a smoothing run on the disturbances (error_front); the smoothed minus the filtered state is P_k times the sum of the transposed closed loops on the later innovations (front_adjV), a geometric sum; the filtering errors by C120.','exact arithmetic.')
n('C124','The smoothed belief combines the filtered one with the information of the later rows (frontV_combines), the same for both runs; hence formulas for the differences that are linear in the differences of the filtered beliefs (combines_close, combines_mean), which decay by C119 and C121.','exact arithmetic.')
n('C125','As C108 with the time-varying closed loop: one step is within any tolerance of the exact one uniformly over bounded arrays, gains are uniformly continuous in the covariance on the compact set of models (unif_gainAt, ultrafilters), the products of closed loops decay over windows from any bounded start (Margins.settled_start), hence perturbations that are small in every step stay small (stay_near_var); induction over the run (run_near_of).','no explicit error bound; infinities as in C94.')
n('C126','As C114: the RTS step is affine in the next smoothed belief and products of smoother gains along the run decay (backProdV_decay, from the closed loop of C122); the predicted covariances are bounded below after N steps by C119, before by hypothesis.','no explicit error bound; infinities as in C94; one row of the model per observation.')
n('C127','The extended smoother is the linear smoother on the run linearised at the estimates (C98). Bounded covariances and Q >= q make the products of closed loops decay (settled_of_upper, mahal_contract); the smoothing error is itself a smoothing run on the disturbances plus linearisation remainders (lin_errors, error_front, exists_front), applied to the tail from row k on, where the remainders are bounded by the filter error of C117.','exact arithmetic; local: the size of eps is not estimated.')
n('C128','The installer is a process that reads, empties and extends files (Cmd); Killed describes the files at every crash point. Inversion of Killed along the process.','directories exist, files can be read and written, one process; TOML and INI parsers and the text of the long _version.py are parameters; run in the project root.')
n('C129','The files after a call as an explicit function of the files before (rest_run, run_eq); the added lines cannot create the old ones across the seam (old_append, by the tails of the old lines), a marked line is recognised (present_append), recognised lines are marks unless they are about a longer path (marks_of_present).','as C128.')
n('C130','One step of the program, with inexact callbacks and arithmetic, is within any tolerance of the exact step uniformly over bounded arrays (Proofs/ExtRoundStep, compactness by ultrafilters). The covariances of the inexact run stay near an exact time-varying run along the truth (cov_near_var), hence bounded above and below; the estimation error obeys the Lyapunov inequality of C117 with one more disturbance of size tau (err_step, round_observer), so the errors of the steps do not add up; induction over the run (ext_round_run).','no explicit accuracy; local: the size of eps is not estimated; infinities as in C94.')
n('C131','Monotone rounding preserves signs and comparisons with numbers of the format; induction over the trace of the run (trace_one). Counterexamples: H = 1 + k e with k^2 e just below 1/2 (e = 2^(1-p)) makes H H round down, the gain round up and K H round to 1 + e, so that (1 - K H) P = -e; with a second state the entry (0,1) is -3e/4, which no difference of numbers near 3/4 (multiples of e/2) equals.','infinities are identified with NaN; the counterexamples are single-step runs.')
n('C132','Absorbing (Spec/NonFinite.lean) is what is needed of the arithmetic: bad numbers survive sums, differences and dot products, and a linear system all of whose numbers are bad has no good unknown; proved for IEEE arithmetic with infinities by induction over the summation trees and over Gaussian elimination (C132_ieee). Every step as explicit formulas (step_form), then induction over the rows (run_at).','the sign of zero is not represented; a BLAS that skips zero factors (0 * inf = 0) is not covered; calls that returned.')
n('C133','As C132, with the results of the callbacks as given.','as C132.')
n('C134','Induction backwards over the loop of smooth (back_bad): the next smoothed state enters through a difference, a product and a sum.','as C132; standard class: one row of the model per observation.')
n('C135','Gaussian elimination with infinities on the diagonal: every pivot is infinite, all factors are zero (gaussIeee_inf); then products with the zero gain and the identity are exact (evalIeee_zero, evalIeee_unit). With all entries infinite, factors are inf/inf (gaussIeee_all_bad). Two sensors: explicit elimination (gaussIeee_two_nan).','the sign of zero is not represented; LAPACK may multiply by reciprocals of pivots instead of dividing (with the same result in these cases).')
n('C136','A second model of the same lines with Python values (Model/Lists.lean: arrays, numbers, flat and nested lists; @, -, .T, np.isnan, np.full_like as Python and numpy dispatch them), and a simulation: every operation on values equals the operation on the arrays they convert to (Proofs/Lists.lean), by induction over the rows of the zip and over the backward loop.','lists inside a row hold numbers only; tuples, bools, None inside lists, object arrays, pandas objects are not modelled.')
n('C137','Case analysis on each operator of predict and update; induction over the feedback loop for filter (loop_needs).','as C136.')
n('C138','As C136, with callbacks that take and return Python values; predict returns whatever f returned.','callbacks are pure functions; lists as in C136.')
n('C139','np.broadcast_to specified by indices (Spec/Broadcast.lean) and shown equal to what +/- of the model do with the smaller array; then trace_rel_inv (runs over rows that no step can tell apart) and back_congr.','rows of rank at most 2; the extended class with a control sequence, since without one the callbacks see a sentinel of the shape of the observation.')
n('C140','Inversion of a successful step (KalmanFilter.step_accepts, ExtendedKalmanFilter.step_accepts): the residual must end up a vector, because only a vector (or a 1-row matrix, impossible for n >= 2) can be stored in a row of the result; trace_at for runs. Exceptions: every operation of a step (step_raises) and trace_fail.','n >= 2 (with one state variable (1,1)-shaped observations are accepted too); rows of rank at most 2.')
n('C141','Noise vectors: instance of C139. Vector covariances: shape analysis of a step whose covariance stays a vector (step_flat), then induction (trace_at_state).','the rest of the call in the documented layout; KalmanFilter only.')
n('C142','Model/Stateful.lean: the lines of extended.py with callbacks as programs over the user\'s state and the attributes. Simulation (Sim): programs built from matched callbacks are matched, by structural induction over the loops; then the pure instance is shown equal to Model/Extended.lean (filter_pure, smooth_pure).','callbacks that replace callbacks or methods of the object during a call, or write into arrays in place (C78-C81), are excluded.')
n('C143','Callbacks wrapped so that each call is written down (Callbacks.logged); the wrapper is invisible (Sim); the list of calls by induction over the feedback loop and the backward loop (filterLoop_log_ok, filterLoop_log_error, smoothLoop_log_ok, smoothLoop_log_error).','as C142.')
n('C144','One step with all counters at i is the step of the i-th model (one_counting), induction over the run with the exact step of C51; counters by induction over both loops.','filter: exact arithmetic.')
n('C145','The simulation of C142 with weaker relations between the objects: equal identities; also equal Q and state_size; or all attributes equal and gains a sublist.','the private identity matrix is not assigned to.')
n('C146','Model/Iterators.lean: `zip` as a program that asks its arguments in order and keeps what it took; invariant of the loop: every iterator has been read as often as rows were completed, induction over the observations; the loop is then the trace of Model/Standard on the zipped items.','iterators that raise exceptions of their own or share state with each other are not modelled; one iterator object used for two parameters is modelled but not covered by the theorems.')
n('C147','As C146; the backward loop indexes its sequences, and the first index is that of the last observation.','as C146.')
n('C148','Shape analysis of the first step (first_raises); for the silently accepted cases, step-by-step equality with the repeated rows (predict_single, C139) along an invariant on shapes (trace_rel_inv), or induction (trace_at_state).','one parameter at a time (or Q and R together, or all four); smooth is covered where it raises; the rest of the call in the documented layout.')
n('C149','Model/Subclass.lean: filter and smooth with self.predict and self.update looked up on an object with more state. Simulation of the loops of the base class step by step (Matched), with the invariant carried along.','filter and smooth are not overridden; the overriding methods do not replace methods or callbacks of the object, nor write into arrays in place.')
n('C150','The loop of filter with the skipping update and the loop by hand are the same program over the zipped rows on data in the documented layout (skip_loop, Fills); then C118 (mask_exact, extPartly_exact). smooth: the backward pass never calls update, so it is that of the base class on the masked filtered beliefs (skipping_smooth).','as C149; smooth in exact arithmetic: standard class, at least one observation, one row of the model per observation, invertible R, 1-d initial state.')
n('C151','Spec/Assign.lean: histories of calls and assignments. The identity matrix, and state_size if not assigned to, never change, calls change the gains only (exec_state), so the object is the new one with other gains. B=None: C09 on a prefix of the run (trace_take) and C88. Other sizes: the first step raises (step_wrong_size, step_stale), or broadcasts the 1x1 identity (correct_one, trace_rel_inv).','assignments to the private identity matrix and assignments during a call (C145) are not included; values assigned are arrays, or None for B.')
n('C152','Methods wrapped so that each call is written down (Spec/MethodCalls.lean); the wrapper is invisible (Matched). Both feedback loops are instances of one loop over a row type (methodLoop), both backward loops of another (methodBack); the list of calls by induction over them.','as C149.')
n('C153','The predictive distributions of C116 are normal; the density of the multivariate normal distribution is derived from the product of real Gaussians by a change of variables (Proofs/Density.lean), the joint density by induction over the number of observations (rectangles, law_density). The estimates are functions of the earlier data only, and measurable. Chi-squared: the innovations multiplied by the inverse square root of S are independent standard normal (C67, law_density with zero means).','exact arithmetic.')
n('C154','Objects hold the number of a list, lists are cells of a store; a call reads and replaces the contents of its cell. Frame lemma: a call leaves every object and all other lists as they are and appends what it records on an empty list (C12 machinery); the theorems by induction over the list of calls, C154_results over the list of actions.','Calls do not overlap in time; other attributes are values (arrays shared between objects: C62-C65, C78-C81).')
n('C155','Information form (C31) summed over the steps by induction; completing the square for the cost; backward gain is the identity; two-sided estimates between smallest information and largest covariance; mean square by an induction over the observations that carries orthogonality to later noise.','Exact arithmetic (C94 for rounding).')
n('C156','The computed step is written out on 1 x 1 arrays (walk_prog, from Proofs/One.lean); its error per operation is bounded at the scale of the operand (walk_step); the recursions of variance and state contract by r/(q+r) and 1 - K <= 1 - kappa, so the errors add up as geometric series (walk_err); induction over the data (walk_trace).','C85, C86 give bounds for every linear model that depend on the run; here they are explicit and uniform in its length, for the scalar random walk only. Sums of one product have no freedom of order, so the BLAS of numpy is fully covered.')
n('C157','Spec/Iterators.lean `dealt`: what each use of a shared iterator gets in round k. Invariant of the loop: after k rounds an iterator used c times has been read k c times (pull_dealt, by induction over the arguments of zip; filterLoop_inv). The rows are those of the filter with one virtual iterator per parameter, so the rest is C146.','as C146; iterators that read one another (tee, map over another) are not included.')
n('C159','The error is a vector of a Gaussian Hilbert space orthogonal to the observations (C27/C66: law and independence); whitening with the square root of P^-1 turns it into standard normals (normalise_sq, normalise_law), whose sum of squares is chi-squared by definition; independence gives the factorisation over every event of the observations. Any noise: C69 along the rows of P^(-1/2), then Markov.','exact arithmetic; the second part for positive definite P.')
n('C160','A backward pass that raises raises in one iteration on computed rows (back_error, induction); each line of an iteration raises ValueError or LinAlgError only, and on the shapes of the state only LinAlgError (smooth_tail_fits); items exist when the sequences are full (C88 otherwise); C140 for the forward pass.','as C140.')
n('C161','Spec/Reverse.lean defines the reversed model without the filter, from the laws implied before any data. Predicting a filtered belief is a smoothing step of the reversed model (predict_eq_rts), so the two-filter form (C90) shows that what a filtered belief knows is what is in the later data of the reversed run (filtered_combines, induction over the steps); both smoothed beliefs combine the implied law with the same information, which determines them.','exact arithmetic; standard class.')
n('C162','In the L2 space of C45-C48 the error of a smoothed mean is the gain times the error of the next one plus something orthogonal to all data and all later states (Sys.smooth_split); induction over the steps gives the product of gains (smooth_cross). The errors of all rows stacked are a good estimate in the sense of C45, so the Gaussian theorems of C116 and C47, which hold in any dimension, apply to the stacked vector.','exact arithmetic; standard class.')
n('C163','Model/Root.lean models get_root and the whole of get_versions for any configuration (handlers, assertions, keywords, file, git, parent directory); paths are joined and split as in Model/Install and Model/Version. For the settings of this project it is definitionally buildVersions, so C102-C104 apply.','posix; real paths of the current directory and of sys.argv[0] are given; a directory other than /.')
n('C164','Each step commutes with a pair of frames (before, after); induction over the run with the frames shifted. C33 is the case of one frame without offset.','exact arithmetic; statement for the representation of the model as numbers, like C33.')
n('C165','Covariances from zero increase and are bounded by the predictor with the stabilizing observer gain, so they converge; in the limit the energy y.Fy of the adjoint closed loop decreases by the noise it sees, so the noise terms die out, and feeding the missing output back through the stabilizing feedback makes the closed loop a stable system with vanishing input (no eigenvalues needed). Products of matrices that converge to a stable one decay geometrically (a submultiplicative family); this gives the rate, forgetting and boundedness. Stable means that the powers tend to zero.','exact arithmetic; stabilizability is sufficient, not shown to be necessary; constants of C165_observer depend on the initial covariance.')
n('C166','If the covariances that start with certainty stay bounded, they increase to a limit, a steady state, whose closed loop is stable (C165), and I - K H stable means detectable; all other covariances are above them. The bound for detectable models is the predictor with the stabilizing observer gain, with the initial covariance as an additional input.','exact arithmetic; growth is stated for noise that reaches what is not stable (without that a model that is not detectable may stay bounded).')
n('C167','Block algebra: the covariance between further components and state has the form T P, with T following a recursion of its own; by induction along the run the corrections of the further components add up to those of the backward pass.','exact arithmetic; joint covariance of the further components only for the copied state.')
n('C168','The difference to the fixed-gain observer obeys the closed loop of the steady state, driven by the difference of the gains times the innovation: the first decays (C165), the second is bounded (C165), the closed loop is stable; variation of constants.','exact arithmetic; the constants depend on the initial covariances.')
n('C169','The proof of C108 uses three facts of the model and the initial covariance (`Settles`): products of closed-loop matrices decay, covariances stay bounded, bounded data give bounded states. All three follow for detectable and stabilizable models from the convergence to a stable steady state (C165).','as C108: the accuracy depends on the model, the initial state, the bound and the tolerance, and is not computed.')
n('C170','As C114, from the additional facts (`SettlesBack`) that products of smoother gains decay and predicted covariances stay away from singular ones. The smoother gain of the steady state is similar to the transposed closed loop, hence stable, and products of factors that converge to a stable matrix decay.','as C114; a model whose steady predicted covariance is singular is not covered (the smoother inverts it).')
n('C171','The backward recursions of the two runs differ at step k by a product of smoother gains applied to their difference at step N (`smoothAt_diff`), and products of smoother gains decay (`SettlesBack`, C170). Boundedness: the recursion is a stable one with bounded inputs (`back_bound`), the filter being bounded by C166.','exact arithmetic; a model whose steady predicted covariance is singular is not covered (the smoother inverts it), nor a time-varying one.')
n('C172','The difference to S obeys the backward recursion with an inhomogeneity that tends to zero like the filter covariance tends to F (C165); products of smoother gains decay (C170), so the difference is small away from both ends. S is the limit of the backward recursion in the steady state; the equation has one solution because the smoother gain of the steady state is stable.','exact arithmetic; a model whose steady predicted covariance is singular is not covered; unlike C112 the constants depend on the initial covariance.')
n('C173','Both runs are compared with the run from the steady state. The differences obey the backward recursion with an inhomogeneity that fades: the filter runs approach each other (C168), the smoother gains converge at the same rate (C172), the smoothed beliefs are bounded (C171); products of smoother gains decay. From the steady state the textbook smoother is the fixed-gain one (`front_fixed`).','exact arithmetic; a model whose steady predicted covariance is singular is not covered.')
n('C174','C172 and C173 for the scalar random walk, whose steady state f solves f (f + q) = q r: the gain of the filter is f / r = g, that of the smoother f / (f + q) = 1 - g, and the equation of C172 gives S = f (f + q) / (2 f + q). The fixed-gain smoother with these gains is exponential smoothing forward and backward (`fixedSmooth_ma`).','exact arithmetic; constant q and r.')
n('C175','The filter and the backward pass are scalar recursions with weights in [0, 1] that do not depend on the data (`ma_front`, `ma_rts`), so results grow with the data (`maSm_mono`); constant data are reproduced, which gives the bounds. The variances are bounded by those of the filter (`smp_mem`).','exact arithmetic; constant q and r; a statement about this scalar model (a smoother with velocity states can overshoot).')
json.dump(N,open('/verif/tools/design_notes.json','w'),indent=0,ensure_ascii=False)
