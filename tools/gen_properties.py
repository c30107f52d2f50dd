#!/usr/bin/env python3
"""Regenerates /verif/properties.jsonl (one JSON object per line)."""
import json
S="src/kalmankit/standard.py"; X="src/kalmankit/extended.py"; U="src/kalmankit/utils.py"; V="src/kalmankit/_version.py"
P=[]
def p(title, statement, quantifier, why, anchors):
    P.append(dict(id="C%02d"%(len(P)+1), title=title, statement=statement, quantifier=quantifier, why_tests_cant=why, anchors=anchors))

# ---------------------------------------------------------------- structural, any arithmetic
p("Output shapes and alignment",
  "Whenever KalmanFilter.filter, KalmanFilter.smooth, ExtendedKalmanFilter.filter or ExtendedKalmanFilter.smooth returns, the first result has exactly len(Z) rows of shape (state_size,) and the second exactly len(Z) rows of shape (state_size, state_size).",
  "all filter objects, all Z/U and all parameter arrays of any (also mutually inconsistent) shapes, any arithmetic",
  "Tests try a handful of shapes; numpy broadcasting makes the set of inputs for which a call happens to succeed unbounded.",
  [S+":KalmanFilter.filter",S+":KalmanFilter.smooth",X+":ExtendedKalmanFilter.filter",X+":ExtendedKalmanFilter.smooth"])
p("Mismatched lengths truncate silently",
  "filter never raises because A, H, B, U, Q or R is shorter than Z: it processes exactly the common-prefix length T of all sequences; rows T.. of both results are zero, rows before T equal those obtained with Z cut to length T, and exactly T gains are recorded.",
  "all sequence lengths and all inputs on which the call returns, any arithmetic",
  "A test fixes particular lengths; the claim is about every combination of lengths.",
  [S+":KalmanFilter.filter (zip/enumerate)",X+":ExtendedKalmanFilter.filter"])
p("Causality / prefix stability",
  "The k-th filtered mean and covariance depend only on the first k+1 observations: filter(Z[:j], U) returns the first j rows of filter(Z, U), and filtering any Z' that agrees with Z on the first j rows gives the same first j rows.",
  "all inputs, all cut points j <= len(Z), any arithmetic (bit-for-bit)",
  "Needs every cut point of every history.",
  [S+":KalmanFilter.filter",X+":ExtendedKalmanFilter.filter"])
p("Streaming restart",
  "Filtering Z in one call gives the same rows and gains as filtering Z[:j] and then filtering Z[j:] with a second filter whose initial xk, Pk are the last posterior of the first run and whose A, B, H, Q, R (and U) are cut at j.",
  "all well-shaped inputs, all split points, any arithmetic (bit-for-bit)",
  "Needs every split point of every history.",
  [S+":KalmanFilter.filter",X+":ExtendedKalmanFilter.filter"])
p("Calls do not disturb the object; results are history independent",
  "No sequence of predict/update/filter/smooth calls, successful or raising, changes the object's A, xk, B, Pk, H, Q, R, f, h, jacobians or state_size, and the outcome (value or exception) of a call is the same after any history of calls as on a fresh object.",
  "all finite call histories with arbitrary arguments, any arithmetic",
  "Quantifies over all call histories, including ones with exceptions.",
  [S+":KalmanFilter",X+":ExtendedKalmanFilter"])
p("kalman_gains is an append-only ledger",
  "kalman_gains starts empty, is never reset or truncated by any call, a successful update appends exactly one gain, a successful filter appends exactly one gain per processed step, smooth appends exactly what the corresponding filter call appends (its backward pass appends nothing), predict appends nothing.",
  "all finite call histories, any arithmetic",
  "Quantifies over all call histories; the accumulation across calls is only visible over histories.",
  [S+":KalmanFilter.update",S+":KalmanFilter.kalman_gains",X+":ExtendedKalmanFilter.update"])
p("Gains recorded when a run fails part-way",
  "If filter raises while processing step k, the gains of steps 0..k-1 stay recorded; if the failure is the solve of step k (e.g. singular innovation covariance) nothing is recorded for step k.",
  "all inputs and failing steps, any arithmetic",
  "Needs every failure point.",
  [S+":KalmanFilter.filter",S+":KalmanFilter.update"])
p("Covariances and gains do not depend on the data",
  "For the standard filter the returned covariances and the recorded gains depend only on Pk, A, H, Q, R (and state_size): two successful runs of equal length that differ only in xk, B, Z and U give identical covariances and gains; the same holds for smoothed covariances.",
  "all pairs of inputs, any arithmetic (bit-for-bit)",
  "A relational property over all pairs of data sets.",
  [S+":KalmanFilter.filter",S+":KalmanFilter.smooth"])
p("B=None / U=None means no control (float data)",
  "With float arrays, passing U=None (or B=None) makes predict compute exactly A x (no control term) at every step, whatever the other one is, and in exact arithmetic the run equals the run with an all-zero control input.",
  "all well-shaped float inputs of every length and dimension",
  "Needs all inputs and dimensions.",
  [U+":check_none_and_broadcast",U+":is_nan_all",S+":KalmanFilter.predict",S+":KalmanFilter.filter"])
p("B=None / U=None with integer data",
  "The None sentinel is np.full_like(broad_to, nan); for an integer broad_to the sentinel is not NaN, so the control branch is NOT skipped: U=None with integer Z (or B=None with integer A) feeds the platform's NaN-to-int value into the prediction. The claim 'None always means no control' is therefore false of the code; it holds exactly when one of the two sentinels is made from a float array.",
  "all integer-typed inputs; existence of a concrete violating input",
  "The failing dtype combination is not in the test-suite; the positive part ranges over all inputs.",
  [U+":check_none_and_broadcast",S+":KalmanFilter.__init__",S+":KalmanFilter.filter"])
p("A NaN observation poisons every later state",
  "A missing observation is not skipped: if any component of z_k is NaN, every component of every state returned by filter at steps >= k is NaN (steps < k are unaffected), while covariances and gains are as without the NaN.",
  "all well-shaped inputs, all positions of the NaN, any arithmetic in which +, -, and dot products propagate NaN",
  "Needs all positions and histories.",
  [S+":KalmanFilter.update",S+":KalmanFilter.filter"])
p("A NaN observation poisons the whole smoothed trajectory",
  "If any component of any z_k is NaN then every component of every mean returned by smooth is NaN.",
  "all well-shaped inputs, all positions, any NaN-propagating arithmetic",
  "Needs all positions and histories.",
  [S+":KalmanFilter.smooth"])
p("EKF filter equals the standard filter on linear models",
  "If f(x,u)=A x + B u, h(x)=H x, jacobian_A=A, jacobian_H=H and no control is all-NaN, ExtendedKalmanFilter.filter returns exactly what KalmanFilter.filter returns with those matrices repeated at every step (same values, same exception, same gains).",
  "all A, B, H, Q, R, Z, U, of any shapes, any arithmetic (bit-for-bit)",
  "Needs all inputs; the test covers one scalar data set.",
  [X+":ExtendedKalmanFilter.filter",S+":KalmanFilter.filter"])
p("EKF smoother equals the standard smoother on linear models",
  "Under the same conditions ExtendedKalmanFilter.smooth returns exactly what KalmanFilter.smooth returns.",
  "all inputs as in the previous property",
  "Needs all inputs; the test covers one data set.",
  [X+":ExtendedKalmanFilter.smooth",S+":KalmanFilter.smooth"])
p("The last smoothed estimate is the last filtered one",
  "Whenever smooth returns, its last mean and covariance are the last ones of filter on the same data; with a single observation smooth and filter return the same arrays.",
  "all inputs on which smooth returns, any arithmetic",
  "Needs all inputs.",
  [S+":KalmanFilter.smooth",X+":ExtendedKalmanFilter.smooth"])
p("Empty observation sequence",
  "On an empty Z, filter returns empty results, records no gain and never raises for iterable parameters, whereas smooth always raises IndexError.",
  "all parameter arrays",
  "Needs all parameters.",
  [S+":KalmanFilter.filter",S+":KalmanFilter.smooth",X+":ExtendedKalmanFilter.smooth"])
p("A wrong state_size is rejected at run time",
  "If state_size is given and differs from the dimension n of a well-shaped model, filter on a non-empty Z raises (ValueError, or LinAlgError if the solve is singular) and never returns; a negative state_size makes the constructor raise ValueError; state_size=None and state_size=0 both mean xk.shape[0].",
  "all well-shaped models, all state_size values, any arithmetic",
  "Broadcasting could silently accept some wrong sizes (size 1); needs all pairs of sizes.",
  [S+":KalmanFilter.__init__",S+":KalmanFilter.filter"])
p("Column-vector initial states are rejected unless 1x1",
  "A model of dimension n >= 2 with xk of shape (n,1) (and vector observations or scalar ones) never yields filtered states: filter on a non-empty Z raises.",
  "all well-shaped models with n >= 2, any arithmetic",
  "Needs all dimensions and broadcasting combinations.",
  [S+":KalmanFilter.filter"])
p("A scalar R or Q is rejected",
  "The documentation allows R to be a float; filter and smooth nevertheless raise TypeError for a 0-d A, H, B, U, Q or R (they are iterated), even on empty Z, and leave kalman_gains unchanged.",
  "all inputs with a 0-d parameter",
  "Needs all combinations.",
  [S+":KalmanFilter.filter",X+":ExtendedKalmanFilter.filter"])
p("predict does not accept None controls",
  "The documentation of predict says Bk and uk can be None; predict raises TypeError for Bk=None, and for uk=None unless Bk is all-NaN.",
  "all arguments",
  "Needs all arguments.",
  [S+":KalmanFilter.predict",U+":is_nan_all"])
p("is_nan_all decides 'every entry is NaN'",
  "is_nan_all(a) is True iff every entry of a is NaN; it is True on every empty array, False on every non-empty integer array, and one non-NaN entry anywhere makes it False.",
  "all arrays of rank <= 2 and all sizes",
  "Needs all arrays.",
  [U+":is_nan_all"])
p("check_none_and_broadcast contract",
  "A non-None argument is returned unchanged; for None the result has the shape of broad_to and, if broad_to is float, is_nan_all holds of it and of each of its rows.",
  "all arrays",
  "Needs all arrays.",
  [U+":check_none_and_broadcast"])
p("Partially-NaN controls are not ignored",
  "If neither B_k nor u_k is entirely NaN the control term is added: a u_k with some NaN component makes every component of the prediction NaN.",
  "all well-shaped inputs with a partly NaN control, any NaN-propagating arithmetic",
  "Needs all positions.",
  [S+":KalmanFilter.predict",U+":is_nan_all"])
# ---------------------------------------------------------------- exact arithmetic
p("filter computes the Kalman recursion",
  "In exact arithmetic, for every documented array layout (vector or scalar observations, matrix or scalar noise, (n,) or 1x1 initial state), if every innovation covariance H P- H' + R is invertible then filter returns exactly the textbook sequence x- = A x + B u, P- = A P A' + Q, K = P- H' (H P- H' + R)^-1, x = x- + K (z - H x-), P = (I - K H) P-, and records exactly the gains K; no symmetry of P or R is needed.",
  "all dimensions, lengths and matrices",
  "Needs all dimensions, lengths and values.",
  [S+":KalmanFilter.filter",S+":KalmanFilter.predict",S+":KalmanFilter.update"])
p("filter raises LinAlgError exactly on a singular innovation covariance",
  "In exact arithmetic a well-shaped run returns iff the innovation covariance is invertible at every step; otherwise it raises LinAlgError at the first singular step k, with exactly k gains recorded.",
  "all well-shaped inputs",
  "Needs all inputs.",
  [S+":KalmanFilter.update",S+":KalmanFilter.filter"])
p("Covariances are symmetric positive semidefinite and no exception is raised",
  "If Pk and every Q are symmetric PSD and every R symmetric PD, filter returns and every returned covariance is symmetric PSD (exact arithmetic).",
  "all dimensions, lengths and matrices",
  "An invariant over unbounded histories of real matrices.",
  [S+":KalmanFilter.filter"])
p("Positive definiteness is preserved",
  "If Pk and every R are PD, every Q PSD and every A invertible (or every Q PD), every returned covariance is PD (exact arithmetic).",
  "all dimensions, lengths and matrices",
  "An invariant over unbounded histories of real matrices.",
  [S+":KalmanFilter.filter"])
p("A measurement never increases uncertainty",
  "For PSD prior and PD R the posterior covariance returned by update is below the prior in the Loewner order; in particular every variance, in every direction, and the trace do not increase.",
  "all matrices and dimensions",
  "Needs all matrices and directions.",
  [S+":KalmanFilter.update"])
p("The short covariance form equals the Joseph form",
  "The covariance (I-KH)P returned by update equals (I-KH)P(I-KH)' + K R K' and P - K S K' (symmetric P and R, invertible S, exact arithmetic).",
  "all matrices and dimensions",
  "Needs all matrices.",
  [S+":KalmanFilter.update"])
p("The gain is optimal",
  "For any other gain L the error covariance (I-LH)P(I-LH)' + L R L' exceeds the covariance returned by update by the PSD matrix (L-K)S(L-K)'; hence K minimises the trace and every directional variance.",
  "all matrices and all alternative gains L",
  "Needs all alternative gains.",
  [S+":KalmanFilter.update"])
p("Information form",
  "For PD prior and R, the posterior returned by update satisfies P+^-1 = P-^-1 + H'R^-1 H and P+^-1 x+ = P-^-1 x- + H'R^-1 z.",
  "all matrices and vectors",
  "Needs all matrices.",
  [S+":KalmanFilter.update"])
p("Only noise ratios matter",
  "Multiplying Pk, all Q and all R by the same non-zero c leaves all filtered and smoothed means and all gains unchanged and multiplies all covariances by c (exact arithmetic).",
  "all well-shaped inputs, all c",
  "Relational property over all inputs.",
  [S+":KalmanFilter.filter",S+":KalmanFilter.smooth"])
p("Equivariance under change of state coordinates",
  "Replacing the state by M x (M invertible), i.e. A by M A M^-1, B by M B, H by H M^-1, Q by M Q M', xk by M xk, Pk by M Pk M', turns every returned mean into M mean and every covariance into M cov M' (filter and smooth).",
  "all well-shaped inputs, all invertible M",
  "Relational property over all inputs.",
  [S+":KalmanFilter.filter",S+":KalmanFilter.smooth"])
p("Independent measurements can be processed one at a time",
  "Stacking two observations with independent noise (block H, block-diagonal R) at one time step gives the same posterior as two successive updates, in either order.",
  "all matrices and dimensions (PSD prior, PD noises)",
  "Needs all matrices.",
  [S+":KalmanFilter.update"])
p("Invariance under relabelling of measurements",
  "Replacing z, H, R by T z, T H, T R T' for invertible T (e.g. permuting sensors or changing units) leaves all returned means and covariances unchanged and turns each gain K into K T^-1.",
  "all well-shaped inputs, all invertible T per step",
  "Relational property over all inputs.",
  [S+":KalmanFilter.filter"])
p("Superposition",
  "Filtered and smoothed means are linear in (xk, Z, U) jointly: for fixed A,B,H,Q,R,Pk the run on a combination a*d1+b*d2 of two data sets returns the combination of the two runs' means.",
  "all pairs of data sets and coefficients",
  "Relational property over all pairs of data sets.",
  [S+":KalmanFilter.filter",S+":KalmanFilter.smooth"])
p("Exact tracking of noise-free data",
  "If the observations are generated without noise by the model itself from the initial state xk, every filtered and every smoothed mean equals the true state, whatever Pk, Q, R are (as long as the run does not raise).",
  "all models, lengths and inputs",
  "Needs all models and histories.",
  [S+":KalmanFilter.filter",S+":KalmanFilter.smooth"])
p("Perfect measurement",
  "With H invertible and R = 0 the filtered mean is H^-1 z and the covariance is 0 after the step (if the prior is invertible).",
  "all matrices",
  "Needs all matrices.",
  [S+":KalmanFilter.update"])
p("Uninformative measurement / certain prior",
  "If H = 0, or if the prior covariance is 0, update leaves mean and covariance unchanged (R invertible); hence with Pk = 0 and all Q = 0 the filter ignores the data and returns the open-loop prediction.",
  "all matrices and data",
  "Needs all data.",
  [S+":KalmanFilter.update",S+":KalmanFilter.filter"])
p("Moving-average use: precision-weighted mean",
  "In the README/quickstart moving-average layout (A=H=1, Q=0, R=r>0, P0=p>0) the k-th state is (x0/p + sum z_i/r)/(1/p + (k+1)/r) and the k-th covariance 1/(1/p+(k+1)/r), so states are weighted averages that stay between the smallest and largest of x0 and the data.",
  "all data sequences, lengths and positive p, r",
  "Needs all lengths and data.",
  [S+":KalmanFilter.filter","examples/moving_average.py","docs/source/quickstart.rst","tests/test_standard.py:test_filter"])
p("smooth computes the RTS recursion",
  "In exact arithmetic, if the filter run and every predicted covariance A P A'+Q (steps 1..T-1) are invertible, smooth returns exactly the textbook RTS backward recursion with G = P A' (A P A'+Q)^-1 using the transition (A, B u, Q) of step k+1; otherwise it raises LinAlgError.",
  "all dimensions, lengths and matrices",
  "Needs all lengths and values; indexing errors in the backward pass are history-dependent.",
  [S+":KalmanFilter.smooth"])
p("Smoothing does not increase uncertainty",
  "Under PD conditions smooth returns and every smoothed covariance is symmetric PSD and below the filtered covariance in the Loewner order.",
  "all dimensions, lengths and matrices",
  "An invariant over unbounded histories.",
  [S+":KalmanFilter.smooth"])
p("The filter solves the batch least-squares problem",
  "With PD Pk, Q, R the last filtered mean is the last component of the unique minimiser of the full batch cost |x_-1 - xk|^2_{Pk^-1} + sum |x_k - A x_{k-1} - B u|^2_{Q^-1} + sum |z_k - H x_k|^2_{R^-1}.",
  "all models, lengths and data",
  "Optimality over a continuum of trajectories.",
  [S+":KalmanFilter.filter"])
p("The smoother solves the batch least-squares problem",
  "The smoothed means are exactly the components of the unique minimiser of the same batch cost.",
  "all models, lengths and data",
  "Optimality over a continuum of trajectories.",
  [S+":KalmanFilter.smooth"])
p("Reported covariance is the true error covariance; estimates are unbiased",
  "If the true system follows the model with square-integrable, zero-mean, mutually uncorrelated initial error and noises with covariances Pk, Q, R, then running filter on the random observations gives estimates whose error has mean zero and covariance exactly the returned covariance at every step.",
  "all probability spaces, models, lengths",
  "A statement about expectations over all noise distributions.",
  [S+":KalmanFilter.filter","README.md"])
p("Best linear unbiased estimate",
  "Under the same hypotheses no affine function of the observations z_0..z_k estimates any linear functional of x_k with smaller mean square error than the filtered mean.",
  "all affine estimators, all probability spaces, models, lengths",
  "Optimality over all estimators.",
  [S+":KalmanFilter.filter","README.md"])
p("Gaussian noise: best possible estimate",
  "If moreover initial error and noises are jointly Gaussian, the filtered mean is the conditional expectation of x_k given z_0..z_k, and no measurable function of the observations has smaller mean square error (README: 'the filter will output the best possible estimate').",
  "all measurable estimators, all Gaussian models, lengths",
  "Optimality over all estimators.",
  [S+":KalmanFilter.filter","README.md"])
p("Smoother: true error covariance and optimality",
  "Under the hypotheses of the two previous properties the smoothed mean is unbiased, its error covariance is exactly the returned smoothed covariance, and it is the best affine (for Gaussian noise: best measurable) estimate given all observations.",
  "all models, lengths, estimators",
  "Optimality over all estimators.",
  [S+":KalmanFilter.smooth"])
p("Monotonicity in the noise specification",
  "Increasing Pk, any Q or any R in the Loewner order never decreases any returned filtered covariance.",
  "all pairs of ordered specifications",
  "Relational property over all inputs.",
  [S+":KalmanFilter.filter"])
p("EKF covariance soundness for arbitrary callbacks",
  "Whatever f, h, jacobian_A and jacobian_H return (well-shaped), with PSD Pk and Q and PD R, ExtendedKalmanFilter.filter returns and all covariances are symmetric PSD; update never increases the covariance.",
  "all callbacks, data, lengths",
  "Quantifies over all user functions.",
  [X+":ExtendedKalmanFilter.filter"])
p("EKF computes the extended recursion at the right linearisation points",
  "ExtendedKalmanFilter.filter evaluates f and jacobian_A at the previous posterior mean and h and jacobian_H at the predicted mean, and returns exactly the textbook EKF recursion; smooth linearises f at the filtered mean with the control of step k+1.",
  "all callbacks, data, lengths",
  "Quantifies over all user functions.",
  [X+":ExtendedKalmanFilter.filter",X+":ExtendedKalmanFilter.smooth"])
p("EKF with U=None hands NaN controls to the callbacks",
  "With U=None and float Z the EKF calls f and jacobian_A with an all-NaN array shaped like z_k, so a control-dependent f (e.g. A x + B u) yields NaN states, unlike KalmanFilter; callbacks that ignore u are unaffected: any U of sufficient length gives the same result.",
  "all callbacks and data",
  "Quantifies over all user functions.",
  [X+":ExtendedKalmanFilter.filter",U+":check_none_and_broadcast"])
p("Scalar noise entries broadcast to a full matrix",
  "A scalar R_k (or Q_k) with m (n) >= 2 acts as the matrix with that value in EVERY entry, not on the diagonal: the run equals the run with the all-entries-equal matrix and differs in general from the run with scalar times identity.",
  "all well-shaped inputs; existence of a concrete difference",
  "Needs all inputs.",
  [S+":KalmanFilter.predict",S+":KalmanFilter.update"])
p("Moving-average use: convergence to a steady state",
  "For A=H=1, Q=q>0, R=r>0 the covariances and gains converge to the positive root of the Riccati equation whatever P0 >= 0 is, and the influence of the initial mean decays to zero.",
  "all q, r > 0, P0 >= 0, x0, data",
  "A limit over infinite histories.",
  [S+":KalmanFilter.filter","examples/moving_average.py"])
if __name__=="__main__":
    import importlib.util, os
    extra=os.path.join(os.path.dirname(__file__),"more_properties.py")
    if os.path.exists(extra):
        exec(open(extra).read())
    with open("/verif/properties.jsonl","w") as f:
        for q in P: f.write(json.dumps(q)+"\n")
    print(len(P))
