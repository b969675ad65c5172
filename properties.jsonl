{"id": "C01", "title": "State layout is always a contiguous partition of the covariance", "statement": "After constructing a State with any calibration options and applying any sequence of StateHelper operations that returns normally (propagate, update, augment clone, initialize feature, marginalize), the active variables occupy consecutive, non-overlapping index ranges starting at 0 that together cover exactly the rows of the covariance; no variable appears twice and a marginalised variable has id -1.", "quantifier": "all option combinations and all finite histories of StateHelper operations", "why_tests_cant": "Wrong index bookkeeping shows only after particular interleavings of clone/initialize/marginalize; the space of histories is infinite.", "anchors": ["ov_msckf/src/state/State.cpp:State::State", "ov_msckf/src/state/StateHelper.cpp:marginalize", "ov_msckf/src/state/StateHelper.cpp:clone", "ov_msckf/src/state/StateHelper.cpp:initialize_invertible", "ov_msckf/src/state/StateHelper.cpp:augment_clone", "ov_core/src/types/IMU.h:set_local_id"]}
{"id": "C02", "title": "Covariance stays symmetric", "statement": "After any sequence of StateHelper operations the full covariance matrix returned by get_full_covariance is symmetric.", "quantifier": "all finite operation histories and all real inputs (Phi, Q, H, R, residuals)", "why_tests_cant": "Asymmetry is introduced by a single mis-transposed block in one branch and can be numerically small; only a proof covers all histories.", "anchors": ["ov_msckf/src/state/StateHelper.cpp:EKFPropagation", "ov_msckf/src/state/StateHelper.cpp:EKFUpdate", "ov_msckf/src/state/StateHelper.cpp:marginalize", "ov_msckf/src/state/StateHelper.cpp:clone", "ov_msckf/src/state/StateHelper.cpp:initialize_invertible", "ov_msckf/src/state/StateHelper.cpp:augment_clone", "ov_msckf/src/state/StateHelper.cpp:set_initial_covariance"]}
{"id": "C03", "title": "Covariance stays positive semi-definite", "statement": "Starting from a freshly constructed State, any sequence of StateHelper operations with PSD process noise and positive definite measurement noise keeps the covariance positive semi-definite (in exact arithmetic), hence the `negative diagonal' process exits are unreachable.", "quantifier": "all finite operation histories and all real inputs satisfying the noise preconditions", "why_tests_cant": "PSD-ness is a universally quantified statement over all directions and all histories.", "anchors": ["ov_msckf/src/state/StateHelper.cpp:EKFPropagation", "ov_msckf/src/state/StateHelper.cpp:EKFUpdate", "ov_msckf/src/state/StateHelper.cpp:initialize_invertible", "ov_msckf/src/state/StateHelper.cpp:augment_clone", "ov_msckf/src/state/StateHelper.cpp:marginalize", "ov_msckf/src/state/State.cpp:State::State"]}
{"id": "C04", "title": "Marginalising a variable leaves all others' joint belief unchanged", "statement": "After StateHelper::marginalize(v) every pair of remaining variables has exactly the same marginal/cross covariance block as before and the same estimate, and only v disappears.", "quantifier": "all states, all variables v in the state, all pairs of remaining variables", "why_tests_cant": "Depends on the position of v relative to all other blocks; tests sample a few layouts.", "anchors": ["ov_msckf/src/state/StateHelper.cpp:marginalize", "ov_msckf/src/state/StateHelper.cpp:get_marginal_covariance"]}
{"id": "C05", "title": "Cloning is an exact stochastic clone", "statement": "StateHelper::clone(x) (also for a sub-variable of the IMU or of a pose) appends a variable whose estimate equals x's, whose covariance equals x's and whose correlation with every other variable equals x's; existing blocks are untouched, and marginalising the clone immediately restores the original covariance and layout.", "quantifier": "all states, all clonable (sub)variables", "why_tests_cant": "Requires every block of every state layout to be right.", "anchors": ["ov_msckf/src/state/StateHelper.cpp:clone", "ov_core/src/types/IMU.h:check_if_subvariable", "ov_core/src/types/PoseJPL.h:check_if_subvariable"]}
{"id": "C06", "title": "EKF update is the Kalman update, never increases uncertainty and corrects each variable with its own slice", "statement": "EKFUpdate(H_order,H,res,R) with positive definite R replaces P by P - P Ht (H P Ht + R)^-1 H P for the H scattered to the listed variables' columns, P_old - P_new is PSD, and each variable is corrected by exactly the slice of K*res at its own id range.", "quantifier": "all states, all variable orders, all H, res, and positive definite R", "why_tests_cant": "Matrix identity over all dimensions and values.", "anchors": ["ov_msckf/src/state/StateHelper.cpp:EKFUpdate"]}
{"id": "C07", "title": "EKF propagation is a linear-Gaussian prediction on the listed variables only", "statement": "EKFPropagation(order_NEW, order_OLD, Phi, Q) makes the covariance equal to F P Ft + G with F the identity outside the NEW rows and Phi on the OLD columns, and Q on the NEW block; covariance between untouched variables is unchanged.", "quantifier": "all states, all contiguous order_NEW, all order_OLD, all Phi and symmetric Q", "why_tests_cant": "Block index bookkeeping over arbitrary layouts.", "anchors": ["ov_msckf/src/state/StateHelper.cpp:EKFPropagation"]}
{"id": "C08", "title": "Summing IMU steps then propagating once equals propagating after each IMU step", "statement": "The covariance after propagate_and_clone's accumulated (Phi_summed, Qd_summed) single EKFPropagation equals the covariance obtained by applying one EKFPropagation per IMU interval in order.", "quantifier": "all lists of per-interval (F, Qd) pairs and all prior covariances", "why_tests_cant": "Holds for unbounded numbers of IMU readings; order-of-multiplication errors look plausible numerically.", "anchors": ["ov_msckf/src/state/Propagator.cpp:propagate_and_clone"]}
{"id": "C09", "title": "Delayed initialisation adds a new variable with the covariance implied by its measurement", "statement": "initialize_invertible adds exactly one variable at the end, leaves every previous covariance block unchanged, and the joint covariance is that of f~ = -HL^-1 (HR x~ + n) i.e. the image of diag(P,R) under a linear map (so PSD is preserved and the linearised measurement constraint holds with the right noise).", "quantifier": "all states, all invertible HL, all HR, R", "why_tests_cant": "Universal over dimensions and values.", "anchors": ["ov_msckf/src/state/StateHelper.cpp:initialize_invertible"]}
{"id": "C10", "title": "A rejected delayed initialisation leaves the state untouched; an accepted one uses every measurement row exactly once", "statement": "StateHelper::initialize splits the stacked system with Givens rotations; if the chi2 gate rejects it returns false with state and covariance unchanged; otherwise the invertible part initialises the variable and the remaining rows (which do not depend on the new variable) are applied as an EKF update.", "quantifier": "all states, H_R, H_L, isotropic R, residuals", "why_tests_cant": "Universal over inputs; rejection path rarely exercised.", "anchors": ["ov_msckf/src/state/StateHelper.cpp:initialize"]}
{"id": "C11", "title": "Sliding window bound and clone bookkeeping", "statement": "For every history of propagate-and-clone / marginalise-old-clone rounds, the number of IMU clones after each round is at most max_clone_size (>=1), clone timestamps are strictly increasing and distinct, each clone is an active variable, and the clone removed is always the oldest one.", "quantifier": "all histories of rounds with increasing image times and all window sizes", "why_tests_cant": "Unbounded run length.", "anchors": ["ov_msckf/src/state/StateHelper.cpp:augment_clone", "ov_msckf/src/state/StateHelper.cpp:marginalize_old_clone", "ov_msckf/src/state/State.h:margtimestep"]}
{"id": "C12", "title": "SLAM marginalisation removes exactly the marked non-ArUco landmarks", "statement": "marginalize_slam removes from the SLAM map and from the state exactly those landmarks whose should_marg flag is set and whose id is greater than 4*max_aruco_features; every other landmark, every flag and every covariance block among the survivors is unchanged.", "quantifier": "all states, all landmark maps and flags", "why_tests_cant": "Erase-while-iterating over arbitrary maps.", "anchors": ["ov_msckf/src/state/StateHelper.cpp:marginalize_slam"]}
{"id": "C13", "title": "Covariance queries return the requested blocks", "statement": "get_marginal_covariance(vars) returns the matrix whose (i,j) block is the covariance block between vars[i] and vars[j], for any list of (sub)variables in any order; get_full_covariance returns the whole matrix; neither changes the state; set_initial_covariance(C,vars) then get_marginal_covariance(vars) returns C for distinct variables and symmetric C.", "quantifier": "all states, all variable lists", "why_tests_cant": "Index arithmetic over arbitrary lists.", "anchors": ["ov_msckf/src/state/StateHelper.cpp:get_marginal_covariance", "ov_msckf/src/state/StateHelper.cpp:get_full_covariance", "ov_msckf/src/state/StateHelper.cpp:set_initial_covariance"]}
{"id": "C14", "title": "Feature tracks stay aligned", "statement": "For every history of FeatureDatabase and Feature operations, for every feature and camera the timestamp, raw uv and normalised uv lists have equal length and the i-th entries belong to the same observation.", "quantifier": "all finite histories of database operations", "why_tests_cant": "Lists are erased in three separate passes; misalignment only shows after particular sequences.", "anchors": ["ov_core/src/feat/FeatureDatabase.cpp", "ov_core/src/feat/Feature.cpp"]}
{"id": "C15", "title": "Feature database is an observation log", "statement": "After any history of update_feature / cleanup / cleanup_measurements / cleanup_measurements_exact / query(remove) operations, the stored observations of a feature id and camera are exactly the inserted ones that have not been removed by a later operation, in insertion order.", "quantifier": "all finite histories", "why_tests_cant": "Refinement to an abstract log needs induction on histories.", "anchors": ["ov_core/src/feat/FeatureDatabase.cpp:update_feature", "ov_core/src/feat/FeatureDatabase.cpp:cleanup", "ov_core/src/feat/FeatureDatabase.cpp:cleanup_measurements", "ov_core/src/feat/FeatureDatabase.cpp:cleanup_measurements_exact", "ov_core/src/feat/Feature.cpp"]}
{"id": "C16", "title": "Feature queries return exactly the documented features", "statement": "features_not_containing_newer(t) / features_containing_older(t) / features_containing(t) return exactly those stored, non-deleted features whose per-camera tracks satisfy the documented time predicate, each once; with remove=true the returned features disappear and nothing else changes; with remove=false the database is unchanged.", "quantifier": "all databases with time-ordered tracks, all query times, both flags", "why_tests_cant": "Universal over databases.", "anchors": ["ov_core/src/feat/FeatureDatabase.cpp:features_not_containing_newer", "ov_core/src/feat/FeatureDatabase.cpp:features_containing_older", "ov_core/src/feat/FeatureDatabase.cpp:features_containing"]}
{"id": "C17", "title": "Measurement cleanup at t removes exactly observations with time <= t", "statement": "cleanup_measurements(t) leaves exactly the observations with timestamp > t in their order and drops features with none left; cleanup_measurements_exact(t) removes exactly those with timestamp equal to t.", "quantifier": "all databases, all times", "why_tests_cant": "Universal over databases.", "anchors": ["ov_core/src/feat/FeatureDatabase.cpp:cleanup_measurements", "ov_core/src/feat/FeatureDatabase.cpp:cleanup_measurements_exact", "ov_core/src/feat/Feature.cpp:clean_older_measurements", "ov_core/src/feat/Feature.cpp:clean_invalid_measurements", "ov_core/src/feat/Feature.cpp:clean_old_measurements"]}
{"id": "C18", "title": "Appending one database to another is an idempotent union", "statement": "append_new_measurements copies every observation of the other database that is missing by (feature, camera, timestamp), never duplicates a timestamp, never alters existing observations, and appending the same database twice changes nothing more.", "quantifier": "all pairs of databases", "why_tests_cant": "Universal over pairs of databases.", "anchors": ["ov_core/src/feat/FeatureDatabase.cpp:append_new_measurements"]}
{"id": "C19", "title": "IMU selection covers exactly the requested interval", "statement": "For a time-sorted IMU buffer that brackets [time0,time1], select_imu_readings returns strictly time-increasing readings whose first time is time0 and last time is time1, interior ones are exactly the buffered readings strictly inside, and the per-interval dt sum to time1-time0.", "quantifier": "all sorted buffers and all intervals bracketed by them", "why_tests_cant": "Boundary coincidences (reading exactly at time0/time1, sparse buffers) are measure-zero for random tests.", "anchors": ["ov_msckf/src/state/Propagator.cpp:select_imu_readings", "ov_msckf/src/state/Propagator.h:interpolate_data", "ov_init/src/utils/helper.h:select_imu_readings"]}
{"id": "C20", "title": "IMU interpolation is exact at ends and bounded between", "statement": "interpolate_data(a,b,t) returns timestamp t, equals a at t=a.time, b at t=b.time and each component lies between the two readings for t in between.", "quantifier": "all pairs of readings with distinct times and all t", "why_tests_cant": "Real-valued universal statement.", "anchors": ["ov_msckf/src/state/Propagator.h:interpolate_data", "ov_init/src/utils/helper.h:interpolate_data"]}
{"id": "C21", "title": "IMU buffer retention", "statement": "For every history of feed_imu(message, oldest_time) / clean_old_imu_measurements calls, no reading newer than or equal to every oldest_time given since its arrival is ever lost, readings are kept in arrival order, and readings older than the last oldest_time are dropped.", "quantifier": "all finite histories", "why_tests_cant": "Erase-while-iterating; unbounded histories.", "anchors": ["ov_msckf/src/state/Propagator.h:feed_imu", "ov_msckf/src/state/Propagator.h:clean_old_imu_measurements", "ov_init/src/init/InertialInitializer.cpp:feed_imu"]}
{"id": "C22", "title": "Fast propagation uses the same time offset for every query", "statement": "fast_state_propagate(t) propagates to IMU time t + camera-IMU offset whatever queries were made before (cached or not).", "quantifier": "all query histories", "why_tests_cant": "The violation needs a second cached query with a non-zero time offset.", "anchors": ["ov_msckf/src/state/Propagator.cpp:fast_state_propagate"]}
{"id": "C23", "title": "Quaternion product is a unit, sign-normalised group operation matching rotation product", "statement": "For unit quaternions quat_multiply returns a unit quaternion with non-negative scalar part and quat_2_Rot(quat_multiply(q,p)) = quat_2_Rot(q) quat_2_Rot(p); Inv(q) gives the transposed rotation.", "quantifier": "all pairs of unit quaternions in R^4", "why_tests_cant": "Real-valued universal identities including sign boundary.", "anchors": ["ov_core/src/utils/quat_ops.h:quat_multiply", "ov_core/src/utils/quat_ops.h:quat_2_Rot", "ov_core/src/utils/quat_ops.h:Inv"]}
{"id": "C24", "title": "Rotation <-> quaternion round trip", "statement": "quat_2_Rot of a unit quaternion is a rotation (orthogonal, det 1); rot_2_quat of a rotation is a unit quaternion with quat_2_Rot(rot_2_quat(R)) = R for every rotation R, in each of the four branches.", "quantifier": "all rotations and all unit quaternions", "why_tests_cant": "Four branches selected by largest diagonal/trace; universal over SO(3).", "anchors": ["ov_core/src/utils/quat_ops.h:rot_2_quat", "ov_core/src/utils/quat_ops.h:quat_2_Rot"]}
{"id": "C25", "title": "Exponential and logarithm on SO(3)/SE(3)", "statement": "exp_so3(w) is a rotation for every w with |w| >= 1e-7 or w=0, with exp_so3(-w)=exp_so3(w)^T; log_so3(exp_so3(w)) = w for 1e-7 <= |w| < pi away from the code's degenerate branches; exp_se3/hat_se3/Inv_se3 satisfy the group identities (Inv_se3(T) T = I, exp_se3 rotation block in SO(3)).", "quantifier": "all real vectors in the stated range", "why_tests_cant": "Real analysis over all angles.", "anchors": ["ov_core/src/utils/quat_ops.h:exp_so3", "ov_core/src/utils/quat_ops.h:log_so3", "ov_core/src/utils/quat_ops.h:exp_se3", "ov_core/src/utils/quat_ops.h:Inv_se3"]}
{"id": "C26", "title": "Manifold update keeps orientations valid over any history", "statement": "After any sequence of Type::update calls with any corrections, every JPLQuat/PoseJPL/IMU orientation is a unit quaternion with non-negative scalar part, its cached rotation matrix equals quat_2_Rot of it, and vector parts equal the sum of corrections.", "quantifier": "all update histories and all real corrections", "why_tests_cant": "Unbounded histories.", "anchors": ["ov_core/src/types/JPLQuat.h:update", "ov_core/src/types/PoseJPL.h:update", "ov_core/src/types/IMU.h:update", "ov_core/src/types/Vec.h:update"]}
{"id": "C27", "title": "Landmark parameterisations round-trip", "statement": "For every feature representation, set_from_xyz(p) followed by get_xyz() returns p for every p the representation can express (non-zero depth / radius), for both the estimate and the first-estimate value.", "quantifier": "all representations, all points in the domain", "why_tests_cant": "Transcendental identities and special branch for the first-estimate copy.", "anchors": ["ov_core/src/types/Landmark.cpp:get_xyz", "ov_core/src/types/Landmark.cpp:set_from_xyz"]}
{"id": "C28", "title": "Representation names round-trip", "statement": "from_string(as_string(r)) = r for every known representation, names are distinct, unknown strings give UNKNOWN, and is_relative_representation is true exactly for the anchored ones.", "quantifier": "all representations and all strings", "why_tests_cant": "Quantifies over all strings.", "anchors": ["ov_core/src/types/LandmarkRepresentation.h"]}
{"id": "C29", "title": "Anchor changes never move the landmark and anchors are always live", "statement": "change_anchors re-anchors every relative landmark whose anchor clone is about to be marginalised; the landmark's global position is unchanged by the re-anchoring, and after the clone is marginalised every relative landmark's anchor clone time is in the window.", "quantifier": "all landmarks, all pairs of anchor poses, all histories of rounds", "why_tests_cant": "Universal over poses; invariant over unbounded runs.", "anchors": ["ov_msckf/src/update/UpdaterSLAM.cpp:change_anchors", "ov_msckf/src/update/UpdaterSLAM.cpp:perform_anchor_change"]}
{"id": "C30", "title": "Null-space projection removes the feature exactly and keeps the rest orthonormally", "statement": "nullspace_project_inplace multiplies (H_x,res) by an orthonormal basis of the left null space of H_f: the result is unchanged if any multiple of H_f is added to the residual, the isotropic noise stays isotropic, and exactly H_f.cols() rows are dropped.", "quantifier": "all H_f (any rank, any number of rows >= columns), all H_x, res", "why_tests_cant": "Rank-deficient and already-zero entries take special branches; universal over matrices.", "anchors": ["ov_msckf/src/update/UpdaterHelper.cpp:nullspace_project_inplace"]}
{"id": "C31", "title": "Measurement compression does not change the EKF update", "statement": "measurement_compress_inplace leaves H^T H and H^T res unchanged, so that the EKF update with isotropic noise gives exactly the same correction and covariance as the uncompressed stack.", "quantifier": "all tall H, res, all priors P and noise variances", "why_tests_cant": "Universal matrix identity.", "anchors": ["ov_msckf/src/update/UpdaterHelper.cpp:measurement_compress_inplace", "ov_msckf/src/state/StateHelper.cpp:EKFUpdate"]}
{"id": "C32", "title": "Radtan distortion Jacobians are the true derivatives", "statement": "CamRadtan::compute_distort_jacobian returns the exact derivative of distort_f with respect to the normalised point and with respect to the 8 intrinsics at every point.", "quantifier": "all intrinsics and all points", "why_tests_cant": "Derivative is a limit; finite differences only approximate at samples.", "anchors": ["ov_core/src/cam/CamRadtan.h:distort_f", "ov_core/src/cam/CamRadtan.h:compute_distort_jacobian"]}
{"id": "C33", "title": "Fisheye distortion Jacobians are the true derivatives", "statement": "CamEqui::compute_distort_jacobian returns the exact derivative of distort_f at every point, including the optical centre.", "quantifier": "all intrinsics and all points", "why_tests_cant": "The failing set (radius <= 1e-8) has measure ~0 for random tests.", "anchors": ["ov_core/src/cam/CamEqui.h:distort_f", "ov_core/src/cam/CamEqui.h:compute_distort_jacobian"]}
{"id": "C34", "title": "Feature-representation Jacobians are the true derivatives", "statement": "get_feature_jacobian_representation returns dp_FinG/dlambda equal to the derivative of the global point as a function of the landmark parameters (and anchor pose position) for each representation.", "quantifier": "all representations, all parameter values in the domain", "why_tests_cant": "Derivative universal over reals.", "anchors": ["ov_msckf/src/update/UpdaterHelper.cpp:get_feature_jacobian_representation"]}
{"id": "C35", "title": "Triangulation recovers the true point from consistent bearings", "statement": "single_triangulation applied to noise-free bearings from poses whose bearings are not all parallel returns exactly the true point (subject to its depth/conditioning gates); the linear system matrix is invertible in that case. For arbitrary bearings an accepted point minimises the summed squared distance from the viewing rays, and the depth-only variant minimises it along the anchor's ray.", "quantifier": "all points, all numbers of poses", "why_tests_cant": "Universal over configurations.", "anchors": ["ov_core/src/feat/FeatureInitializer.cpp:single_triangulation"]}
{"id": "C36", "title": "Levenberg-Marquardt refinement terminates and never accepts a worse point", "statement": "With a damping multiplier above one and positive initial damping, single_gaussnewton's loop terminates for all inputs (within 2*max_runs plus the number of multiplications from the initial to the maximal damping) and the point it returns has a summed squared reprojection error at most that of the triangulated start.", "quantifier": "all cost functions/step sequences and all option values", "why_tests_cant": "Universal over numerical trajectories.", "anchors": ["ov_core/src/feat/FeatureInitializer.cpp:single_gaussnewton"]}
{"id": "C37", "title": "IMU intrinsic correction inverts the simulated sensor model", "statement": "With noise-free simulated readings the Propagator's correction (biases, Dw/Da, Tg, sensor rotations) returns exactly the true angular velocity and specific force, for both intrinsic models.", "quantifier": "all intrinsics with invertible Dw, Da and orthonormal sensor rotations, all true motions", "why_tests_cant": "Universal over parameters.", "anchors": ["ov_msckf/src/sim/Simulator.cpp:get_next_imu", "ov_msckf/src/state/Propagator.cpp:predict_and_compute", "ov_msckf/src/state/State.h:Dm", "ov_msckf/src/state/State.h:Tg"]}
{"id": "C38", "title": "IMU intrinsic Jacobians are exact and both integration modes agree on them", "statement": "compute_H_Dw/H_Da/H_Tg times a parameter perturbation equals the change of D*w / T*a; and the state-transition Jacobian w.r.t. the accelerometer intrinsics is the same first-order quantity in discrete and analytic modes.", "quantifier": "all intrinsics, all measurements", "why_tests_cant": "A missing factor is invisible when it is the identity (default configs and tests).", "anchors": ["ov_msckf/src/state/Propagator.cpp:compute_H_Dw", "ov_msckf/src/state/Propagator.cpp:compute_H_Da", "ov_msckf/src/state/Propagator.cpp:compute_H_Tg", "ov_msckf/src/state/Propagator.cpp:compute_F_and_G_discrete", "ov_msckf/src/state/Propagator.cpp:compute_F_and_G_analytic"]}
{"id": "C39", "title": "Analytic mean propagation solves the IMU kinematics exactly", "statement": "With constant corrected angular velocity and acceleration over dt the analytic propagation (Xi_1, Xi_2 integrals, exp) is the exact solution of the rigid-body kinematic ODE for position, velocity and rotation.", "quantifier": "all w (non-small branch), a, dt >= 0, all initial states", "why_tests_cant": "Statement about solutions of an ODE for all inputs.", "anchors": ["ov_msckf/src/state/Propagator.cpp:compute_Xi_sum", "ov_msckf/src/state/Propagator.cpp:predict_mean_analytic"]}
{"id": "C40", "title": "Continuous preintegration invariants", "statement": "For every sequence of CpiV1::feed_IMU calls DT equals the total elapsed time, the relative rotation stays in SO(3), and the measurement covariance stays symmetric; with constant input the preintegrated terms are independent of how the interval is subdivided. Each interval's terms satisfy the continuous preintegration kinematics, and the covariance starts to grow at the rate prescribed by the linearised error dynamics and the configured noise densities.", "quantifier": "all sequences of IMU intervals", "why_tests_cant": "Unbounded sequences.", "anchors": ["ov_core/src/cpi/CpiV1.cpp:feed_IMU"]}
{"id": "C41", "title": "Feature selection for an update: disjoint roles and hard budgets", "statement": "For every feature database, SLAM map and options, one update uses each feature in at most one role (MSCKF, SLAM update, SLAM delayed init), the number of MSCKF features is at most max_msckf_in_update, newly added SLAM features never push the non-ArUco landmark count above max_slam_features, and features seen again in the current image are never consumed as lost.", "quantifier": "all databases, landmark maps, options", "why_tests_cant": "Combinatorial set manipulations over arbitrary databases.", "anchors": ["ov_msckf/src/core/VioManager.cpp:do_feature_propagate_update"]}
{"id": "C42", "title": "Every selected SLAM feature is updated exactly once, in bounded batches, and the loop terminates", "statement": "The SLAM update loop processes each selected landmark exactly once in batches of at most max_slam_in_update and terminates.", "quantifier": "all feature lists and all integer option values", "why_tests_cant": "Non-positive option values loop forever: needs all option values.", "anchors": ["ov_msckf/src/core/VioManager.cpp:do_feature_propagate_update"]}
{"id": "C43", "title": "Estimator time never goes backwards; stale images have no effect", "statement": "For every sequence of images, the state timestamp is non-decreasing, and an image older than the state timestamp changes neither the estimate nor the covariance.", "quantifier": "all image time sequences", "why_tests_cant": "Universal over sequences.", "anchors": ["ov_msckf/src/core/VioManager.cpp:do_feature_propagate_update", "ov_msckf/src/state/Propagator.cpp:propagate_and_clone"]}
{"id": "C44", "title": "Zero-velocity decision", "statement": "The zero-velocity updater accepts exactly when enough IMU readings exist and either the disparity test passes or the chi2 test passes with velocity below the threshold; when it declines, state and covariance are unchanged.", "quantifier": "all measurements and options", "why_tests_cant": "Decision table over reals.", "anchors": ["ov_msckf/src/update/UpdaterZeroVelocity.cpp:try_update"]}
{"id": "C45", "title": "Initialisation state machine", "statement": "Under every interleaving of image arrivals and the background initialiser, at most one initialiser runs at a time, the system is marked initialised only after a successful initialiser result was committed, and once initialised it stays so until reset.", "quantifier": "all interleavings", "why_tests_cant": "Schedules.", "anchors": ["ov_msckf/src/core/VioManagerHelper.cpp:try_to_initialize"]}
{"id": "C46", "title": "Camera queue discipline of the ROS front-end", "statement": "For every interleaving of IMU and camera callbacks, the estimator receives each kept camera message at most once, in non-decreasing time order within each batch and only once an IMU reading newer than it (after the time offset) has been received; throttled messages are dropped, others are never lost.", "quantifier": "all interleavings of callbacks", "why_tests_cant": "Schedules and unbounded histories.", "anchors": ["ov_msckf/src/ros/ROS2Visualizer.cpp:callback_inertial", "ov_msckf/src/ros/ROS2Visualizer.cpp:callback_monocular", "ov_msckf/src/ros/ROS2Visualizer.cpp:callback_stereo"]}
{"id": "C47", "title": "Camera message order is a strict weak order", "statement": "CameraData::operator< is irreflexive, transitive and its incomparability is transitive, so std::sort on the queue is well defined; sorting is by timestamp and then by smallest sensor id.", "quantifier": "all camera messages with at least one sensor id", "why_tests_cant": "Universal over triples.", "anchors": ["ov_core/src/utils/sensor_data.h:CameraData"]}
{"id": "C48", "title": "Landmark id ranges for tags and tracked features are disjoint and the published sets partition", "statement": "Ids produced by the ArUco tracker and by KLT/descriptor/simulation trackers never collide, and get_features_SLAM / get_features_ARUCO partition the landmarks accordingly.", "quantifier": "all tag ids, all numbers of tracked features", "why_tests_cant": "Unbounded number of features.", "anchors": ["ov_core/src/track/TrackBase.cpp:TrackBase", "ov_core/src/track/TrackAruco.cpp", "ov_core/src/track/TrackSIM.cpp", "ov_msckf/src/core/VioManagerHelper.cpp:get_features_SLAM"]}
{"id": "C49", "title": "The SLAM updater applies tag noise exactly to tags", "statement": "UpdaterSLAM uses the ArUco noise/chi2 settings exactly for landmarks whose id lies in the tag id range used elsewhere (<= 4*max_aruco_features).", "quantifier": "all ids and options", "why_tests_cant": "Mismatch affects only ids in (max_aruco, 4*max_aruco].", "anchors": ["ov_msckf/src/update/UpdaterSLAM.cpp:delayed_init", "ov_msckf/src/update/UpdaterSLAM.cpp:update"]}
{"id": "C50", "title": "Gravity-aligned frame is a rotation", "statement": "gram_schmidt(g) returns a proper rotation whose third column is g/|g| for every non-zero g.", "quantifier": "all non-zero vectors", "why_tests_cant": "Branch on dot products; degenerate directions.", "anchors": ["ov_init/src/utils/helper.h:gram_schmidt"]}
{"id": "C51", "title": "Gravity-magnitude polynomial is the stationarity polynomial", "statement": "compute_dongsi_coeff(D,d,g) returns the monic degree-6 polynomial whose roots are exactly the lambda satisfying d^T (D-lambda I)^-2 d = g^2 (for lambda not an eigenvalue of D).", "quantifier": "all 3x3 symmetric D, all d, all g != 0", "why_tests_cant": "Hand-expanded polynomial with dozens of terms.", "anchors": ["ov_init/src/utils/helper.h:compute_dongsi_coeff"]}
{"id": "C52", "title": "Initialiser choice", "statement": "InertialInitializer runs the static initialiser exactly when (jerk seen and waiting for jerk, or still and not waiting) and the IMU threshold is positive; dynamic exactly when enabled and not still; never both; otherwise it fails without side effects on the output state.", "quantifier": "all inputs", "why_tests_cant": "Decision table.", "anchors": ["ov_init/src/init/InertialInitializer.cpp:initialize"]}
{"id": "C53", "title": "Static initialisation windows and result", "statement": "The static initialiser uses disjoint half windows of exactly the newest readings, fails unless both have at least two readings and the variance gates pass, and on success gravity in the estimated frame plus accelerometer bias explains the mean acceleration.", "quantifier": "all IMU buffers and options", "why_tests_cant": "Universal over buffers.", "anchors": ["ov_init/src/static/StaticInitializer.cpp:initialize"]}
{"id": "C54", "title": "Trajectory association is monotone, injective and within tolerance", "statement": "perform_association matches each estimate with at most one groundtruth pose within max_difference, with strictly increasing indices on both sides, and the matched lists have equal length.", "quantifier": "all pairs of sorted time lists", "why_tests_cant": "Two-pointer loop over arbitrary lists.", "anchors": ["ov_eval/src/alignment/AlignUtils.cpp:perform_association"]}
{"id": "C55", "title": "Single-pose alignment maps the first pose exactly; yaw alignment preserves gravity", "statement": "align_se3_single maps the first estimated pose onto the first groundtruth pose exactly; align_posyaw_single maps its position exactly using a rotation about z.", "quantifier": "all poses", "why_tests_cant": "Universal over SE(3).", "anchors": ["ov_eval/src/alignment/AlignTrajectory.cpp"]}
{"id": "C56", "title": "Yaw+translation alignment is the least-squares optimum", "statement": "align_posyaw returns the yaw and translation minimising the sum of squared position errors over all yaw angles and translations; the translation maps centroid to centroid.", "quantifier": "all trajectories, all competing (yaw, translation)", "why_tests_cant": "Optimality over a continuum.", "anchors": ["ov_eval/src/alignment/AlignUtils.cpp:align_umeyama", "ov_eval/src/alignment/AlignUtils.h:get_best_yaw"]}
{"id": "C57", "title": "SE(3)/Sim(3) alignment is the least-squares optimum", "statement": "align_umeyama (given a correct SVD) returns a proper rotation and translation (and scale) minimising the sum of squared position errors over all rotations and translations.", "quantifier": "all trajectories, all competing transforms", "why_tests_cant": "Optimality over a continuum.", "anchors": ["ov_eval/src/alignment/AlignUtils.cpp:align_umeyama"]}
{"id": "C58", "title": "Statistics are order statistics of the current values", "statement": "Statistics::calculate gives min <= median <= ninetynine <= max, mean between min and max, rmse^2 = mean^2 + population variance, and the result depends only on the current values (also after clear()).", "quantifier": "all non-empty value lists and all call histories", "why_tests_cant": "Histories: reuse after clear.", "anchors": ["ov_eval/src/utils/Statistics.h:calculate"]}
{"id": "C59", "title": "RPE segment search", "statement": "compute_comparison_indices_length returns for each start index the end index not before it minimising the length mismatch if that mismatch is below the tolerance, else -1.", "quantifier": "all distance lists", "why_tests_cant": "Universal over lists.", "anchors": ["ov_eval/src/calc/ResultTrajectory.h:compute_comparison_indices_length"]}
{"id": "C60", "title": "Simulator emits time-ordered, complete sensor streams", "statement": "Alternating get_next_imu/get_next_cam emits IMU and camera data in globally non-decreasing time order, IMU readings spaced by exactly one period and camera frames by exactly one period, none skipped.", "quantifier": "all rates and run lengths", "why_tests_cant": "Unbounded runs, tie cases.", "anchors": ["ov_msckf/src/sim/Simulator.cpp:get_next_imu", "ov_msckf/src/sim/Simulator.cpp:get_next_cam"]}
{"id": "C61", "title": "Spline control-point bracketing", "statement": "find_bounding_control_points succeeds only with four consecutive control points t0<t1<=t<t2<t3 around the query and then 0<=u<1; find_bounding_poses returns the tightest bracket. feed_trajectory places its control points at a uniform spacing, each on the constant-velocity motion between the two trajectory rows around it.", "quantifier": "all maps of control points and all times", "why_tests_cant": "Boundary coincidences.", "anchors": ["ov_core/src/sim/BsplineSE3.cpp:find_bounding_poses", "ov_core/src/sim/BsplineSE3.cpp:find_bounding_control_points"]}
{"id": "C62", "title": "Spline velocity and acceleration are the true time derivatives of the spline pose", "statement": "get_velocity/get_acceleration use blending derivatives that are the exact first/second derivatives of get_pose's blending functions, and the pose product rule they apply gives d/dt and d2/dt2 of the interpolated pose.", "quantifier": "all control poses, all query times", "why_tests_cant": "Derivative statement over reals.", "anchors": ["ov_core/src/sim/BsplineSE3.cpp:get_pose", "ov_core/src/sim/BsplineSE3.cpp:get_velocity", "ov_core/src/sim/BsplineSE3.cpp:get_acceleration"]}
{"id": "C63", "title": "Feature ids are unique and re-labelling a feature is reflected in the database", "statement": "Trackers never assign the same id to two features; TrackBase::change_feat_id(old,new) makes the database return the track under the new id and not under the old.", "quantifier": "all id assignment histories", "why_tests_cant": "Histories; the code edits a copy.", "anchors": ["ov_core/src/track/TrackBase.cpp:change_feat_id", "ov_core/src/track/TrackKLT.cpp:perform_detection_monocular"]}
{"id": "C64", "title": "Tracker point and id lists stay paired and stereo matching never duplicates an id", "statement": "In every call of the KLT tracker the per-camera point and id lists have equal length, ids within a camera are distinct, and a stereo id refers to the same old feature in both cameras. With at least ten points, the pixels stored are exactly those whose flow was accepted and ends in the image (and, for a camera on its own, off the mask); a left point whose right partner ends outside of the image is dropped.", "quantifier": "all masks and track lists", "why_tests_cant": "Universal over lists.", "anchors": ["ov_core/src/track/TrackKLT.cpp:feed_monocular", "ov_core/src/track/TrackKLT.cpp:feed_stereo", "ov_core/src/track/TrackKLT.cpp:perform_detection_monocular"]}
{"id": "C65", "title": "Disparity statistics follow their documentation", "statement": "compute_disparity reports the mean/std of pixel displacement of features seen in both images, and reports -1/-1/0 when fewer than two features are common.", "quantifier": "all databases and time pairs", "why_tests_cant": "The degenerate branch falls through in the code.", "anchors": ["ov_core/src/feat/FeatureHelper.h:compute_disparity"]}
{"id": "C66", "title": "Propagation variable order matches the Jacobian layout", "statement": "For every calibration option combination the Phi/Q passed to EKFPropagation have exactly the total size of the listed variables, each IMU-intrinsic block column sits at that variable's offset in the list, and the listed variables are contiguous in the state so the call never exits.", "quantifier": "all option combinations, all reachable states", "why_tests_cant": "Option combinations x histories.", "anchors": ["ov_msckf/src/state/Propagator.cpp:propagate_and_clone", "ov_msckf/src/state/Propagator.cpp:compute_F_and_G_discrete", "ov_msckf/src/state/State.h:imu_intrinsic_size"]}
{"id": "C67", "title": "Oldest-timestamp query", "statement": "get_oldest_timestamp returns -1 exactly when the database stores no observation, and otherwise the smallest stored timestamp.", "quantifier": "all histories with time-ordered tracks and no stored timestamp equal to the sentinel -1", "why_tests_cant": "Sentinel value in-band; universal over databases.", "anchors": ["ov_core/src/feat/FeatureDatabase.cpp:get_oldest_timestamp"]}
{"id": "C68", "title": "The SO(3) logarithm inverts back through the exponential for every rotation", "statement": "exp_so3(log_so3(R)) = R for every rotation matrix R, including rotations by exactly pi, except in the narrow band where the code's small-angle / near-pi thresholds replace the exact formula.", "quantifier": "all rotation matrices on the regular and the angle-pi branches", "why_tests_cant": "Branches of log_so3 at trace -1 and 3 and the three pivot sub-branches cannot be covered by sampling.", "anchors": ["ov_core/src/utils/quat_ops.h:log_so3", "ov_core/src/utils/quat_ops.h:exp_so3"]}
{"id": "C69", "title": "Orientation corrections are first-order left multiplications by I - [dtheta x]", "statement": "The orientation stored after JPLQuat::update(dtheta) equals, to first order in dtheta, (I - [dtheta x]) times the old rotation matrix, for every orientation and direction.", "quantifier": "all unit orientations and all correction directions (derivative at 0)", "why_tests_cant": "A derivative statement quantified over all orientations and directions.", "anchors": ["ov_core/src/types/JPLQuat.h:update", "ov_core/src/utils/quat_ops.h:quat_multiply"]}
{"id": "C70", "title": "Left and right SO(3) Jacobians are consistent", "statement": "exp_so3(w) = I + [w x] Jl_so3(w), Jl_so3(w) w = w, Jr_so3(w) = Jl_so3(w)^T and Jl_so3(w) = exp_so3(w) Jr_so3(w) for every rotation vector not below the small-angle threshold.", "quantifier": "all rotation vectors", "why_tests_cant": "Universal matrix identity over the reals.", "anchors": ["ov_core/src/utils/quat_ops.h:Jl_so3", "ov_core/src/utils/quat_ops.h:Jr_so3"]}
{"id": "C71", "title": "Sub-variable indices follow their parent", "statement": "Setting the id of an IMU/pose variable places each sub-variable (orientation, position, velocity, biases) at its documented offset inside the parent's index range, without overlap and covering it; an id of -1 marks every sub-variable as not in the state.", "quantifier": "all ids >= 0 and -1", "why_tests_cant": "Universal over ids; several nested delegations.", "anchors": ["ov_core/src/types/IMU.h:set_local_id", "ov_core/src/types/PoseJPL.h:set_local_id"]}
{"id": "C72", "title": "Camera objects follow the estimated intrinsics", "statement": "After an EKF update with intrinsic calibration enabled, the camera model used for projection holds exactly the corrected intrinsic estimate of every camera; with it disabled the camera models never change.", "quantifier": "all states, updates and camera counts", "why_tests_cant": "Universal over updates; a stale camera object produces plausible but biased residuals.", "anchors": ["ov_msckf/src/state/StateHelper.cpp:EKFUpdate"]}
{"id": "C73", "title": "Loaded IMU intrinsics are the inverse of the Kalibr calibration", "statement": "With the IMU intrinsics loaded as VioManager does (from the Kalibr Tw, Ta, R, Tg matrices), the correction matrices the filter reads back are exactly the loaded ones in both the kalibr and rpng layouts; the constructor default is the identity for kalibr.", "quantifier": "all calibrations with the triangular shape of the chosen layout", "why_tests_cant": "Packing orders of 6-vectors differ per model; a transposed entry gives a plausible, slightly wrong calibration.", "anchors": ["ov_msckf/src/state/State.h:Dm", "ov_msckf/src/core/VioManager.cpp:VioManager", "ov_msckf/src/core/VioManagerOptions.h"]}
{"id": "C74", "title": "The state-transition matrix is the Jacobian of the mean prediction", "statement": "For every state, calibration, pair of readings and error direction, the transition matrix used for the covariance equals the derivative of the predicted mean (orientation, position, velocity, biases and every calibrated IMU intrinsic) with respect to the error state.", "quantifier": "all states, readings, calibrations, options and error directions, analytic and discrete integration", "why_tests_cant": "A derivative identity over a continuum; finite differences at samples cannot exclude a wrong block that vanishes at the sample.", "anchors": ["ov_msckf/src/state/Propagator.cpp:compute_F_and_G_analytic", "ov_msckf/src/state/Propagator.cpp:compute_F_and_G_discrete"]}
{"id": "C75", "title": "Propagation preserves the unobservable directions", "statement": "With first-estimate Jacobians, the accumulated transition matrix maps the directions 'rotate the global frame about gravity' and 'translate the global frame' at the old estimate to the same directions at the new estimate, over any number of IMU readings, so propagation does not create spurious information.", "quantifier": "all states, readings lists of any length and analytic/discrete transition matrices", "why_tests_cant": "Consistency is a structural property of products of arbitrarily many Jacobians.", "anchors": ["ov_msckf/src/state/Propagator.cpp:propagate_and_clone", "ov_msckf/src/state/Propagator.cpp:predict_and_compute"]}
{"id": "C76", "title": "Process noise is a covariance and biases perform an exact random walk", "statement": "The process noise added in one IMU interval is symmetric positive semidefinite, its bias block is sigma^2*dt on the diagonal and zero off it (independent of the IMU rate), and reading noise enters like an error of the corresponding bias; the fast propagation does the same and keeps its covariance symmetric positive semidefinite.", "quantifier": "all noise parameters, states, readings with increasing times, all integration methods", "why_tests_cant": "Universal over real parameters; wrong powers of dt are invisible at a single rate.", "anchors": ["ov_msckf/src/state/Propagator.cpp:predict_and_compute", "ov_msckf/src/state/Propagator.cpp:fast_state_propagate"]}
{"id": "C77", "title": "Prediction keeps a unit orientation and the biases", "statement": "After propagation over any number of readings with any integration method the orientation is a unit quaternion and both biases are unchanged.", "quantifier": "all states, readings and lengths (Runge-Kutta: less than two radians per interval)", "why_tests_cant": "Norm drift is a property of unbounded histories.", "anchors": ["ov_msckf/src/state/Propagator.cpp:predict_mean_discrete", "ov_msckf/src/state/Propagator.cpp:predict_mean_rk4", "ov_msckf/src/state/Propagator.cpp:predict_mean_analytic"]}
{"id": "C78", "title": "propagate_and_clone advances the state to the image time and adds exactly one clone", "statement": "For every program state and ordered buffer covering the interval, propagate_and_clone to a later image time without a clone returns (no assertion or exit), sets the state time to the image time, adds one clone there holding the propagated IMU pose (value and first estimate), changes no other object, remembers the offset used, and yields again a state with valid layout and a symmetric positive semidefinite covariance.", "quantifier": "all program states, buffers, offsets and image times", "why_tests_cant": "Universal over histories of the filter and IMU buffers; failure is an exit in a rare configuration.", "anchors": ["ov_msckf/src/state/Propagator.cpp:propagate_and_clone", "ov_msckf/src/state/StateHelper.cpp:augment_clone"]}
{"id": "C79", "title": "The stacked measurement Jacobians are the derivatives of the predicted pixels", "statement": "For a feature in any representation, the residual returned for the n-th measurement is the measured minus the predicted pixel, and the corresponding rows of the stacked state and feature Jacobians are the derivative of the predicted pixel with respect to every estimated variable (the observing clone, the anchor clone, extrinsics and intrinsics of the observing and of the anchor camera) and the feature parameters, each variable appearing once in the returned list; linearised at the current estimate, or, with first-estimate Jacobians, when the first estimates equal the estimates.", "quantifier": "all states, all features with any number of cameras, measurements, all six representations, both camera models, all calibration options", "why_tests_cant": "A wrong sign or a block written to the wrong column only biases the filter slowly; correctness ranges over real-valued inputs and arbitrary stacks.", "anchors": ["ov_msckf/src/update/UpdaterHelper.cpp:get_feature_jacobian_full", "ov_msckf/src/update/UpdaterHelper.cpp:get_feature_jacobian_representation"]}
{"id": "C80", "title": "Re-anchoring keeps the landmark's uncertainty consistent", "statement": "The transition handed to the covariance when a landmark changes its anchor is the derivative of the new parameters with respect to the old parameters, both anchor poses and the estimated extrinsics that keeps the landmark's global position the same: errors pushed through it move the global point exactly (to first order) as they did before the change.", "quantifier": "all states, landmarks in every relative representation, pairs of anchors, error directions", "why_tests_cant": "A wrong block only makes the filter slowly inconsistent; the claim ranges over real poses and directions.", "anchors": ["ov_msckf/src/update/UpdaterSLAM.cpp:perform_anchor_change"]}
{"id": "C81", "title": "The refinement's linear system is that of its own cost", "statement": "The Jacobian used by the nonlinear refinement of a triangulated point is the derivative of the predicted normalised coordinates with respect to the inverse depth parameters; the right-hand side of its linear system is minus half the gradient of the reprojection cost and the matrix is the sum of squared Jacobians.", "quantifier": "all poses, observations, parameters with the point off the focal planes, directions", "why_tests_cant": "Ranges over real-valued configurations; a wrong entry merely slows or biases convergence.", "anchors": ["ov_core/src/feat/FeatureInitializer.cpp:single_gaussnewton"]}
{"id": "C82", "title": "Preintegration bias Jacobians are the first-order effect of bias changes", "statement": "The five bias Jacobians of a preintegrated measurement, accumulated over any number of IMU intervals, are exactly the derivative of the preintegrated orientation, velocity and position terms with respect to the gyroscope and accelerometer biases used to linearise.", "quantifier": "all IMU sequences, both averaging modes, all biases and directions", "why_tests_cant": "A wrong term only degrades the correction applied later; the claim ranges over real-valued sequences of any length.", "anchors": ["ov_core/src/cpi/CpiV1.cpp:feed_IMU"]}
{"id": "C83", "title": "Trajectory errors do not depend on the choice of global frames", "statement": "The relative pose error of a segment is unchanged when the estimated trajectory, the groundtruth trajectory or both are moved by any rotation and translation; it is zero for a trajectory differing from groundtruth by such a motion only; and full SE(3) alignment of such a trajectory leaves no position error at any pose.", "quantifier": "all pairs of poses with unit quaternions, all rotations and translations, all trajectories", "why_tests_cant": "Universal over SE(3) and trajectories; a frame mix-up in the error definition gives plausible numbers on short tests.", "anchors": ["ov_eval/src/calc/ResultTrajectory.cpp:calculate_rpe", "ov_eval/src/alignment/AlignUtils.cpp:align_umeyama"]}
{"id": "C84", "title": "The dynamic initialiser's bookkeeping is consistent", "statement": "The poses chosen by the dynamic initialiser contain the newest image time, are otherwise times of observations, and distinct ones are at least the average pose spacing apart; the number of measurement rows written into its linear system equals the number of rows allocated.", "quantifier": "all feature sets, observation times, pose spacings and minimum track lengths", "why_tests_cant": "A mismatch is an out-of-bounds write or rows of zeros for some rare combination of observation times; it ranges over all such combinations.", "anchors": ["ov_init/src/dynamic/DynamicInitializer.cpp:initialize"]}
{"id": "C85", "title": "The dynamic initialiser's linear step is the gravity-constrained optimum", "statement": "The rows of the dynamic initialiser's linear system vanish exactly when every pixel is the projection of its feature under the preintegrated motion; for a root of the constraint polynomial at which the Cholesky factorisation exists, the recovered features, velocity and gravity are the unique minimiser of the linear cost among all states whose gravity has the configured magnitude (hence the truth for exact data); and the returned poses and features are that solution expressed in a frame with vertical gravity.", "quantifier": "all sizes, matrices and right hand sides of full rank, all observations and motions", "why_tests_cant": "Real-valued optimisation; a test can only sample data sets and compare with a solver.", "anchors": ["ov_init/src/dynamic/DynamicInitializer.cpp:initialize", "ov_init/src/utils/helper.h:compute_dongsi_coeff"]}
{"id": "C86", "title": "Different tag corners get different landmark ids", "statement": "Two detected tag corners that the tag tracker accepts get the same feature id only if they are the same corner of the same tag.", "quantifier": "all tag ids, corners and maximum tag numbers", "why_tests_cant": "The encoding of (tag, corner) in one integer fails at one boundary value only, which a sampled test is unlikely to contain.", "anchors": ["ov_core/src/track/TrackAruco.cpp:perform_tracking"]}
{"id": "C87", "title": "Feature detection keeps tracked points apart, inside the image and out of the mask", "statement": "After the monocular detection step no two points lie in the same cell of the minimum-distance grid, the previously tracked points that remain lie at least ten pixels inside the image and are not masked and keep their ids, added points are corners returned by the extractor, and nothing is extracted when enough points remain. A tracked point is removed only if it is too near the border, outside the cells of the grid, masked, or in the cell of a point kept before it; a corner is left out only if its cell is taken or not inside the image. The stereo detection does the same in the left image, gives new corners consecutive ids, adds those found in the right image to it with the same id, and then does the same in the right image, where a point whose id is in the left image may share a cell.", "quantifier": "all images, masks, point lists and extractor results", "why_tests_cant": "Depends on the arrangement of all points and the mask; sampled images only reach some arrangements.", "anchors": ["ov_core/src/track/TrackKLT.cpp:perform_detection_monocular", "ov_core/src/track/TrackKLT.cpp:perform_detection_stereo"]}
{"id": "C88", "title": "The IMU thread and the image thread never use shared data at the same time", "statement": "With IMU readings and images delivered from different threads, the set of pose clones, the propagator's buffer of readings and the zero velocity updater's buffer are never read or written by one thread while the other writes them.", "quantifier": "all interleavings of the IMU callback with image updates", "why_tests_cant": "A data race shows only under particular interleavings; tests cannot enumerate them.", "anchors": ["ov_msckf/src/state/State.h:margtimestep", "ov_msckf/src/state/StateHelper.cpp:augment_clone", "ov_msckf/src/state/StateHelper.cpp:marginalize_old_clone", "ov_msckf/src/state/Propagator.h:feed_imu", "ov_msckf/src/update/UpdaterZeroVelocity.h:feed_imu"]}
{"id": "C89", "title": "IMU readings needed for the next propagation are kept", "statement": "For every sequence of readings and images, the propagator's buffer still holds every received reading that the next propagation (which starts at the state's time plus the camera-IMU offset) needs, while readings older than a tenth of a second before the oldest clone are dropped.", "quantifier": "all sequences of readings and images in order, with and without zero velocity updates, all offsets", "why_tests_cant": "Depends on the whole history of window changes and clean-ups.", "anchors": ["ov_msckf/src/core/VioManager.cpp:feed_measurement_imu", "ov_msckf/src/core/VioManager.cpp:track_image_and_update", "ov_msckf/src/state/Propagator.h:clean_old_imu_measurements"]}
{"id": "C90", "title": "Simulated ground truth belongs to the simulated readings", "statement": "For every IMU reading the simulator has returned, the ground truth state at the reading's time is available, carries exactly the biases that were added to that reading, and its pose, velocity, angular velocity and acceleration are those from which the reading was made; the state the filter is initialised from is that of the first reading.", "quantifier": "all call sequences, trajectories, rates, intrinsics, bias walks and noise", "why_tests_cant": "Depends on the whole history of calls and the bias buffer; an off-by-one in the buffer shifts the truth by one sample, far below test tolerances.", "anchors": ["ov_msckf/src/sim/Simulator.cpp:get_state", "ov_msckf/src/sim/Simulator.cpp:get_next_imu", "ov_msckf/src/run_simulation.cpp:main"]}
{"id": "C91", "title": "Simulated features are consistent projections of one map", "statement": "Every feature of a simulated frame is a map point visible in that camera with its exact pixel plus noise; a camera gets each id once and at most the configured number of features; without stereo ids of different cameras never coincide, with stereo equal ids are the same point; and after construction every camera sees at least the configured number of points in every synthetic frame.", "quantifier": "all trajectories, camera sets, random draws and hash map iteration orders", "why_tests_cant": "Ranges over random maps and iteration orders; id collisions appear only for particular map sizes.", "anchors": ["ov_msckf/src/sim/Simulator.cpp:project_pointcloud", "ov_msckf/src/sim/Simulator.cpp:generate_points", "ov_msckf/src/sim/Simulator.cpp:get_next_cam"]}
{"id": "C92", "title": "The zero velocity residual and its Jacobian", "statement": "For noise-free readings of a platform with the estimated orientation, biases and intrinsics, the squared length of the zero velocity residual is the sum over the intervals of duration times (squared rate over squared gyroscope noise plus squared acceleration over squared accelerometer noise), so it vanishes exactly at rest; and the Jacobian handed to the filter is the derivative of that measurement with respect to orientation and biases.", "quantifier": "all states, intrinsics, reading sequences, motions and correction directions", "why_tests_cant": "A derivative over a continuum of states and directions; tests run with the default intrinsics only, where the missing terms vanish.", "anchors": ["ov_msckf/src/update/UpdaterZeroVelocity.cpp:try_update"]}
{"id": "C93", "title": "What the high-rate prediction reports", "statement": "A high-rate query answers with success only if there is something to propagate over; the estimate it reports is the current one carried over every selected interval with the mean of its two corrected readings (rotation by the exponential, velocity, position), its covariance is carried with the Jacobian of that prediction plus a positive semi-definite noise term, and the reported velocity, its covariance and the angular rate with its covariance are those of the predicted state in the IMU frame.", "quantifier": "all states, intrinsics, reading buffers, query times and sequences of queries", "why_tests_cant": "The covariance is a derivative over a continuum of states; tests compare only the mean at default intrinsics.", "anchors": ["ov_msckf/src/state/Propagator.cpp:fast_state_propagate"]}
{"id": "C94", "title": "Accuracy of the Runge-Kutta prediction", "statement": "The Runge-Kutta prediction follows the IMU kinematics for linearly interpolated readings up to fifth order in the length of the interval: without rotation it is the exact motion, and in general it agrees with the kinematics to every order below the fifth.", "quantifier": "all states, angular rates, forces and interval lengths", "why_tests_cant": "An order of accuracy is a limit; a sampled interval only shows a small error, not its order.", "anchors": ["ov_msckf/src/state/Propagator.cpp:predict_mean_rk4"]}
{"id": "C95", "title": "The window update is the Bayesian posterior of the accepted features", "statement": "Among the given feature tracks, those with at least two measurements at clone times that could be triangulated are considered; exactly those whose squared Mahalanobis distance is within the configured multiple of the chi-square bound are used; if none is, the state stays unchanged; otherwise the state afterwards is the Gaussian posterior of the state before, given the landmark-free part of the linearised measurements of all used features, each counted once with the configured pixel noise. The update completes for every set of tracks of existing cameras.", "quantifier": "all program states, sets of tracks, triangulation results, representations, options and camera calibrations", "why_tests_cant": "Ranges over arbitrary numbers of features sharing arbitrary subsets of variables; a block written to the wrong columns still yields a plausible update in a sampled run.", "anchors": ["ov_msckf/src/update/UpdaterMSCKF.cpp:update", "ov_msckf/src/update/UpdaterHelper.cpp:get_feature_jacobian_full", "ov_msckf/src/update/UpdaterHelper.cpp:nullspace_project_inplace", "ov_msckf/src/update/UpdaterHelper.cpp:measurement_compress_inplace"]}
{"id": "C96", "title": "The landmark update is the Bayesian posterior of the accepted landmark observations", "statement": "Among the tracks of landmarks in the state, those with enough measurements at clone times (two for a depth-only landmark, otherwise one) are considered; exactly those whose squared Mahalanobis distance is within the configured multiple of the chi-square bound are used, with the pixel noise of their kind (tag or point); if none is, the state stays unchanged; otherwise the state afterwards is the Gaussian posterior of the state before given their linearised measurements, landmark columns included. Each rejected observation of a point raises that landmark's failure count by one. The update completes for every set of tracks of landmarks in the state.", "quantifier": "all program states, landmark sets, sets of tracks, representations, options and camera calibrations", "why_tests_cant": "Ranges over arbitrary numbers of landmarks sharing arbitrary subsets of variables; misplacing one block still yields a plausible update in a sampled run.", "anchors": ["ov_msckf/src/update/UpdaterSLAM.cpp:update", "ov_msckf/src/update/UpdaterHelper.cpp:get_feature_jacobian_full", "ov_msckf/src/state/StateHelper.cpp:EKFUpdate"]}
{"id": "C97", "title": "Delayed initialisation is the Bayesian posterior with no prior on the new variable", "statement": "When delayed initialisation accepts a new vector-valued variable whose measurement determines it, the joint state of old variables and new variable is exactly the Gaussian posterior of the whole measurement with the old state as prior and no prior knowledge of the new variable: every row is used exactly once, and all variables are corrected accordingly.", "quantifier": "all reachable states, new variables, measurement Jacobians, residuals, isotropic noises and multipliers", "why_tests_cant": "An identity of matrices over all dimensions; a double use of a row changes the covariance by an amount a sampled consistency test does not resolve.", "anchors": ["ov_msckf/src/state/StateHelper.cpp:initialize", "ov_msckf/src/state/StateHelper.cpp:initialize_invertible"]}
{"id": "C98", "title": "Delayed landmark initialisation as a whole", "statement": "Given a set of tracks, those with at least two measurements in the window that triangulate are tried one after the other, each linearised at the state the previous ones left. A feature becomes a landmark if and only if the part of its measurement that does not depend on its position passes the chi-square test; a rejected one changes nothing. For an accepted one whose measurement determines it the state becomes exactly the Bayesian posterior of old state and landmark given all its measurements once, with no prior on the landmark, with the noise and representation of its kind (tag or point). The call completes in every state and leaves landmarks that the landmark update can use.", "quantifier": "all program states, sets of tracks, triangulation results, representations, options and camera calibrations", "why_tests_cant": "Each feature changes the state the next is linearised at, for arbitrary numbers of features; a row used twice or a wrong block is invisible in a sampled run.", "anchors": ["ov_msckf/src/update/UpdaterSLAM.cpp:delayed_init", "ov_msckf/src/state/StateHelper.cpp:initialize"]}
{"id": "C99", "title": "The orientation manifold of the initialiser's optimisation", "statement": "Adding an increment to a stored orientation always gives a stored orientation again; from 1e-8 rad on it is the orientation turned by that rotation vector and to first order every increment turns it from the left, the convention of all factors; the difference of two orientations undoes the increment below half a turn; and the two Jacobians given to the solver are compatible.", "quantifier": "all unit quaternions and increments", "why_tests_cant": "A statement about all orientations and a limit; sampled increments cannot show first-order agreement everywhere.", "anchors": ["ov_init/src/ceres/State_JPLQuatLocal.cpp:Plus", "ov_init/src/ceres/State_JPLQuatLocal.cpp:Minus", "ov_init/src/ceres/State_JPLQuatLocal.cpp:PlusJacobian"]}
{"id": "C100", "title": "The reprojection factor of the initialiser's optimisation", "statement": "The residual of an observation is the difference between the pixel at which the point is seen from the pose through the calibration and the measured pixel, in standard deviations, so its square is the negative log-likelihood; and the six Jacobians returned are together its exact derivative when pose, point, extrinsics and intrinsics move at the same time.", "quantifier": "all poses, points, extrinsics, intrinsics, camera models and directions with the point not in the camera plane", "why_tests_cant": "A derivative over a continuum of states in 25 directions.", "anchors": ["ov_init/src/ceres/Factor_ImageReprojCalib.cpp:Evaluate"]}
{"id": "C101", "title": "The preintegration factor of the initialiser's optimisation", "statement": "The residual vanishes exactly if the second state follows from the first by the preintegrated motion under gravity, corrected for the biases; the bias correction is right to first order, that is the residual does not change to first order if the motion is preintegrated again from the same readings at the changed biases; the squared residual is the Mahalanobis distance under the preintegration covariance; and the Jacobians returned are its derivative with respect to all ten parameter blocks.", "quantifier": "all pairs of states, reading sequences, biases and directions", "why_tests_cant": "A derivative over a continuum of states; the wrong sign shows only for certain stored quaternion signs.", "anchors": ["ov_init/src/ceres/Factor_ImuCPIv1.cpp:Evaluate", "ov_init/src/ceres/Factor_ImuCPIv1.cpp:Factor_ImuCPIv1"]}
{"id": "C102", "title": "The prior factor of the initialiser's optimisation", "statement": "For every list of variables the prior weighs the difference of each variable to its linearisation point (component-wise for vectors, the rotation vector for orientations, its vertical component for yaw) at its own place; the squared residual is that error weighted by the given information, up to the gradient; and the Jacobians returned are its derivative when all variables move at the same time.", "quantifier": "all lists of variables of the five kinds, linearisation points, informations, gradients, values and directions", "why_tests_cant": "Ranges over lists of any length; an offset error between stored and error sizes appears only for particular orders of kinds.", "anchors": ["ov_init/src/ceres/Factor_GenericPrior.cpp:Evaluate", "ov_init/src/ceres/Factor_GenericPrior.cpp:Factor_GenericPrior"]}
{"id": "C103", "title": "The optimisation of the dynamic initialiser starts on the inertial constraints", "statement": "Preintegrating one sequence of readings and then another gives the composition of the two preintegrated motions. Hence, when camera times fall on readings, every preintegration factor of the optimisation is exactly zero at its starting point, the states carried from the first camera time by the solution of the linear system; there is one factor for each pair of consecutive camera times, and no preintegration fails.", "quantifier": "all reading sequences, biases, averaging modes, camera times, initial velocities and gravities", "why_tests_cant": "Ranges over all sequences of readings and camera times; a wrong frame or gravity sign only shows as a slower convergence.", "anchors": ["ov_init/src/dynamic/DynamicInitializer.cpp:initialize", "ov_core/src/cpi/CpiV1.cpp:feed_IMU"]}
{"id": "C104", "title": "The covariance and state returned by the dynamic initialiser", "statement": "The returned covariance is the joint covariance of the newest state recovered by the solver, in the order of the IMU state, with the marginals of orientation, velocity and the two biases multiplied by their factors and every correlation kept. It is symmetric for all blocks; for factors of at least one it is never smaller than the recovered covariance in any direction, so it is positive semi-definite. The returned position is the origin, the rest of the state is the optimised one.", "quantifier": "all joint covariances, inflation factors and directions of the error state", "why_tests_cant": "A statement about all covariances and directions; a misplaced block or a transposed correlation passes on nearly diagonal covariances.", "anchors": ["ov_init/src/dynamic/DynamicInitializer.cpp:initialize"]}
{"id": "C105", "title": "Anchor changes on the filter state", "statement": "Before the oldest clone is dropped, every landmark anchored at it is re-anchored at the newest clone in the same camera. This completes in every program state and touches nothing but those landmarks and the covariance. A re-anchored landmark is where it was in the world, and the covariance becomes F P F^T, where F leaves every other error as it is and gives the landmark the error in its new parameters that moves the global point to first order as the old error did. Afterwards no landmark refers to the clone that is dropped.", "quantifier": "all program states, windows, landmark representations, anchors, cameras, calibration options and error directions", "why_tests_cant": "A first-order identity over all states and directions, and an invariant over all windows; a transposed block or a dropped anchor term shows only as slow inconsistency.", "anchors": ["ov_msckf/src/update/UpdaterSLAM.cpp:change_anchors", "ov_msckf/src/update/UpdaterSLAM.cpp:perform_anchor_change", "ov_msckf/src/state/StateHelper.cpp:EKFPropagation"]}
{"id": "C106", "title": "A camera frame always completes", "statement": "Started from any state of the program and fed any sequence of inertial readings and images, with any features in the databases, the estimator processes every image to its end - zero velocity attempt, propagation, selection of features, triangulation, window update, landmark updates, delayed initialisation, anchor changes and marginalisation - without a failed assertion, an exception or an exit, provided only that the readings cover the time to the image. Afterwards the state is at the time of the image, the covariance is symmetric and positive semi-definite, the window is within its size and holds no time after the state's, and every anchored landmark has its camera and a clone of the window. Without zero velocity detection the window is always the last images. With a time offset that is not estimated the provision can be read off the data alone. The selection acts on the filter state as specified.", "quantifier": "all program states, configurations, feature databases, and sequences of readings and images of any length", "why_tests_cant": "Ranges over histories of unbounded length and all feature configurations; each aborting branch is reached only by a particular combination of window, landmarks and database contents.", "anchors": ["ov_msckf/src/core/VioManager.cpp:track_image_and_update", "ov_msckf/src/core/VioManager.cpp:do_feature_propagate_update", "ov_msckf/src/update/UpdaterMSCKF.cpp:update", "ov_msckf/src/update/UpdaterSLAM.cpp:delayed_init"]}
{"id": "C107", "title": "Calibration that is not estimated never changes", "statement": "Whatever readings and images are processed, a calibration parameter the user did not ask to estimate keeps its value and first estimate: the camera-IMU time offset, the camera poses, the camera intrinsics (with the camera objects used for undistortion), the IMU intrinsics, the gravity sensitivity, and the sensor rotation that is fixed in the chosen IMU model. No such parameter ever becomes a variable of the filter.", "quantifier": "all option combinations and sequences of readings and images of any length", "why_tests_cant": "Ranges over all histories and option combinations.", "anchors": ["ov_msckf/src/state/State.cpp:State", "ov_msckf/src/state/StateHelper.cpp:EKFUpdate", "ov_msckf/src/core/VioManager.cpp:do_feature_propagate_update"]}
{"id": "C108", "title": "No measurement is used twice", "statement": "Over any history of inertial readings and images, whatever the trackers report, every image measurement (a feature seen by a camera at a time) is given to at most one update - of window features, of a landmark, or the initialisation of a landmark; only measurements the trackers reported are used; and a measurement that was used is in no feature database any more. This is so for windows of at least two clones and landmark representations other than the single inverse depth. What the updates do depends on no other measurements than those.", "quantifier": "all sequences of readings and images of any length, all features seen in them, all configurations with a window of at least two and landmarks not represented by a single depth", "why_tests_cant": "Double use correlates errors silently: the filter becomes overconfident and no output shows it. The property ranges over all histories of the databases, the window and the landmarks.", "anchors": ["ov_msckf/src/core/VioManager.cpp:do_feature_propagate_update", "ov_msckf/src/update/UpdaterSLAM.cpp:update", "ov_core/src/feat/FeatureDatabase.cpp:cleanup", "ov_core/src/feat/FeatureDatabase.cpp:cleanup_measurements"]}
{"id": "C109", "title": "Tracks that end are used, the others are kept", "statement": "When an image is processed by an update: a feature no longer seen, with two or more measurements in the window, has all of them used in this image; so has, once the window is full (or has five times), a feature with a measurement at the oldest time of the window; every sighting of a landmark that is not being removed is used; and a feature that is still seen, is not a landmark and does not reach back to the oldest time keeps all its measurements for later. The first two hold when the database has no more features than an update may take.", "quantifier": "all histories, windows, databases, features and landmarks between images, and all next images", "why_tests_cant": "Ranges over all databases, windows and histories; a lost measurement makes the estimate worse without any visible failure.", "anchors": ["ov_msckf/src/core/VioManager.cpp:do_feature_propagate_update", "ov_core/src/feat/FeatureDatabase.cpp:features_not_containing_newer", "ov_core/src/feat/FeatureDatabase.cpp:features_containing", "ov_core/src/feat/FeatureDatabase.cpp:cleanup"]}
{"id": "C110", "title": "The state does not grow with the run", "statement": "Over any history of inertial readings and images, whatever the trackers report, the dimension of the filter state is exactly that of the IMU state and of the calibration that is estimated, plus six for each clone of the window and three for each landmark; nothing else is ever left in the state. There are never more clones than the window allows, and landmarks outside the tag ids are never more than the configured number (or than at the start), those with tag ids at most one for each id. So covariance and work per image have a bound that does not depend on how long the system runs.", "quantifier": "all sequences of readings and images of any length, all features seen in them, all configurations with a window of at least two and landmarks not represented by a single depth", "why_tests_cant": "A leaked variable shows only as slow growth over hours; the claim ranges over all histories.", "anchors": ["ov_msckf/src/core/VioManager.cpp:do_feature_propagate_update", "ov_msckf/src/state/StateHelper.cpp:marginalize", "ov_msckf/src/state/StateHelper.cpp:marginalize_old_clone", "ov_msckf/src/state/StateHelper.cpp:marginalize_slam"]}
{"id": "C111", "title": "An image does what its parts say, all of it and once", "statement": "For every state of the manager between events and every image that can be processed, whatever the trackers report: either the image is accepted as zero velocity and only that update is made, or the state is propagated once to the image time (C78), and, when the window is long enough, for the tracks that the selection of C41 gives: landmarks that are lost are taken out and every other variable keeps its estimate and joint covariance; the tracks of the window are used in one update whose result is the posterior of C95; the landmark tracks are used in consecutive batches no larger than configured, each giving the posterior of C96 on the state left by the one before; the tracks of new landmarks are initialised on the result (C98); landmarks anchored in the clone that leaves are moved one after another (C105); and finally the oldest clone, if the window is over its size, is taken out with everything else unchanged. No step is left out, repeated, reordered or done with other tracks or on another state, and exactly the measurements of these tracks are counted as used.", "quantifier": "all manager states between events, all images, databases, selections, numbers of landmarks and batches", "why_tests_cant": "Ranges over all states and databases; a dropped or repeated step only degrades the estimate.", "anchors": ["ov_msckf/src/core/VioManager.cpp:track_image_and_update", "ov_msckf/src/core/VioManager.cpp:do_feature_propagate_update", "ov_msckf/src/update/UpdaterMSCKF.cpp:update", "ov_msckf/src/update/UpdaterSLAM.cpp:update", "ov_msckf/src/update/UpdaterSLAM.cpp:delayed_init", "ov_msckf/src/update/UpdaterSLAM.cpp:change_anchors", "ov_msckf/src/state/StateHelper.cpp:marginalize_slam", "ov_msckf/src/state/StateHelper.cpp:marginalize_old_clone"]}
{"id": "C112", "title": "What the filter knows about calibration, window and landmarks is never lost", "statement": "For every joint covariance the state can be asked for: an operation of the state never raises the variance of any combination of the errors of variables that are there before and after, unless it propagates them or sets their covariance. Hence over a whole image (propagation, marginalisation of lost landmarks, window update, landmark updates in batches, initialisation of new landmarks, anchor changes, removal of the oldest clone, or a zero velocity update), and over any sequence of readings and images, the joint uncertainty of calibration parameters, clones and landmarks that stay (with unchanged anchor) never goes up. In particular the estimated calibration is never less certain than its prior or than at any earlier time. After the propagation the measurements of an image do not raise the uncertainty of the IMU state either.", "quantifier": "all reachable states, operations and arguments, histories of any length, all sets of variables asked for and all combinations of their errors, all streams of readings and images", "why_tests_cant": "The claim is about every combination of errors of every set of variables after every history; a test sees a few numbers of one run, and a covariance that is inflated or a lost cross correlation shows up as nothing but slow degradation.", "anchors": ["ov_msckf/src/state/StateHelper.cpp:EKFPropagation", "ov_msckf/src/state/StateHelper.cpp:EKFUpdate", "ov_msckf/src/state/StateHelper.cpp:marginalize", "ov_msckf/src/state/StateHelper.cpp:clone", "ov_msckf/src/state/StateHelper.cpp:initialize", "ov_msckf/src/state/StateHelper.cpp:get_marginal_covariance", "ov_msckf/src/core/VioManager.cpp:track_image_and_update", "ov_msckf/src/core/VioManager.cpp:do_feature_propagate_update"]}
{"id": "C113", "title": "From power on to the running filter: every live stream is processed and nothing from before the start is used", "statement": "From power on, for every live stream of inertial readings and images, of any length, whatever the trackers report, and whichever of the two initialisers succeeds and when: all of it is processed (no exception, exit or assertion). As long as no initialiser has succeeded nothing of the state but the IMU state changes and no measurement is used. The start sets the IMU state, its first estimate, its covariance and the time, and leaves all other variables and the rest of the covariance alone; the feature database then has exactly the measurements after the start; the start is not after the image that triggered it. The next image is the first one processed: it makes the first clone. From then on the state is at the time of the last image, and every measurement given to an update is newer than the start and is used once. The start happens at most once. Started with ground truth, the filter processes every stream from the given time in the same way. Readings are kept relative to the newest reading until the first image is processed: if the gap until then is longer than the initialisation window, the readings from the start on are lost.", "quantifier": "all streams of readings and images of any length, all tracker reports, all initialiser outcomes (the nonlinear solution of the dynamic initialiser is arbitrary), all options with a fixed time offset", "why_tests_cant": "Depends on the interleaving of readings, images and initialisation attempts; a lost reading or a stale measurement at the hand-over shows only in rare timings.", "anchors": ["ov_msckf/src/core/VioManagerHelper.cpp:initialize_with_gt", "ov_msckf/src/core/VioManagerHelper.cpp:try_to_initialize", "ov_msckf/src/core/VioManager.cpp:feed_measurement_imu", "ov_msckf/src/core/VioManager.cpp:track_image_and_update", "ov_init/src/init/InertialInitializer.cpp:initialize", "ov_init/src/dynamic/DynamicInitializer.cpp:initialize"]}
{"id": "C114", "title": "After an initialisation in the background the state catches up with the images that came meanwhile", "statement": "For every state just started by an initialiser that ran in the background, every queue of image times (in increasing order) that came meanwhile, and readings that cover them: moving the state forward completes. The state then has one clone at each of the selected image times, beginning with the first image after the start, no more clones than the window allows and none marginalised; its time is that of the last selected image, and fewer images than the selection step are newer; everything but the IMU state and the new clones is unchanged, and the next image can be processed. If two selected images have the same time the program ends, although the running filter accepts such images.", "quantifier": "all started states, all queues of image times of any length, all buffers of readings that cover them, all window sizes", "why_tests_cant": "How many images come during an initialisation depends on its run time; tests see a few queue lengths.", "anchors": ["ov_msckf/src/core/VioManagerHelper.cpp:try_to_initialize", "ov_msckf/src/state/Propagator.cpp:propagate_and_clone", "ov_msckf/src/state/StateHelper.cpp:marginalize_old_clone"]}
{"id": "C115", "title": "The descriptor tracker matches one to one and never mixes up ids", "statement": "With the descriptor tracker, for every history of images: matching pairs exactly those descriptors that are each other's nearest neighbour and pass the ratio test (and RANSAC, if there are ten), so no point is matched twice; a matched point keeps the id of its old point and every other point gets an id never used before; in every camera ids are distinct and above those of the tags; monocular cameras share no id and a stereo pair has the same ids in the same order, an id being kept only if both points were matched to it; every message is processed and no camera stores an id twice for one message; the points of a monocular image lie inside it in distinct cells of the minimum-distance grid.", "quantifier": "all images, corners, nearest-neighbour answers, RANSAC masks, orders of the parallel calls and histories of any length, in monocular or stereo mode", "why_tests_cant": "Descriptor matching depends on images and on thread timing; tests see a few sequences.", "anchors": ["ov_core/src/track/TrackDescriptor.cpp:feed_monocular", "ov_core/src/track/TrackDescriptor.cpp:feed_stereo", "ov_core/src/track/TrackDescriptor.cpp:robust_match", "ov_core/src/track/TrackDescriptor.cpp:robust_ratio_test", "ov_core/src/track/TrackDescriptor.cpp:robust_symmetry_test", "ov_core/src/track/TrackDescriptor.cpp:perform_detection_monocular", "ov_core/src/track/TrackDescriptor.cpp:perform_detection_stereo"]}
{"id": "C116", "title": "The reported active tracks are the points nearest to all viewing rays of the track", "statement": "After every image, a position is reported for a tracked feature that is not a landmark exactly if it has been seen without interruption at least four times, its system is well conditioned and the solution lies at an allowed distance in front of the camera; it is then the point with the least sum of squared distances to the viewing rays of all observations of the track. Landmarks are reported at the position the state gives them, and a pixel and depth is given for exactly the reported features that camera 0 sees inside its image at a depth of at least 0.1.", "quantifier": "all histories of images of any length, all cameras, poses, tracks and landmarks", "why_tests_cant": "The systems are accumulated over the whole history of a track; tests see a few tracks.", "anchors": ["ov_msckf/src/core/VioManagerHelper.cpp:retriangulate_active_tracks"]}
{"id": "C117", "title": "The program runs with what the user configured, or not at all", "statement": "If the program starts, every parameter of the filter, the trackers, the triangulation and the initialiser has the value of the ROS parameter of its name, else the value written in the configuration file, else - only if it is optional - its documented default; a required parameter that is missing or cannot be read ends the program. Choices are among the documented names (any other name ends the program), calibration of the inertial sensor is not combined with the model that says it is calibrated, and the initialiser's options are usable.", "quantifier": "all configuration files, sensor files and ROS parameters", "why_tests_cant": "There are about a hundred parameters, each of which may be present, absent or unreadable in three places; tests load a few fixed files.", "anchors": ["ov_core/src/utils/opencv_yaml_parse.h:parse_config", "ov_core/src/utils/opencv_yaml_parse.h:parse_external", "ov_msckf/src/state/StateOptions.h:print", "ov_msckf/src/core/VioManagerOptions.h:print_and_load", "ov_init/src/init/InertialInitializerOptions.h:print_and_load", "ov_core/src/feat/FeatureInitializerOptions.h:print", "ov_msckf/src/run_subscribe_msckf.cpp:main"]}
{"id": "C118", "title": "The calibration in the files is the calibration the estimator uses", "statement": "If the program starts: the pose of each camera is the one in the file, whichever of the two directions the file gives; each camera projects as the file's intrinsics say, with all pixels halved if images are downsampled, and has the file's resolution, halved then; a reading of an inertial sensor with the file's intrinsics is corrected to the true rate and acceleration; and filter and initialiser have the same cameras, noises, time offset, gravity, pixel noise and options.", "quantifier": "all files and ROS parameters with which the program starts, all cameras, points, rates and accelerations", "why_tests_cant": "A transposed or inverted calibration only degrades the estimate; the claim ranges over all calibrations and all points.", "anchors": ["ov_core/src/utils/opencv_yaml_parse.h:parse", "ov_msckf/src/core/VioManagerOptions.h:print_and_load_state", "ov_init/src/init/InertialInitializerOptions.h:print_and_load_state"]}
{"id": "C119", "title": "Published messages say what the estimator knows", "statement": "By the receivers' conventions: the published pose takes points of the IMU frame to the global frame with the estimated orientation and position, is stamped with the time of the state in the clock of the IMU to the nanosecond, and carries the covariance of position and orientation in that order; an odometry has the predicted pose, the velocity in the axes of the IMU and their covariances; camera transforms are the inverse of the stored extrinsics; the loop closure information is that of one clone, of camera 0 and of the active tracks; one pose is published per time of the state, in order, and the path has them in order and of bounded length. The covariance of the orientation refers to the fixed axes of the message's frame, and an odometry describes the body at the time it is stamped with.", "quantifier": "all states, times, sequences of calls, and points", "why_tests_cant": "Frames, orders and stamps are conventions: a test would compare with the same wrong formula; the path is cut only after 16384 poses.", "anchors": ["ov_msckf/src/ros/ROS2Visualizer.cpp:publish_state", "ov_msckf/src/ros/ROS2Visualizer.cpp:visualize_odometry", "ov_msckf/src/ros/ROS2Visualizer.cpp:publish_loopclosure_information", "ov_msckf/src/ros/ROSVisualizerHelper.h:get_time_from_seconds", "ov_msckf/src/ros/ROSVisualizerHelper.cpp:get_stamped_transform_from_pose"]}
{"id": "C120", "title": "The evaluation of a simulated run shows the errors of the filter with its own deviations", "statement": "If the program records a simulated run - one line per frame in the file of estimates, of deviations and of truth - and the evaluation reads these files, then every shown value is, up to the written number of digits, the error of the named quantity against the truth of the same frame together with the square root of that quantity's own variance in the filter at that frame: for orientation (as a rotation vector in degrees), position, velocity, the biases, the time offset, and for every camera its intrinsics and extrinsics, and for the intrinsics of the inertial sensor, up to the chosen time. Every frame of the run can be recorded and shown.", "quantifier": "all option sets, numbers of cameras, reachable filter states, true trajectories and run lengths", "why_tests_cant": "The files are tables of some fifty unnamed columns whose positions depend on the options; a wrong column shows plausible numbers. Tests see a few option sets.", "anchors": ["ov_msckf/src/ros/ROSVisualizerHelper.cpp:sim_save_total_state_to_file", "ov_eval/src/calc/ResultSimulation.cpp:plot_state", "ov_eval/src/calc/ResultSimulation.cpp:plot_timeoff", "ov_eval/src/calc/ResultSimulation.cpp:plot_cam_instrinsics", "ov_eval/src/calc/ResultSimulation.cpp:plot_cam_extrinsics", "ov_eval/src/calc/ResultSimulation.cpp:plot_imu_intrinsics", "ov_eval/src/utils/Loader.cpp:load_simulation"]}
{"id": "C121", "title": "A recorded trajectory is the published one", "statement": "The file written by the recorder and read by the evaluation holds exactly the received messages, in order: times to five digits, positions and orientations to six, and the covariances of orientation and position to ten, as symmetric matrices. So the evaluation of a running program reads, for each published state, the time of the state in the clock of the IMU, the pose and the covariance blocks the filter had. A ground truth table converted to that format is read as the table itself, up to the digits written, and a covariance that was positive definite is read as positive semidefinite.", "quantifier": "all sequences of messages that all carry, or all do not carry, a covariance; all sequences of calls of the visualiser on reachable states; all tables", "why_tests_cant": "Ranges over all messages and histories; a shifted column or a transposed block makes an evaluation wrong without any failure.", "anchors": ["ov_eval/src/utils/Recorder.h:write,callback_posecovariance", "ov_eval/src/utils/Loader.cpp:load_data,load_data_csv", "ov_eval/src/format_converter.cpp:process_csv", "ov_msckf/src/ros/ROS1Visualizer.cpp:publish_state"]}
{"id": "C122", "title": "Errors by axis are shown with their own bounds", "statement": "The angles computed for an orientation are its roll, pitch and yaw: turning by them about x, then y, then z gives the orientation back, for every orientation. The evaluation shows for each estimate nine errors: position, orientation about the global axes, and roll, pitch and yaw. Each is zero without error and is, to first order in the error as the filter defines it, a linear component of that error; and the bound drawn with it is three standard deviations of exactly that component for the covariance recorded with that estimate. The errors of roll, pitch and yaw differ from the difference of the angles by whole turns and never exceed half a turn.", "quantifier": "all pairs of poses, all recorded covariances, all small errors", "why_tests_cant": "Every wrong Jacobian or frame draws plausible bounds; the claim is about all orientations, with singular and wrapped ones.", "anchors": ["ov_core/src/utils/quat_ops.h:rot2rpy", "ov_eval/src/calc/ResultTrajectory.cpp:calculate_error"]}
{"id": "C123", "title": "An evaluation compares the two files as it says", "statement": "Whenever two files are evaluated, at least three pairs of their entries are compared, in order, no entry twice, closer than 0.02 s; files with the same times are compared entry by entry. The shown absolute errors are the distance of positions and the angle of orientations (to one part in 100000) of each pair after one common alignment, which no other of its kind beats in the sum of squared distances. The relative errors are those of exactly the ground truth's segments of the given length. The consistency is the error of each estimate, as the filter defines errors, weighted by the inverse of the covariance recorded with that estimate: non-negative, zero exactly without error, three in the mean over position errors with that covariance. An estimate equal to the ground truth up to a rotation and translation shows no error.", "quantifier": "all pairs of files, methods of alignment, lengths of segments", "why_tests_cant": "Whole files of any length; a shifted pair or a covariance of another entry shows plausible numbers.", "anchors": ["ov_eval/src/calc/ResultTrajectory.cpp:ResultTrajectory,calculate_ate,calculate_rpe,calculate_nees,calculate_error", "ov_eval/src/alignment/AlignUtils.cpp:perform_association", "ov_eval/src/utils/Loader.cpp:load_data"]}
{"id": "C124", "title": "Replaying a recording delivers it as it was", "statement": "For every recording in order of time, with one or two cameras: what is replayed are the messages of the used sensors in the interval asked for, ends included; the replay ends without an error; it delivers exactly the inertial readings that are not later than the last image, in the order of the recording among the images. With one camera every image is delivered once. With two, every delivered pair is an image of each camera less than twenty milliseconds apart; if the images of each camera are at least forty milliseconds apart these are exactly the pairs there are, and no image is delivered twice if they are at least twenty apart. A delivered image is processed exactly if an inertial reading, not later than the last image, is later than it by more than the estimated time offset; each at most once, and all the images of the recording are processed.", "quantifier": "all recordings, of any length and order of the messages of equal time, all estimates of the time offset", "why_tests_cant": "The search for pairs depends on the interleaving of the whole recording; a lost or doubled image looks like a slightly worse estimate.", "anchors": ["ov_msckf/src/ros1_serial_msckf.cpp:main", "ov_msckf/src/ros/ROS1Visualizer.cpp:callback_inertial,callback_monocular,callback_stereo"]}
{"id": "C125", "title": "The ground truth given for a time is that of the nearest line", "statement": "The ground truth of a time is found exactly if the file has a line less than a tenth of a second away; it is that of the nearest line (the earlier of two), with that line's time in seconds, the orientation with its real part last, and every value in its place. A file is read exactly if no line has more than seventeen numbers; of lines with the same time the first counts. Lines that are not a state are not read as one.", "quantifier": "all files, all times", "why_tests_cant": "For every file and time; a swapped field starts the filter from a wrong state.", "anchors": ["ov_core/src/utils/dataset_reader.h:load_gt_file,get_gt_state"]}
{"id": "C126", "title": "A simulated run uses exactly what was simulated", "statement": "The simulation program starts the estimator with the true state, feeds it every inertial reading from the first on, in order and without a gap, and every image the simulator returns except the last one, in order, each once, and after the readings it needs; nothing it feeds is refused. Each image holds what the cameras see from the true pose at its time. The main loop ends, and by then every reading and every image before the end of the trajectory has been returned. The final state is that at the last image fed. No measurement is given to two updates, and every measurement used is one of a point of the map that the camera sees from the true pose.", "quantifier": "all maps, trajectories, rigs, pairs of frequencies with fewer images than readings, time offsets that are known, random numbers, numbers of rounds", "why_tests_cant": "The interleaving of the two streams, for all frequencies and lengths; a dropped or doubled image only makes the estimate a little worse.", "anchors": ["ov_msckf/src/run_simulation.cpp:main", "ov_msckf/src/core/VioManager.cpp:feed_measurement_simulation", "ov_core/src/track/TrackSIM.cpp:feed_measurement_simulation", "ov_msckf/src/sim/Simulator.cpp:get_next_imu,get_next_cam"]}
{"id": "C127", "title": "Preintegration with constant local acceleration is rigid-body motion, with its Jacobians and covariance", "statement": "After any sequence of intervals the second preintegration (constant local acceleration, orientation at the first time and gravity given) has the total elapsed time, and an orientation, velocity and position that are those of rigid-body motion with, in each interval, the corrected rate and the corrected force less gravity as the orientation at the start (or the mean over the interval) says. Its covariance is symmetric and grows with the error dynamics of the kinematics. Its Jacobians are the first-order effect of moving either bias or the orientation at the first time.", "quantifier": "all sequences of intervals, biases, orientations, gravities, averaging on and off, both ways of computing Jacobians", "why_tests_cant": "For all sequences, and derivatives in all directions; an error in one column is a few percent of a small correction.", "anchors": ["ov_core/src/cpi/CpiV2.cpp:feed_IMU", "ov_core/src/cpi/CpiV2.h:CpiV2", "ov_core/src/cpi/CpiBase.h:CpiBase"]}
{"id": "C128", "title": "The optimisation of the dynamic initialisation minimises the stated cost and returns its own estimate", "statement": "Whatever camera times, cameras and features the selection picks, building the optimisation problem never fails. Its unknowns are a state per camera time, the calibration of every chosen camera and a point per observed feature; they start at the linear initialisation and the configured calibration; orientations move on the sphere of unit quaternions; the calibration is fixed exactly if it is not to be optimised. For every estimate the cost minimised is half the sum of: the prior on yaw, position and biases of the first state; the preintegration error between each two consecutive camera times, at the states of these two times; the priors on the calibration; and, through the robust loss, the reprojection error of every observation of a used feature at a camera time, with that time's pose, that feature's point, that camera's calibration and model and that observation's pixel. These observations are as many as were counted at the selection. Returned are the newest state, the pose of every camera time and the point of every observed feature, of the estimate reached.", "quantifier": "all selections, features, observations, calibrations; every estimate the solver may reach", "why_tests_cant": "Pointers are handed out through nine vectors and three index maps; a wrong index gives a problem that still converges, for some feature, camera or time only.", "anchors": ["ov_init/src/dynamic/DynamicInitializer.cpp:initialize", "ov_init/src/ceres/Factor_GenericPrior.cpp:Factor_GenericPrior", "ov_init/src/ceres/Factor_ImageReprojCalib.cpp:Evaluate", "ov_init/src/ceres/Factor_ImuCPIv1.cpp:Evaluate"]}
{"id": "C129", "title": "New features come from the cells that lack them, the strongest first, whatever the threads do", "statement": "The extraction of corners never fails, and its result does not depend on the order in which its parallel workers run. Each cell that is searched gives at most the number of features wanted per cell, rounded down, plus one; only corners found in that cell and not masked; and a free corner is left out only for as many others that are as strong. The tracker searches a cell exactly if it has no tracked point, or fewer than half of that number, and is not masked; new corners are neither masked nor near a tracked point. Every part of the image belongs to a cell, and no more features are extracted than were asked for.", "quantifier": "all images, masks, corners, tracked points, grids and numbers of features, all schedules of the parallel workers", "why_tests_cant": "All schedules, and all pairs of image size and grid; a cell that is never searched only means fewer features there.", "anchors": ["ov_core/src/track/Grider_GRID.h:perform_griding", "ov_core/src/track/Grider_FAST.h:perform_griding", "ov_core/src/track/TrackKLT.cpp:perform_detection_monocular,perform_detection_stereo"]}
{"id": "C130", "title": "Perturbing a simulation changes what the estimator is told, never the truth", "statement": "The calibration a simulator was configured with stays its truth for the whole run: neither the perturbation nor anything the estimator later stores in the camera objects it was handed changes the simulator's time offset, camera models, sizes, lens values, camera poses or IMU calibration. With the perturbation on, the estimator starts from the configured calibration with every component off by its own scale times its own random number, orientations turned and stored as unit quaternions, the IMU calibration off only where it is estimated, and the camera objects it uses agree with its own variables; with it off, it starts from the configured calibration.", "quantifier": "all configurations, numbers of cameras, random numbers and later writes by the estimator", "why_tests_cant": "The camera objects are shared through pointers by the program, the estimator and (before it copies them) the simulator; a missing copy makes the truth follow the estimate, so that every error shrinks and every test passes.", "anchors": ["ov_msckf/src/sim/Simulator.cpp:Simulator,perturb_parameters", "ov_msckf/src/core/VioManager.cpp:VioManager", "ov_msckf/src/state/StateHelper.cpp:EKFUpdate"]}
{"id": "C131", "title": "The initialisation simulator's ground truth is that of its readings", "statement": "For every order of calls, the two streams are ordered, lie on the trajectory and are the first samples of the two regular grids after the start. Each reading is the true rate and specific force plus noise plus the true biases at its time, and the ground truth later returned for that time has the pose and velocity of the trajectory and these biases.", "quantifier": "all trajectories, frequencies, noise, bias walks, initial biases, orders of calls", "why_tests_cant": "For all sequences of calls and all noise; an offset of one bias step is far below the tolerance of a test on the initial state.", "anchors": ["ov_init/src/sim/SimulatorInit.cpp:SimulatorInit,perturb_parameters,get_state,get_next_imu,get_next_cam"]}
{"id": "C132", "title": "The tables over runs and datasets average what the evaluations of the runs say", "statement": "For every set of runs: the error over time of an algorithm is given at exactly the times at which all its runs have an error, in order, as the root mean square over the runs of the errors at that time; its normalised errors likewise as the mean, and their cell as the mean over these times. The absolute error in a table is the mean over the runs of the root mean square of each, a cell is empty exactly if there is no run, and the average over the datasets is over the cells that are not empty. Each relative error is the mean of all samples of all runs, and is empty if there is none.", "quantifier": "all numbers of runs and datasets, error sequences, times, missing runs and directories", "why_tests_cant": "For all combinations of missing runs, times and datasets; a run counted twice or a dataset counted although it is empty changes a published table by an amount nobody recomputes.", "anchors": ["ov_eval/src/error_dataset.cpp:main", "ov_eval/src/error_comparison.cpp:main", "ov_eval/src/utils/Statistics.h:calculate"]}
{"id": "C133", "title": "A zero velocity update is the posterior given the mean reading over the interval", "statement": "An accepted zero velocity update moves the time to the image, lets the biases walk for the interval and otherwise is the Bayesian posterior given one measurement: that the mean of the readings over the interval, each weighted by the time until the next and corrected by calibration and estimated biases, is no rotation and gravity alone, with the noise of the sensors over that interval scaled by the configured factor. How many readings there are and where the interval cuts them makes no difference otherwise. It claims no knowledge of heading, position, velocity, past poses, landmarks or calibration.", "quantifier": "all program states, buffers of readings, calibrations, noise levels, image times", "why_tests_cant": "A statement about all stacks of readings of any length after compression; a wrong weight only makes the filter slowly too confident.", "anchors": ["ov_msckf/src/update/UpdaterZeroVelocity.cpp:try_update"]}
{"id": "C134", "title": "The errors shown during a run are those between the estimate and the ground truth", "statement": "Whenever a ground truth exists for the time of the state, what is shown is: its pose, appended to its path; the distance between the two positions and the angle in degrees between the two orientations; and for each the squared error weighted by the inverse of the filter's own covariance for it. The running figures are, at every call, the root mean squares and the means of exactly the values shown so far; calls without a ground truth count for nothing.", "quantifier": "all states, ground truths (from a file or a simulator), and sequences of calls", "why_tests_cant": "A statement about all sequences of calls and all pairs of poses; an error measured against the wrong time, or weighted with the wrong block of the covariance, still looks plausible.", "anchors": ["ov_msckf/src/ros/ROS2Visualizer.cpp:publish_groundtruth", "ov_msckf/src/ros/ROS1Visualizer.cpp:publish_groundtruth"]}
{"id": "C135", "title": "The ground truth shown live in the estimate's frame is the one the alignment maps it to", "statement": "Whenever the live alignment publishes a path, it rests on at least three pairs of poses close in time, in order, none used twice, and on the alignment of exactly these by the chosen method; every published pose has the time of a paired ground truth pose, and the alignment takes it back to that pose, position and orientation. Unless there are more than can be shown, all of them are published, in order.", "quantifier": "all paths, ground truths, methods of alignment", "why_tests_cant": "For all pairs of trajectories; a transform applied the wrong way round looks right whenever the two frames nearly agree.", "anchors": ["ov_eval/src/live_align_trajectory.cpp:align_and_publish", "ov_eval/src/alignment/AlignTrajectory.cpp:align_trajectory"]}
{"id": "C136", "title": "Every visible corner of a tag is stored once, whatever the order of the parallel workers", "statement": "For every message of images: each corner of a tag whose number is allowed, and which the mask leaves visible, is appended to the history of its feature and camera with the time of the message, its pixel in the full image and its undistorted coordinates; nothing else is stored and cameras without an image are untouched. The result does not depend on the order in which the images are processed in parallel. A feature gets at most one observation per camera and message.", "quantifier": "all messages, detections, masks, databases and interleavings of the workers", "why_tests_cant": "A statement about all interleavings and all lists of detections; two corners under one id only show as a tag that drags the estimate.", "anchors": ["ov_core/src/track/TrackAruco.cpp:feed_new_camera,perform_tracking", "ov_core/src/feat/FeatureDatabase.cpp:update_feature"]}
{"id": "C137", "title": "The execution times reported for a run are the ones it recorded", "statement": "From the file a run writes, the evaluation reads for every image processed to the end, in order, the time of the state and the time that passed in each stage; what it prints for a stage are the mean, the standard deviation and the greatest of exactly these, to the digits of the file. The total of an image is the sum of its stages to the digits of the file, and without landmarks in the state more by the part that no stage covers. The comparison of several files uses the total of each. Plots show every k-th image of each stage at its own time, and histograms the times of all images in each stage, in milliseconds.", "quantifier": "all runs, readings of the clock, files, numbers of categories, subsamplings", "why_tests_cant": "For all sequences of images and files; a column shifted by one, or a time that belongs to another row, gives a plausible table.", "anchors": ["ov_msckf/src/core/VioManager.cpp:do_feature_propagate_update", "ov_eval/src/utils/Loader.cpp:load_timing_flamegraph", "ov_eval/src/timing_flamegraph.cpp:main", "ov_eval/src/timing_comparison.cpp:main"]}
{"id": "C138", "title": "The load reported for a program is that of its own files", "statement": "For every folder of recordings: what is reported for each program about processor, memory and threads are the mean and the standard deviation over the rows with at least one thread of all its files, and of no others. It refuses the folder only if some file has a short row or no row that counts. A file written by the recorder is read back as the sums over the nodes that could be read, one row for each sample in which some node was running.", "quantifier": "all folders, numbers of files and rows, names of directories", "why_tests_cant": "For all names and contents of the directories; rows counted for another program change its mean without a trace.", "anchors": ["ov_eval/src/utils/Loader.cpp:load_timing_percent", "ov_eval/src/timing_percentages.cpp:main", "ov_eval/python/pid_ros.py"]}
{"id": "C139", "title": "The figures of trajectories show the poses of the files, moved by one alignment", "statement": "The ground truth is shown as it is. Of each estimate are shown the poses paired with poses of the ground truth, at least three, in order, closer than 0.02 s, at the times of the ground truth and all moved by one rotation, translation and scale, the alignment asked for of exactly these pairs; except for the similarity no distance changes, so the length printed is that of the estimate. The figures draw these poses for every file given, up to the nine estimates of the usage.", "quantifier": "all files, numbers of files, methods of alignment", "why_tests_cant": "For all pairs of files; a curve over the wrong times, or with the alignment of another file, looks like an error of the estimator.", "anchors": ["ov_eval/src/plot_trajectories.cpp:main,plot_xy_positions,plot_z_positions", "ov_eval/src/utils/Loader.cpp:get_total_length"]}
{"id": "C140", "title": "The evaluation of a single run prints the statistics of the errors of its pairs", "statement": "An evaluation is printed exactly when the two files can be compared. Its absolute errors are root mean square, mean, extremes and standard deviation over all pairs after one alignment; its relative errors are median and number of samples over exactly the segments of 8, 16, 24, 32 and 40 metres, in this order, zeros where there is none; its consistency is over all pairs each with its own covariance, zeros without covariances; all curves are over the time since the first pair.", "quantifier": "all pairs of files, methods of alignment", "why_tests_cant": "For all files; a statistic of the wrong column or an unaligned error cannot be told from a bad run.", "anchors": ["ov_eval/src/error_singlerun.cpp:main", "ov_eval/src/calc/ResultTrajectory.cpp:calculate_ate,calculate_rpe,calculate_nees,calculate_error"]}
{"id": "C141", "title": "The points reported for display are the landmarks and the features of the last updates", "statement": "After any sequence of readings and images, asking for the landmarks returns: one list has the position in the world, by the current estimates, of every landmark above the tag ids, the other of every tag corner, each landmark once. The list of features used in updates has the triangulated position of exactly those features that passed their test and went into the posterior, of all updates since the last message of the base camera; images that are not used for an update leave it alone.", "quantifier": "all sequences of readings and images, databases, options, representations of landmarks", "why_tests_cant": "A landmark whose anchor left the window, or features of another update, only appear after particular histories, and as plausible points.", "anchors": ["ov_msckf/src/core/VioManagerHelper.cpp:get_features_SLAM,get_features_ARUCO", "ov_msckf/src/core/VioManager.h:get_good_features_MSCKF", "ov_msckf/src/core/VioManager.cpp:do_feature_propagate_update", "ov_msckf/src/ros/ROS2Visualizer.cpp:publish_features"]}
{"id": "C142", "title": "The depth image shows the depths of the active tracks", "statement": "For every sequence of images and tracks, every size of the image and every order in which the tracks are stored: the depth image is made without a write outside it. A pixel is zero exactly if no active track four pixels or more from the border is in it; otherwise it is the depth of a track in it, in millimetres, rounded down.", "quantifier": "all histories of tracks and landmarks, image sizes, orders of storage", "why_tests_cant": "For all positions and depths; a swapped row and column or a depth that does not fit sixteen bits needs particular scenes.", "anchors": ["ov_msckf/src/ros/ROS2Visualizer.cpp:publish_loopclosure_information", "ov_msckf/src/core/VioManagerHelper.cpp:retriangulate_active_tracks"]}
{"id": "C143", "title": "Adding cameras to a simulation leaves the map and the features of the first cameras unchanged", "statement": "For every trajectory, seed and list of cameras: the map of a simulation with more cameras contains that of the simulation with only the first ones, with the same ids and positions, and its other points have larger ids. At every time the first camera (with stereo every one of the first cameras) reports the same features, with the same ids and pixels, in both.", "quantifier": "all trajectories, cameras, random numbers, and orders in which the map may be visited", "why_tests_cant": "The order in which the points are visited is not specified; a test with one library and one seed cannot tell.", "anchors": ["ov_msckf/src/sim/Simulator.cpp:Simulator,project_pointcloud,generate_points,get_next_cam", "ov_init/src/sim/SimulatorInit.cpp:SimulatorInit,project_pointcloud,generate_points,get_next_cam"]}
{"id": "C144", "title": "The picture of the tracks shows every camera in its own panel and can always be made", "statement": "For every number of cameras, image sizes, tracks and masks of the size of the images: the picture with the tracks of all cameras can be made, with or without a tracker of tags. Its panels are as large as the largest image; each shows the image of its camera with its tracks, nothing is drawn outside the panel of its camera and the rest is black. The track of a feature is drawn from its newest point back, at most fifty points, and landmarks have a box.", "quantifier": "all numbers and sizes of images, databases of tracks, lists of landmarks", "why_tests_cant": "Sizes, histories and sets of trackers are unbounded; a test shows one configuration.", "anchors": ["ov_core/src/track/TrackBase.cpp:display_active,display_history", "ov_msckf/src/core/VioManagerHelper.cpp:get_historical_viz_image", "ov_core/src/feat/FeatureDatabase.cpp:get_feature_clone"]}
{"id": "C145", "title": "A refined point is accepted exactly if its depth is allowed and it was seen with enough parallax", "statement": "For every feature, set of camera poses and options with a positive minimum distance: when the refinement of a triangulated point ends, it is accepted exactly if its depth in the anchor camera lies within the limits and at least one observation was made from a place whose distance from the line through the anchor camera and the point is positive and at least the point's distance divided by the baseline limit; otherwise it is rejected.", "quantifier": "all observations, poses, options and linear solvers", "why_tests_cant": "Universal over poses and points; the test uses a basis from a matrix factorisation that a test cannot vary.", "anchors": ["ov_core/src/feat/FeatureInitializer.cpp:single_gaussnewton"]}
{"id": "C146", "title": "What is printed is what the chosen verbosity asks for", "statement": "For every sequence of requests of a verbosity and messages: a message is written, unchanged and in order, exactly if its level does not come before the level in force in the documented order ALL, DEBUG, INFO, WARNING, ERROR, SILENT; the level in force is the one asked for last, and INFO before any was asked for. At the two most verbose levels the message is preceded by the name of the source file, without directories and cut to its last thirty characters, and the line. Every valid request is confirmed on the output. A name that is no level ends the program, after a message naming it, and nothing else does.", "quantifier": "all sequences of requests and messages, names, file names", "why_tests_cant": "Ranges over all sequences of requests and all strings.", "anchors": ["ov_core/src/utils/print.cpp:setPrintLevel,debugPrint", "ov_core/src/utils/print.h:PrintLevel"]}
{"id": "C147", "title": "The simulation follows the trajectory written in its file", "statement": "For every text of a trajectory file: the simulation's motion is built from exactly the poses of the lines that do not start with # and have at least eight words between spaces, in their order, the first eight words being the time, the position and the orientation (x, y, z, w); other lines are skipped, words after the eighth are ignored, and without any pose the program ends. A trajectory written one pose per line in a notation that reads back is followed exactly.", "quantifier": "all texts, all conversions of words to numbers", "why_tests_cant": "Ranges over all texts: extra spaces, missing last line feeds, short lines and comments.", "anchors": ["ov_core/src/utils/dataset_reader.h:load_simulated_trajectory", "ov_msckf/src/sim/Simulator.cpp:Simulator", "ov_init/src/sim/SimulatorInit.cpp:SimulatorInit"]}
{"id": "C148", "title": "The manager counts as initialised from the first image it uses on, and its distance adds up the estimated steps", "statement": "For every sequence of inertial readings and images after the filter's start: the manager tells that it is initialised exactly if one of the images so far was used, that is, was not answered by a zero velocity update, did not lie in the past, could be reached by the propagation and found at least five clones (or as many as the window holds); it never goes back. Until then, however long the device rests, nothing is told and the distance is zero. The distance never decreases; each used image adds the length between the present position and the pose at the last used image as it is estimated now, nothing if that pose has left the window, which for images of increasing times never happens with a window of two or more clones and always with a window of one; other images add nothing. Telling this changes nothing in the filter and never fails.", "quantifier": "all sequences of readings and images, all configurations with and without zero velocity updates", "why_tests_cant": "Ranges over all histories of readings, refused, late and used images.", "anchors": ["ov_msckf/src/core/VioManager.h:initialized", "ov_msckf/src/core/VioManager.cpp:do_feature_propagate_update,track_image_and_update"]}
{"id": "C149", "title": "The simulation starts at the first frame by which the device has moved enough", "statement": "For every trajectory, camera rate and distance threshold: the simulation starts at the first camera time after the start of the trajectory by which the device has travelled more than the threshold, the travelled distance being the sum of the distances between the places at consecutive camera times. With a positive camera rate the search for it ends; the program ends instead exactly if the device never travels that far while the trajectory has poses, as it does for a trajectory at rest. With a negative threshold the simulation starts with the trajectory.", "quantifier": "all trajectories, camera rates and thresholds", "why_tests_cant": "Ranges over all trajectories and an unbounded search.", "anchors": ["ov_msckf/src/sim/Simulator.cpp:Simulator", "ov_init/src/sim/SimulatorInit.cpp:SimulatorInit"]}
{"id": "C150", "title": "Each camera is asked for its share of the configured number of features", "statement": "For every sequence of inertial readings and images after power on, and every configuration: until the filter is initialised each camera's tracker looks for its share of the number of features meant for the initialisation, the largest number that all cameras can have; once the filter runs, for its share of the number of features meant for estimation, and this number does not change any more.", "quantifier": "all sequences of readings and images, ways of starting the filter, numbers of features and cameras", "why_tests_cant": "Ranges over all histories before and after the initialisation.", "anchors": ["ov_msckf/src/core/VioManager.cpp:VioManager", "ov_msckf/src/core/VioManagerHelper.cpp:try_to_initialize,initialize_with_gt", "ov_core/src/track/TrackBase.h:set_num_features"]}
{"id": "C151", "title": "Halving the images does not change the geometry", "statement": "For every configuration with which the program starts and halves its images: each camera has the class and the pose it would have without the option; every direction is seen in the halved image at the very point where the full image shows it; the size the program takes the camera to have is that of the images the trackers are given, for odd sizes as well; and the masks the trackers are given have the size of the images they are given with.", "quantifier": "all configuration files, cameras, intrinsics of both distortion models, directions and image sizes", "why_tests_cant": "Ranges over all calibrations, directions and sizes.", "anchors": ["ov_msckf/src/core/VioManager.cpp:track_image_and_update", "ov_msckf/src/core/VioManagerOptions.h:print_and_load_state", "ov_msckf/src/ros/ROS1Visualizer.cpp:callback_monocular,callback_stereo", "ov_core/src/cam/CamRadtan.h:distort_f", "ov_core/src/cam/CamEqui.h:distort_f"]}
{"id": "C152", "title": "A simulation runs with the parameters that were given, and without threads", "statement": "For every configuration: if the simulation runs, each of the ten parameters of the simulator was given by the user, as a ROS parameter or in the main file, and has the value given, the ROS parameter first; a simulation for which one is missing or unreadable does not run. Whatever the files say, OpenCV is asked for no threads and neither publishing nor updating has one; in everything else the estimator has the options it would have on real data.", "quantifier": "all configuration files and ROS parameters", "why_tests_cant": "Ranges over all configuration files, readable or not.", "anchors": ["ov_msckf/src/core/VioManagerOptions.h:print_and_load_simulation", "ov_msckf/src/run_simulation.cpp:main", "ov_core/src/utils/opencv_yaml_parse.h:parse_config"]}
