# Formal model of rpng/open_vins in Lean 4 — design

## 1. What is delivered

* `properties.jsonl` — the English properties (C01 …).
* `lean/Verif/**` — the model (mostly `Model.lean`, or files named after the code they model), helper lemmas, and the property
  theorems, one directory per subsystem. Theorems named `Cnn_…` live only in `Props*.lean` files, next to the small specification
  they refer to (`Spec` namespaces) and to `example`s showing that a concrete non-trivial input meets their hypotheses.
* `MANIFEST.json` — property → theorem names, status and what is missing.
* `seeded/LOG.jsonl` — mutation tests: realistic bugs put in a scratch copy of the model, the theorems that broke, and the theorems
  tightened because one did not.

## 2. Trusted base

* Lean 4.33.0's kernel; the axioms `propext`, `Classical.choice`, `Quot.sound` only (every theorem depends on a subset of these three;
  `#print axioms` on any of them shows it). No own axioms, no `sorry`, no `native_decide`/`bv_decide`.
* The reading of the C++ source. Every definition cites file and lines; simplifications are stated in the same comment.
* Conventions used everywhere:
  * `double`/`float` are modelled by exact numbers: ℝ, or ℚ for pixel arithmetic in `Track` and for times in examples. Rounding, NaN,
    infinities and the numerical error of Eigen's decompositions are **not** modelled. `static_cast<float>` is the identity.
    Where the code divides by a quantity that may be zero and then tests the result, the model says what it does (`none` for NaN).
  * Eigen matrices of dynamic size are functions `ℕ → ℕ → ℝ` together with their dimensions, or Mathlib `Matrix`; 3-vectors and 3×3
    matrices are `Fin 3 → ℝ` (`V3`), `Matrix (Fin 3) (Fin 3) ℝ` (`M3`); quaternions are the structure `Quat` (JPL, `x y z w`).
  * `std::exit`, failed `assert`, `.at()` on a missing key, dereferencing an empty container and iterators outside their range are
    the distinct outcome `none`; theorems say when they cannot occur.
  * `std::map` is an association list sorted by key; `std::unordered_map` is an association list with distinct keys and *arbitrary*
    order (theorems hold for every order).
  * `shared_ptr` identity is a natural number `uid`, or an index in a heap where aliasing matters. Mutation becomes returning a new
    value.
  * Library calls (Eigen LLT/QR/SVD/inverse/eigenvalues, OpenCV detection, tracking and undistortion, boost's chi-squared quantile, the
    RNG) are parameters or hypotheses; what is assumed of them is in the theorem (e.g. "U, V orthogonal with M = U D Vᵀ").
  * Loops whose termination is not structural get a fuel argument; theorems say that enough fuel exists or hold for every fuel.
* Threads: the queues, flags, locks and buffers are modelled as interleavings of atomic steps at the granularity the code's mutexes and
  atomics provide (`Vio/InitSm`, `Ros/Model`); for unsynchronised data the model only says that two accesses overlap (`C88`).

## 3. What is modelled and what is not

| Code in /repo | Model | Left out |
|---|---|---|
| ov_core/utils/quat_ops.h | `Quat/Model` | — |
| ov_core/types/* (Type, Vec, JPLQuat, PoseJPL, IMU) | `Types/Model` | — |
| ov_core/types/Landmark, LandmarkRepresentation | `Land/Model` | — |
| ov_msckf/state/State, StateHelper | `State/Model`, `Index`, `Cov`, `Window`, `Layout` | printing; sizes are exact integers |
| ov_msckf/state/Propagator (selection, prediction, all three integrations, Jacobians, noise, fast propagation, clone) | `Imu/Model`, `Prop/Model`, `Prop/Sensor` | rounding; logging |
| ov_msckf/update/UpdaterHelper (representation, feature and full Jacobians, nullspace, compression) | `Upd/Model`, `Base/Givens` | — |
| ov_msckf/update/UpdaterSLAM (anchor change), UpdaterMSCKF/SLAM (chi2, stacking) | `Upd/Anchor`, `Upd/Msckf` (whole MSCKF update), `Upd/Slam` (whole landmark update and delayed initialisation), parts in `Vio/Select`, `Track/Ids` | the chi2 table's numbers; triangulation is a parameter of `msckfUpdate` (modelled in Tri) |
| ov_msckf/update/UpdaterZeroVelocity | `Vio/Zupt` | — |
| ov_msckf/core/VioManager, VioManagerHelper | `Vio/Manager`, `Vio/Select`, `Vio/InitSm`, `Vio/Frame` (the whole image path put together; the record of used measurements `log` is added by the model), `Vio/Loop` (the databases kept between images), `Vio/Boot` (from power on: both initialisers, the hand-over, ground truth), `Vio/Odo` (initialised or not, distance), `Vio/Wanted` (features looked for), `Vio/CatchUp` (images that came during an initialisation in the background), `Tri/Retri` (positions and depths of the active tracks), `Eval/Timing` (the file of execution times) | visualisation; what the trackers find in an image is an input of `Vio/Loop` |
| ov_msckf/ros/ROS1Visualizer, ROS2Visualizer (queues, threads), ros/RosVisualizerHelper | `Ros/Model`, `Ros/Publish`, `Ros/Save`, `Ros/Live` (publish_groundtruth), `Vio/Shown` (the lists behind the point clouds), `Ros/Depth` (the depth image) | the other images, wall clock stamps |
| ov_msckf/src/ros1_serial_msckf.cpp, ov_core/utils/dataset_reader.h (ground truth) | `Ros/Serial` | rosbag (a view lists the messages of the interval), start-up, reading numbers from text |
| ov_msckf/sim/Simulator, ov_core/sim/BsplineSE3 | `Sim/Spline`, `Sim/File`, `Sim/Simulator`, `Sim/Start`, `Sim/Points`, `Sim/Perturb` | RNG (arbitrary numbers), `atof` |
| ov_init/sim/SimulatorInit | `Sim/SimInit`, `Sim/Points` (map and features, the same code as ov_msckf's) | — |
| ov_core/feat/Feature, FeatureDatabase, FeatureHelper | `Feat/Model`, `Disp/Model` | mutex (every method holds it throughout) |
| ov_core/feat/FeatureInitializer | `Tri/Model` | Eigen's condition number is a parameter |
| ov_msckf/src/run_simulation.cpp, VioManager::feed_measurement_simulation, ov_core/track/TrackSIM | `Vio/SimRun` | visualiser, perturbation of the parameters, reading of the configuration |
| ov_core/track/TrackKLT, TrackDescriptor, TrackBase, TrackAruco, TrackSIM, Grider | `Track/Klt`, `Track/Grid`, `Track/Desc`, `Track/Ids`, `Track/Show`, `Vio/Aruco` | image processing and drawing (arbitrary results) |
| ov_core/cam/CamBase, CamRadtan, CamEqui | `Cam/Model` | `undistort` (OpenCV) |
| ov_core/cpi/CpiV1, CpiV2 | `Cpi/Model`, `Cpi/V2` | |
| ov_init/init, static, dynamic (up to the linear solution), utils/helper.h | `Init/Model` | — |
| ov_init/ceres (manifold and the three factors), preintegrations, starting point, the construction of the whole problem (arrays, index maps, factors, priors) and the read-out, the assembly of the returned covariance | `Mle/Model`, `Mle/Start`, `Mle/Problem` | Ceres itself (solver, covariance) |
| ov_eval/alignment, calc, utils/Statistics, utils/Loader, utils/Recorder.h, format_converter.cpp, calc/ResultTrajectory, quat_ops.h rot2rpy | `Eval/Model`, `Eval/SimRes`, `Eval/Record`, `Eval/Traj`, `Eval/Tables` (error_dataset.cpp, error_comparison.cpp), `Eval/Timing` (timing_flamegraph.cpp, timing_comparison.cpp, timing_percentages.cpp), `Eval/Hist` (timing_histogram.cpp), `Eval/Plot` (plot_trajectories.cpp, error_singlerun.cpp, python/pid_ros.py), `Ros/Live` (live_align_trajectory.cpp) | drawing of the figures, text syntax of the files (a row is its list of decimal numbers) |
| opencv_yaml_parse.h, StateOptions.h, VioManagerOptions.h, InertialInitializerOptions.h, FeatureInitializerOptions.h | Cfg/Model, Cfg/SimLoad (the simulator's parameters) | OpenCV's conversion of a node is an oracle; masks (their sizes: Cfg/Down), printing, topics; NaN checks |
| ov_core/utils/print.h, print.cpp | Util/Print | Android logging, the `__assert` override; `vprintf` is an input; levels that are no enumerator |
| ROS launch files, Matlab, docs | — | all |

## 4. Per-property plan

"inv." = invariant by induction over all histories; "alg." = algebraic identity; "deriv." = `HasDerivAt` along every direction;
"cex" = the code violates it; negation proved on a witness.

| Property | Model | Proof |
|---|---|---|
| C01 layout | State: variables with ids + covariance, all StateHelper operations | inv. `ids = prefix sums` |
| C02/C03 symmetric, PSD | State | each operation is a congruence plus PSD or a Schur complement; inv. |
| C04/C05/C13 marginalise, clone, query | State | block-index equalities |
| C06/C07/C09 update, propagation, initialise | State | matrix algebra against Mathlib `Matrix` formulas |
| C08 summed propagation | State/Accum | induction on the list of steps |
| C10 delayed initialisation | State + Givens | orthogonality of the Givens loop; case analysis of the gate |
| C11/C12 window, landmark marginalisation | State/Window | inv. over rounds |
| C14–C18, C67 feature database | Feat | refinement to an observation log; inv. |
| C19–C21 IMU selection, interpolation, buffer | Imu | induction on the buffer |
| C22 fast propagation cache | Prop | inv. over queries; cex |
| C23–C26, C68–C70 rotations | Quat, Types, State/PropsUnit | polynomial identities, trigonometry, deriv. |
| C27–C29, C34, C80 landmark representations | Land, Upd, Upd/Anchor | inverse functions, deriv.; cex for first estimates |
| C30/C31 nullspace, compression | Givens loops of any size | orthogonality invariant through both loops; push-through identity |
| C32/C33 cameras | Cam | deriv.; cex at the centre |
| C35/C36/C81 triangulation, refinement | Tri | kernel of Σ BᵀB; loop measure; deriv. |
| C37/C38/C73 intrinsics | Prop/Sensor | linear algebra; cex |
| C39/C74–C78 propagation | Prop | ODE uniqueness (Grönwall from Mathlib), deriv., inv. |
| C40/C82 preintegration | Cpi | inv. over intervals, ODE, deriv.; covariance rate by differentiating the Runge-Kutta step; covariance to fifth order by the general Runge-Kutta theorem (Base/Rk4) |
| C41/C42 selection, batching | Vio/Select | list lemmas, budgets by arithmetic; cex |
| C43/C89 manager over event sequences | Vio/Manager | inv. over events; cex |
| C44 zero velocity | Vio/Zupt | case analysis; no-change frame |
| C45/C88 threads | Vio/InitSm | transition systems, inv. over interleavings; cex races |
| C46/C47 camera queue | Ros | inv. over interleavings; order axioms |
| C48/C49/C63/C86 ids | Track/Ids | arithmetic; cex |
| C50–C53, C84, C85 initialisers | Init | real algebra, Lagrange multiplier argument, inv. of loops |
| C54–C59, C83 evaluation | Eval | loop invariants; trace inequality for orthogonal matrices; cex |
| C92 zero velocity residual and Jacobian | Vio/Zupt | exact whitened energy of the residual; entry-wise derivative along the filter's own correction, both directions |
| C93 high-rate prediction | Prop/Model (`fastStep`, `fastOut`, `fastPropagate`) | mean by rewriting; covariance by entry-wise derivatives along the filter's own correction; selection lemma for repeated times; findings by witness |
| C94 Runge-Kutta prediction | Prop/Model (`meanRk4`) | the step is the classical Runge-Kutta step of a smooth equation whose unit solutions are the true motion; general order-four theorem (Base/Rk4: Taylor expansions with remainders, existence by Picard-Lindelöf); algebra without rotation |
| C95 MSCKF update | Upd/Msckf, Upd/Stack, Upd/PropsView | stacking invariant (rows of each feature scattered to the full state), sums of Gram matrices over the loop, QR/null-space invariance (C30/C31), information form of the update (C06) |
| C96 SLAM landmark update | Upd/Slam, Upd/PropsSlam, Upd/PropsView | the stacking invariant of C95 with the landmark's columns last, per-kind noise, bearing projection for single depths; completion from the program invariant |
| C97 delayed initialisation as flat-prior posterior | State/PropsFlat | block inverses: the invertible part gives the flat-prior posterior of its rows, the remaining rows are an information-form update (C06), orthogonal rotation leaves GᵀG and Gᵀr unchanged |
| C98 UpdaterSLAM::delayed_init end to end | Upd/Slam, Upd/PropsDelay, Upd/PropsView | per feature C30 + C10 + C97 on the state with the new object; induction over the features with the program invariant |
| C99 orientation manifold | Mle/Model, Mle/PropsMan | half-angle identities; derivative of the stored quaternion; atan2 of sine and cosine |
| C100 reprojection factor | Mle/PropsMan | chain of derivatives (`HasDv`) through transform, projection and C33 |
| C101 preintegration factor | Mle/PropsImu, PropsImuB | derivatives of quaternion curves (`HasDq`) incl. the sign rule of the product; C82 for the first-order bias correction; cex for the two defects |
| C102 prior factor | Mle/PropsPrior, PropsPriorB | induction over the list of variables with the two running offsets; derivative of the logarithm through the right Jacobian; cex for the constant term |
| C103 starting point | Mle/Start, Mle/PropsStart | composition of preintegrations by induction on the readings; readings selected between camera times (C19); C101's zero set |
| C104 returned covariance | Mle/Start, Mle/PropsCov | entries by block; quadratic form split into that of the joint covariance and the inflated parts; cex for factors below one |
| C105 anchor changes on the state | Upd/AnchorState, Upd/PropsAnchorS | C29 and C80 on the view of the state; C07 for the covariance, with the transition matrix applied to an arbitrary error; induction over the landmarks |
| C106 whole frames | Vio/Frame, Vio/FrameLemmas, Vio/PropsFrame, Vio/PropsStream | the whole image path on the filter state: each stage shown to return and to keep the invariants of C01-C13, anchors (C105) and landmark cameras; induction over the events; for streams an invariant saying which readings the buffers still hold; the window as a suffix of the image times (Vio/PropsWindow) |
| C107 fixed calibration | Vio/FrameKeep, Vio/PropsStream | frame property of every operation on objects that are not variables, composed along the stages; induction over the events |
| C108 no measurement twice | Vio/Loop, Vio/LoopDb, Vio/LoopFrame, Vio/PropsLoop | invariant between images: used measurements are in no database, landmarks have no measurement in the window left; disjointness of the roles (C41); induction over the events; the updates as functions of the recorded measurements only |
| C109 nothing lost | Vio/PropsUsed | C41's selection on the databases of the closed loop; what the end of a frame removes |
| C110 state dimension | Vio/PropsBound | every step keeps each variable one of the constructor, a clone or a landmark; layout invariant for the sum; landmark budget of C41 |
| C111 an image from end to end | Vio/PropsImage | composition of the specifications of the parts along `updateAll`: marginalisations by marginals, window update by C95, batches by an inductive chain of C97 posteriors, anchor changes by a chain of C105 steps |
| C112 uncertainty is not raised except where modelled | State/PropsSure, Vio/PropsSure | Loewner order on joint covariances: each operation of the state (posterior below prior from C06/C14/C31, marginals of the rest unchanged from C07/C08/C10), then composition over the stages of an image (`Sure`), induction over streams; calibration as a corollary |
| C113 power on | Vio/Boot, Vio/PropsBoot | three phases (waiting, started, running) as invariants over the data that has come so far; retention of readings from their density; hand-over to the invariants of C108 |
| C114 catching up | Vio/CatchUp, Vio/PropsCatchUp | induction over the selected times with C78 for each; list lemmas for the selection |
| C115 descriptor tracker | Track/Desc, Track/PropsDesc | list lemmas for the matching; inv. over all histories |
| C116 active tracks | Tri/Retri, Tri/PropsRetri | induction over the history: the system of a feature is the sum over its kept rays; least squares as in C08 |
| C117, C118 configuration | Cfg/Model, Cfg/Props, Cfg/PropsCal, Cfg/PropsExample, Cfg/PropsMore | the loading as a computation that may end the program or clear the success flag; what a run that ends with the flag set implies; a complete example configuration |
| C119 published messages | Ros/Publish, Ros/PropsPublish | meaning of a message by Hamilton quaternions (Mathlib's); entry-wise copies; induction over calls; findings by reachable witnesses |
| C120 recorded simulations | Ros/Save, Eval/SimRes, Eval/PropsSimRes | columns as segments of a row with computed positions; value shown = rounded error of the named variable with its marginal deviation, for every reachable state; rounding error bounded; findings by reachable witnesses |
| C121 recording | Eval/Record, Eval/PropsRecord | induction over the messages; rounding bound per number; composed with C119 and the symmetry of the covariance (C02); cex for the digits |
| C122 errors by axis | Eval/Traj, Eval/PropsTraj | atan2 as argument of a complex number, its derivative through the wrap by the complex logarithm; Jacobian inverted in closed form; cex straight up |
| C123 evaluation | Eval/Traj, Eval/PropsTrajB | composition of the association (C54), alignment (C55-C57), segments (C59) and errors (C83, C122); length of the logarithm against the angle with bounds for its series; inverse of a positive definite matrix |
| C124 replay | Ros/Serial, Ros/PropsSerial | induction over the recording with an invariant of the used images; refinement of the callbacks of the replay to the model of C46; cex: image twice, last image |
| C125 ground truth file | Ros/Serial, Ros/PropsGt | fold over the sorted times; induction over the lines; cex: blank line |
| C126 simulated run | Vio/SimRun, Vio/PropsSimRun | invariant of the main loop (clocks, readings so far, buffered image) gives a stream of C108; composition with C90, C91, C108, C113 |
| C127 preintegration, local acceleration | Cpi/V2, Cpi/PropsV2, Cpi/PropsV2B, Cpi/PropsV2C | means reduced to C40's kinematics; derivative of the recursion as in C82; invariants of the 21-state covariance and transition (clone of the orientation, certain first orientation) for the rates; fifth-order bound of one step from the analytic Runge-Kutta lemma of C40 |
| C128 optimisation problem | Mle/Problem, Mle/SpecProblem, Mle/ProblemLemmas, Mle/PropsProblem | refinement: the pointers, index maps and vectors after each step are the image of a list of unknowns under an address map; the cost follows term by term; the selection's spacing (C84) shows that no lookup fails |
| C129 grid extraction | Track/Grid, Track/PropsGrid | list lemmas for the strongest of a cell; appends of the workers in any interleaving; membership of the chosen cells; whole detection by cells; cex |
| C130 perturbation | Sim/Perturb, Sim/PropsPerturb | heap of camera objects; frame lemma (addresses of the copies are above all addresses written); induction over the camera loop |
| C131 initialisation simulator | Sim/SimInit, Sim/PropsSimInit | same clocks as C60 (relation over call sequences); invariant of the bias history; cex |
| C132 tables | Eval/Tables, Eval/PropsTables | map by time as a sorted list, invariant over the insertions: the value at a time is the list of errors at that time in the order of the runs; counting with at most one error per run and time; cex |
| C133 zero velocity posterior | Vio/PropsRestPost | information form of the update (C06) of the uncompressed stack (C44): the sum over the blocks of rows is the length of the interval times the block of the mean reading (residual affine in the reading) |
| C134 live errors | Ros/Live, Ros/PropsLive | quaternion of the difference: trace gives the cosine of half the angle; equals the inverse of the error-state quaternion, hence the weighted error in terms of the filter's own error; invariant of the sums over the calls; cex |
| C135 live alignment | Ros/Live, Ros/PropsLive | the alignment found is a rotation (C57) and the map back is its inverse; pairs by C54, thinning by C119 |
| C136 tag tracker | Vio/Aruco, Vio/PropsAruco | induction over tags and corners for what one image stores; every interleaving keeps the calls of each worker in order (induction over the interleaving), and observations are per camera; discharges the assumptions of C108 on tags; cex |
| C137 timing files | Eval/Timing, Eval/Hist, Eval/PropsTiming, Eval/PropsHist | writer and loader as inverse up to `dec`; the columns filled row by row by induction over the rows; statistics by C58; every k-th element by induction with an offset |
| C138 percentages | Eval/Timing, Eval/Hist, Eval/PropsTiming, Eval/PropsHist | map from names to statistics as a function; induction over the directories; cex for equal stems |
| C139 figures of trajectories | Eval/Plot, Eval/PropsPlot | pairs by C54, alignment by C57/C135, length of a moved path by induction; cex for seven files |
| C140 single run | Eval/Plot, Eval/PropsPlot | composition of C123 and C58; times from the first |
| C138 recorder of the load | Eval/Plot, Eval/PropsPlot | writer (pid_ros.py) and loader as inverse up to `dec`, induction over the samples |
| C141 reported points | `Vio/Shown`: `get_features_SLAM`, `get_features_ARUCO`, `good_features_MSCKF` along a sequence of images | from the invariants of C106 (anchors exist) each landmark's position is the one of `Upd.Spec.xyz` and `world`; the used features are those of C95, distinct ids by C41; induction on the sequence for "since the last base camera" |
| C142 depth image | `Ros/Depth`: the loop over `active_tracks_uvd` with the 16-bit conversion as partial | invariant "shows the features so far" of the loop; depths at least 0.1 by C116; counterexample for far landmarks |
| C143 more cameras | `Sim/Points` with longer lists of cameras | induction over the cameras and frames: the map only grows; the first `num` projections of a list with a longer tail; counterexample: two cameras on a straight line, the order of the hash map reversed |
| C144 picture of the tracks | `Track/Show`: images as size and pixels, drawing arbitrary, OpenCV's size checks as `none` | induction over the cameras: earlier panels are kept, later ones untouched; the trail by induction on the index; negation: two sizes and a tracker of tags |
| C145 acceptance of refined points | `Tri/Model` `baseLine`, `baseMax`, `refine` | distance from a line as a minimum, by completing the square; the maximum over the observations by induction; any orthogonal basis gives the same length |
| C146 verbosity | Util/Print, Util/PropsPrint | a program's calls as a list; the level in force by induction over it; base name by induction over the path; the text of `vprintf` is an input |
| C147 trajectory file | Sim/File, Sim/PropsFile | `getline` as a function on characters; lines and words specified by concatenation, shown unique; `atof` is arbitrary |
| C148 initialised, distance travelled | Vio/Odo, Vio/PropsOdo, PropsOdoB | the manager's run with the two added members; a use is specified from the manager before the image; induction over the sequence |
| C149 start of the simulation | Sim/Start | the search of both simulators' constructors with a bound on its rounds; by induction it returns the first camera time with more than the threshold travelled, and no bound matters once it exceeds the trajectory |
| C150 features looked for | Vio/Wanted | the number is carried beside the manager of C113 (same runs, by induction); it changes only in the initialisation; started with ground truth it never does |
| C151 halved images | Cfg/Down, Cfg/PropsDown | the loaded camera with and without the option, both distortion models are linear in the four halved intrinsics; sizes by integer division; masks are halved twice (counterexample) |
| C152 start of a simulation | Cfg/SimLoad, Cfg/PropsSimLoad | as C117, with the simulator's tables; the three overwritten fields |
| C60/C90/C91 simulator | Sim | inv. over call sequences; list invariants of the map building |
| C61/C62 spline | Sim | sorted-map lemmas; deriv. of exponentials; joining of segments; exponential after logarithm for the placed control points |
| C64/C87 trackers | Track/Klt | list invariants |
| C65 disparity | Disp | refinement to the observation log; cex |
| C66/C71 orders and ids | State, Types | case analysis over all options |
| C72 camera objects | Upd/State | frame of the update |
| C79 stacked Jacobian | Upd/Rows, Upd/PropsFej | inv. of the column map, deriv. of the whole chain; at the first estimates when those are used |

## 5. Disagreements between the code and its documented or intended behaviour

Each is a theorem about the model (name in brackets) unless marked "text".

* Fast propagation applies the camera-IMU offset only to the first query [`C22_later_query_ignores_offset`, `C22_offset_dropped`].
* The covariance of the fast propagation ignores the inertial intrinsics that its mean uses [`C93_intrinsics_ignored`], the covariance of the
  reported local velocity omits the orientation error [`C93_local_velocity_ignores_orientation`], and a query back in time succeeds with a
  negative variance [`C93_backward_query`].
* First estimates of MSCKF and single inverse depth landmarks are ignored [`C27_fej_ignored`, `C27_fej_roundtrip_fails`].
* The fisheye Jacobian is zero at the optical centre [`C33_centre_wrong`].
* The full inverse depth Jacobian has the wrong sign once the stored polar angle is negative [`C34_full_negative_angle_wrong`].
* The discrete-mode Jacobian for the accelerometer intrinsics misses a factor `Dw` [`C38_discrete_da_block_wrong`].
* The small-rate series of `compute_Xi_sum` is not a solution of the kinematics (a term is twice too large) [`C39_small_rate_not_solution`];
  the preintegration's small-rate rotation is not orthogonal [`C40_small_rate_not_rotation`].
* `exp_so3` below 1e-7 rad is not exactly orthogonal [`C25_exp_small_angle_defect`].
* `StateHelper::initialize` uses the quantile for all rows, not for the rows tested [in `C10_initialize`].
* The initialiser's copy of the IMU selection misses the end point [`C19_selectInit_misses_end`].
* A negative `max_msckf_in_update` and a non-positive `max_slam_in_update` are undefined behaviour or an endless loop
  [`C41_negative_budget`, `C42_nonpositive_never_ends`]; one feature can have two roles in one update [`C41_overlap`].
* A stale image accepted as a zero velocity update sets the state's time back [`C43_stale_zero_velocity`].
* The zero velocity Jacobian ignores the inertial intrinsics: it is the derivative exactly when they are trivial [`C92_jacobian_exact_iff`,
  `C92_jacobian_wrong`].
* Ground truth initialisation can be overwritten by a running initialiser [`C45_gt_race`].
* The detached update thread of the ROS front ends holds a reference to a local variable [`C46_dangling_reference`].
* The SLAM updater treats three of the four corners of a tag as ordinary features [`C49_other_corners_wrong`]; the tag with id
  `max_aruco_features` is accepted and collides with tag 0 [`C86_corner_collision`].
* Trajectory association: a pose exactly at the tolerance blocks a better one [`C54_boundary_blocks`]; the check for too few
  associations looks at the wrong number [`C54_check_misses`].
* `align_trajectory` ignores the number of poses [`C57_number_of_poses_ignored`].
* `Statistics` never resets its sum of squares and its 99th percentile may exceed the maximum [`C58_rmse_accumulates`,
  `C58_ninetynine_exceeds_max`].
* The last row of a simulated trajectory is never used [`C61_last_row_unused`]; ground truth is not available for the frame just
  returned [`C90_truth_not_yet_available`].
* `change_feat_id` leaves the database under the old id [`C63_relabel_wrong`].
* The stereo KLT call does not check the left mask and has an off-by-one bound [`C64_left_bound_wrong`]; its right mask starts from the
  left one (text, TrackKLT.cpp:721).
* `compute_disparity` reports a single displacement instead of -1/-1/0 [`C65_degenerate_falls_through`].
* The `State` constructor's default intrinsics are singular for the rpng layout [`C73_constructor_default`].
* The clone window, the propagator buffer and the zero velocity buffer are accessed without the lock in places [`C88_races`].
* The reading discard time does not contain the camera-IMU offset [`C89_negative_offset_wrong`].
* The preintegration factor's Jacobian for the first orientation has the wrong sign when a quaternion product changes sign [`C101_sign_defect`],
  and the one for the gyroscope bias leaves out the normalisation away from the linearisation point [`C101_bias_jacobian_defect`].
* The prior factor's Jacobian is not the derivative of its residual at orientations 1e-4 rad from the linearisation point, where `log_so3` is an approximation,
  nor a half turn from it, where the residual is locally constant along the axis and the Jacobian is -1
  [`C102_small_angle_counterexample`, `C102_half_turn_counterexample`].
* The prior factor's constant term is `sqrtI⁻¹ grad`, not the documented solution of `sqrtIᵀ b = grad` [`C102_gradient_defect`].
* Inflation factors below one can make the covariance returned by the dynamic initialiser indefinite [`C104_deflation`]. (Read, not modelled: when the covariance recovery fails the initialiser returns false but has already overwritten the caller's IMU state, DynamicInitializer.cpp:921-923 before 1012-1017.)
* Between a successful initialisation and the first processed image, readings are kept relative to the newest reading and not to the state: after a long enough gap the readings from the start on are gone [`C113_gap`].
* A dynamic initialisation that fails late has already overwritten the IMU state (text, DynamicInitializer.cpp:907-1016; the model's `Out.bad`, covered by C113). The static initialiser's time is on the IMU clock but becomes the state's time, which is on the
  camera clock (text, StaticInitializer.cpp:134; the bounds in C113 hold nevertheless). The zero velocity updater gets no readings before the first processed image, and the tag tracker is not given that image (text, VioManager.cpp:166-189, 277-300).
* With `downsample_cameras` and `use_mask` no mask file works. The mask is compared with the halved size when it is loaded (VioManagerOptions.h:295) and halved again with each image (VioManager.cpp:276), so a mask of the images' size ends the program, and the accepted one is a quarter of the images' width while the trackers look up the pixels of images of half the width [`C151_mask_halved_twice`, `C151_mask_counterexample`].
* Started with ground truth (`initialize_with_gt`, used by the ROS 1 serial reader), the trackers go on looking for `init_max_features` instead of `num_pts` features [`C150_ground_truth_never_raised`, `C150_ground_truth_counterexample`].
* Two images of the same time that came during a background initialisation end the program, although the running filter accepts them [`C114_equal_times`].
* The descriptor tracker's stereo detection reads its occupancy grids but never writes them, so points are not kept apart [`C115_stereo_not_apart`]; its ratio test accepts ambiguous candidates at distance zero [`C115_ambiguous_zero`]; an
  image of one camera between two pairs ends the program by an assertion [`C115_mixed_ends`].
* If several cameras of one image see a feature, the reported active track uses only one of their rays (the first camera's in the first image of the track, the last camera's afterwards), so it is not the point nearest to the rays
  [`C116_stereo_drops_rays`].
* A misspelled representation of features is accepted and becomes `UNKNOWN` (StateOptions.h:130-138) [`C117_misspelled_representation`]; a misspelled distortion model
  becomes radial-tangential (VioManagerOptions.h:272-278) [`C117_misspelled_distortion`]; an incomplete matrix is filled from the identity without a warning
  (opencv_yaml_parse.h:462-468, 512-518) [`C117_incomplete_pose`].
* The covariance of the published orientation is about the axes of the IMU, while receivers of the ROS messages take it about the fixed axes of the
  header's frame [`C119_orientation_axes`].
* The odometry published at the time of an inertial reading is, right after an update, predicted for that time plus the camera-IMU offset
  [`C119_odometry_clock`]; loop closure messages are stamped in the clock of the camera, poses in that of the IMU [`C119_loop_closure`,
  `C119_state_pose`].
* Once the path is downsampled the newest pose may be missing from it [`C119_path_newest`].
* Recording a simulated run writes four deviations for the sensor rotation, which has three degrees of freedom. If only the intrinsics of
  the inertial sensor are calibrated, the fourth is read outside the covariance until there is a clone [`C120_save_out_of_range`,
  `C120_saved_iff`]. With the calibrated model this column is also not the one the evaluation would expect; it is not shown.
* A recorded deviation below half of the last written digit is read as zero, which the evaluation takes for "not calibrated" and then shows
  nothing [`C120_small_deviation`].
* A frame whose truth the simulator cannot give has a line in two of the three files only, and the evaluation refuses the files
  [`C120_missing_truth`].
* Preintegration, small rates: with a corrected rate between zero and the threshold the bias Jacobians are those of a formula other than the one that was integrated (`C82_small_rate_wrong`).
* Recorder: covariances are written with ten digits after the point. A positive definite covariance with standard deviations near 1e-5 can be read back as an indefinite matrix (`C121_covariance_lost`), and the NEES computed from it is meaningless.
* `rot2rpy` with the first axis straight up (pitch of minus a quarter turn) returns the roll with the wrong sign: turning by the returned angles does not give the rotation back (C122_angles_up_wrong). Straight down it does.
* `calculate_error` shows twice the vector part of the error quaternion as the orientation error; that is the chord, not the angle: an error of half a turn is shown as 114.6 degrees (C122_values).
* `ros1_serial_msckf.cpp` does not look at the images used before when it searches the image of the other camera: an image may be delivered twice (C124_image_twice).
* `ros1_serial_msckf.cpp` stops at the time of the last image, so no IMU reading after it comes and the last image is never processed if the estimated offset is not negative (C124_last_image).
* `load_gt_file` reads a blank line as a state at time 0 with all values zero (C125_blank_line).
* The first simulated image replaces the zero velocity updater and with it the IMU readings it had buffered (VioManager.cpp:199-214, modelled in `recast`): the first zero velocity test of a simulation sees no readings.
* The first column of the closed-form Jacobian of the velocity with respect to the gyroscope's bias adds the gravity term with the wrong
  sign (CpiV2.cpp:236-238, `- -H_be`), and the position's Jacobian inherits it (C127_first_axis_wrong). Only with
  `state_transition_jacobians` off.
* When the dynamic initialiser optimises the calibration (`init_dyn_mle_opt_calib`), the states returned belong to the optimised calibration, which is
  dropped (DynamicInitializer.cpp:969-976, a TODO in the source); C128 states what is returned.
* With fewer features than grid cells, `Grider_GRID` searches the locations chosen in the user's grid in another, smaller grid, so that empty cells are not searched
  [`C129_small_budget_counterexample`]. Also: the strip left by the integer division is never searched [`C129_strip_never_searched`], corners under the mask use up the number of their cell
  [`C129_masked_budget_counterexample`], the mask of a cell is that of one pixel [`C129_first_pixel_counterexample`], and more features than the maximum may be returned
  [`C129_exceeds_number_counterexample`].
* The initialisation simulator moves its biases after making a reading and stores the moved ones under the reading's time, so its
  ground truth is one bias step late [`C131_truth_one_step_late_counterexample`]; with the perturbation on, the history of the biases
  starts with zeros because it is written before the biases are drawn [`C131_perturbed_history_counterexample`].
* The tables of relative errors show an algorithm without runs, or with runs too short for a segment, with errors 0.000 / 0.000, where
  the tables of absolute errors show it as empty [`C132_no_runs_counterexample`].
* The orientation error shown during a run is twice the length of the vector part of the difference quaternion. That is twice the sine of half the angle, not the
  angle: 115 degrees for an estimate that is half a turn off [`C134_half_turn_counterexample`].
* A tag found twice in one image, or the tags numbered `max_aruco_features` and 0 together, give one feature two observations by one
  camera at one time [`C136_twice_counterexample`]. Outside the model: the parallel workers of `TrackAruco` insert into
  `ids_aruco`, `corners` and `rejects` with `operator[]` without a common lock, a data race at the first image of each camera.
* `timing_percentages` keys its statistics by the name of the directory without its last extension, so the recordings of `prog.1` are
  also counted for `prog.2` (`error_comparison` uses the full name) [`C138_same_stem_counterexample`].
* `timing_flamegraph` divides by zero when its second argument is zero or not a number [`C137_plot`].
* `plot_trajectories` has six colours but its usage names nine estimates: with six or more the program throws before a figure is shown [`C139_seven_counterexample`].
* `publish_loopclosure_information` converts `1000 * depth` to `uint16_t`. The depth of a landmark has no upper limit, so from 65.536 m on the conversion is undefined behaviour (C142_far_counterexample).
* The note in both simulators that the first camera gets the same measurements when cameras are added is not kept: points of the added cameras may be visible to the first one, and the order of `std::unordered_map` decides which are reported (C143_order_counterexample).
* With cameras of different image sizes and a tracker of tags `get_historical_viz_image` throws: the second tracker takes the whole panel as its image, which has neither the size of the mask nor that of the rectangle it is copied to (C144).
* A comment in a trajectory file of the simulator is recognised by its first character only: an indented comment of at least eight words is
  read as a pose (dataset_reader.h:196, C147_indented_comment).
* Just after a control point the pose of the simulated trajectory is computed with a truncated exponential (quat_ops.h:342-351, angle below
  1e-7): it is not exactly a rotation, and the reported angular velocity is not exactly its derivative [`C62_truncated_counterexample`]. The
  difference is below the precision of a double.
* All simulated cameras draw their noise from generators with the same seed (text, Simulator.cpp:137-140); the last frame of a
  simulation is never given to the filter (run_simulation.cpp:157-175, C126_run).
