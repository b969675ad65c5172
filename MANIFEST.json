{
 "claims": [
  {
   "property": "C01",
   "status": "proved",
   "theorems": [
    "Verif.St.C01_layout",
    "Verif.St.C01_example"
   ],
   "note": ""
  },
  {
   "property": "C02",
   "status": "proved",
   "theorems": [
    "Verif.St.C02_covariance_symmetric"
   ],
   "note": ""
  },
  {
   "property": "C03",
   "status": "proved",
   "theorems": [
    "Verif.St.C03_covariance_psd",
    "Verif.St.C03_propagation_returns",
    "Verif.St.C03_update_returns"
   ],
   "note": ""
  },
  {
   "property": "C04",
   "status": "proved",
   "theorems": [
    "Verif.St.C04_marginalize",
    "Verif.St.C04_marginalize_returns"
   ],
   "note": ""
  },
  {
   "property": "C05",
   "status": "proved",
   "theorems": [
    "Verif.St.C05_clone",
    "Verif.St.C05_clone_then_marginalize"
   ],
   "note": ""
  },
  {
   "property": "C06",
   "status": "proved",
   "theorems": [
    "Verif.St.C06_update_is_kalman",
    "Verif.St.C06_information_form"
   ],
   "note": ""
  },
  {
   "property": "C07",
   "status": "proved",
   "theorems": [
    "Verif.St.C07_propagation"
   ],
   "note": ""
  },
  {
   "property": "C08",
   "status": "proved",
   "theorems": [
    "Verif.St.C08_summed_propagation",
    "Verif.St.C08_returns"
   ],
   "note": ""
  },
  {
   "property": "C09",
   "status": "proved",
   "theorems": [
    "Verif.St.C09_initialize_invertible",
    "Verif.St.C09_returns"
   ],
   "note": ""
  },
  {
   "property": "C10",
   "status": "proved",
   "theorems": [
    "Verif.St.C10_initialize",
    "Verif.St.C10_returns"
   ],
   "note": "The gate compares with the quantile for the number of all rows, not only of the rows tested (in the theorem's statement)."
  },
  {
   "property": "C11",
   "status": "proved",
   "theorems": [
    "Verif.St.C11_window",
    "Verif.St.C11_oldest_removed",
    "Verif.St.C11_example"
   ],
   "note": ""
  },
  {
   "property": "C12",
   "status": "proved",
   "theorems": [
    "Verif.St.C12_marginalize_slam"
   ],
   "note": ""
  },
  {
   "property": "C13",
   "status": "proved",
   "theorems": [
    "Verif.St.C13_marginal_blocks",
    "Verif.St.C13_resolves",
    "Verif.St.C13_full",
    "Verif.St.C13_set_then_get"
   ],
   "note": ""
  },
  {
   "property": "C14",
   "status": "proved",
   "theorems": [
    "Verif.Feat.C14_tracks_aligned"
   ],
   "note": ""
  },
  {
   "property": "C15",
   "status": "proved",
   "theorems": [
    "Verif.Feat.C15_database_is_observation_log"
   ],
   "note": ""
  },
  {
   "property": "C16",
   "status": "proved",
   "theorems": [
    "Verif.Feat.C16_features_not_containing_newer",
    "Verif.Feat.C16_features_containing_older",
    "Verif.Feat.C16_features_containing"
   ],
   "note": ""
  },
  {
   "property": "C17",
   "status": "proved",
   "theorems": [
    "Verif.Feat.C17_cleanup_measurements",
    "Verif.Feat.C17_cleanup_measurements_exact",
    "Verif.Feat.C17_clean_feature"
   ],
   "note": ""
  },
  {
   "property": "C18",
   "status": "proved",
   "theorems": [
    "Verif.Feat.C18_append"
   ],
   "note": ""
  },
  {
   "property": "C19",
   "status": "proved",
   "theorems": [
    "Verif.Imu.C19_select",
    "Verif.Imu.C19_select_stretch",
    "Verif.Imu.C19_selectInit",
    "Verif.Imu.C19_selectInit_misses_end",
    "Verif.Imu.C19_select_nothing"
   ],
   "note": "Readings closer than 1e-12 s are merged by the code, as the theorem says. The initialiser's own copy of the selection misses the end point (C19_selectInit_misses_end)."
  },
  {
   "property": "C20",
   "status": "proved",
   "theorems": [
    "Verif.Imu.C20_interpolate"
   ],
   "note": ""
  },
  {
   "property": "C21",
   "status": "proved",
   "theorems": [
    "Verif.Imu.C21_buffer",
    "Verif.Imu.C21_buffer_init"
   ],
   "note": ""
  },
  {
   "property": "C22",
   "status": "partial",
   "theorems": [
    "Verif.Prop_.C22_first_query",
    "Verif.Prop_.C22_every_query_partial",
    "Verif.Prop_.C22_later_query_ignores_offset",
    "Verif.Prop_.C22_offset_dropped"
   ],
   "note": "Proved for the first query and for a zero camera-IMU offset. With a non-zero offset the claim is false of the code: C22_later_query_ignores_offset, C22_offset_dropped."
  },
  {
   "property": "C23",
   "status": "proved",
   "theorems": [
    "Verif.QuatProps.C23_quat_multiply",
    "Verif.QuatProps.C23_quat_inverse",
    "Verif.QuatProps.C23_quat_group"
   ],
   "note": ""
  },
  {
   "property": "C24",
   "status": "proved",
   "theorems": [
    "Verif.QuatProps.C24_rotation_round_trip",
    "Verif.QuatProps.C24_quaternion_round_trip"
   ],
   "note": ""
  },
  {
   "property": "C25",
   "status": "proved",
   "theorems": [
    "Verif.QuatProps.C25_exp_rotation",
    "Verif.QuatProps.C25_exp_small_angle_defect",
    "Verif.QuatProps.C25_log_exp",
    "Verif.QuatProps.C25_se3",
    "Verif.QuatProps.C25_skew_vee",
    "Verif.C25_log_exp_small",
    "Verif.QuatProps.C25_axis_angle",
    "Verif.QuatProps.C25_exp_log",
    "Verif.QuatProps.C25_se3_exp_log"
   ],
   "note": "Between 0 and 1e-7 rad, excluded in the statement, exp_so3 is not exactly a rotation (C25_exp_small_angle_defect)."
  },
  {
   "property": "C26",
   "status": "proved",
   "theorems": [
    "Verif.St.C26_history",
    "Verif.St.C26_history_unit",
    "Verif.St.C26_history_canon",
    "Verif.Types.C26_quat_updates",
    "Verif.Types.C26_pose_updates",
    "Verif.Types.C26_imu_updates",
    "Verif.Types.C26_construct_set_clone",
    "Verif.Types.C26_flat_update"
   ],
   "note": "Per object (cached rotations included) and for the whole filter state over any history of operations (C26_history)."
  },
  {
   "property": "C27",
   "status": "partial",
   "theorems": [
    "Verif.Land.C27_value_roundtrip",
    "Verif.Land.C27_fej_roundtrip_partial",
    "Verif.Land.C27_fej_ignored",
    "Verif.Land.C27_fej_roundtrip_fails",
    "Verif.Land.C27_update_keeps_fej"
   ],
   "note": "Round trip of the estimate proved for all representations; of the first estimate only for Cartesian and full inverse depth. False for the other two: C27_fej_ignored, C27_fej_roundtrip_fails."
  },
  {
   "property": "C28",
   "status": "proved",
   "theorems": [
    "Verif.Land.C28_roundtrip",
    "Verif.Land.C28_names_distinct",
    "Verif.Land.C28_parse",
    "Verif.Land.C28_unknown",
    "Verif.Land.C28_relative",
    "Verif.Land.C28_relative_name"
   ],
   "note": ""
  },
  {
   "property": "C29",
   "status": "partial",
   "theorems": [
    "Verif.Upd.C29_position",
    "Verif.Upd.C29_fej_position_partial",
    "Verif.Upd.C29_anchors_live"
   ],
   "note": "Estimate and live anchors proved for all representations; first-estimate position for the Cartesian and spherical forms (the other two do not store a first estimate, see C27_fej_ignored)."
  },
  {
   "property": "C30",
   "status": "proved",
   "theorems": [
    "Verif.Upd.C30_projection",
    "Verif.Upd.C30_feature_invisible"
   ],
   "note": ""
  },
  {
   "property": "C31",
   "status": "proved",
   "theorems": [
    "Verif.Upd.C31_information",
    "Verif.Upd.C31_same_update"
   ],
   "note": ""
  },
  {
   "property": "C32",
   "status": "proved",
   "theorems": [
    "Verif.Cam.C32_radtan_jacobian"
   ],
   "note": ""
  },
  {
   "property": "C33",
   "status": "partial",
   "theorems": [
    "Verif.Cam.C33_equi_jacobian_partial",
    "Verif.Cam.C33_centre_wrong",
    "Verif.Cam.C33_centre_not_derivative"
   ],
   "note": "Proved everywhere outside 1e-8 of the optical centre; at the centre the code returns the zero matrix (C33_centre_wrong, C33_centre_not_derivative)."
  },
  {
   "property": "C34",
   "status": "partial",
   "theorems": [
    "Verif.Upd.C34_anchored_partial",
    "Verif.Upd.C34_global_partial",
    "Verif.Upd.C34_full_negative_angle_wrong"
   ],
   "note": "Proved for all representations on the regular parameter range (Spec.Chart). Outside it, after an update carried the stored polar angle below zero, the code's matrix is not the derivative (C34_full_negative_angle_wrong)."
  },
  {
   "property": "C35",
   "status": "proved",
   "theorems": [
    "Verif.Tri.C35_anchor",
    "Verif.Tri.C35_least_squares",
    "Verif.Tri.C35_exact",
    "Verif.Tri.C35_depth_least_squares",
    "Verif.Tri.C35_depth_exact"
   ],
   "note": ""
  },
  {
   "property": "C36",
   "status": "proved",
   "theorems": [
    "Verif.Tri.C36_terminates",
    "Verif.Tri.C36_terminates_always",
    "Verif.Tri.C36_multiplier_one_diverges",
    "Verif.Tri.C36_no_worse"
   ],
   "note": "A multiplier of one, excluded in the statement, diverges (C36_multiplier_one_diverges)."
  },
  {
   "property": "C37",
   "status": "proved",
   "theorems": [
    "Verif.Prop_.C37_correction_inverts_simulator"
   ],
   "note": ""
  },
  {
   "property": "C38",
   "status": "partial",
   "theorems": [
    "Verif.Prop_.C38_intrinsic_jacobians_partial",
    "Verif.Prop_.C38_discrete_da_block_wrong"
   ],
   "note": "First sentence proved for both layouts. The second sentence is false of the code: the discrete-mode block misses a factor Dw (C38_discrete_da_block_wrong)."
  },
  {
   "property": "C39",
   "status": "partial",
   "theorems": [
    "Verif.Prop_.C39_analytic_solves_kinematics_partial",
    "Verif.Prop_.C39_solution_exists",
    "Verif.Prop_.C39_small_rate_not_solution"
   ],
   "note": "Proved for rates of at least half a degree per second; below it the code's series is not a solution (C39_small_rate_not_solution)."
  },
  {
   "property": "C40",
   "status": "partial",
   "theorems": [
    "Verif.Cpi.C40_total_time",
    "Verif.Cpi.C40_symmetric",
    "Verif.Cpi.C40_rotation_partial",
    "Verif.Cpi.C40_small_rate_not_rotation",
    "Verif.Cpi.C40_kinematics_partial",
    "Verif.Cpi.C40_subdivision_partial",
    "Verif.Cpi.C40_covariance_rate_partial",
    "Verif.Cpi.C40_covariance_order_partial"
   ],
   "note": "Total time and symmetry proved for all sequences; rotation, kinematics and subdivision for rates that are zero or at least the threshold; in between false: C40_small_rate_not_rotation. The covariance step is within O(dt^5) of the solution of the Lyapunov equation of the linear error dynamics (C40_covariance_order_partial), for the same rates."
  },
  {
   "property": "C41",
   "status": "partial",
   "theorems": [
    "Verif.Vio.C41_selection",
    "Verif.Vio.C41_landmark_budget",
    "Verif.Vio.C41_one_role_partial",
    "Verif.Vio.C41_msckf_budget",
    "Verif.Vio.C41_negative_budget",
    "Verif.Vio.C41_overlap"
   ],
   "note": "Selection, landmark budget and MSCKF budget proved; the single-role claim needs tracks of landmarks to be consumed (false otherwise: C41_overlap), and a negative budget is undefined behaviour (C41_negative_budget)."
  },
  {
   "property": "C42",
   "status": "partial",
   "theorems": [
    "Verif.Vio.C42_batches_partial",
    "Verif.Vio.C42_nonpositive_never_ends"
   ],
   "note": "Proved for every positive batch size; for a non-positive one the claim is false (C42_nonpositive_never_ends)."
  },
  {
   "property": "C43",
   "status": "partial",
   "theorems": [
    "Verif.Vio.C43_time_monotone_partial",
    "Verif.Vio.C43_in_order",
    "Verif.Vio.C43_stale_zero_velocity"
   ],
   "note": "Proved without zero velocity updates, and with them for images in order (C43_in_order). A stale image accepted as a zero velocity update sets the time back (C43_stale_zero_velocity)."
  },
  {
   "property": "C44",
   "status": "proved",
   "theorems": [
    "Verif.Vio.C44_zero_velocity",
    "Verif.Vio.C44_rest_accepted"
   ],
   "note": ""
  },
  {
   "property": "C45",
   "status": "proved",
   "theorems": [
    "Verif.Vio.C45_state_machine",
    "Verif.Vio.C45_stays_initialised",
    "Verif.Vio.C45_move_forward",
    "Verif.Vio.C45_gt_race"
   ],
   "note": "Initialisation from ground truth is outside the statement; it can be overwritten by a running initialiser (C45_gt_race)."
  },
  {
   "property": "C46",
   "status": "partial",
   "theorems": [
    "Verif.Ros.C46_queue_discipline_partial",
    "Verif.Ros.C46_batch_complete",
    "Verif.Ros.C46_join_safe",
    "Verif.Ros.C46_dangling_reference"
   ],
   "note": "Proved for every interleaving up to the first undefined behaviour; the detached thread's dangling reference (C46_dangling_reference) is what is missing. The guaranteed part without it: C46_join_safe."
  },
  {
   "property": "C47",
   "status": "proved",
   "theorems": [
    "Verif.Ros.C47_strict_weak_order",
    "Verif.Ros.C47_empty_ids_undefined"
   ],
   "note": ""
  },
  {
   "property": "C48",
   "status": "proved",
   "theorems": [
    "Verif.Track.C48_id_ranges"
   ],
   "note": ""
  },
  {
   "property": "C49",
   "status": "partial",
   "theorems": [
    "Verif.Track.C49_tag_settings_partial",
    "Verif.Track.C49_other_corners_wrong"
   ],
   "note": "Right for first corners and tracked features, wrong for the other three corners of every tag but tag 0 (C49_other_corners_wrong)."
  },
  {
   "property": "C50",
   "status": "proved",
   "theorems": [
    "Verif.Init.C50_gram_schmidt"
   ],
   "note": ""
  },
  {
   "property": "C51",
   "status": "proved",
   "theorems": [
    "Verif.Init.C51_roots",
    "Verif.Init.C51_companion"
   ],
   "note": ""
  },
  {
   "property": "C52",
   "status": "proved",
   "theorems": [
    "Verif.Init.C52_choice"
   ],
   "note": ""
  },
  {
   "property": "C53",
   "status": "proved",
   "theorems": [
    "Verif.Init.C53_windows",
    "Verif.Init.C53_result"
   ],
   "note": ""
  },
  {
   "property": "C54",
   "status": "partial",
   "theorems": [
    "Verif.Eval.C54_monotone_injective",
    "Verif.Eval.C54_nearest_partial",
    "Verif.Eval.C54_boundary_blocks",
    "Verif.Eval.C54_lists",
    "Verif.Eval.C54_check_misses"
   ],
   "note": "Monotone, injective, within tolerance, equal lengths: proved. Nearest-match part without pairs exactly at the tolerance; there it is false (C54_boundary_blocks). The size check misses empty results (C54_check_misses)."
  },
  {
   "property": "C55",
   "status": "proved",
   "theorems": [
    "Verif.Eval.C55_se3_single",
    "Verif.Eval.C55_posyaw_single"
   ],
   "note": ""
  },
  {
   "property": "C56",
   "status": "proved",
   "theorems": [
    "Verif.Eval.C56_posyaw_optimal"
   ],
   "note": ""
  },
  {
   "property": "C57",
   "status": "proved",
   "theorems": [
    "Verif.Eval.C57_se3_optimal",
    "Verif.Eval.C57_sim3_optimal",
    "Verif.Eval.C57_number_of_poses_ignored"
   ],
   "note": "align_trajectory ignores the requested number of poses (C57_number_of_poses_ignored)."
  },
  {
   "property": "C58",
   "status": "partial",
   "theorems": [
    "Verif.Eval.C58_order_statistics",
    "Verif.Eval.C58_rmse_fresh_partial",
    "Verif.Eval.C58_rmse_accumulates",
    "Verif.Eval.C58_ninetynine_exceeds_max",
    "Verif.Eval.C58_order_irrelevant"
   ],
   "note": "Order statistics, mean and variance proved. Root mean square only for a new object (false afterwards: C58_rmse_accumulates); the 99th percentile can exceed the maximum (C58_ninetynine_exceeds_max)."
  },
  {
   "property": "C59",
   "status": "proved",
   "theorems": [
    "Verif.Eval.C59_segment_search"
   ],
   "note": ""
  },
  {
   "property": "C60",
   "status": "proved",
   "theorems": [
    "Verif.Sim.C60_streams",
    "Verif.Sim.C60_loop_ends",
    "Verif.Sim.C60_start_on_spline"
   ],
   "note": ""
  },
  {
   "property": "C61",
   "status": "proved",
   "theorems": [
    "Verif.Sim.C61_between_rows",
    "Verif.Sim.C61_bounding_poses",
    "Verif.Sim.C61_control_point_bracket",
    "Verif.Sim.C61_control_points",
    "Verif.Sim.C61_last_row_unused"
   ],
   "note": "Finding beside the claim: the last trajectory row is never used (C61_last_row_unused)."
  },
  {
   "property": "C62",
   "status": "partial",
   "theorems": [
    "Verif.Sim.C62_velocity_partial",
    "Verif.Sim.C62_acceleration_partial",
    "Verif.Sim.C62_smooth_times",
    "Verif.Sim.C62_right_derivative",
    "Verif.Sim.C62_truncated_counterexample"
   ],
   "note": "Proved at all times (also at control points) where no truncated small-angle series takes part (C62_smooth_times lists them); from the right at every control point, also the first with a pose (C62_right_derivative). At times just after a control point where the last scaled rotation is in (0, 1e-7) the claim is false of the code (C62_truncated_counterexample), by less than the rounding of a double."
  },
  {
   "property": "C63",
   "status": "partial",
   "theorems": [
    "Verif.Track.C63_ids_unique_partial",
    "Verif.Track.C63_relabel_wrong"
   ],
   "note": "Uniqueness of drawn ids proved for all interleavings. Relabelling is false of the code (C63_relabel_wrong)."
  },
  {
   "property": "C64",
   "status": "proved",
   "theorems": [
    "Verif.Track.C64_lists_paired",
    "Verif.Track.C64_no_reuse",
    "Verif.Track.C64_remembers_image",
    "Verif.Track.C64_same_feature",
    "Verif.Track.C64_follows_mono",
    "Verif.Track.C64_follows_stereo",
    "Verif.Track.C64_left_bound_wrong",
    "Verif.Track.C64_observed_mono",
    "Verif.Track.C64_observed_stereo",
    "Verif.Track.C64_stored_mono",
    "Verif.Track.C64_stored_stereo"
   ],
   "note": "Finding beside the claim: the left bound and mask are not checked in the stereo call (C64_left_bound_wrong)."
  },
  {
   "property": "C65",
   "status": "partial",
   "theorems": [
    "Verif.Disp.C65_two_images_partial",
    "Verif.Disp.C65_window_partial",
    "Verif.Disp.C65_degenerate_falls_through"
   ],
   "note": "Proved when at least two pairs are common; with exactly one the documented -1/-1/0 is not reported (C65_degenerate_falls_through)."
  },
  {
   "property": "C66",
   "status": "proved",
   "theorems": [
    "Verif.Prop_.C66_columns",
    "Verif.St.C66_phi_order"
   ],
   "note": ""
  },
  {
   "property": "C67",
   "status": "proved",
   "theorems": [
    "Verif.Feat.C67_oldest_timestamp"
   ],
   "note": ""
  },
  {
   "property": "C68",
   "status": "proved",
   "theorems": [
    "Verif.QuatProps.C68_exp_log"
   ],
   "note": ""
  },
  {
   "property": "C69",
   "status": "proved",
   "theorems": [
    "Verif.QuatProps.C69_update_first_order"
   ],
   "note": ""
  },
  {
   "property": "C70",
   "status": "proved",
   "theorems": [
    "Verif.QuatProps.C70_so3_jacobians"
   ],
   "note": ""
  },
  {
   "property": "C71",
   "status": "proved",
   "theorems": [
    "Verif.Types.C71_local_ids",
    "Verif.Types.C71_new_clone",
    "Verif.Types.C71_values_keep_ids",
    "Verif.Types.C71_cover"
   ],
   "note": ""
  },
  {
   "property": "C72",
   "status": "proved",
   "theorems": [
    "Verif.St.C72_cameras_follow_intrinsics"
   ],
   "note": ""
  },
  {
   "property": "C73",
   "status": "proved",
   "theorems": [
    "Verif.Prop_.C73_loaded_intrinsics",
    "Verif.Prop_.C73_constructor_default"
   ],
   "note": "The constructor default is singular for the rpng layout before loading (C73_constructor_default)."
  },
  {
   "property": "C74",
   "status": "partial",
   "theorems": [
    "Verif.Prop_.C74_transition_is_jacobian_analytic",
    "Verif.Prop_.C74_transition_is_jacobian_discrete_partial"
   ],
   "note": "Analytic integration: proved in full. Discrete: proved when line 928 does not matter and for rotation angles in [1e-3, pi-1e-4]; in general false (C38_discrete_da_block_wrong)."
  },
  {
   "property": "C75",
   "status": "proved",
   "theorems": [
    "Verif.Prop_.C75_yaw_direction",
    "Verif.Prop_.C75_step_keeps_unobservable",
    "Verif.Prop_.C75_propagation_keeps_unobservable"
   ],
   "note": ""
  },
  {
   "property": "C76",
   "status": "proved",
   "theorems": [
    "Verif.Prop_.C76_process_noise",
    "Verif.Prop_.C76_walk_additive",
    "Verif.Prop_.C76_fast_noise",
    "Verif.Prop_.C76_noise_enters_like_bias"
   ],
   "note": ""
  },
  {
   "property": "C77",
   "status": "proved",
   "theorems": [
    "Verif.Prop_.C77_prediction_keeps_unit",
    "Verif.Prop_.C77_propagation_keeps_unit"
   ],
   "note": ""
  },
  {
   "property": "C78",
   "status": "proved",
   "theorems": [
    "Verif.Prop_.C78_propagate_and_clone",
    "Verif.Vio.C78_image_completes"
   ],
   "note": ""
  },
  {
   "property": "C79",
   "status": "proved",
   "theorems": [
    "Verif.Upd.C79_stacked_jacobian",
    "Verif.Upd.C79_returns",
    "Verif.Upd.C79_first_estimates"
   ],
   "note": "All representations and calibration options; with and without first-estimate Jacobians (C79_first_estimates says at which point each factor is differentiated)."
  },
  {
   "property": "C80",
   "status": "partial",
   "theorems": [
    "Verif.Upd.C80_covariance",
    "Verif.Upd.C80_covariance_single_partial"
   ],
   "note": "Proved for the three-parameter representations. For the single depth only the component along the ray can be represented."
  },
  {
   "property": "C81",
   "status": "proved",
   "theorems": [
    "Verif.Tri.C81_jacobian",
    "Verif.Tri.C81_system"
   ],
   "note": ""
  },
  {
   "property": "C82",
   "status": "partial",
   "theorems": [
    "Verif.Cpi.C82_bias_jacobians_partial",
    "Verif.Cpi.C82_small_rate_wrong"
   ],
   "note": "Proved for intervals with a corrected rate that is zero or above the small-rate threshold. For small rates in between the claim is false of the code, C82_small_rate_wrong."
  },
  {
   "property": "C83",
   "status": "proved",
   "theorems": [
    "Verif.Eval.C83_rpe_frame_independent",
    "Verif.Eval.C83_rpe_zero",
    "Verif.Eval.C83_exact_alignment"
   ],
   "note": ""
  },
  {
   "property": "C84",
   "status": "proved",
   "theorems": [
    "Verif.Init.C84_selection"
   ],
   "note": ""
  },
  {
   "property": "C85",
   "status": "proved",
   "theorems": [
    "Verif.Init.C85_constrained_minimiser",
    "Verif.Init.C85_root_unique",
    "Verif.Init.C85_exact_recovery",
    "Verif.Init.C85_zero_root",
    "Verif.Init.C85_pick",
    "Verif.Init.C85_rows_exact",
    "Verif.Init.C85_gravity_frame"
   ],
   "note": ""
  },
  {
   "property": "C86",
   "status": "partial",
   "theorems": [
    "Verif.Track.C86_corner_ids_partial",
    "Verif.Track.C86_corner_collision"
   ],
   "note": "Proved for tag ids below max_aruco_features; the tag with exactly that id collides (C86_corner_collision)."
  },
  {
   "property": "C87",
   "status": "proved",
   "theorems": [
    "Verif.Track.C87_kept",
    "Verif.Track.C87_added",
    "Verif.Track.C87_mono_detection",
    "Verif.Track.C87_stereo"
   ],
   "note": ""
  },
  {
   "property": "C88",
   "status": "partial",
   "theorems": [
    "Verif.Vio.C88_propagator_buffer_partial",
    "Verif.Vio.C88_races"
   ],
   "note": "Proved for the propagator buffer without zero velocity updater; the clone window and the other buffers are racy (C88_races)."
  },
  {
   "property": "C89",
   "status": "partial",
   "theorems": [
    "Verif.Vio.C89_readings_kept_partial",
    "Verif.Vio.C89_same_readings",
    "Verif.Vio.C89_old_readings_dropped",
    "Verif.Vio.C89_negative_offset_wrong"
   ],
   "note": "Proved for images in order and any offset, also one that is being estimated, that does not fall a tenth of a second below zero or below what it was (the gap between readings plus the fall must stay under it); false for offsets below -0.1 s (C89_negative_offset_wrong)."
  },
  {
   "property": "C90",
   "status": "proved",
   "theorems": [
    "Verif.Sim.C90_truth_of_reading",
    "Verif.Sim.C90_truth_available",
    "Verif.Sim.C90_initial_truth",
    "Verif.Sim.C90_truth_not_yet_available"
   ],
   "note": "The truth at a frame that was just returned is only available after the next reading (C90_truth_not_yet_available)."
  },
  {
   "property": "C91",
   "status": "proved",
   "theorems": [
    "Verif.Sim.C91_point_reprojects",
    "Verif.Sim.C91_enough_points",
    "Verif.Sim.C91_building_ends",
    "Verif.Sim.C91_camera_features",
    "Verif.Sim.C91_across_cameras"
   ],
   "note": "enough_points assumes that the iterative undistortion converged for the drawn pixels and a nearest distance of at least 0.1 m."
  },
  {
   "property": "C92",
   "status": "partial",
   "theorems": [
    "Verif.Vio.C92_jacobian_exact_iff",
    "Verif.Vio.C92_jacobian_partial",
    "Verif.Vio.C92_jacobian_wrong",
    "Verif.Vio.C92_residual_energy",
    "Verif.Vio.C92_residual_zero_iff"
   ],
   "note": "The residual part is proved in full. The Jacobian is exact if and only if the effective intrinsics are trivial (C92_jacobian_exact_iff); with other intrinsics the claim is false of the code (C92_jacobian_wrong)."
  },
  {
   "property": "C93",
   "status": "partial",
   "theorems": [
    "Verif.Prop_.C93_step_mean",
    "Verif.Prop_.C93_step_covariance_partial",
    "Verif.Prop_.C93_intrinsics_ignored",
    "Verif.Prop_.C93_same_time_fails",
    "Verif.Prop_.C93_report",
    "Verif.Prop_.C93_local_velocity_ignores_orientation",
    "Verif.Prop_.C93_backward_query"
   ],
   "note": "The mean, the success rule and the shape of the report are proved. The covariance is carried with the Jacobian of the prediction only for trivial intrinsics (C93_step_covariance_partial); in general it is not (C93_intrinsics_ignored). The reported covariance of the local velocity omits the orientation error (C93_local_velocity_ignores_orientation), and a query back in time yields a negative variance (C93_backward_query)."
  },
  {
   "property": "C94",
   "status": "proved",
   "theorems": [
    "Verif.Prop_.C94_exact_without_rotation",
    "Verif.Prop_.C94_first_order",
    "Verif.Prop_.C94_fourth_order"
   ],
   "note": "Local error O(h^5) of one step against the true motion under linearly varying readings (for every state and all readings), exactness without rotation, first-order agreement with fixed end readings. The order theorem itself (Base/Rk4) is for a general analytic right-hand side."
  },
  {
   "property": "C95",
   "status": "proved",
   "theorems": [
    "Verif.Upd.C95_msckf_update",
    "Verif.Upd.C95_returns",
    "Verif.Upd.C95_linearisation"
   ],
   "note": "C95_linearisation states residual and Jacobians of every feature from the objects of the filter state. The triangulation is a parameter: the theorem holds whatever it returns (its own properties are C32-C34)."
  },
  {
   "property": "C96",
   "status": "proved",
   "theorems": [
    "Verif.Upd.C96_slam_update",
    "Verif.Upd.C96_returns",
    "Verif.Upd.C96_linearisation"
   ],
   "note": "C96_linearisation states residual and Jacobians from the objects of the filter state. Landmark ids below 2^31; the cleaning, gating, stacking and failure counts are in the statement."
  },
  {
   "property": "C97",
   "status": "proved",
   "theorems": [
    "Verif.St.C97_flat_prior",
    "Verif.St.C97_covariance"
   ],
   "note": "For vector-valued variables (landmarks); full column rank of the new variable's Jacobian is in the statement."
  },
  {
   "property": "C98",
   "status": "proved",
   "theorems": [
    "Verif.Upd.C98_delayed_init",
    "Verif.Upd.C98_returns",
    "Verif.Upd.C98_ready",
    "Verif.Upd.C98_duplicate_orphan",
    "Verif.Upd.C98_linearisation"
   ],
   "note": "C98_linearisation states residual and Jacobians from the objects of the filter state. Triangulation is a parameter. Finding at the API level: an accepted id that is already a landmark leaves a variable that can never be found again (C98_duplicate_orphan)."
  },
  {
   "property": "C99",
   "status": "proved",
   "theorems": [
    "Verif.Mle.C99_plus",
    "Verif.Mle.C99_minus_plus",
    "Verif.Mle.C99_minus_small",
    "Verif.Mle.C99_jacobians"
   ],
   "note": "Below 1e-8 rad the increment is applied to first order and the difference is reported as zero (C99_minus_small)."
  },
  {
   "property": "C100",
   "status": "proved",
   "theorems": [
    "Verif.Mle.C100_residual",
    "Verif.Mle.C100_jacobians"
   ],
   "note": "The fisheye centre is excluded in the statement of the Jacobian (C33_centre_wrong)."
  },
  {
   "property": "C101",
   "status": "partial",
   "theorems": [
    "Verif.Mle.C101_jacobian_partial",
    "Verif.Mle.C101_zero",
    "Verif.Mle.C101_zero_at_linearisation",
    "Verif.Mle.C101_weight",
    "Verif.Mle.C101_bias_first_order",
    "Verif.Mle.C101_bias_case",
    "Verif.Mle.C101_sign_defect",
    "Verif.Mle.C101_bias_jacobian_defect"
   ],
   "note": "Zero set, weight and first-order bias correction are proved in full. The Jacobian is proved where the residual quaternion is formed without a sign change and, for the gyroscope bias, at the linearisation bias; elsewhere it is wrong (C101_sign_defect, C101_bias_jacobian_defect)."
  },
  {
   "property": "C102",
   "status": "partial",
   "theorems": [
    "Verif.Mle.C102_jacobian_partial",
    "Verif.Mle.C102_error",
    "Verif.Mle.C102_cost",
    "Verif.Mle.C102_gradient_defect",
    "Verif.Mle.C102_gradient_partial",
    "Verif.Mle.C102_small_angle_counterexample",
    "Verif.Mle.C102_half_turn_counterexample"
   ],
   "note": "Error and cost are proved for all lists. The Jacobian is the derivative wherever log_so3 is exact or at the linearisation point; it is false of the code at small non-zero angles (C102_small_angle_counterexample: log_so3 is an approximation below 3.2e-4 rad) and at half turns (C102_half_turn_counterexample: Jacobian -1, derivative 0). The constant term is not the documented one for a non-zero gradient (C102_gradient_defect; the initialiser always passes zero)."
  },
  {
   "property": "C103",
   "status": "proved",
   "theorems": [
    "Verif.Cpi.C103_concatenation",
    "Verif.Mle.C103_start",
    "Verif.Mle.C103_coverage"
   ],
   "note": "Camera times on readings and rates handled exactly by the preintegration (zero, or above its threshold) are in the statement; between readings the long and the short preintegrations discretise differently."
  },
  {
   "property": "C104",
   "status": "proved",
   "theorems": [
    "Verif.Mle.C104_blocks",
    "Verif.Mle.C104_symmetric",
    "Verif.Mle.C104_conservative",
    "Verif.Mle.C104_deflation",
    "Verif.Mle.C104_state"
   ],
   "note": "The blocks are those of a joint covariance; Ceres' covariance recovery is a parameter. A factor below one can make the result indefinite (C104_deflation)."
  },
  {
   "property": "C105",
   "status": "partial",
   "theorems": [
    "Verif.Upd.C105_anchor_change",
    "Verif.Upd.C105_position",
    "Verif.Upd.C105_covariance",
    "Verif.Upd.C105_covariance_single_partial",
    "Verif.Upd.C105_change_anchors"
   ],
   "note": "Everything is proved for the three-parameter representations and for the position of all of them; for the single depth C105_covariance_single_partial covers the component of the motion along the viewing ray, the others cannot be represented (see C80)."
  },
  {
   "property": "C106",
   "status": "proved",
   "theorems": [
    "Verif.Vio.C106_selection",
    "Verif.Vio.C106_frame",
    "Verif.Vio.C106_history",
    "Verif.Vio.C106_stream",
    "Verif.Vio.C106_window",
    "Verif.Vio.C106_last_images"
   ],
   "note": "C106_last_images: without zero velocity detection the window is exactly the last images. The databases of each image are arbitrary databases that database operations can produce. C106_stream needs no hypothesis about intermediate states. Finding beside the claim: with a time offset that is estimated the coverage depends on the estimate, so C106_history states it when the image arrives."
  },
  {
   "property": "C107",
   "status": "proved",
   "theorems": [
    "Verif.Vio.C107_fixed_calibration"
   ],
   "note": "For the states the constructor makes (C107's hypothesis on the variables), kept by every frame."
  },
  {
   "property": "C108",
   "status": "proved",
   "theorems": [
    "Verif.Vio.C108_used_once",
    "Verif.Vio.C108_stream",
    "Verif.Vio.C108_recorded"
   ],
   "note": "The closed loop of trackers' reports, databases and updates (Vio/Loop). C108_stream derives the admissibility of a stream from the data alone; C108_recorded shows that the record of used measurements is complete: the updates are the same when all others are taken out of the tracks."
  },
  {
   "property": "C109",
   "status": "proved",
   "theorems": [
    "Verif.Vio.C109_nothing_lost",
    "Verif.Vio.C109_rest_kept"
   ],
   "note": "Zero velocity detection is not in use for the image. Landmarks to be removed are those with more than one failed update or already flagged."
  },
  {
   "property": "C110",
   "status": "proved",
   "theorems": [
    "Verif.Vio.C110_dimension"
   ],
   "note": "Windows of at least two clones and landmarks that are not represented by a single depth, as in C108."
  },
  {
   "property": "C111",
   "status": "proved",
   "theorems": [
    "Verif.Vio.C111_image"
   ],
   "note": "The tracks are those of the selection (C41) as cut down by the time cleaning; the re-triangulation for display after the update is not modelled."
  },
  {
   "property": "C112",
   "status": "proved",
   "theorems": [
    "Verif.St.C112_step",
    "Verif.St.C112_history",
    "Verif.Vio.C112_image",
    "Verif.Vio.C112_stream",
    "Verif.Vio.C112_calibration"
   ],
   "note": "Landmarks whose anchor is changed are excluded from the image and stream statements: their new parametrisation has its own uncertainty (C105)."
  },
  {
   "property": "C113",
   "status": "proved",
   "theorems": [
    "Verif.Vio.C113_power_on",
    "Verif.Vio.C113_first_image",
    "Verif.Vio.C113_only_once",
    "Verif.Vio.C113_start",
    "Verif.Vio.C113_ground_truth",
    "Verif.Vio.C113_gap",
    "Verif.Vio.C113_dynamic",
    "Verif.Vio.C113_start_tags",
    "Verif.Vio.C113_ground_truth_sigma"
   ],
   "note": "Single-threaded manager (use_multi_threading_subs off), time offset not estimated, initialiser and filter configured with the same offset. What the dynamic initialiser computes is an input; its covariance is assumed symmetric positive semi-definite (C104). The stream hypotheses (BStream) are about the data only. C113_gap shows why the gap bound is needed."
  },
  {
   "property": "C114",
   "status": "proved",
   "theorems": [
    "Verif.Vio.C114_catch_up",
    "Verif.Vio.C114_equal_times"
   ],
   "note": "The queue's strictly increasing order is a hypothesis, C114_equal_times shows what happens otherwise. The interleaving of the background thread with images is C45; here its effect on the filter state is proved."
  },
  {
   "property": "C115",
   "status": "proved",
   "theorems": [
    "Verif.Track.C115_matching",
    "Verif.Track.C115_one_camera",
    "Verif.Track.C115_two_cameras",
    "Verif.Track.C115_history",
    "Verif.Track.C115_detection",
    "Verif.Track.C115_stereo_not_apart",
    "Verif.Track.C115_ambiguous_zero",
    "Verif.Track.C115_mixed_ends"
   ],
   "note": "OpenCV (corners, nearest neighbours, RANSAC) is arbitrary within its contract (KnnOk). Findings: in stereo mode points are not kept apart (C115_stereo_not_apart), ambiguous matches at distance zero are accepted (C115_ambiguous_zero), a single image between pairs ends the program (C115_mixed_ends)."
  },
  {
   "property": "C116",
   "status": "partial",
   "theorems": [
    "Verif.Retri.C116_position",
    "Verif.Retri.C116_all_rays_partial",
    "Verif.Retri.C116_landmarks",
    "Verif.Retri.C116_depth",
    "Verif.Retri.C116_stereo_drops_rays"
   ],
   "note": "Proved for every history in which an image sees the feature with at most one camera (C116_all_rays_partial); for several cameras it is false: only one camera's ray of each image is kept (C116_stereo_drops_rays), and C116_position says exactly which. Landmarks and depths are proved in full. The condition number is an arbitrary function."
  },
  {
   "property": "C117",
   "status": "partial",
   "theorems": [
    "Verif.Cfg.C117_values",
    "Verif.Cfg.C117_choices_partial",
    "Verif.Cfg.C117_misspelled_representation",
    "Verif.Cfg.C117_misspelled_distortion",
    "Verif.Cfg.C117_incomplete_pose",
    "Verif.Cfg.C117_spelling",
    "Verif.Cfg.C117_required",
    "Verif.Cfg.C117_sensors"
   ],
   "note": "Values are proved in full (C117_values). Choices: proved for integration, histogram and sensor model; false for the representation of features and the distortion model, where a misspelled name is accepted (C117_misspelled_representation, C117_misspelled_distortion), and an incomplete matrix is filled from the identity (C117_incomplete_pose)."
  },
  {
   "property": "C118",
   "status": "proved",
   "theorems": [
    "Verif.Cfg.C118_extrinsics",
    "Verif.Cfg.C118_pixels",
    "Verif.Cfg.C118_filter_initialiser_agree",
    "Verif.Cfg.C118_imu",
    "Verif.Cfg.C118_extrinsics_ros",
    "Verif.Cfg.C118_imu_ros"
   ],
   "note": "Matrices listed completely in the file and rigid; inertial intrinsics of the shape the chosen model represents (C73)."
  },
  {
   "property": "C119",
   "status": "partial",
   "theorems": [
    "Verif.Ros.C119_stamp",
    "Verif.Ros.C119_stamp_order",
    "Verif.Ros.C119_frames",
    "Verif.Ros.C119_state_pose",
    "Verif.Ros.C119_path",
    "Verif.Ros.C119_path_newest",
    "Verif.Ros.C119_camera_transform",
    "Verif.Ros.C119_odometry",
    "Verif.Ros.C119_odometry_clock",
    "Verif.Ros.C119_one_per_state",
    "Verif.Ros.C119_loop_closure",
    "Verif.Ros.C119_orientation_axes"
   ],
   "note": "Everything but the last sentence is proved. The last sentence is false of the code: the orientation covariance is about the axes of the IMU (C119_orientation_axes), and the first odometry after an update is predicted for a time later than its stamp by the time offset (C119_odometry_clock). Also beside the claim: the newest pose may be missing from a downsampled path (C119_path_newest)."
  },
  {
   "property": "C120",
   "status": "partial",
   "theorems": [
    "Verif.Eval.C120_state",
    "Verif.Eval.C120_time_offset",
    "Verif.Eval.C120_intrinsics",
    "Verif.Eval.C120_extrinsics",
    "Verif.Eval.C120_imu",
    "Verif.Eval.C120_saved_iff",
    "Verif.Eval.C120_clone_saved",
    "Verif.Eval.C120_save_out_of_range",
    "Verif.Eval.C120_missing_truth",
    "Verif.Eval.C120_rounding",
    "Verif.Eval.C120_small_deviation",
    "Verif.Eval.C120_turn"
   ],
   "note": "Everything but the last sentence is proved (the deviation of the first column of a plot must not be written as zero). The last sentence is false of the code: four deviations are written for the three degrees of freedom of a sensor rotation, so a frame recorded before the first clone reads outside the covariance with some option sets (C120_save_out_of_range, exactly when: C120_saved_iff); deviations below half of the last digit stop a plot (C120_small_deviation); a frame without truth makes the files unreadable (C120_missing_truth)."
  },
  {
   "property": "C121",
   "status": "partial",
   "theorems": [
    "Verif.Eval.C121_recorded",
    "Verif.Eval.C121_order",
    "Verif.Eval.C121_published",
    "Verif.Eval.C121_converted",
    "Verif.Eval.C121_covariance_lost"
   ],
   "note": "All but the last clause: ten digits after the point are not enough, a positive definite covariance can be read as an indefinite one (C121_covariance_lost)."
  },
  {
   "property": "C122",
   "status": "partial",
   "theorems": [
    "Verif.Eval.C122_angles",
    "Verif.Eval.C122_bounds",
    "Verif.Eval.C122_values",
    "Verif.Eval.C122_angles_down",
    "Verif.Eval.C122_angles_up",
    "Verif.Eval.C122_angles_up_wrong"
   ],
   "note": "All but the angles straight up: there the computed roll has the wrong sign and does not give the orientation back (C122_angles_up_wrong; straight down it is right, C122_angles_down). The theorems on angles and bounds leave out first axes within 1e-12 of the vertical, where the bounds are not finite. A large orientation error is shown as a chord, at most 360/pi degrees, not as an angle (C122_values)."
  },
  {
   "property": "C123",
   "status": "proved",
   "theorems": [
    "Verif.Eval.C123_pairs",
    "Verif.Eval.C123_angle",
    "Verif.Eval.C123_ate",
    "Verif.Eval.C123_planar",
    "Verif.Eval.C123_least",
    "Verif.Eval.C123_rpe",
    "Verif.Eval.C123_nees_error",
    "Verif.Eval.C123_nees",
    "Verif.Eval.C123_nees_three",
    "Verif.Eval.C123_error",
    "Verif.Eval.C123_exact",
    "Verif.Eval.C123_runs"
   ],
   "note": "The optimality of se3 and sim3 assumes that Eigen returns a singular value decomposition; orientations in the files are assumed to be unit quaternions where angles are claimed."
  },
  {
   "property": "C124",
   "status": "partial",
   "theorems": [
    "Verif.Ros.C124_replay",
    "Verif.Ros.C124_mono",
    "Verif.Ros.C124_once",
    "Verif.Ros.C124_stereo",
    "Verif.Ros.C124_processed",
    "Verif.Ros.C124_last_image",
    "Verif.Ros.C124_interval",
    "Verif.Ros.C124_image_twice"
   ],
   "note": "All but two clauses, which are false of the code. An image may be delivered twice when images of a camera are less than twenty milliseconds apart (C124_image_twice). The last image is not processed while the estimated offset is not negative, since the replay stops at its time (C124_last_image). C124_processed assumes that messages are stamped with the time they were recorded at and that delivered images are no closer than the tracking period. Three or more cameras end the program at the first set of images, as in the code."
  },
  {
   "property": "C125",
   "status": "partial",
   "theorems": [
    "Verif.Ros.C125_lookup",
    "Verif.Ros.C125_load",
    "Verif.Ros.C125_blank_line"
   ],
   "note": "All but the last clause: a blank line is read as a state at time 0 with all values zero (C125_blank_line)."
  },
  {
   "property": "C126",
   "status": "proved",
   "theorems": [
    "Verif.Vio.C126_run",
    "Verif.Vio.C126_ends"
   ],
   "note": "For a known offset between the clocks of the cameras and the IMU and readings at least every tenth of a second; parameters are not perturbed. That the last image is not fed is part of the claim, as in the code."
  },
  {
   "property": "C127",
   "status": "partial",
   "theorems": [
    "Verif.Cpi.C127_total_time",
    "Verif.Cpi.C127_symmetric",
    "Verif.Cpi.C127_rotation_partial",
    "Verif.Cpi.C127_small_rate_not_rotation",
    "Verif.Cpi.C127_kinematics_partial",
    "Verif.Cpi.C127_jacobians_partial",
    "Verif.Cpi.C127_first_axis_wrong",
    "Verif.Cpi.C127_covariance_rate_partial",
    "Verif.Cpi.C127_transition_rate_partial",
    "Verif.Cpi.C127_covariance_order_partial",
    "Verif.Cpi.C127_transition_order_partial"
   ],
   "note": "Time, symmetry and, for rates zero or at least the threshold, rotation and motion are proved in full. The Jacobians in closed form are proved without averaging and in all directions but the first axis of the gyroscope's bias, where they are false of the code (C127_first_axis_wrong: a double minus). The covariance and the Jacobians from the Runge-Kutta transition are proved to grow at the right rate, and without averaging each step is within O(dt^5) of the linear error dynamics (C127_covariance_order_partial, C127_transition_order_partial); with averaging the code's dynamics leave out the orientation at the end. Below the threshold the claims fail as for the first preintegration (C127_small_rate_not_rotation)."
  },
  {
   "property": "C128",
   "status": "proved",
   "theorems": [
    "Verif.Mle.C128_selection",
    "Verif.Mle.C128_problem",
    "Verif.Mle.C128_every_point",
    "Verif.Mle.C128_counted"
   ],
   "note": "Ceres' minimiser is outside the model: the theorem holds for whatever estimate it leaves in the arrays."
  },
  {
   "property": "C129",
   "status": "partial",
   "theorems": [
    "Verif.Grid.C129_extraction",
    "Verif.Grid.C129_schedule",
    "Verif.Grid.C129_detection",
    "Verif.Grid.C129_detect",
    "Verif.Grid.C129_whole_image",
    "Verif.Grid.C129_strip_never_searched",
    "Verif.Grid.C129_small_budget_counterexample",
    "Verif.Grid.C129_masked_budget_counterexample",
    "Verif.Grid.C129_first_pixel_counterexample",
    "Verif.Grid.C129_exceeds_number_counterexample",
    "Verif.Grid.C129_kept"
   ],
   "note": "Proved for every grid that divides the image and has at most one cell per feature wanted; corners as found, before the sub-pixel refinement (OpenCV). Otherwise parts of the claim fail: with fewer features than cells, the cells are chosen in one grid and searched in another (C129_small_budget_counterexample); a strip smaller than a cell is never searched (C129_strip_never_searched); masked corners use up a cell's number (C129_masked_budget_counterexample); one masked pixel excludes a cell (C129_first_pixel_counterexample); more features than asked for can be returned (C129_exceeds_number_counterexample)."
  },
  {
   "property": "C130",
   "status": "proved",
   "theorems": [
    "Verif.Perturb.C130_truth_kept",
    "Verif.Perturb.C130_estimator_writes",
    "Verif.Perturb.C130_perturbed_start",
    "Verif.Perturb.C130_unperturbed_start"
   ],
   "note": "Camera objects modelled as a heap shared by pointers. Rotation vectors of the perturbation shorter than 1e-7 other than zero are excluded from the statement about the turned orientation (see C25). The order of the three draws in one comma initialiser is taken left to right."
  },
  {
   "property": "C131",
   "status": "partial",
   "theorems": [
    "Verif.SimI.C131_streams",
    "Verif.SimI.C131_truth_of_reading_partial",
    "Verif.SimI.C131_truth_one_step_late_counterexample",
    "Verif.SimI.C131_perturbed_history_counterexample"
   ],
   "note": "Streams, poses and the readings are proved. The biases of the ground truth are not those of the reading: they are one step later (C131_truth_one_step_late_counterexample; C131_truth_of_reading_partial gives the exact difference), and with the perturbation on the history starts with zeros although the biases do not (C131_perturbed_history_counterexample)."
  },
  {
   "property": "C132",
   "status": "partial",
   "theorems": [
    "Verif.Eval.C132_error_over_time",
    "Verif.Eval.C132_nees",
    "Verif.Eval.C132_dataset_ate",
    "Verif.Eval.C132_comparison",
    "Verif.Eval.C132_relative_partial",
    "Verif.Eval.C132_relative_runs",
    "Verif.Eval.C132_no_runs_counterexample",
    "Verif.Eval.C132_runs"
   ],
   "note": "All but the last clause: without a sample the relative error is shown as zero (C132_no_runs_counterexample). The hypotheses on the runs (no time twice, not empty) are shown for the evaluations of files whose ground truth has increasing times (C132_runs)."
  },
  {
   "property": "C133",
   "status": "proved",
   "theorems": [
    "Verif.Vio.C133_posterior",
    "Verif.Vio.C133_seen",
    "Verif.Vio.C133_interval"
   ],
   "note": "The Jacobian is the one the code uses; that it ignores the calibration of the sensors and has the wrong derivative of gravity when the first estimate differs is C92. Readings selected in time order."
  },
  {
   "property": "C134",
   "status": "partial",
   "theorems": [
    "Verif.Ros.C134_errors",
    "Verif.Ros.C134_nees",
    "Verif.Ros.C134_half_turn_counterexample",
    "Verif.Ros.C134_call",
    "Verif.Ros.C134_running"
   ],
   "note": "All but one clause: the number shown for the orientation is twice the sine of half the angle, not the angle (C134_errors: within a twentyfourth of the cube of the angle below it; C134_half_turn_counterexample: 115 degrees for half a turn). A covariance that cannot be inverted, for which Eigen gives infinities or NaN, is outside the model (none)."
  },
  {
   "property": "C135",
   "status": "proved",
   "theorems": [
    "Verif.Ros.C135_live"
   ],
   "note": "Eigen's SVD is assumed to return a singular value decomposition. A similarity of scale zero, which only sim3 can find, is excluded from the statement about the poses."
  },
  {
   "property": "C136",
   "status": "partial",
   "theorems": [
    "Verif.Vio.C136_stored",
    "Verif.Vio.C136_schedule",
    "Verif.Vio.C136_total",
    "Verif.Vio.C136_shot",
    "Verif.Vio.C136_twice_counterexample"
   ],
   "note": "All but the last clause, which is false of the code when a tag is found twice in an image or when the tag numbered max_aruco_features and tag 0 are both found (C136_twice_counterexample); it is proved otherwise (C136_stored, C136_shot). One image per camera and message. OpenCV's detector is an oracle; the maps indexed by camera are assumed to exist (see DESIGN.md on the race at the first image)."
  },
  {
   "property": "C137",
   "status": "proved",
   "theorems": [
    "Verif.Eval.C137_histogram",
    "Verif.Eval.C137_recorded",
    "Verif.Eval.C137_stats",
    "Verif.Eval.C137_printed",
    "Verif.Eval.C137_total",
    "Verif.Eval.C137_compare",
    "Verif.Eval.C137_plot",
    "Verif.Eval.C137_compare_plot"
   ],
   "note": "Lines modelled as lists of fields, numbers as atof reads them back. Plots for a positive subsampling; zero divides by zero (C137_plot). The clock may be arbitrary, also go back."
  },
  {
   "property": "C138",
   "status": "partial",
   "theorems": [
    "Verif.Eval.C138_recorded",
    "Verif.Eval.C138_percent_partial",
    "Verif.Eval.C138_same_stem_counterexample"
   ],
   "note": "Proved when no two directories have the same name up to the last dot. Otherwise it is false of the code: rows of one are counted for the other (C138_same_stem_counterexample)."
  },
  {
   "property": "C139",
   "status": "partial",
   "theorems": [
    "Verif.Eval.C139_shown",
    "Verif.Eval.C139_figures_partial",
    "Verif.Eval.C139_runs",
    "Verif.Eval.C139_seven_counterexample"
   ],
   "note": "Everything but figures of more than six files: these throw for want of a colour although the usage names nine estimates (C139_seven_counterexample). Orientations of the files are unit; the SVD is an oracle with its specification. The drawing itself (matplotlib) is not modelled."
  },
  {
   "property": "C140",
   "status": "proved",
   "theorems": [
    "Verif.Eval.C140_runs",
    "Verif.Eval.C140_absolute",
    "Verif.Eval.C140_relative",
    "Verif.Eval.C140_consistency",
    "Verif.Eval.C140_axes"
   ],
   "note": "The SVD is an oracle. Singular covariances count as values that are not numbers, as in C123. The numbers are those handed to the printer, before rounding to three digits. C140_consistency assumes positive definite covariances."
  },
  {
   "property": "C141",
   "status": "proved",
   "theorems": [
    "Verif.Vio.C141_map",
    "Verif.Vio.C141_used"
   ],
   "note": "C141_used assumes that the tracks in the databases are in time order (as C41). Coordinates before the rounding to 32-bit floats of the message. The order of the hash map is that of the list in the model."
  },
  {
   "property": "C142",
   "status": "partial",
   "theorems": [
    "Verif.Ros.C142_depth_partial",
    "Verif.Ros.C142_far_counterexample"
   ],
   "note": "Proved for depths below 65.536 m. Depths of landmarks are not limited, and a larger one is converted to sixteen bits although it does not fit, which is undefined (C142_far_counterexample)."
  },
  {
   "property": "C143",
   "status": "partial",
   "theorems": [
    "Verif.Sim.C143_map",
    "Verif.Sim.C143_old_first_partial",
    "Verif.Sim.C143_build_frames",
    "Verif.Sim.C143_not_seen",
    "Verif.Sim.C143_order_counterexample"
   ],
   "note": "The map part is proved in full (C143_map). The features are the same if the old points are visited first (C143_old_first_partial; at the poses of the map building always enough, C143_build_frames) or if none of the new ones is visible (C143_not_seen). In general it is false: the map is an unordered_map, and a newer point that is visited first takes the place of an old one (C143_order_counterexample)."
  },
  {
   "property": "C144",
   "status": "partial",
   "theorems": [
    "Verif.Show.C144_no_image",
    "Verif.Show.C144_new",
    "Verif.Show.C144_over",
    "Verif.Show.C144_both_iff_partial",
    "Verif.Show.C144_features",
    "Verif.Show.C144_sizes_counterexample",
    "Verif.Show.C144_tracks"
   ],
   "note": "Proved in full for one tracker (C144_new, C144_features, C144_tracks) and for drawing on top of a picture if all images have one size (C144_over). With a tracker of tags the picture can be made exactly if all images have the same size (C144_both_iff_partial); otherwise OpenCV throws (C144_sizes_counterexample). What the drawing functions do to pixels is an arbitrary function."
  },
  {
   "property": "C145",
   "status": "proved",
   "theorems": [
    "Verif.Tri.C145_basis",
    "Verif.Tri.C145_accept",
    "Verif.Tri.C145_decision"
   ],
   "note": "C145_basis justifies the formula used for the length across the ray: any orthogonal matrix whose first column is along the point gives it. A baseline of zero gives an infinite ratio in the code and is rejected."
  },
  {
   "property": "C146",
   "status": "proved",
   "theorems": [
    "Verif.Print.C146_messages",
    "Verif.Print.C146_silent",
    "Verif.Print.C146_settings"
   ],
   "note": ""
  },
  {
   "property": "C147",
   "status": "proved",
   "theorems": [
    "Verif.Sim.C147_file",
    "Verif.Sim.C147_written",
    "Verif.Sim.C147_indented_comment"
   ],
   "note": ""
  },
  {
   "property": "C148",
   "status": "proved",
   "theorems": [
    "Verif.Vio.C148_observer",
    "Verif.Vio.C148_initialized",
    "Verif.Vio.C148_at_rest",
    "Verif.Vio.C148_distance_monotone",
    "Verif.Vio.C148_step",
    "Verif.Vio.C148_no_step_lost",
    "Verif.Vio.C148_window_of_one"
   ],
   "note": "From the moment the filter has a state (is_initialized_vio); image times other than -1, the mark for no image yet."
  },
  {
   "property": "C149",
   "status": "proved",
   "theorems": [
    "Verif.Sim.C149_start",
    "Verif.Sim.C149_search_ends",
    "Verif.Sim.C149_at_rest",
    "Verif.Sim.C149_negative_threshold",
    "Verif.Sim.C149_start_after",
    "Verif.Sim.C149_on_trajectory"
   ],
   "note": ""
  },
  {
   "property": "C150",
   "status": "partial",
   "theorems": [
    "Verif.Vio.C150_observer",
    "Verif.Vio.C150_own_start_partial",
    "Verif.Vio.C150_ground_truth_never_raised",
    "Verif.Vio.C150_ground_truth_counterexample"
   ],
   "note": "Proved for a filter that starts by itself (C150_own_start_partial). False of the code when it is started with ground truth: initialize_with_gt does not raise the number, so each camera is for ever asked for its share of the smaller number meant for the initialisation (C150_ground_truth_never_raised, C150_ground_truth_counterexample)."
  },
  {
   "property": "C151",
   "status": "partial",
   "theorems": [
    "Verif.Cfg.C151_halved",
    "Verif.Cfg.C151_full",
    "Verif.Cfg.C151_inside",
    "Verif.Cfg.C151_mask_partial",
    "Verif.Cfg.C151_mask_halved_twice",
    "Verif.Cfg.C151_mask_counterexample"
   ],
   "note": "The geometry and the sizes of the images are proved in full (C151_halved, C151_full, C151_inside), the masks if the images are not halved or no masks are configured (C151_mask_partial). False of the code for masks with halved images: a mask of the size of the images is refused at start, one of the halved size is accepted and halved again, so the trackers look up pixels outside it (C151_mask_halved_twice, C151_mask_counterexample). The grey values of the halved images are not modelled."
  },
  {
   "property": "C152",
   "status": "proved",
   "theorems": [
    "Verif.Cfg.C152_given",
    "Verif.Cfg.C152_repeatable",
    "Verif.Cfg.C152_refused"
   ],
   "note": "The simulator and the estimator are made before the success flag is looked at; what they do when they cannot be made is C90 and C149."
  }
 ]
}