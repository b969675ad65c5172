import Verif.Cfg.PropsExample

/-!
# C117, C118: spelling of booleans, required parameters, sensors, matrices given by ROS
-/

set_option autoImplicit false
open Classical

namespace Verif.Cfg

open Verif Verif.Prop_ Verif.Land Spec

namespace Spec

/-- how booleans may be spelled -/
def words : Bool → List String
  | true => ["1", "true", "True", "TRUE"]
  | false => ["0", "false", "False", "FALSE"]

/-- the text is a word, after which there may be a blank or `#` and anything -/
def Written (s w : String) : Prop := s = w ∨ ∃ c r, (c = ' ' ∨ c = '#') ∧ s.toList = w.toList ++ c :: r

/-- the parameters of the main file without which the program must not run -/
def required : List String × List String × List String × List String :=
  (["use_fej", "calib_cam_extrinsics", "calib_cam_intrinsics", "calib_cam_timeoffset", "calib_imu_intrinsics", "calib_imu_g_sensitivity", "try_zupt", "zupt_only_at_beginning", "record_timing_information", "use_stereo", "use_klt", "use_aruco",
    "downsize_aruco", "downsample_cameras", "use_mask", "init_dyn_use", "init_dyn_mle_opt_calib"],
   ["max_clones", "max_slam", "max_slam_in_update", "max_msckf_in_update", "num_aruco", "max_cameras", "num_opencv_threads", "num_pts", "fast_threshold", "grid_x", "grid_y", "min_px_dist", "init_max_features", "init_dyn_mle_max_iter",
    "init_dyn_mle_max_threads", "init_dyn_num_pose"],
   ["dt_slam_delay", "zupt_max_velocity", "zupt_noise_multiplier", "zupt_max_disparity", "up_msckf_sigma_px", "up_msckf_chi2_multipler", "up_slam_sigma_px", "up_slam_chi2_multipler", "up_aruco_sigma_px", "up_aruco_chi2_multipler",
    "zupt_chi2_multipler", "gravity_mag", "knn_ratio", "track_frequency", "init_window_time", "init_imu_thresh", "init_max_disparity", "init_dyn_mle_max_time", "init_dyn_min_deg", "init_dyn_inflation_ori", "init_dyn_inflation_vel",
    "init_dyn_inflation_bg", "init_dyn_inflation_ba", "init_dyn_min_rec_cond"],
   ["integration", "feat_rep_msckf", "feat_rep_slam", "feat_rep_aruco", "histogram_method", "record_timing_filepath"])

/-- the list holds the matrix by rows -/
def ByRows {n : ℕ} (v : List ℝ) (T : Matrix (Fin n) (Fin n) ℝ) : Prop := v.length = n * n ∧ ∀ r c : Fin n, v[r.val * n + c.val]? = some (T r c)

end Spec

theorem takeWhile_word {w r : List Char} {c : Char} {p : Char → Bool} (hw : ∀ x ∈ w, p x = true) (hc : p c = false) : (w ++ c :: r).takeWhile p = w := by
  rw [List.takeWhile_append_of_pos hw, List.takeWhile_cons, hc]
  simp

theorem takeWhile_all {w : List Char} {p : Char → Bool} (hw : ∀ x ∈ w, p x = true) : w.takeWhile p = w := by
  have := List.takeWhile_append_of_pos (l₂ := []) hw
  simpa using this

theorem clean_iff {s w : String} (hw : ∀ x ∈ w.toList, x ≠ ' ' ∧ x ≠ '#') : clean s = w ↔ Written s w := by
  have e : clean s = String.ofList (s.toList.takeWhile fun x => x != '#' && x != ' ') := by
    unfold clean
    congr 1
    induction s.toList with
    | nil => rfl
    | cons x l ih =>
      by_cases h1 : x = '#' <;> by_cases h2 : x = ' ' <;> simp_all [List.takeWhile_cons]
  have hp : ∀ x ∈ w.toList, (x != '#' && x != ' ') = true := fun x hx => by simp [hw x hx]
  rw [e]
  constructor
  · intro h
    have h' : s.toList.takeWhile (fun x => x != '#' && x != ' ') = w.toList := by rw [← h]; simp
    have hs := List.takeWhile_append_dropWhile (p := fun x => x != '#' && x != ' ') (l := s.toList)
    rw [h'] at hs
    cases hd : s.toList.dropWhile (fun x => x != '#' && x != ' ') with
    | nil =>
      rw [hd, List.append_nil] at hs
      exact .inl (String.toList_injective hs.symm)
    | cons c r =>
      rw [hd] at hs
      refine .inr ⟨c, r, ?_, hs.symm⟩
      have := List.head?_dropWhile_not (fun x => x != '#' && x != ' ') s.toList
      rw [hd] at this
      simp at this
      by_cases h2 : c = ' '
      · exact .inl h2
      · by_cases h3 : c = '#'
        · exact .inr h3
        · exact absurd (this h3) h2
  · rintro (rfl | ⟨c, r, hc, hs⟩)
    · rw [takeWhile_all hp]
      simp
    · rw [hs, takeWhile_word hp (by rcases hc with rfl | rfl <;> simp)]
      simp

/-- **C117 (spelling).** A boolean that is not written as a number is read as true exactly if it is spelled 1, true, True or TRUE, and as false exactly if it is spelled 0, false, False or FALSE, whatever follows after a blank or a `#`. -/
theorem C117_spelling (l : Leaf) (s : String) (hi : l.isInt = none) (hs : l.str = some s) (b : Bool) : boolOf l = some b ↔ ∃ w ∈ words b, Written s w := by
  have key : ∀ b, ∀ w ∈ words b, (clean s = w ↔ Written s w) := fun b w hw => clean_iff (by
    cases b <;> simp only [words, List.mem_cons, List.not_mem_nil, or_false] at hw <;> rcases hw with rfl | rfl | rfl | rfl <;> decide)
  have hT : clean s ∈ words true ↔ ∃ w ∈ words true, Written s w :=
    ⟨fun h => ⟨_, h, (key true _ h).1 rfl⟩, fun ⟨w, hw, h⟩ => by rw [(key true w hw).2 h]; exact hw⟩
  have hF : clean s ∈ words false ↔ ∃ w ∈ words false, Written s w :=
    ⟨fun h => ⟨_, h, (key false _ h).1 rfl⟩, fun ⟨w, hw, h⟩ => by rw [(key false w hw).2 h]; exact hw⟩
  unfold boolOf
  rw [hi, hs]
  simp only [reduceCtorEq, if_false, Option.bind_some]
  change (if clean s ∈ words true then _ else if clean s ∈ words false then _ else _) = _ ↔ _
  cases b with
  | true =>
    rw [← hT]
    by_cases h : clean s ∈ words true
    · simp [h]
    · rw [if_neg h]
      simp only [h, iff_false]
      split_ifs <;> simp
  | false =>
    rw [← hF]
    by_cases h : clean s ∈ words true
    · rw [if_pos h]
      simp only [Option.some.injEq, Bool.true_eq_false, false_iff]
      intro h'
      simp only [words, List.mem_cons, List.not_mem_nil, or_false] at h h'
      rcases h with h | h | h | h <;> rw [h] at h' <;> revert h' <;> decide
    · rw [if_neg h]
      by_cases h' : clean s ∈ words false <;> simp [h']

/-- a word that is none of these, and a comment -/
example : (∃ w ∈ words true, Written "true # yes" w) ∧ ¬ ∃ w ∈ words true, Written "yes" w := by
  constructor
  · exact ⟨"true", by simp [words], .inr ⟨' ', "# yes".toList, .inl rfl, by decide⟩⟩
  · rintro ⟨w, hw, h⟩
    simp only [words, List.mem_cons, List.not_mem_nil, or_false] at hw
    have h2 := (clean_iff (by rcases hw with rfl | rfl | rfl | rfl <;> decide)).2 h
    rcases hw with rfl | rfl | rfl | rfl <;> revert h2 <;> decide

/-- **C117 (required).** If the program runs, each of the required parameters was given, by ROS or in the file, in a readable form. -/
theorem C117_required (E : Env) (f : File) (hf : E.main = some f) (o : Opts) (h : launch E = some o) :
    (∀ n ∈ required.1, (given E.rBool boolOf f n).isSome) ∧ (∀ n ∈ required.2.1, (given E.rInt Leaf.int f n).isSome) ∧ (∀ n ∈ required.2.2.1, (given E.rNum Leaf.num f n).isSome) ∧ ∀ n ∈ required.2.2.2, (given E.rStr Leaf.str f n).isSome := by
  obtain ⟨h1, h2, h3, h4, h5, h6, h7⟩ := C117_values E f hf o h
  refine ⟨fun n hn => ?_, fun n hn => ?_, fun n hn => ?_, fun n hn => ?_⟩
  · have : (∃ d, (n, d, true) ∈ boolTab) ∨ ∃ d, (n, d, true) ∈ initBoolTab := by
      revert n; decide
    rcases this with ⟨d, hd⟩ | ⟨d, hd⟩
    exacts [(h1 _ hd).2 rfl, (h5 _ hd).2 rfl]
  · have : (∃ e ∈ intTab, e.1 = n ∧ e.2.2 = true) ∨ ∃ e ∈ initIntTab, e.1 = n ∧ e.2.2 = true := by
      revert n; decide
    rcases this with ⟨e, he, rfl, hd⟩ | ⟨e, he, rfl, hd⟩
    exacts [(h2 _ he).2 hd, (h6 _ he).2 hd]
  · have : (n, true) ∈ numTab.map (fun e => (e.1, e.2.2)) ∨ (n, true) ∈ initNumTab.map (fun e => (e.1, e.2.2)) := by
      simp only [numTab, initNumTab, List.map_cons, List.map_nil]
      revert n; decide
    rcases this with hm | hm <;> obtain ⟨e, he, hq⟩ := List.mem_map.1 hm <;> simp only [Prod.mk.injEq] at hq <;> obtain ⟨rfl, hd⟩ := hq
    exacts [(h3 _ he).2 hd, (h7 _ he).2 hd]
  · have : ∃ e ∈ strTab, e.1 = n ∧ e.2.2 = true := by
      revert n; decide
    obtain ⟨e, he, rfl, hd⟩ := this
    exact (h4 _ he).2 hd

theorem external_missing {T : Type} {E : Env} {f : File} (hf : E.main = some f) {ps : File → String → T → Bool → L T} {file sen name : String} {d v : T} {req : Bool} (hg : sensor E file sen = none) : E.external ps file sen name d req ≠ L.val v true := by
  unfold sensor at hg
  unfold Env.external
  rw [hf] at hg ⊢
  simp only [Option.bind_some] at hg
  simp only
  cases e2 : f file with
  | none => simp [L.stop, L.val]
  | some l =>
    rw [e2] at hg
    simp only [Option.bind_some] at hg
    simp only
    cases e3 : l.str with
    | none => simp [L.stop, L.val]
    | some path =>
      rw [e3] at hg
      simp only [Option.bind_some] at hg
      simp only
      cases e4 : E.ext (E.folder ++ path) with
      | none => simp [L.stop, L.val]
      | some X =>
        rw [e4] at hg
        simp only [Option.bind_some] at hg
        simp [hg, L.val]

/-- **C117 (sensors).** If the program runs, every camera it uses is in the file named for the cameras, and the inertial sensor in the file named for it, unless ROS gives all that is needed from it. -/
theorem C117_sensors (E : Env) (f : File) (hf : E.main = some f) (o : Opts) (h : launch E = some o) :
    (∀ k < o.cams.length, let c := "cam" ++ toString k; sensor E "relative_config_imucam" c = none →
      (E.rStr (c ++ "_" ++ "distortion_model")).isSome ∧ (E.rNums (c ++ "_" ++ "intrinsics")).isSome ∧ (E.rNums (c ++ "_" ++ "distortion_coeffs")).isSome ∧ (E.rInts (c ++ "_" ++ "resolution")).isSome ∧ (E.rNums (c ++ "_" ++ "T_imu_cam")).isSome) ∧
    (sensor E "relative_config_imu" "imu0" = none → (E.rStr ("imu0" ++ "_" ++ "model")).isSome ∧
      (∀ n ∈ ["gyroscope_noise_density", "gyroscope_random_walk", "accelerometer_noise_density", "accelerometer_random_walk"], (E.rNum ("imu0" ++ "_" ++ n)).isSome) ∧
      ∀ n ∈ ["Tw", "Ta", "R_IMUtoACC", "R_IMUtoGYRO", "Tg"], (E.rNums ("imu0" ++ "_" ++ n)).isSome) := by
  have ext : ∀ {T : Type} {ros : String → Option T} {ps : File → String → T → Bool → L T} {file sen name : String} {d v : T} {req : Bool}, sensor E file sen = none → E.extern ros ps file sen name d req = L.val v true → (ros (sen ++ "_" ++ name)).isSome := by
    intro T ros ps file sen name d v req hg he
    unfold Env.extern at he
    cases e : ros (sen ++ "_" ++ name) with
    | some w => rfl
    | none => rw [e] at he; exact absurd he (external_missing hf hg)
  have ext3 : ∀ {file sen name : String} {d v : M3}, sensor E file sen = none → E.extern3 file sen name d = L.val v true → (E.rNums (sen ++ "_" ++ name)).isSome := by
    intro file sen name d v hg he
    unfold Env.extern3 at he
    cases e : E.rNums (sen ++ "_" ++ name) with
    | some w => rfl
    | none => rw [e] at he; exact absurd he (external_missing hf hg)
  have ext4 : ∀ {file sen name : String} {d v : M4}, sensor E file sen = none → E.extern4 file sen name d = L.val v true → (E.rNums (sen ++ "_" ++ name)).isSome := by
    intro file sen name d v hg he
    unfold Env.extern4 at he
    cases e : E.rNums (sen ++ "_" ++ name) with
    | some w => rfl
    | none => rw [e] at he; exact absurd he (external_missing hf hg)
  constructor
  · intro k hk c hg
    obtain ⟨model, c1, c2, wh, T, h1, h2, h3, h4, h5, -⟩ := loadCam_parts (cam_parts h (List.getElem?_eq_getElem hk))
    exact ⟨ext hg h1, ext hg h2, ext hg h3, ext hg h4, ext4 hg h5⟩
  · intro hg
    obtain ⟨-, -, -, -, -, -, ⟨model, hm, -⟩, -, hN, -, -, hI, -⟩ := loadOpts_parts (launch_iff.mp h)
    unfold loadNoise at hN
    unfold loadImu at hI
    simp only [bind_ok, pure_ok] at hN hI
    obtain ⟨w, n1, wb, n2, a, n3, ab, n4, -⟩ := hN
    obtain ⟨Tw', e1, Ta', e2, RA', e3, RG', e4, Tg', e5, -⟩ := hI
    refine ⟨ext hg hm, ?_, ?_⟩
    · intro n hn
      simp only [List.mem_cons, List.not_mem_nil, or_false] at hn
      rcases hn with rfl | rfl | rfl | rfl
      exacts [ext hg n1, ext hg n2, ext hg n3, ext hg n4]
    · intro n hn
      simp only [List.mem_cons, List.not_mem_nil, or_false] at hn
      rcases hn with rfl | rfl | rfl | rfl | rfl
      exacts [ext3 hg e1, ext3 hg e2, ext3 hg e3, ext3 hg e4, ext3 hg e5]

theorem ofList_rows {n : ℕ} {v : List ℝ} {T M : Matrix (Fin n) (Fin n) ℝ} (hv : ByRows v T) (h : ofList n v = L.val M true) : M = T := by
  unfold ofList at h
  rw [if_pos hv.1.ge] at h
  have h' := (val_inj.1 h).1
  rw [← h']
  funext r c
  rw [List.getD_eq_getElem?_getD, hv.2 r c]
  rfl

/-- **C118 (pose given by ROS).** If the program runs and ROS gives the pose of camera `k` in the inertial frame, by rows, then the loaded calibration takes the inertial coordinates of every point back to its camera coordinates, whatever the files say. -/
theorem C118_extrinsics_ros (E : Env) (o : Opts) (h : launch E = some o) (k : ℕ) (c : CamOut) (hc : o.cams[k]? = some c) (v : List ℝ) (hr : E.rNums ("cam" ++ toString k ++ "_" ++ "T_imu_cam") = some v) (T : M4) (hT : ByRows v T) (hS : IsSE3 T) :
    IsRot (quat2Rot c.q) ∧ ∀ y, (quat2Rot c.q).mulVec ((rotBlock T).mulVec y + posBlock T) + c.p = y := by
  obtain ⟨-, -, -, -, T', -, -, -, -, h1, -, -, -, hq, hp⟩ := loadCam_parts (cam_parts h hc)
  unfold Env.extern4 at h1
  rw [hr] at h1
  obtain rfl := ofList_rows hT h1
  have e : quat2Rot c.q = (rotBlock T').transpose := by rw [hq]; exact (QuatProps.C24_rotation_round_trip.2 _ hS.rot.transpose).2
  rw [e, hp]
  refine ⟨hS.rot.transpose, fun y => ?_⟩
  rw [Matrix.mulVec_add, Matrix.mulVec_mulVec, hS.rot.orth, Matrix.one_mulVec, add_neg_cancel_right]

/-- **C118 (inertial sensor given by ROS).** The same for the matrices of the inertial sensor: with those given by ROS, by rows, a reading made by such a sensor is corrected to the true rate and acceleration. -/
theorem C118_imu_ros (E : Env) (o : Opts) (h : launch E = some o) (vw va vA vG vg : List ℝ) (Tw Ta RIA RIG Tg : M3)
    (h1 : E.rNums ("imu0" ++ "_" ++ "Tw") = some vw) (h2 : E.rNums ("imu0" ++ "_" ++ "Ta") = some va) (h3 : E.rNums ("imu0" ++ "_" ++ "R_IMUtoACC") = some vA) (h4 : E.rNums ("imu0" ++ "_" ++ "R_IMUtoGYRO") = some vG)
    (h5 : E.rNums ("imu0" ++ "_" ++ "Tg") = some vg) (r1 : ByRows vw Tw) (r2 : ByRows va Ta) (r3 : ByRows vA RIA) (r4 : ByRows vG RIG) (r5 : ByRows vg Tg)
    (hA : IsRot RIA) (hG : IsRot RIG) (hTw : Tw.det ≠ 0) (hTa : Ta.det ≠ 0) (hw : Prop_.Spec.Triangular o.kalibr Tw⁻¹) (ha : Prop_.Spec.Triangular o.kalibr Ta⁻¹) (w a bg ba : V3) (t : ℝ) :
    let d : Imu.Reading := { t := t, wm := (Tw * RIG).mulVec w + Tg.mulVec a + bg, am := (Ta * RIA).mulVec a + ba }
    (correct o.kalibr o.imu bg ba d d).w = w ∧ (correct o.kalibr o.imu bg ba d d).a = a := by
  obtain ⟨-, -, -, -, -, -, -, -, -, -, -, hi, -⟩ := loadOpts_parts (launch_iff.mp h)
  unfold loadImu at hi
  simp only [bind_ok, pure_ok] at hi
  obtain ⟨Tw', e1, Ta', e2, RA', e3, RG', e4, Tg', e5, hi⟩ := hi
  unfold Env.extern3 at e1 e2 e3 e4 e5
  rw [h1] at e1; rw [h2] at e2; rw [h3] at e3; rw [h4] at e4; rw [h5] at e5
  obtain rfl := ofList_rows r1 e1
  obtain rfl := ofList_rows r2 e2
  obtain rfl := ofList_rows r3 e3
  obtain rfl := ofList_rows r4 e4
  obtain rfl := ofList_rows r5 e5
  rw [← hi]
  have := C73_loaded_intrinsics o.kalibr Tw' Ta' Tg' RA' RG' hA hG hTw hTa hw ha w a bg ba t
  exact ⟨this.2.2.2.2.2.1, this.2.2.2.2.2.2⟩

/-- lists given by ROS: the pose of the camera, and an ideal inertial sensor -/
noncomputable def Ex.lists (n : String) : Option (List ℝ) :=
  if n = "cam0_T_imu_cam" then some [0, -1, 0, 1/10, 1, 0, 0, 1/5, 0, 0, 1, 3/10, 0, 0, 0, 1]
  else if n ∈ ["imu0_Tw", "imu0_Ta", "imu0_R_IMUtoACC", "imu0_R_IMUtoGYRO", "imu0_Tg"] then some [1, 0, 0, 0, 1, 0, 0, 0, 1]
  else none

/-- non-vacuity for C118_extrinsics_ros and C118_imu_ros: a running program with these lists; its camera file says otherwise -/
example : ∃ E o c, launch E = some o ∧ o.cams[0]? = some c ∧ o.kalibr = true ∧ (∃ v, E.rNums ("cam" ++ toString 0 ++ "_" ++ "T_imu_cam") = some v ∧ ByRows v Ex.pose) ∧ IsSE3 Ex.pose ∧
    (∀ n ∈ ["Tw", "Ta", "R_IMUtoACC", "R_IMUtoGYRO", "Tg"], ∃ v, E.rNums ("imu0" ++ "_" ++ n) = some v ∧ ByRows v (1 : M3)) ∧ Prop_.Spec.Triangular o.kalibr (1 : M3)⁻¹ ∧
    ∀ y, (quat2Rot c.q).mulVec ((rotBlock Ex.pose).mulVec y + posBlock Ex.pose) + c.p = y := by
  have hT : Ex.lists "cam0_T_imu_cam" = some [0, -1, 0, 1/10, 1, 0, 0, 1/5, 0, 0, 1, 3/10, 0, 0, 0, 1] := by simp [Ex.lists]
  have hM : ∀ n ∈ ["Tw", "Ta", "R_IMUtoACC", "R_IMUtoGYRO", "Tg"], Ex.lists ("imu0" ++ "_" ++ n) = some [1, 0, 0, 0, 1, 0, 0, 0, 1] := by
    intro n hn
    unfold Ex.lists
    rw [if_neg (show ¬("imu0" ++ "_" ++ n = "cam0_T_imu_cam") by revert n; decide), if_pos (by revert n; decide)]
  obtain ⟨o, h, -, hk, -, c, h1, -⟩ := Ex.runsR Ex.lists (by simp [Ex.lists]) (by simp [Ex.lists]) (by simp [Ex.lists]) (by simp [Ex.lists]) (fun v hv => by rw [hT] at hv; cases hv; simp)
    (fun n hn v hv => by rw [hM n hn] at hv; cases hv; simp) "GLOBAL_3D" "radtan" []
  have hR : ByRows [0, -1, 0, 1/10, 1, 0, 0, 1/5, 0, 0, 1, 3/10, 0, 0, 0, 1] Ex.pose := by
    refine ⟨rfl, fun r c => ?_⟩
    fin_cases r <;> fin_cases c <;> simp [Ex.pose]
  have hS : IsSE3 Ex.pose := by
    refine ⟨⟨?_, ?_⟩, ?_⟩
    · ext i j; fin_cases i <;> fin_cases j <;> simp [rotBlock, Ex.pose, Matrix.mul_apply, Fin.sum_univ_succ]
    · simp [rotBlock, Ex.pose, Matrix.det_fin_three]
    · intro i; fin_cases i <;> simp [Ex.pose]
  have hc : o.cams[0]? = some c := by rw [h1]; rfl
  refine ⟨_, o, c, h, hc, hk, ⟨_, hT, hR⟩, hS, fun n hn => ⟨_, hM n hn, rfl, fun r c => ?_⟩, ?_, (C118_extrinsics_ros _ o h 0 c hc _ hT _ hR hS).2⟩
  · fin_cases r <;> fin_cases c <;> simp
  · rw [hk]
    simp only [Prop_.Spec.Triangular, inv_one]
    intro i j hij
    exact Matrix.one_apply_ne hij.ne

/-- non-vacuity for C117_sensors and C117_required: that program's camera and inertial sensor are in its files -/
example : ∃ E o f, E.main = some f ∧ launch E = some o ∧ o.cams.length = 1 ∧ (sensor E "relative_config_imucam" "cam0").isSome ∧ (sensor E "relative_config_imu" "imu0").isSome := by
  obtain ⟨o, h, -, -, -, c, h1, -⟩ := Ex.runs "GLOBAL_3D" "radtan" []
  exact ⟨_, o, _, rfl, h, by rw [h1]; rfl, by rw [Ex.sensor_cam]; rfl, by rw [Ex.sensor_imu]; rfl⟩

end Verif.Cfg
