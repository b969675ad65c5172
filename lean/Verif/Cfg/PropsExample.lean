import Verif.Cfg.PropsCal

/-!
# A configuration with which the program runs (for C117, C118), and what is not refused
-/

set_option autoImplicit false
open Classical

namespace Verif.Cfg

open Verif Verif.Prop_ Verif.Land

open Spec

namespace Ex

/-- the strings of the main file; `rep` is the representation of the landmarks -/
def str (rep n : String) : String :=
  if n = "integration" then "rk4" else if n = "histogram_method" then "NONE" else if n = "feat_rep_slam" then rep else if n = "relative_config_imu" then "imu.yaml" else if n = "relative_config_imucam" then "cam.yaml" else "GLOBAL_3D"

noncomputable def main (rep : String) : File := fun n => some ⟨some 1, some [0, 0, 0], some (if n = "max_cameras" then 1 else 20), none, some (str rep n), some 1, []⟩

noncomputable def imu : File := fun n => some ⟨some 1, none, none, none, some (if n = "model" then "kalibr" else ""), none, [[1, 0, 0], [0, 1, 0], [0, 0, 1]]⟩

noncomputable def cam (model : String) (rows : List (List ℝ)) : File := fun n => some ⟨some 1, some [400, 400, 300, 200], none, some [641, 480], some model, none, if n = "T_imu_cam" then rows else []⟩

/-- files of one camera, downsampled (all booleans are true); ROS gives the lists `rn` -/
noncomputable def envR (rn : String → Option (List ℝ)) (rep model : String) (rows : List (List ℝ)) : Env where
  main := some (main rep)
  folder := "/"
  ext := fun p => if p = "/imu.yaml" then some (fun s => if s = "imu0" then some imu else none) else if p = "/cam.yaml" then some (fun s => if s = "cam0" then some (cam model rows) else none) else none
  rNum := fun _ => none
  rNums := rn
  rInt := fun _ => none
  rInts := fun _ => none
  rStr := fun _ => none
  rBool := fun _ => none

/-- without ROS parameters -/
noncomputable abbrev env (rep model : String) (rows : List (List ℝ)) : Env := envR (fun _ => none) rep model rows

theorem sensor_imu (rn : String → Option (List ℝ)) (rep model : String) (rows : List (List ℝ)) : sensor (envR rn rep model rows) "relative_config_imu" "imu0" = some imu := by
  simp [sensor, envR, main, str]

theorem sensor_cam (rn : String → Option (List ℝ)) (rep model : String) (rows : List (List ℝ)) : sensor (envR rn rep model rows) "relative_config_imucam" "cam0" = some (cam model rows) := by
  simp [sensor, envR, main, str]

theorem val_bind {α β : Type} (a : α) (f : α → L β) : (L.val a true >>= f) = f a := by
  show L.bind _ _ = _
  unfold L.bind L.val
  simp only [Bool.true_and]
  cases h : (f a).run with
  | none => rw [show f a = ⟨none⟩ from by rw [← h]]; rfl
  | some y => obtain ⟨c, d⟩ := y; rw [show f a = ⟨some (c, d)⟩ from by rw [← h]]

theorem loadTab_total {T : Type} {E : Env} {ros : String → Option T} {ps : File → String → T → Bool → L T} {z : T} {v : String → T} (hv : ∀ n d r, E.config ros ps n d r = L.val (v n) true) :
    ∀ tab : Table T, (tab.map Prod.fst).Nodup → ∃ m, loadTab E ros ps z tab = L.val m true ∧ ∀ e ∈ tab, m e.1 = v e.1 := by
  intro tab
  induction tab with
  | nil => exact fun _ => ⟨fun _ => z, rfl, fun e he => by simp at he⟩
  | cons e tl ih =>
    obtain ⟨n, d, r⟩ := e
    intro hn
    rw [List.map_cons, List.nodup_cons] at hn
    obtain ⟨m, h1, h2⟩ := ih hn.2
    refine ⟨Function.update m n (v n), ?_, ?_⟩
    · rw [loadTab, hv, val_bind, h1, val_bind]; rfl
    · intro e he
      rcases List.mem_cons.mp he with rfl | he
      · simp
      · have : e.1 ≠ n := fun hh => hn.1 (hh ▸ List.mem_map.mpr ⟨e, he, rfl⟩)
        rw [Function.update_of_ne this]; exact h2 e he

/-- the program runs -/
theorem runsR (rn : String → Option (List ℝ)) (n1 : rn "init_dyn_bias_g" = none) (n2 : rn "init_dyn_bias_a" = none) (n3 : rn "cam0_intrinsics" = none) (n4 : rn "cam0_distortion_coeffs" = none)
    (n5 : ∀ v, rn "cam0_T_imu_cam" = some v → 16 ≤ v.length) (n6 : ∀ n ∈ ["Tw", "Ta", "R_IMUtoACC", "R_IMUtoGYRO", "Tg"], ∀ v, rn ("imu0" ++ "_" ++ n) = some v → 9 ≤ v.length) (rep model : String) (rows : List (List ℝ)) : ∃ o, launch (envR rn rep model rows) = some o ∧ o.repSlam = fromString rep ∧ o.kalibr = true ∧ o.bool "downsample_cameras" = true ∧
    ∃ c, o.cams = [c] ∧ c.equi = decide (model = "equidistant") := by
  have cb : ∀ n d r, (envR rn rep model rows).config (envR rn rep model rows).rBool parseBool n d r = L.val true true := fun n d r => by simp [Env.config, envR, main, parseBool]
  have cz : ∀ n d r, (envR rn rep model rows).config (envR rn rep model rows).rInt (parse Leaf.int) n d r = L.val (if n = "max_cameras" then 1 else 20) true := fun n d r => by simp [Env.config, envR, main, parse]
  have cx : ∀ n d r, (envR rn rep model rows).config (envR rn rep model rows).rNum (parse Leaf.num) n d r = L.val 1 true := fun n d r => by simp [Env.config, envR, main, parse]
  have cs : ∀ n d r, (envR rn rep model rows).config (envR rn rep model rows).rStr (parse Leaf.str) n d r = L.val (str rep n) true := fun n d r => by simp [Env.config, envR, main, parse]
  have cv : ∀ n d r, rn n = none → (envR rn rep model rows).config (envR rn rep model rows).rNums (parse Leaf.nums) n d r = L.val [0, 0, 0] true := fun n d r hn => by simp [Env.config, envR, main, parse, hn]
  have cg := cv "init_dyn_bias_g" [0, 0, 0] true n1
  have ca := cv "init_dyn_bias_a" [0, 0, 0] true n2
  have ei : ∀ {T : Type} (ps : File → String → T → Bool → L T) n d r, (envR rn rep model rows).external ps "relative_config_imu" "imu0" n d r = ps imu n d r := fun ps n d r => external_sensor (sensor_imu rn rep model rows)
  have ec : ∀ {T : Type} (ps : File → String → T → Bool → L T) n d r, (envR rn rep model rows).external ps "relative_config_imucam" "cam0" n d r = ps (cam model rows) n d r := fun ps n d r => external_sensor (sensor_cam rn rep model rows)
  obtain ⟨b, hb, hb'⟩ := loadTab_total (z := false) cb boolTab (by decide)
  obtain ⟨z, hz, hz'⟩ := loadTab_total (z := 0) cz intTab (by decide)
  obtain ⟨x, hx, hx'⟩ := loadTab_total (z := 0) cx numTab numTab_names
  obtain ⟨s, hs, hs'⟩ := loadTab_total (z := "") cs strTab (by decide)
  obtain ⟨ib, hib, hib'⟩ := loadTab_total (z := false) cb initBoolTab (by decide)
  obtain ⟨iz, hiz, hiz'⟩ := loadTab_total (z := 0) cz initIntTab (by decide)
  obtain ⟨ix, hix, hix'⟩ := loadTab_total (z := 0) cx initNumTab initNumTab_names
  have z1 : z "max_cameras" = 1 := hz' ("max_cameras", 1, true) (by simp [intTab])
  have z2 : iz "max_cameras" = 1 := hiz' ("max_cameras", 1, true) (by simp [initIntTab])
  have z3 : iz "init_max_features" = 20 := hiz' ("init_max_features", 50, true) (by simp [initIntTab])
  have z4 : iz "init_dyn_num_pose" = 20 := hiz' ("init_dyn_num_pose", 5, true) (by simp [initIntTab])
  have x1 : ix "init_imu_thresh" = 1 := hix' ("init_imu_thresh", 1, true) (by simp [initNumTab])
  have x2 : ix "init_max_disparity" = 1 := hix' ("init_max_disparity", 1, true) (by simp [initNumTab])
  have b1 : b "downsample_cameras" = true := hb' ("downsample_cameras", false, true) (by simp [boolTab])
  have s1 : s "integration" = "rk4" := hs' ("integration", "rk4", true) (by simp [strTab])
  have s2 : s "histogram_method" = "NONE" := hs' ("histogram_method", "HISTOGRAM", true) (by simp [strTab])
  have s3 : s "feat_rep_slam" = rep := hs' ("feat_rep_slam", "GLOBAL_3D", true) (by simp [strTab])
  have hN : loadNoise (envR rn rep model rows) = L.val ⟨1, 1, 1, 1⟩ true := by
    simp [loadNoise, Env.extern, show (envR rn rep model rows).rNum = fun _ => none from rfl, ei, parse, imu, val_bind, L.pure]
  have hD : loadDt (envR rn rep model rows) 1 = L.val 1 true := by
    simp [loadDt, Env.extern, show (envR rn rep model rows).rNum = fun _ => none from rfl, ec, parse, cam]
  have hC : ∀ d, ∃ c, loadCams (envR rn rep model rows) d 0 1 = L.val [c] true ∧ c.equi = decide (model = "equidistant") := by
    intro d
    have : ∃ c, loadCam (envR rn rep model rows) d 0 = L.val c true ∧ c.equi = decide (model = "equidistant") := by
      have t : "cam" ++ toString 0 = "cam0" := by decide
      have hT : ∃ T, (envR rn rep model rows).extern4 "relative_config_imucam" "cam0" "T_imu_cam" 1 = L.val T true := by
        unfold Env.extern4
        cases hv : (envR rn rep model rows).rNums ("cam0" ++ "_" ++ "T_imu_cam") with
        | none => exact ⟨_, by simp only [ec, parse4, cam]; rfl⟩
        | some v => exact ⟨_, by simp only [ofList]; rw [if_pos (n5 v hv)]; rfl⟩
      obtain ⟨T, hT⟩ := hT
      have i1 : (envR rn rep model rows).rNums ("cam0" ++ "_" ++ "intrinsics") = none := n3
      have i2 : (envR rn rep model rows).rNums ("cam0" ++ "_" ++ "distortion_coeffs") = none := n4
      unfold loadCam
      simp only [t, Env.extern, hT, i1, i2, show (envR rn rep model rows).rStr = fun _ => none from rfl, show (envR rn rep model rows).rInts = fun _ => none from rfl, ec]
      simp only [parse, cam, val_bind, L.at, List.getElem?_cons_zero, List.getElem?_cons_succ, L.pure]
      exact ⟨_, rfl, rfl⟩
    obtain ⟨c, h1, h2⟩ := this
    refine ⟨c, ?_, h2⟩
    rw [loadCams, h1, val_bind, loadCams]
    show (L.val [] true >>= _) = _
    rw [val_bind]; rfl
  have hI : ∃ c, loadImu (envR rn rep model rows) true = L.val c true := by
    have hM : ∀ n ∈ ["Tw", "Ta", "R_IMUtoACC", "R_IMUtoGYRO", "Tg"], ∀ d, ∃ M, (envR rn rep model rows).extern3 "relative_config_imu" "imu0" n d = L.val M true := by
      intro n hn d
      unfold Env.extern3
      cases hv : (envR rn rep model rows).rNums ("imu0" ++ "_" ++ n) with
      | none => exact ⟨_, by simp only [ei, parse3, imu]; rfl⟩
      | some v => exact ⟨_, by simp only [ofList]; rw [if_pos (n6 n hn v hv)]; rfl⟩
    obtain ⟨M1, m1⟩ := hM "Tw" (by simp) 1
    obtain ⟨M2, m2⟩ := hM "Ta" (by simp) 1
    obtain ⟨M3, m3⟩ := hM "R_IMUtoACC" (by simp) 1
    obtain ⟨M4, m4⟩ := hM "R_IMUtoGYRO" (by simp) 1
    obtain ⟨M5, m5⟩ := hM "Tg" (by simp) 0
    unfold loadImu
    simp only [m1, m2, m3, m4, m5, val_bind, L.pure]
    exact ⟨_, rfl⟩
  obtain ⟨c, hc, hc'⟩ := hC (b "downsample_cameras")
  obtain ⟨c2, hc2, -⟩ := hC (ib "downsample_cameras")
  obtain ⟨im, him⟩ := hI
  have hinit : ∃ i, loadInit (envR rn rep model rows) = L.val i true := by
    unfold loadInit
    simp only [hib, val_bind, hiz, hix, cg, ca, L.at, List.getElem?_cons_zero, List.getElem?_cons_succ, z2, z3, z4, x1, x2, L.guard, hN, hD, Int.toNat_one, hc2, L.pure]
    norm_num [val_bind]
  obtain ⟨i, hi⟩ := hinit
  have hm : (envR rn rep model rows).extern (envR rn rep model rows).rStr (parse Leaf.str) "relative_config_imu" "imu0" "model" "kalibr" = L.val "kalibr" true := by
    simp [Env.extern, show (envR rn rep model rows).rStr = fun _ => none from rfl, ei, parse, imu]
  refine ⟨⟨b, z, x, s, .rk4, true, .none, fromString (s "feat_rep_msckf"), fromString (s "feat_rep_slam"), fromString (s "feat_rep_aruco"), ⟨1, 1, 1, 1⟩, 1, [c], im, i⟩, ?_, by rw [s3], rfl, b1, c, rfl, hc'⟩
  rw [launch_iff]
  unfold loadOpts
  simp only [hb, val_bind, hz, hx, hs, s1, s2, hm, hi, hN, z1, hc, hD, Int.toNat_one, L.guard]
  simp [integOf, histOf, modelOf, L.pure, val_bind, him, hD, hc]

theorem runs (rep model : String) (rows : List (List ℝ)) : ∃ o, launch (env rep model rows) = some o ∧ o.repSlam = fromString rep ∧ o.kalibr = true ∧ o.bool "downsample_cameras" = true ∧
    ∃ c, o.cams = [c] ∧ c.equi = decide (model = "equidistant") := runsR (fun _ => none) rfl rfl rfl rfl (by simp) (by simp) rep model rows

end Ex

/-- **C117 (not refused).** A representation of the landmarks that is misspelled does not end the program: it runs with the representation `unknown`. So a required parameter being read is all that a running program says about it. -/
theorem C117_misspelled_representation : ∃ E o, launch E = some o ∧ o.str "feat_rep_slam" = "GLOBAL3D" ∧ o.repSlam = .unknown := by
  obtain ⟨o, h, h1, -⟩ := Ex.runs "GLOBAL3D" "radtan" []
  obtain ⟨-, -, -, v, -⟩ := C117_values _ _ rfl o h
  refine ⟨_, o, h, ?_, by rw [h1]; decide⟩
  rw [(v ("feat_rep_slam", "GLOBAL_3D", true) (by simp [strTab])).1]
  simp [given, Ex.envR, Ex.main, Ex.str]

/-- **C117 (not refused).** A distortion model that is misspelled does not end the program: the camera is then of the radial-tangential model. -/
theorem C117_misspelled_distortion : ∃ E o c, launch E = some o ∧ sensor E "relative_config_imucam" "cam0" = some c ∧ ((c "distortion_model").bind Leaf.str) = some "equi" ∧ ∃ k, o.cams = [k] ∧ k.equi = false := by
  obtain ⟨o, h, -, -, -, c, h1, h2⟩ := Ex.runs "GLOBAL_3D" "equi" []
  exact ⟨_, o, _, h, Ex.sensor_cam _ _ _ _, by simp [Ex.cam], c, h1, by rw [h2]; decide⟩

/-- **C117 (not refused).** A pose of a camera that lists a rotation but no translation does not end the program: the camera is then where the inertial sensor is. -/
theorem C117_incomplete_pose : ∃ E o g l c, launch E = some o ∧ sensor E "relative_config_imucam" "cam0" = some g ∧ g "T_imu_cam" = some l ∧ (¬ ∃ T : M4, Rows l T) ∧ o.cams = [c] ∧ c.p = 0 := by
  obtain ⟨o, h, -, -, -, c, h1, -⟩ := Ex.runs "GLOBAL_3D" "radtan" [[0, -1, 0], [1, 0, 0], [0, 0, 1]]
  refine ⟨_, o, _, _, c, h, Ex.sensor_cam _ _ _ _, rfl, ?_, h1, ?_⟩
  · rintro ⟨T, hT⟩
    have := hT 0 3
    simp at this
  · obtain ⟨-, -, -, -, T, -, -, -, -, e, -, -, -, -, hp⟩ := loadCam_parts (cam_parts h (k := 0) (c := c) (by rw [h1]; rfl))
    have t : "cam" ++ toString 0 = "cam0" := by decide
    unfold Env.extern4 at e
    rw [t] at e
    simp only [show (Ex.env "GLOBAL_3D" "radtan" [[0, -1, 0], [1, 0, 0], [0, 0, 1]]).rNums = fun _ => none from rfl, external_sensor (Ex.sensor_cam _ _ _ _)] at e
    simp only [parse4, flipName, Ex.cam, val_inj, and_true] at e
    subst e
    rw [hp]
    have : posBlock (fill [[0, -1, 0], [1, 0, 0], [0, 0, 1]] : M4) = 0 := by
      ext i; fin_cases i <;> simp [posBlock, fill]
    simp [this]

/-- a camera turned by a quarter, with an offset -/
noncomputable def Ex.pose : M4 := !![0, -1, 0, 1/10; 1, 0, 0, 1/5; 0, 0, 1, 3/10; 0, 0, 0, 1]

/-- non-vacuity for C118_extrinsics and C118_pixels: a running program whose camera has that pose, and the conclusion for it -/
example : ∃ E o g l c, launch E = some o ∧ sensor E "relative_config_imucam" ("cam" ++ toString 0) = some g ∧ E.rNums ("cam" ++ toString 0 ++ "_" ++ "T_imu_cam") = none ∧ g "T_imu_cam" = some l ∧ Rows l Ex.pose ∧ IsSE3 Ex.pose ∧
    o.cams[0]? = some c ∧ ∀ y, (quat2Rot c.q).mulVec ((rotBlock Ex.pose).mulVec y + posBlock Ex.pose) + c.p = y := by
  obtain ⟨o, h, -, -, -, c, h1, -⟩ := Ex.runs "GLOBAL_3D" "radtan" [[0, -1, 0, 1/10], [1, 0, 0, 1/5], [0, 0, 1, 3/10], [0, 0, 0, 1]]
  have hR : ∀ s, Rows (⟨some 1, some [400, 400, 300, 200], none, some [641, 480], s, none, [[0, -1, 0, 1/10], [1, 0, 0, 1/5], [0, 0, 1, 3/10], [0, 0, 0, 1]]⟩ : Leaf) Ex.pose := by
    intro s r c
    fin_cases r <;> fin_cases c <;> simp [Ex.pose]
  have hS : IsSE3 Ex.pose := by
    refine ⟨⟨?_, ?_⟩, ?_⟩
    · ext i j; fin_cases i <;> fin_cases j <;> simp [rotBlock, Ex.pose, Matrix.mul_apply, Fin.sum_univ_succ]
    · simp [rotBlock, Ex.pose, Matrix.det_fin_three]
    · intro i; fin_cases i <;> simp [Ex.pose]
  have hc : o.cams[0]? = some c := by rw [h1]; rfl
  exact ⟨_, o, _, _, c, h, Ex.sensor_cam _ _ _ _, rfl, rfl, hR _, hS, hc, ((C118_extrinsics _ o h 0 c hc _ (Ex.sensor_cam _ _ _ _) rfl).1 _ _ rfl (hR _) hS).2⟩

/-- non-vacuity for C118_imu: a running program with the intrinsics of an ideal sensor in its file -/
example : ∃ E o g l, launch E = some o ∧ sensor E "relative_config_imu" "imu0" = some g ∧ (∀ n ∈ ["Tw", "Ta", "R_IMUtoACC", "R_IMUtoGYRO", "Tg"], E.rNums ("imu0" ++ "_" ++ n) = none ∧ g n = some l) ∧ Rows l (1 : M3) ∧
    Prop_.Spec.Triangular o.kalibr (1 : M3)⁻¹ := by
  obtain ⟨o, h, -, hk, -⟩ := Ex.runs "GLOBAL_3D" "radtan" []
  refine ⟨_, o, _, ⟨some 1, none, none, none, some "", none, [[1, 0, 0], [0, 1, 0], [0, 0, 1]]⟩, h, Ex.sensor_imu _ _ _ _, ?_, ?_, ?_⟩
  · intro n hn
    refine ⟨rfl, ?_⟩
    fin_cases hn <;> simp [Ex.imu]
  · intro r c; fin_cases r <;> fin_cases c <;> simp
  · rw [hk]
    simp only [Prop_.Spec.Triangular, inv_one]
    intro i j hij
    exact Matrix.one_apply_ne hij.ne

end Verif.Cfg
