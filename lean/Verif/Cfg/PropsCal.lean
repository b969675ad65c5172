import Verif.Cfg.Props

/-!
# The calibration that is loaded (C118)
-/

set_option autoImplicit false
open Classical

namespace Verif.Cfg

open Verif Verif.Prop_ Verif.Land

open Spec

theorem loadCams_ok {E : Env} {down : Bool} : ∀ {n i : ℕ} {cs : List CamOut}, loadCams E down i n = L.val cs true → cs.length = n ∧ ∀ (k : ℕ) (c : CamOut), cs[k]? = some c → loadCam E down (i + k) = L.val c true := by
  intro n
  induction n with
  | zero =>
    intro i cs h
    rw [loadCams, pure_ok] at h
    subst h
    exact ⟨rfl, fun k c h => by simp at h⟩
  | succ n ih =>
    intro i cs h
    rw [loadCams, bind_ok] at h
    obtain ⟨c, h1, h2⟩ := h
    rw [bind_ok] at h2
    obtain ⟨cs', h2, h3⟩ := h2
    rw [pure_ok] at h3
    subst h3
    obtain ⟨a, b⟩ := ih h2
    refine ⟨by simp [a], ?_⟩
    intro k c' hk
    cases k with
    | zero => simp only [List.getElem?_cons_zero, Option.some.injEq] at hk; subst hk; simpa using h1
    | succ k =>
      simp only [List.getElem?_cons_succ] at hk
      have := b k c' hk
      rwa [show i + 1 + k = i + (k + 1) by omega] at this

theorem loadCam_parts {E : Env} {down : Bool} {i : ℕ} {c : CamOut} (h : loadCam E down i = L.val c true) :
    ∃ model c1 c2 wh T, E.extern E.rStr (parse Leaf.str) "relative_config_imucam" ("cam" ++ toString i) "distortion_model" "radtan" true = L.val model true ∧
      E.extern E.rNums (parse Leaf.nums) "relative_config_imucam" ("cam" ++ toString i) "intrinsics" [1, 1, 0, 0] true = L.val c1 true ∧
      E.extern E.rNums (parse Leaf.nums) "relative_config_imucam" ("cam" ++ toString i) "distortion_coeffs" [0, 0, 0, 0] true = L.val c2 true ∧
      E.extern E.rInts (parse Leaf.ints) "relative_config_imucam" ("cam" ++ toString i) "resolution" [1, 1] true = L.val wh true ∧
      E.extern4 "relative_config_imucam" ("cam" ++ toString i) "T_imu_cam" 1 = L.val T true ∧
      c.equi = decide (model = "equidistant") ∧
      (∃ fx fy cx cy k1 k2 k3 k4, c1[0]? = some fx ∧ c1[1]? = some fy ∧ c1[2]? = some cx ∧ c1[3]? = some cy ∧ c2[0]? = some k1 ∧ c2[1]? = some k2 ∧ c2[2]? = some k3 ∧ c2[3]? = some k4 ∧
        c.calib = ![fx / (if down then 2 else 1), fy / (if down then 2 else 1), cx / (if down then 2 else 1), cy / (if down then 2 else 1), k1, k2, k3, k4]) ∧
      (∃ w h, wh[0]? = some w ∧ wh[1]? = some h ∧ c.w = (if down then w.tdiv 2 else w) ∧ c.h = if down then h.tdiv 2 else h) ∧
      c.q = rot2quat (rotBlock T).transpose ∧ c.p = -((rotBlock T).transpose.mulVec (posBlock T)) := by
  unfold loadCam at h
  simp only [bind_ok, pure_ok, at_ok] at h
  obtain ⟨model, h1, c1, h2, c2, h3, fx, f1, fy, f2, cx, f3, cy, f4, k1, g1, k2, g2, k3, g3, k4, g4, wh, h4, w, w1, hh, w2, T, h5, rfl⟩ := h
  exact ⟨model, c1, c2, wh, T, h1, h2, h3, h4, h5, rfl, ⟨fx, fy, cx, cy, k1, k2, k3, k4, f1, f2, f3, f4, g1, g2, g3, g4, rfl⟩, ⟨w, hh, w1, w2, rfl, rfl⟩, rfl, rfl⟩

theorem fill_rows {n : ℕ} {l : Leaf} {T : Matrix (Fin n) (Fin n) ℝ} (h : Rows l T) : fill l.rows = T := by
  funext r c
  have := h r c
  unfold fill
  cases e : l.rows[r.val]? with
  | none => rw [e] at this; simp at this
  | some row =>
    rw [e] at this
    simp only [Option.bind_some] at this
    simp [this]

theorem external_sensor {T : Type} {E : Env} {ps : File → String → T → Bool → L T} {file sen name : String} {d : T} {req : Bool} {g : File} (hg : sensor E file sen = some g) :
    E.external ps file sen name d req = ps g name d req := by
  unfold sensor at hg
  unfold Env.external
  cases e1 : E.main with
  | none => rw [e1] at hg; simp at hg
  | some f =>
    rw [e1] at hg
    simp only [Option.bind_some] at hg ⊢
    cases e2 : f file with
    | none => rw [e2] at hg; simp at hg
    | some l =>
      rw [e2] at hg
      simp only [Option.bind_some] at hg ⊢
      cases e3 : l.str with
      | none => rw [e3] at hg; simp at hg
      | some path =>
        rw [e3] at hg
        simp only [Option.bind_some] at hg ⊢
        cases e4 : E.ext (E.folder ++ path) with
        | none => rw [e4] at hg; simp at hg
        | some X =>
          rw [e4] at hg
          simp only [Option.bind_some] at hg ⊢
          rw [hg]

/-- a parameter of a sensor's file: the ROS parameter, else the file -/
theorem extern_given {T : Type} {E : Env} {ros : String → Option T} {rd : Leaf → Option T} {file sen name : String} {d v : T} {g : File} (hg : sensor E file sen = some g) {r : Bool}
    (h : E.extern ros (parse rd) file sen name d r = L.val v true) :
    v = ((ros (sen ++ "_" ++ name)).or ((g name).bind rd)).getD d ∧ (r = true → ((ros (sen ++ "_" ++ name)).or ((g name).bind rd)).isSome) := by
  unfold Env.extern at h
  rw [external_sensor hg] at h
  cases e : ros (sen ++ "_" ++ name) with
  | some w => rw [e] at h; simp at h; simp [h]
  | none =>
    rw [e] at h
    simp only [parse] at h
    cases e2 : g name with
    | none => rw [e2] at h; simp at h; simp [h]
    | some l =>
      rw [e2] at h
      simp only at h
      cases e3 : rd l with
      | none => rw [e3] at h; simp at h; simp [h, e3]
      | some w => rw [e3] at h; simp at h; simp [h, e3]

/-- the camera of a running program -/
theorem cam_parts {E : Env} {o : Opts} (h : launch E = some o) {k : ℕ} {c : CamOut} (hc : o.cams[k]? = some c) : loadCam E (o.bool "downsample_cameras") k = L.val c true := by
  obtain ⟨-, -, -, -, -, -, -, -, -, -, h1, -⟩ := loadOpts_parts (launch_iff.mp h)
  have := (loadCams_ok h1).2 k c hc
  rwa [Nat.zero_add] at this

/-- **C118 (pose of a camera).** If the program runs and the pose of camera `k` is not given by ROS: with the pose of the camera in the inertial frame in the file (`T_imu_cam`), the loaded calibration takes the inertial coordinates of every
point back to its camera coordinates; with the inverse in the file (`T_cam_imu`), it is that transformation. -/
theorem C118_extrinsics (E : Env) (o : Opts) (h : launch E = some o) (k : ℕ) (c : CamOut) (hc : o.cams[k]? = some c) (g : File) (hg : sensor E "relative_config_imucam" ("cam" ++ toString k) = some g)
    (hr : E.rNums ("cam" ++ toString k ++ "_" ++ "T_imu_cam") = none) :
    (∀ l T, g "T_imu_cam" = some l → Rows l T → IsSE3 T → IsRot (quat2Rot c.q) ∧ ∀ y, (quat2Rot c.q).mulVec ((rotBlock T).mulVec y + posBlock T) + c.p = y) ∧
    (∀ l T, g "T_imu_cam" = none → g "T_cam_imu" = some l → Rows l T → IsSE3 T → IsRot (quat2Rot c.q) ∧ ∀ x, (quat2Rot c.q).mulVec x + c.p = (rotBlock T).mulVec x + posBlock T) := by
  obtain ⟨-, -, -, -, T', -, -, -, -, h1, -, -, -, hq, hp⟩ := loadCam_parts (cam_parts h hc)
  unfold Env.extern4 at h1
  rw [hr] at h1
  simp only [external_sensor hg, parse4] at h1
  constructor
  · intro l T hl hT hS
    have hn : flipName g "T_imu_cam" = "T_imu_cam" := by simp [flipName, hl]
    rw [hn, hl] at h1
    simp only [ne_eq, not_true, if_false, val_inj, and_true, fill_rows hT] at h1
    subst h1
    have e : quat2Rot c.q = (rotBlock T).transpose := by rw [hq]; exact (QuatProps.C24_rotation_round_trip.2 _ hS.rot.transpose).2
    rw [e, hp]
    refine ⟨hS.rot.transpose, fun y => ?_⟩
    rw [Matrix.mulVec_add, Matrix.mulVec_mulVec, hS.rot.orth, Matrix.one_mulVec, add_neg_cancel_right]
  · intro l T hl0 hl hT hS
    have hn : flipName g "T_imu_cam" = "T_cam_imu" := by simp [flipName, hl0]
    rw [hn, hl] at h1
    simp only [ne_eq, val_inj, and_true, fill_rows hT] at h1
    rw [if_pos (by decide)] at h1
    subst h1
    have er : rotBlock (invSE3 T) = (rotBlock T).transpose := by simp only [invSE3, rotBlock_mkSE3]
    have ep : posBlock (invSE3 T) = -((rotBlock T).transpose.mulVec (posBlock T)) := by
      simp only [invSE3]; ext i; fin_cases i <;> simp [posBlock, mkSE3]
    rw [er, Matrix.transpose_transpose] at hq
    rw [er, ep, Matrix.transpose_transpose] at hp
    have e : quat2Rot c.q = rotBlock T := by rw [hq]; exact (QuatProps.C24_rotation_round_trip.2 _ hS.rot).2
    rw [e, hp]
    refine ⟨hS.rot, fun x => ?_⟩
    rw [Matrix.mulVec_neg, Matrix.mulVec_mulVec, hS.rot.orth', Matrix.one_mulVec, neg_neg]

/-- **C118 (pixels).** If the program runs, camera `k` projects as the camera in the file does, with all pixels halved if images are downsampled; the size of its images is that in the file, halved and rounded down if they are downsampled;
ROS parameters come before the file. -/
theorem C118_pixels (E : Env) (o : Opts) (h : launch E = some o) (k : ℕ) (c : CamOut) (hc : o.cams[k]? = some c) (g : File) (hg : sensor E "relative_config_imucam" ("cam" ++ toString k) = some g) :
    let sen := "cam" ++ toString k
    ∃ model c1 c2 wh, (E.rStr (sen ++ "_" ++ "distortion_model")).or ((g "distortion_model").bind Leaf.str) = some model ∧
      (E.rNums (sen ++ "_" ++ "intrinsics")).or ((g "intrinsics").bind Leaf.nums) = some c1 ∧ (E.rNums (sen ++ "_" ++ "distortion_coeffs")).or ((g "distortion_coeffs").bind Leaf.nums) = some c2 ∧
      (E.rInts (sen ++ "_" ++ "resolution")).or ((g "resolution").bind Leaf.ints) = some wh ∧ (c.equi = true ↔ model = "equidistant") ∧
      ∃ full : Cam.Intr, (∀ i : Fin 4, c1[i.val]? = some (full ⟨i.val, by omega⟩)) ∧ (∀ i : Fin 4, c2[i.val]? = some (full ⟨4 + i.val, by omega⟩)) ∧
        (∀ u, Cam.radtan c.calib u = (if o.bool "downsample_cameras" then (1 / 2 : ℝ) else 1) • Cam.radtan full u) ∧
        (∀ u, Cam.equi c.calib u = (if o.bool "downsample_cameras" then (1 / 2 : ℝ) else 1) • Cam.equi full u) ∧
        ∃ w h, wh[0]? = some w ∧ wh[1]? = some h ∧ c.w = (if o.bool "downsample_cameras" then w.tdiv 2 else w) ∧ c.h = if o.bool "downsample_cameras" then h.tdiv 2 else h := by
  intro sen
  obtain ⟨model, c1, c2, wh, -, h1, h2, h3, h4, -, h5, ⟨fx, fy, cx, cy, k1, k2, k3, k4, f1, f2, f3, f4, g1, g2, g3, g4, hcal⟩, hwh, -⟩ := loadCam_parts (cam_parts h hc)
  have key : ∀ {T : Type} {x : Option T} {v d : T}, v = x.getD d ∧ (true = true → x.isSome) → x = some v := by
    intro T x v d ⟨a, b⟩
    cases x with
    | none => simp at b
    | some w => simp at a; rw [a]
  refine ⟨model, c1, c2, wh, key (extern_given hg h1), key (extern_given hg h2), key (extern_given hg h3), key (extern_given hg h4), by rw [h5]; simp, ![fx, fy, cx, cy, k1, k2, k3, k4], ?_, ?_, ?_, ?_, hwh⟩
  · intro i; fin_cases i
    · exact f1
    · exact f2
    · exact f3
    · exact f4
  · intro i; fin_cases i
    · exact g1
    · exact g2
    · exact g3
    · exact g4
  · intro u
    rw [hcal]
    cases o.bool "downsample_cameras"
    · simp
    · ext i; fin_cases i <;> simp [Cam.radtan] <;> ring
  · intro u
    rw [hcal]
    cases o.bool "downsample_cameras"
    · simp
    · have e : ∀ th, Cam.thetaD ![fx / 2, fy / 2, cx / 2, cy / 2, k1, k2, k3, k4] th = Cam.thetaD ![fx, fy, cx, cy, k1, k2, k3, k4] th := fun th => rfl
      ext i
      by_cases hb : (1e-8 : ℝ) < Real.sqrt (u 0 * u 0 + u 1 * u 1)
      · simp only [Cam.equi, if_true, e, if_pos hb]
        generalize Cam.thetaD _ _ * _ = z
        fin_cases i <;> simp <;> ring
      · simp only [Cam.equi, if_true, if_neg hb]
        fin_cases i <;> simp <;> ring

/-- **C118 (filter and initialiser agree).** If the program runs, the filter and the initialiser have the same cameras, noises, time offset, gravity and pixel noise of landmarks, and agree on stereo and downsampling. -/
theorem C118_filter_initialiser_agree (E : Env) (f : File) (hf : E.main = some f) (o : Opts) (h : launch E = some o) :
    o.init.cams = o.cams ∧ o.init.noise = o.noise ∧ o.init.dt = o.dt ∧ o.init.num "gravity_mag" = o.num "gravity_mag" ∧ o.init.num "up_slam_sigma_px" = o.num "up_slam_sigma_px" ∧
    o.init.bool "use_stereo" = o.bool "use_stereo" ∧ o.init.bool "downsample_cameras" = o.bool "downsample_cameras" ∧ o.init.int "max_cameras" = o.int "max_cameras" ∧ o.int "max_cameras" = o.cams.length := by
  obtain ⟨v1, v2, v3, -, w1, w2, w3⟩ := C117_values E f hf o h
  obtain ⟨-, -, -, -, -, -, -, h5, hN, hdt, hcams, -, hlen, -⟩ := loadOpts_parts (launch_iff.mp h)
  obtain ⟨-, -, -, -, -, -, -, iN, idt, icams, -, -⟩ := loadInit_parts h5
  have e1 : o.init.int "max_cameras" = o.int "max_cameras" := by
    rw [(w2 ("max_cameras", 1, true) (by simp [initIntTab])).1, (v2 ("max_cameras", 1, true) (by simp [intTab])).1]
  have e2 : o.init.bool "downsample_cameras" = o.bool "downsample_cameras" := by
    rw [(w1 ("downsample_cameras", false, true) (by simp [initBoolTab])).1, (v1 ("downsample_cameras", false, true) (by simp [boolTab])).1]
  have e3 : o.init.bool "use_stereo" = o.bool "use_stereo" := by
    rw [(w1 ("use_stereo", true, true) (by simp [initBoolTab])).1, (v1 ("use_stereo", true, true) (by simp [boolTab])).1]
  have e4 : o.init.num "gravity_mag" = o.num "gravity_mag" := by
    rw [(w3 ("gravity_mag", 9.81, true) (by simp [initNumTab])).1, (v3 ("gravity_mag", 9.81, true) (by simp [numTab])).1]
  have e5 : o.init.num "up_slam_sigma_px" = o.num "up_slam_sigma_px" := by
    rw [(w3 ("up_slam_sigma_px", 1, true) (by simp [initNumTab])).1, (v3 ("up_slam_sigma_px", 1, true) (by simp [numTab])).1]
  rw [e1, e2] at icams
  rw [e1] at idt
  rw [icams, val_inj] at hcams
  rw [iN, val_inj] at hN
  rw [idt, val_inj] at hdt
  exact ⟨hcams.1, hN.1, hdt.1, e4, e5, e3, e2, e1, hlen⟩

theorem extern3_rows {E : Env} {sen name : String} {file : String} {g : File} (hg : sensor E file sen = some g) (hr : E.rNums (sen ++ "_" ++ name) = none) {l : Leaf} {T : M3} (hl : g name = some l) (hT : Rows l T)
    {d M : M3} (h : E.extern3 file sen name d = L.val M true) : M = T := by
  unfold Env.extern3 at h
  rw [hr] at h
  simp only [external_sensor hg, parse3, hl, val_inj, and_true, fill_rows hT] at h
  exact h.symm

/-- **C118 (inertial sensor).** If the program runs with the intrinsics of the inertial sensor from the file, of the shape its model can represent, then a reading made by such a sensor is corrected to the true rate and acceleration. -/
theorem C118_imu (E : Env) (o : Opts) (h : launch E = some o) (g : File) (hg : sensor E "relative_config_imu" "imu0" = some g)
    (hr : ∀ n ∈ ["Tw", "Ta", "R_IMUtoACC", "R_IMUtoGYRO", "Tg"], E.rNums ("imu0" ++ "_" ++ n) = none)
    (lw la lA lG lg : Leaf) (Tw Ta RIA RIG Tg : M3) (h1 : g "Tw" = some lw) (h2 : g "Ta" = some la) (h3 : g "R_IMUtoACC" = some lA) (h4 : g "R_IMUtoGYRO" = some lG) (h5 : g "Tg" = some lg)
    (r1 : Rows lw Tw) (r2 : Rows la Ta) (r3 : Rows lA RIA) (r4 : Rows lG RIG) (r5 : Rows lg Tg)
    (hA : IsRot RIA) (hG : IsRot RIG) (hTw : Tw.det ≠ 0) (hTa : Ta.det ≠ 0) (hw : Prop_.Spec.Triangular o.kalibr Tw⁻¹) (ha : Prop_.Spec.Triangular o.kalibr Ta⁻¹) (w a bg ba : V3) (t : ℝ) :
    let d : Imu.Reading := { t := t, wm := (Tw * RIG).mulVec w + Tg.mulVec a + bg, am := (Ta * RIA).mulVec a + ba }
    (correct o.kalibr o.imu bg ba d d).w = w ∧ (correct o.kalibr o.imu bg ba d d).a = a := by
  obtain ⟨-, -, -, -, -, -, -, -, -, -, -, hi, -⟩ := loadOpts_parts (launch_iff.mp h)
  unfold loadImu at hi
  simp only [bind_ok, pure_ok] at hi
  obtain ⟨Tw', e1, Ta', e2, RA', e3, RG', e4, Tg', e5, hi⟩ := hi
  have q1 := extern3_rows hg (hr _ (by simp)) h1 r1 e1
  have q2 := extern3_rows hg (hr _ (by simp)) h2 r2 e2
  have q3 := extern3_rows hg (hr _ (by simp)) h3 r3 e3
  have q4 := extern3_rows hg (hr _ (by simp)) h4 r4 e4
  have q5 := extern3_rows hg (hr _ (by simp)) h5 r5 e5
  subst q1 q2 q3 q4 q5
  rw [← hi]
  have := C73_loaded_intrinsics o.kalibr Tw' Ta' Tg' RA' RG' hA hG hTw hTa hw ha w a bg ba t
  exact ⟨this.2.2.2.2.2.1, this.2.2.2.2.2.2⟩

end Verif.Cfg
