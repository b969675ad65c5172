import Verif.Cfg.SimLoad
import Verif.Cfg.PropsExample

/-!
# C152: what a simulation runs with
-/

set_option autoImplicit false
open Classical

namespace Verif.Cfg

open Verif Verif.Prop_ Verif.Land

open Spec

namespace Spec

/-- every entry of the table was given by the user and has the value given, whatever the default -/
def Given {T : Type} (names : List String) (g : String → Option T) (m : String → T) : Prop := ∀ n ∈ names, g n = some (m n)

/-- the parameters that make a run depend on the scheduling of threads -/
def threads : List String := ["multi_threading_pubs", "multi_threading_subs"]

end Spec

theorem launchSim_iff {E : Env} {o : SimOpts} : launchSim E = some o ↔ loadSim E = L.val o true := by
  unfold launchSim
  constructor
  · intro h
    split at h
    · rename_i o' e
      rw [Option.some.injEq] at h
      subst h
      unfold L.val
      cases hl : loadSim E with
      | mk r => rw [hl] at e; simp only at e; rw [e]
    · simp at h
  · intro h
    rw [h]
    rfl

theorem loadSim_parts {E : Env} {o : SimOpts} (h : loadSim E = L.val o true) :
    ∃ v, loadOpts E = L.val v true ∧ loadTab E E.rInt (parse Leaf.int) 0 simIntTab = L.val o.int true ∧ loadTab E E.rBool parseBool false simBoolTab = L.val o.bool true ∧
      loadTab E E.rStr (parse Leaf.str) "" simStrTab = L.val o.str true ∧ loadTab E E.rNum (parse Leaf.num) 0 simNumTab = L.val o.num true ∧
      o.vio = { v with int := Function.update v.int "num_opencv_threads" 0, bool := Function.update (Function.update v.bool "multi_threading_pubs" false) "multi_threading_subs" false } := by
  unfold loadSim at h
  simp only [bind_ok, pure_ok] at h
  obtain ⟨v, h1, z, h2, b, h3, s, h4, x, h5, rfl⟩ := h
  exact ⟨v, h1, h2, h3, h4, h5, rfl⟩

theorem simNumTab_names : (simNumTab.map Prod.fst).Nodup := by simp [simNumTab]

theorem right_given {T : Type} {tab : Table T} {g : String → Option T} {m : String → T} (h : Right tab g m) (ha : ∀ e ∈ tab, e.2.2 = true) : Given (tab.map Prod.fst) g m := by
  intro n hn
  obtain ⟨e, he, rfl⟩ := List.mem_map.mp hn
  obtain ⟨h1, h2⟩ := h e he
  obtain ⟨v, hv⟩ := Option.isSome_iff_exists.mp (h2 (ha e he))
  rw [h1, hv]
  rfl

/-- **C152.** If a simulation runs, its user has given all ten parameters of the simulator, as ROS parameters or in the main file, and the simulator has these values: none of the defaults is ever used. -/
theorem C152_given (E : Env) (f : File) (hf : E.main = some f) (o : SimOpts) (h : launchSim E = some o) :
    Given ["sim_seed_state_init", "sim_seed_preturb", "sim_seed_measurements"] (given E.rInt Leaf.int f) o.int ∧
    Given ["sim_do_perturbation"] (given E.rBool boolOf f) o.bool ∧
    Given ["sim_traj_path"] (given E.rStr Leaf.str f) o.str ∧
    Given ["sim_distance_threshold", "sim_freq_cam", "sim_freq_imu", "sim_min_feature_gen_dist", "sim_max_feature_gen_dist"] (given E.rNum Leaf.num f) o.num := by
  obtain ⟨v, -, h1, h2, h3, h4, -⟩ := loadSim_parts (launchSim_iff.mp h)
  exact ⟨right_given (tab_right hf (by decide) h1) (by simp [simIntTab]), right_given (tab_right_bool hf (by decide) h2) (by simp [simBoolTab]),
    right_given (tab_right hf (by decide) h3) (by simp [simStrTab]), right_given (tab_right hf simNumTab_names h4) (by simp [simNumTab])⟩

/-- **C152.** A simulation uses no threads, whatever the files say: OpenCV's number of threads is 0, and neither the publishing nor the updates have one. In all else the estimator has the options with which it would run on real data. -/
theorem C152_repeatable (E : Env) (o : SimOpts) (h : launchSim E = some o) :
    o.vio.int "num_opencv_threads" = 0 ∧ (∀ n ∈ threads, o.vio.bool n = false) ∧
    ∃ v, launch E = some v ∧ (∀ n, n ≠ "num_opencv_threads" → o.vio.int n = v.int n) ∧ (∀ n, n ∉ threads → o.vio.bool n = v.bool n) ∧ o.vio.num = v.num ∧ o.vio.str = v.str ∧ o.vio.integ = v.integ ∧
      o.vio.kalibr = v.kalibr ∧ o.vio.hist = v.hist ∧ o.vio.repMsckf = v.repMsckf ∧ o.vio.repSlam = v.repSlam ∧ o.vio.repAruco = v.repAruco ∧ o.vio.noise = v.noise ∧ o.vio.dt = v.dt ∧
      o.vio.cams = v.cams ∧ o.vio.imu = v.imu ∧ o.vio.init = v.init := by
  obtain ⟨v, h0, -, -, -, -, e⟩ := loadSim_parts (launchSim_iff.mp h)
  refine ⟨by rw [e]; simp, ?_, v, launch_iff.mpr h0, ?_, ?_, ?_⟩
  · intro n hn
    rw [e]
    simp only [threads, List.mem_cons, List.not_mem_nil, or_false] at hn
    rcases hn with rfl | rfl
    · simp [Function.update]
    · simp [Function.update]
  · intro n hn
    rw [e]
    simp [Function.update, hn]
  · intro n hn
    rw [e]
    simp only [threads, List.mem_cons, List.not_mem_nil, or_false, not_or] at hn
    simp [Function.update, hn.1, hn.2]
  · rw [e]
    simp

/-- **C152.** A program that would not run on real data does not run as a simulation, and a simulation for which one of the ten parameters is not given does not run. -/
theorem C152_refused (E : Env) (f : File) (hf : E.main = some f) (h : launch E = none ∨ (∃ n ∈ ["sim_seed_state_init", "sim_seed_preturb", "sim_seed_measurements"], given E.rInt Leaf.int f n = none) ∨
    given E.rBool boolOf f "sim_do_perturbation" = none ∨ given E.rStr Leaf.str f "sim_traj_path" = none ∨
    ∃ n ∈ ["sim_distance_threshold", "sim_freq_cam", "sim_freq_imu", "sim_min_feature_gen_dist", "sim_max_feature_gen_dist"], given E.rNum Leaf.num f n = none) : launchSim E = none := by
  cases e : launchSim E with
  | none => rfl
  | some o =>
    exfalso
    obtain ⟨g1, g2, g3, g4⟩ := C152_given E f hf o e
    obtain ⟨-, -, v, hv, -⟩ := C152_repeatable E o e
    rcases h with h | ⟨n, hn, h⟩ | h | h | ⟨n, hn, h⟩
    · rw [h] at hv; simp at hv
    · rw [g1 n hn] at h; simp at h
    · rw [g2 _ (by simp)] at h; simp at h
    · rw [g3 _ (by simp)] at h; simp at h
    · rw [g4 n hn] at h; simp at h

/-- a simulation that runs: C117's files name all parameters -/
example : ∃ o, launchSim (Ex.env "GLOBAL_3D" "radtan" []) = some o ∧ o.num "sim_freq_cam" = 1 ∧ o.int "sim_seed_measurements" = 20 ∧ o.bool "sim_do_perturbation" = true := by
  obtain ⟨v, hv, -⟩ := Ex.runs "GLOBAL_3D" "radtan" []
  have hl := launch_iff.mp hv
  have : ∃ o, loadSim (Ex.env "GLOBAL_3D" "radtan" []) = L.val o true := by
    obtain ⟨z, hz, -⟩ := Ex.loadTab_total (E := Ex.env "GLOBAL_3D" "radtan" []) (ros := fun _ => none) (ps := parse Leaf.int) (z := 0) (v := fun n => if n = "max_cameras" then 1 else 20)
      (fun n d r => by simp [Env.config, Ex.envR, Ex.main, parse]) simIntTab (by decide)
    obtain ⟨b, hb, -⟩ := Ex.loadTab_total (E := Ex.env "GLOBAL_3D" "radtan" []) (ros := fun _ => none) (ps := parseBool) (z := false) (v := fun _ => true)
      (fun n d r => by simp [Env.config, Ex.envR, Ex.main, parseBool]) simBoolTab (by decide)
    obtain ⟨t, ht, -⟩ := Ex.loadTab_total (E := Ex.env "GLOBAL_3D" "radtan" []) (ros := fun _ => none) (ps := parse Leaf.str) (z := "") (v := fun n => Ex.str "GLOBAL_3D" n)
      (fun n d r => by simp [Env.config, Ex.envR, Ex.main, parse]) simStrTab (by decide)
    obtain ⟨x, hx, -⟩ := Ex.loadTab_total (E := Ex.env "GLOBAL_3D" "radtan" []) (ros := fun _ => none) (ps := parse Leaf.num) (z := 0) (v := fun _ => 1)
      (fun n d r => by simp [Env.config, Ex.envR, Ex.main, parse]) simNumTab simNumTab_names
    refine ⟨⟨{ v with int := Function.update v.int "num_opencv_threads" 0, bool := Function.update (Function.update v.bool "multi_threading_pubs" false) "multi_threading_subs" false }, z, b, t, x⟩, ?_⟩
    unfold loadSim
    simp only [bind_ok, pure_ok]
    exact ⟨v, hl, z, hz, b, hb, t, ht, x, hx, rfl⟩
  obtain ⟨o, ho⟩ := this
  have hs := launchSim_iff.mpr ho
  obtain ⟨g1, g2, -, g4⟩ := C152_given _ _ rfl o hs
  have a1 := g1 "sim_seed_measurements" (by simp)
  have a2 := g2 "sim_do_perturbation" (by simp)
  have a4 := g4 "sim_freq_cam" (by simp)
  simp [given, Ex.envR, Ex.main, boolOf] at a1 a2 a4
  exact ⟨o, hs, a4.symm, a1.symm, a2⟩

end Verif.Cfg
