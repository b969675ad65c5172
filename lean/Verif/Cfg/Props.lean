import Verif.Cfg.Model
import Verif.Prop.Props

/-!
# Configuration (C117, C118)
-/

set_option autoImplicit false
open Classical

namespace Verif.Cfg

open Verif Verif.Prop_ Verif.Land

namespace Spec

/-- the value a user gives for a parameter of the main file: the ROS parameter if there is one, else what the file says -/
def given {T : Type} (ros : String → Option T) (rd : Leaf → Option T) (f : File) (name : String) : Option T := (ros name).or ((f name).bind rd)

/-- how a boolean is written -/
def boolOf (l : Leaf) : Option Bool :=
  if l.isInt = some 1 then some true else if l.isInt = some 0 then some false
  else l.str.bind fun s => if clean s ∈ ["1", "true", "True", "TRUE"] then some true else if clean s ∈ ["0", "false", "False", "FALSE"] then some false else none

/-- the parameter has the given value, else its default, which is only for optional ones -/
def Right {T : Type} (tab : Table T) (g : String → Option T) (m : String → T) : Prop :=
  ∀ e ∈ tab, m e.1 = (g e.1).getD e.2.1 ∧ (e.2.2 = true → (g e.1).isSome)

/-- the node of a sensor in the file named by a parameter of the main file -/
def sensor (E : Env) (file name : String) : Option File :=
  E.main.bind fun f => (f file).bind fun l => l.str.bind fun path => (E.ext (E.folder ++ path)).bind fun X => X name

/-- the file lists all entries of the matrix -/
def Rows {n : ℕ} (l : Leaf) (T : Matrix (Fin n) (Fin n) ℝ) : Prop := ∀ r c : Fin n, (l.rows[r.val]?.bind fun row => row[c.val]?) = some (T r c)

end Spec

open Spec

theorem bind_ok {α β : Type} {x : L α} {f : α → L β} {c : β} : (x >>= f) = L.val c true ↔ ∃ a, x = L.val a true ∧ f a = L.val c true := by
  show L.bind x f = _ ↔ _
  unfold L.bind
  obtain ⟨x⟩ := x
  match x with
  | none => simp [L.stop, L.val]
  | some (a, b) =>
    cases h : (f a).run with
    | none =>
      simp only [h]
      simp only [L.stop, L.val, L.mk.injEq, reduceCtorEq, false_iff, not_exists, not_and, Option.some.injEq, Prod.mk.injEq]
      rintro a' ⟨rfl, -⟩ e
      rw [e] at h; simp at h
    | some y =>
      obtain ⟨c', d⟩ := y
      simp only [h]
      have hf : f a = ⟨some (c', d)⟩ := by rw [← h]
      simp only [L.val, L.mk.injEq, Option.some.injEq, Prod.mk.injEq]
      constructor
      · rintro ⟨rfl, e⟩
        rw [Bool.and_eq_true] at e
        exact ⟨a, ⟨rfl, e.1⟩, by rw [hf, e.2]⟩
      · rintro ⟨a', ⟨rfl, rfl⟩, e⟩
        rw [hf] at e
        simp only [L.mk.injEq, Option.some.injEq, Prod.mk.injEq] at e
        exact ⟨e.1, by simp [e.2]⟩

@[simp] theorem val_inj {α : Type} {a b : α} {x y : Bool} : L.val a x = L.val b y ↔ a = b ∧ x = y := by simp [L.val]

@[simp] theorem stop_ne {α : Type} {a : α} {x : Bool} : (L.stop : L α) ≠ L.val a x := by simp [L.val, L.stop]

theorem pure_ok {α : Type} {a b : α} : L.pure a = L.val b true ↔ a = b := by simp [L.pure]

theorem guard_ok {p : Prop} {u : Unit} : L.guard p = L.val u true ↔ p := by
  unfold L.guard; split_ifs with h <;> simp [h]

theorem at_ok {α : Type} {v : List α} {i : ℕ} {x : α} : L.at v i = L.val x true ↔ v[i]? = some x := by
  unfold L.at; cases v[i]? <;> simp

theorem loadTab_ok {T : Type} {E : Env} {ros : String → Option T} {ps : File → String → T → Bool → L T} {z : T} : ∀ {tab : Table T} {m : String → T}, (tab.map Prod.fst).Nodup →
    loadTab E ros ps z tab = L.val m true → ∀ e ∈ tab, E.config ros ps e.1 e.2.1 e.2.2 = L.val (m e.1) true := by
  intro tab
  induction tab with
  | nil => intro m _ _ e he; simp at he
  | cons x tl ih =>
    obtain ⟨n, d, r⟩ := x
    intro m hn h e he
    rw [loadTab, bind_ok] at h
    obtain ⟨v, h1, h2⟩ := h
    rw [bind_ok] at h2
    obtain ⟨m', h2, h3⟩ := h2
    rw [pure_ok] at h3
    subst h3
    rw [List.map_cons, List.nodup_cons] at hn
    rcases List.mem_cons.mp he with rfl | he
    · simpa using h1
    · have hne : e.1 ≠ n := fun h => hn.1 (h ▸ List.mem_map.mpr ⟨e, he, rfl⟩)
      rw [Function.update_of_ne hne]
      exact ih hn.2 h2 e he

theorem config_given {T : Type} {E : Env} {ros : String → Option T} {rd : Leaf → Option T} {f : File} (hf : E.main = some f) {n : String} {d v : T} {r : Bool}
    (h : E.config ros (parse rd) n d r = L.val v true) : v = (given ros rd f n).getD d ∧ (r = true → (given ros rd f n).isSome) := by
  unfold Env.config at h
  unfold given
  rw [hf] at h
  cases e : ros n with
  | some w => rw [e] at h; simp at h; simp [h]
  | none =>
    rw [e] at h
    simp only [parse] at h
    cases e2 : f n with
    | none => rw [e2] at h; simp at h; simp [h]
    | some l =>
      rw [e2] at h
      simp only at h
      cases e3 : rd l with
      | none => rw [e3] at h; simp at h; simp [h, e3]
      | some w => rw [e3] at h; simp at h; simp [h, e3]

theorem parseBool_eq {f : File} {n : String} {d v : Bool} {r : Bool} (h : parseBool f n d r = L.val v true) : parse boolOf f n d r = L.val v true := by
  unfold parseBool at h
  unfold parse
  cases e2 : f n with
  | none => rw [e2] at h; exact h
  | some l =>
    rw [e2] at h
    simp only at h ⊢
    unfold boolOf
    split_ifs at h ⊢ with h1 h2
    · exact h
    · exact h
    · cases e3 : l.str with
      | none => rw [e3] at h; simpa using h
      | some s =>
        rw [e3] at h
        simp only [Option.bind_some, List.mem_cons, List.not_mem_nil, or_false] at h ⊢
        split_ifs at h ⊢ with h3 h4
        · exact h
        · exact h
        · simp at h

theorem config_bool {E : Env} {n : String} {d v : Bool} {r : Bool} (h : E.config E.rBool parseBool n d r = L.val v true) : E.config E.rBool (parse boolOf) n d r = L.val v true := by
  unfold Env.config at h ⊢
  cases e : E.rBool n with
  | some w => rw [e] at h; exact h
  | none =>
    rw [e] at h
    cases e2 : E.main with
    | none => rw [e2] at h; exact h
    | some f => rw [e2] at h; exact parseBool_eq h

theorem launch_iff {E : Env} {o : Opts} : launch E = some o ↔ loadOpts E = L.val o true := by
  unfold launch
  constructor
  · intro h
    split at h
    · next o' e =>
      simp only [Option.some.injEq] at h
      subst h
      show loadOpts E = ⟨some (o', true)⟩
      rw [← e]
    · simp at h
  · intro h; rw [h]; rfl

/-- what is known of the options of a running program -/
theorem loadOpts_parts {E : Env} {o : Opts} (h : loadOpts E = L.val o true) :
    loadTab E E.rBool parseBool false boolTab = L.val o.bool true ∧ loadTab E E.rInt (parse Leaf.int) 0 intTab = L.val o.int true ∧
    loadTab E E.rNum (parse Leaf.num) 0 numTab = L.val o.num true ∧ loadTab E E.rStr (parse Leaf.str) "" strTab = L.val o.str true ∧
    integOf (o.str "integration") = L.val o.integ true ∧ histOf (o.str "histogram_method") = L.val o.hist true ∧
    (∃ model, E.extern E.rStr (parse Leaf.str) "relative_config_imu" "imu0" "model" "kalibr" true = L.val model true ∧ modelOf model = L.val o.kalibr true ∧
      ¬ (model = "calibrated" ∧ (o.bool "calib_imu_intrinsics" ∨ o.bool "calib_imu_g_sensitivity"))) ∧
    loadInit E = L.val o.init true ∧ loadNoise E = L.val o.noise true ∧ loadDt E (o.int "max_cameras").toNat = L.val o.dt true ∧
    loadCams E (o.bool "downsample_cameras") 0 (o.int "max_cameras").toNat = L.val o.cams true ∧ loadImu E o.kalibr = L.val o.imu true ∧ o.int "max_cameras" = o.cams.length ∧
    o.repMsckf = fromString (o.str "feat_rep_msckf") ∧ o.repSlam = fromString (o.str "feat_rep_slam") ∧ o.repAruco = fromString (o.str "feat_rep_aruco") := by
  unfold loadOpts at h
  simp only [bind_ok, pure_ok, guard_ok] at h
  obtain ⟨b, h1, z, h2, x, h3, s, h4, ig, h5, model, h6, kb, h7, -, h8, ini, h9, hist, h10, N, h11, dt, h12, cams, h13, imu, h14, -, h15, rfl⟩ := h
  exact ⟨h1, h2, h3, h4, h5, h10, ⟨model, h6, h7, h8⟩, h9, h11, h12, h13, h14, h15, rfl, rfl, rfl⟩

theorem loadInit_parts {E : Env} {o : InitOpts} (h : loadInit E = L.val o true) :
    loadTab E E.rBool parseBool false initBoolTab = L.val o.bool true ∧ loadTab E E.rInt (parse Leaf.int) 0 initIntTab = L.val o.int true ∧
    loadTab E E.rNum (parse Leaf.num) 0 initNumTab = L.val o.num true ∧ 15 ≤ o.int "init_max_features" ∧ (0 < o.num "init_imu_thresh" ∨ o.bool "init_dyn_use") ∧
    (0 < o.num "init_max_disparity" ∨ o.bool "init_dyn_use") ∧ 4 ≤ o.int "init_dyn_num_pose" ∧ loadNoise E = L.val o.noise true ∧ loadDt E (o.int "max_cameras").toNat = L.val o.dt true ∧
    loadCams E (o.bool "downsample_cameras") 0 (o.int "max_cameras").toNat = L.val o.cams true ∧ o.int "max_cameras" = o.cams.length ∧
    ∃ g a, E.config E.rNums (parse Leaf.nums) "init_dyn_bias_g" [0, 0, 0] = L.val g true ∧ E.config E.rNums (parse Leaf.nums) "init_dyn_bias_a" [0, 0, 0] = L.val a true ∧
      (∀ i : Fin 3, g[i.val]? = some (o.biasG i)) ∧ ∀ i : Fin 3, a[i.val]? = some (o.biasA i) := by
  unfold loadInit at h
  simp only [bind_ok, pure_ok, guard_ok, at_ok] at h
  obtain ⟨b, h1, z, h2, x, h3, g, h4, a, h5, g0, e0, g1, e1, g2, e2, a0, f0, a1, f1, a2, f2, -, h6, -, h7, -, h8, -, h9, N, h10, dt, h11, cams, h12, -, h13, rfl⟩ := h
  refine ⟨h1, h2, h3, h6, h7, h8, h9, h10, h11, h12, h13, g, a, h4, h5, ?_, ?_⟩
  · intro i; fin_cases i <;> simp [e0, e1, e2]
  · intro i; fin_cases i <;> simp [f0, f1, f2]

theorem tab_right {T : Type} {E : Env} {ros : String → Option T} {rd : Leaf → Option T} {z : T} {tab : Table T} {m : String → T} {f : File} (hf : E.main = some f) (hn : (tab.map Prod.fst).Nodup)
    (h : loadTab E ros (parse rd) z tab = L.val m true) : Right tab (given ros rd f) m := fun e he => config_given hf (loadTab_ok hn h e he)

theorem tab_right_bool {E : Env} {z : Bool} {tab : Table Bool} {m : String → Bool} {f : File} (hf : E.main = some f) (hn : (tab.map Prod.fst).Nodup)
    (h : loadTab E E.rBool parseBool z tab = L.val m true) : Right tab (given E.rBool boolOf f) m := fun e he => config_given hf (config_bool (loadTab_ok hn h e he))

theorem numTab_names : (numTab.map Prod.fst).Nodup := by simp [numTab]
theorem initNumTab_names : (initNumTab.map Prod.fst).Nodup := by simp [initNumTab]

/-- **C117 (values).** If the program runs, every parameter of the main file has the value of the ROS parameter of that name, else the value in the file, else its default, and a default is only used for a parameter that is not required;
the same holds for the initialiser's. So a program for which a required parameter is missing or unreadable does not run. -/
theorem C117_values (E : Env) (f : File) (hf : E.main = some f) (o : Opts) (h : launch E = some o) :
    Right boolTab (given E.rBool boolOf f) o.bool ∧ Right intTab (given E.rInt Leaf.int f) o.int ∧ Right numTab (given E.rNum Leaf.num f) o.num ∧ Right strTab (given E.rStr Leaf.str f) o.str ∧
    Right initBoolTab (given E.rBool boolOf f) o.init.bool ∧ Right initIntTab (given E.rInt Leaf.int f) o.init.int ∧ Right initNumTab (given E.rNum Leaf.num f) o.init.num := by
  obtain ⟨h1, h2, h3, h4, -, -, -, h5, -⟩ := loadOpts_parts (launch_iff.mp h)
  obtain ⟨i1, i2, i3, -⟩ := loadInit_parts h5
  exact ⟨tab_right_bool hf (by decide) h1, tab_right hf (by decide) h2, tab_right hf numTab_names h3, tab_right hf (by decide) h4,
    tab_right_bool hf (by decide) i1, tab_right hf (by decide) i2, tab_right hf initNumTab_names i3⟩

/-- **C117 (choices, partial).** Missing: the representations of features and the distortion model, which are not checked (`C117_misspelled_representation`, `C117_misspelled_distortion`). If the program runs, the choices were spelled as documented, calibration of the inertial sensor was not asked for together with a calibrated one, and the initialiser's options are usable. -/
theorem C117_choices_partial (E : Env) (o : Opts) (h : launch E = some o) :
    (o.str "integration" = "discrete" ∧ o.integ = .discrete ∨ o.str "integration" = "rk4" ∧ o.integ = .rk4 ∨ o.str "integration" = "analytical" ∧ o.integ = .analytical) ∧
    (o.str "histogram_method" = "NONE" ∧ o.hist = .none ∨ o.str "histogram_method" = "HISTOGRAM" ∧ o.hist = .histogram ∨ o.str "histogram_method" = "CLAHE" ∧ o.hist = .clahe) ∧
    (∃ model, E.extern E.rStr (parse Leaf.str) "relative_config_imu" "imu0" "model" "kalibr" = L.val model true ∧ (model = "kalibr" ∧ o.kalibr = true ∨ model = "rpng" ∧ o.kalibr = false ∨
      model = "calibrated" ∧ o.kalibr = true ∧ o.bool "calib_imu_intrinsics" = false ∧ o.bool "calib_imu_g_sensitivity" = false)) ∧
    15 ≤ o.init.int "init_max_features" ∧ 4 ≤ o.init.int "init_dyn_num_pose" ∧ (o.init.bool "init_dyn_use" = true ∨ 0 < o.init.num "init_imu_thresh" ∧ 0 < o.init.num "init_max_disparity") ∧
    0 ≤ o.int "max_cameras" := by
  obtain ⟨-, -, -, -, h1, h2, ⟨model, h3, h4, h5⟩, h6, -, -, -, -, h7, -⟩ := loadOpts_parts (launch_iff.mp h)
  obtain ⟨-, -, -, i1, i2, i3, i4, -⟩ := loadInit_parts h6
  refine ⟨?_, ?_, ⟨model, h3, ?_⟩, i1, i4, ?_, by omega⟩
  · unfold integOf at h1
    split_ifs at h1 with a b c
    · rw [pure_ok] at h1; exact Or.inl ⟨a, h1.symm⟩
    · rw [pure_ok] at h1; exact Or.inr (Or.inl ⟨b, h1.symm⟩)
    · rw [pure_ok] at h1; exact Or.inr (Or.inr ⟨c, h1.symm⟩)
    · exact absurd h1 stop_ne
  · unfold histOf at h2
    split_ifs at h2 with a b c
    · rw [pure_ok] at h2; exact Or.inl ⟨a, h2.symm⟩
    · rw [pure_ok] at h2; exact Or.inr (Or.inl ⟨b, h2.symm⟩)
    · rw [pure_ok] at h2; exact Or.inr (Or.inr ⟨c, h2.symm⟩)
    · exact absurd h2 stop_ne
  · unfold modelOf at h4
    split_ifs at h4 with a b
    · rw [pure_ok] at h4
      rcases a with a | a
      · exact Or.inl ⟨a, h4.symm⟩
      · refine Or.inr (Or.inr ⟨a, h4.symm, ?_⟩)
        have : ¬ (o.bool "calib_imu_intrinsics" = true ∨ o.bool "calib_imu_g_sensitivity" = true) := fun hb => h5 ⟨a, hb⟩
        simpa only [not_or, Bool.not_eq_true] using this
    · rw [pure_ok] at h4; exact Or.inr (Or.inl ⟨b, h4.symm⟩)
    · exact absurd h4 stop_ne
  · rcases i2 with i2 | i2
    · rcases i3 with i3 | i3
      · exact Or.inr ⟨i2, i3⟩
      · exact Or.inl i3
    · exact Or.inl i2

end Verif.Cfg
