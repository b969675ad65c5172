import Verif.Vio.SimRun
import Verif.Vio.PropsBoot
import Verif.Sim.PropsPoints

/-!
# C126: a simulated run
-/

set_option autoImplicit false
open Classical

namespace Verif.Vio

open Verif Verif.Types Verif.St Verif.Imu Verif.Prop_ Verif.Feat Verif.Disp

/-! ## Specification -/

namespace Spec

/-- a simulation: the trajectory covers the times from `a` to before `b` and the run starts at `t0` in it; images come less often than readings, readings at least every tenth of a second (also on the clock of the cameras); the features of
the map are numbered -/
structure SimSetup (o : Opts) (W : World) (a b t0 : ℝ) : Prop where
  cov : Sim.Spec.Covers W.c.cps a b
  start : a ≤ t0
  first : t0 + 1 / W.c.freqImu < b
  fc : 0 < W.c.freqCam
  lt : W.c.freqCam < W.c.freqImu
  fast : 1 / W.c.freqImu ≤ 0.1 ∧ 1 / W.c.freqImu ≤ 0.1 + W.c.camDt
  ratio : W.c.freqImu / W.c.freqCam + 2 ≤ 10 ^ 7
  pos : -1 ≤ t0 - W.c.camDt
  num : W.cams.length = o.numCams
  some : W.cams ≠ []
  tags : W.maxAruco = o.maxAruco
  ids : W.feats.map Prod.fst = List.range W.feats.length

/-- every camera visits the whole map, in some order -/
def Visits (W : World) (r : Rnd) : Prop := ∀ i, (r.ord i).Perm W.feats

/-- the readings fed -/
def imuFed : List LEv → List ℝ
  | [] => []
  | .imu r :: es => r.t :: imuFed es
  | .shot _ :: es => imuFed es

/-- the time of image number `i` (from 1) on the clock of the cameras -/
noncomputable def imgTime (W : World) (t0 : ℝ) (i : ℕ) : ℝ := t0 + (i : ℝ) / W.c.freqCam - W.c.camDt

end Spec

/-! ## Images -/

theorem simShot_ok {o : Opts} {W : World} {a b t0 : ℝ} (h : Spec.SimSetup o W a b t0) (R : M3) (p : V3) (t : ℝ) (r : Rnd) (hr : Spec.Visits W r) (seen : List Meas) (hs : ∀ m ∈ seen, m.2.2 < t) : Spec.ShotOK o seen (simShot W R p t r) := by
  have hmem : ∀ z ∈ (simShot W R p t r).feats, ∃ i < W.cams.length, ∃ f, z.1 = Track.simId W.maxAruco f ∧ z.2.1 = i := by
    intro z hz
    simp only [simShot, List.mem_flatten, List.mem_map] at hz
    obtain ⟨l, ⟨k, hk, rfl⟩, hz⟩ := hz
    obtain ⟨x, -, rfl⟩ := List.mem_map.1 hz
    exact ⟨k.2, (List.mem_zipIdx' hk).1, x.1, rfl, rfl⟩
  refine ⟨?_, fun z hz => ?_, by simp [simShot], ?_, ?_⟩
  · simp only [simShot, ne_eq, List.range_eq_nil, List.length_eq_zero_iff]
    exact h.some
  · obtain ⟨i, hi, f, h1, h2⟩ := hmem z hz
    rw [h1, h2, ← h.num, ← h.tags]
    exact ⟨hi, by simp only [Track.simId, Track.firstId]; omega⟩
  · simp only [Spec.measured, simShot, List.append_nil, List.map_flatten, List.map_map]
    rw [List.nodup_flatten]
    constructor
    · intro l hl
      obtain ⟨k, hk, rfl⟩ := List.mem_map.1 hl
      simp only [Function.comp_apply, List.map_map]
      have h1 := (Sim.C91_camera_features W.P k.1 k.2 R p W.feats (r.ord k.2) (hr k.2) h.ids (r.nz k.2)).2.1
      have h2 := h1.map (f := fun j => (Track.simId W.maxAruco j, k.2, t)) (fun x y hxy => by
        simp only [Prod.mk.injEq, and_true, Track.simId] at hxy
        omega)
      rw [List.map_map] at h2
      exact h2
    · rw [List.pairwise_map]
      have hnd : (W.cams.zipIdx.map Prod.snd).Nodup := by
        rw [List.zipIdx_map_snd]
        exact List.nodup_range'
      rw [List.Nodup, List.pairwise_map] at hnd
      refine hnd.imp ?_
      intro k k' hne z hz hz'
      simp only [Function.comp_apply, List.map_map, List.mem_map] at hz hz'
      obtain ⟨x, -, rfl⟩ := hz
      obtain ⟨y, -, hy⟩ := hz'
      simp only [Prod.mk.injEq] at hy
      exact hne hy.2.1.symm
  · intro m hm hms
    have hmt : m.2.2 = t := by
      simp only [Spec.measured, List.mem_map] at hm
      obtain ⟨z, -, rfl⟩ := hm
      rfl
    exact absurd (hs m hms) (by rw [hmt]; exact lt_irrefl _)

/-! ## The calls of a round -/

theorem nextImu_cases {c : Sim.SimCfg} {a b : ℝ} (hcov : Sim.Spec.Covers c.cps a b) (s : Sim.SimSt) (ha : a ≤ s.imu + 1 / c.freqImu) (dbg dba nw na : V3) :
    (s.cam + 1 / c.freqCam < s.imu + 1 / c.freqImu ∧ Sim.nextImu c s dbg dba nw na = (s, none)) ∨
    (s.imu + 1 / c.freqImu ≤ s.cam + 1 / c.freqCam ∧ s.imu + 1 / c.freqImu < b ∧ ∃ s' rd bg ba, Sim.nextImu c s dbg dba nw na = (s', some (.imu rd bg ba)) ∧ rd.t = s.imu + 1 / c.freqImu ∧ s'.imu = s.imu + 1 / c.freqImu ∧ s'.cam = s.cam ∧ s'.run = s.run) ∨
    (s.imu + 1 / c.freqImu ≤ s.cam + 1 / c.freqCam ∧ b ≤ s.imu + 1 / c.freqImu ∧ ∃ s', Sim.nextImu c s dbg dba nw na = (s', none) ∧ s'.cam = s.cam ∧ s'.run = false) := by
  unfold Sim.nextImu
  by_cases hw : s.cam + 1 / c.freqCam < s.imu + 1 / c.freqImu
  · rw [if_pos hw]; exact .inl ⟨hw, rfl⟩
  rw [if_neg hw]
  push Not at hw
  right
  dsimp only
  cases hg : Sim.getAcceleration c.cps (s.imu + 1 / c.freqImu) with
  | none =>
    right
    refine ⟨hw, ?_, _, rfl, rfl, rfl⟩
    by_contra hlt
    push Not at hlt
    have := (hcov (s.imu + 1 / c.freqImu)).2 ⟨ha, hlt⟩
    rw [← Sim.acc_some_iff, hg] at this
    simp at this
  | some x =>
    obtain ⟨R, p, w, v, al, ac⟩ := x
    left
    have hin : s.imu + 1 / c.freqImu < b := by
      have : (Sim.getPose c.cps (s.imu + 1 / c.freqImu)).isSome := by rw [← Sim.acc_some_iff, hg]; rfl
      exact ((hcov _).1 this).2
    refine ⟨hw, hin, _, _, _, _, rfl, rfl, ?_, ?_, ?_⟩ <;> dsimp only <;> split_ifs <;> rfl

theorem nextCam_cases {c : Sim.SimCfg} {a b : ℝ} (hcov : Sim.Spec.Covers c.cps a b) (s : Sim.SimSt) (ha : a ≤ s.cam + 1 / c.freqCam) :
    (s.imu + 1 / c.freqImu < s.cam + 1 / c.freqCam ∧ Sim.nextCam c s = (s, none)) ∨
    (s.cam + 1 / c.freqCam ≤ s.imu + 1 / c.freqImu ∧ s.cam + 1 / c.freqCam < b ∧ (∃ R p, Sim.getPose c.cps (s.cam + 1 / c.freqCam) = some (R, p)) ∧
      Sim.nextCam c s = ({ s with cam := s.cam + 1 / c.freqCam }, some (.cam (s.cam + 1 / c.freqCam - c.camDt) (s.cam + 1 / c.freqCam)))) ∨
    (s.cam + 1 / c.freqCam ≤ s.imu + 1 / c.freqImu ∧ b ≤ s.cam + 1 / c.freqCam ∧ ∃ s', Sim.nextCam c s = (s', none) ∧ s'.run = false) := by
  unfold Sim.nextCam
  by_cases hw : s.imu + 1 / c.freqImu < s.cam + 1 / c.freqCam
  · rw [if_pos hw]; exact .inl ⟨hw, rfl⟩
  rw [if_neg hw]
  push Not at hw
  right
  dsimp only
  cases hg : Sim.getPose c.cps (s.cam + 1 / c.freqCam) with
  | none =>
    right
    refine ⟨hw, ?_, _, rfl, rfl⟩
    by_contra hlt
    push Not at hlt
    have := (hcov (s.cam + 1 / c.freqCam)).2 ⟨ha, hlt⟩
    rw [hg] at this
    simp at this
  | some x =>
    left
    have : (Sim.getPose c.cps (s.cam + 1 / c.freqCam)).isSome := by rw [hg]; rfl
    exact ⟨hw, ((hcov _).1 this).2, ⟨x.1, x.2, rfl⟩, rfl⟩

theorem simEvents_stop (W : World) (rs : List Rnd) (s : Sim.SimSt) (buf : Shot) (h : s.run = false) : simEvents W rs s buf = [] ∧ simState W rs s = s := by
  cases rs with
  | nil => exact ⟨rfl, rfl⟩
  | cons r rs => exact ⟨by rw [simEvents, if_pos h], by rw [simState, if_pos h]⟩

/-! ## The readings in an interval -/

theorem spaced_length {d : ℝ} (hd : 0 < d) {u v : ℝ} : ∀ (l : List Reading), l.Pairwise (fun x y => x.t + d ≤ y.t) → (∀ x ∈ l, u ≤ x.t ∧ x.t ≤ v) → u ≤ v → ((l.length : ℝ) - 1) * d ≤ v - u
  | [], _, _, h => by simp; linarith
  | [x], _, _, h => by simp; linarith
  | x :: y :: l, hp, hm, h => by
    have h1 := List.pairwise_cons.1 hp
    have hx := hm x (by simp)
    have hxy := h1.1 y (by simp)
    have hy := hm y (by simp)
    have := spaced_length hd (u := u + d) (v := v) (y :: l) h1.2 (fun z hz => ⟨by have := h1.1 z hz; linarith, (hm z (by simp [hz])).2⟩) (by linarith)
    simp only [List.length_cons] at this ⊢
    push_cast at this ⊢
    linarith

/-- the readings so far -/
def Prior (W : World) (t0 : ℝ) (n : ℕ) (prior : List Reading) : Prop := prior.map (·.t) = (List.range n).map fun i : ℕ => t0 + ((i : ℝ) + 1) / W.c.freqImu

theorem prior_spaced {W : World} {t0 : ℝ} {n : ℕ} {prior : List Reading} (h : Prior W t0 n prior) (hf : 0 < W.c.freqImu) : prior.Pairwise fun x y => x.t + 1 / W.c.freqImu ≤ y.t := by
  have : (prior.map (·.t)).Pairwise fun x y => x + 1 / W.c.freqImu ≤ y := by
    rw [h, List.pairwise_map]
    refine List.pairwise_lt_range.imp ?_
    intro i j hij
    have : (i : ℝ) + 1 ≤ j := by exact_mod_cast hij
    have h2 : ((i : ℝ) + 1) / W.c.freqImu + 1 / W.c.freqImu ≤ ((j : ℝ) + 1) / W.c.freqImu := by
      rw [← add_div]
      exact div_le_div_of_nonneg_right (by linarith) hf.le
    linarith
  rwa [List.pairwise_map] at this

theorem prior_get {W : World} {t0 : ℝ} {n : ℕ} {prior : List Reading} (h : Prior W t0 n prior) {i : ℕ} (hi : i < n) : ∃ r ∈ prior, r.t = t0 + ((i : ℝ) + 1) / W.c.freqImu := by
  have : t0 + ((i : ℝ) + 1) / W.c.freqImu ∈ prior.map (·.t) := by
    rw [h]; exact List.mem_map.2 ⟨i, List.mem_range.2 hi, rfl⟩
  obtain ⟨r, hr, h2⟩ := List.mem_map.1 this
  exact ⟨r, hr, h2⟩

theorem prior_add {W : World} {t0 : ℝ} {n : ℕ} {prior : List Reading} (h : Prior W t0 n prior) {rd : Reading} (hr : rd.t = t0 + ((n : ℝ) + 1) / W.c.freqImu) : Prior W t0 (n + 1) (prior ++ [rd]) := by
  unfold Prior at *
  rw [List.map_append, h, List.range_succ, List.map_append]
  simp [hr]

theorem prior_lt {W : World} {t0 : ℝ} {n : ℕ} {prior : List Reading} (h : Prior W t0 n prior) (hf : 0 < W.c.freqImu) {rd : Reading} (hr : rd.t = t0 + ((n : ℝ) + 1) / W.c.freqImu) : ∀ a ∈ prior, a.t < rd.t := by
  intro a ha
  have : a.t ∈ prior.map (·.t) := List.mem_map_of_mem ha
  rw [h] at this
  obtain ⟨i, hi, h2⟩ := List.mem_map.1 this
  rw [← h2, hr]
  have : (i : ℝ) < n := by exact_mod_cast List.mem_range.1 hi
  have := div_lt_div_of_pos_right (show (i : ℝ) + 1 < n + 1 by linarith) hf
  linarith

/-- the newest reading at or before a time -/
theorem prior_before {W : World} {t0 : ℝ} {n : ℕ} {prior : List Reading} (h : Prior W t0 n prior) (hf : 0 < W.c.freqImu) {τ : ℝ} (h1 : t0 + 1 / W.c.freqImu ≤ τ) (h2 : τ ≤ t0 + (n : ℝ) / W.c.freqImu) :
    ∃ r ∈ prior, τ - 1 / W.c.freqImu ≤ r.t ∧ r.t ≤ τ := by
  have p1 : 1 ≤ (τ - t0) * W.c.freqImu := by
    have : 1 / W.c.freqImu * W.c.freqImu ≤ (τ - t0) * W.c.freqImu := mul_le_mul_of_nonneg_right (by linarith) hf.le
    rwa [one_div, inv_mul_cancel₀ hf.ne'] at this
  have p2 : (τ - t0) * W.c.freqImu ≤ n := by
    have : (τ - t0) * W.c.freqImu ≤ (n : ℝ) / W.c.freqImu * W.c.freqImu := mul_le_mul_of_nonneg_right (by linarith) hf.le
    rwa [div_mul_cancel₀ _ hf.ne'] at this
  set j := ⌊(τ - t0) * W.c.freqImu⌋₊ with hj
  have j0 : 1 ≤ j := (Nat.le_floor_iff (by linarith)).2 (by simpa using p1)
  have j1 : (j : ℝ) ≤ (τ - t0) * W.c.freqImu := Nat.floor_le (by linarith)
  have j2 : (τ - t0) * W.c.freqImu < j + 1 := Nat.lt_floor_add_one _
  have jn : j ≤ n := by exact_mod_cast le_trans j1 p2
  obtain ⟨r, hr, ht⟩ := prior_get h (show j - 1 < n by omega)
  have e : ((j - 1 : ℕ) : ℝ) + 1 = j := by rw [Nat.cast_sub j0]; push_cast; ring
  rw [e] at ht
  refine ⟨r, hr, ?_, ?_⟩
  · rw [ht]
    have : τ - t0 ≤ ((j : ℝ) + 1) / W.c.freqImu := by rw [le_div_iff₀ hf]; exact j2.le
    rw [add_div] at this
    linarith
  · rw [ht]
    have : (j : ℝ) / W.c.freqImu ≤ τ - t0 := by rw [div_le_iff₀ hf]; exact j1
    linarith

theorem prior_inside {W : World} {t0 : ℝ} {n : ℕ} {prior : List Reading} (h : Prior W t0 n prior) (hf : 0 < W.c.freqImu) (hc : 0 < W.c.freqCam) (hq : W.c.freqImu / W.c.freqCam + 2 ≤ 10 ^ 7) {u v : ℝ} (huv : u ≤ v)
    (hlen : v - u ≤ 1 / W.c.freqCam) : (Imu.Spec.inside u v prior).length < 10 ^ 7 := by
  have hp : (Imu.Spec.inside u v prior).Pairwise fun x y => x.t + 1 / W.c.freqImu ≤ y.t := (prior_spaced h hf).sublist List.filter_sublist
  have := spaced_length (d := 1 / W.c.freqImu) (by positivity) (u := u) (v := v) _ hp (fun x hx => by
    have := (List.mem_filter.1 hx).2
    simp only [decide_eq_true_eq, Bool.decide_and, Bool.and_eq_true] at this
    exact ⟨this.1.le, this.2.le⟩) huv
  have h2 : ((Imu.Spec.inside u v prior).length : ℝ) - 1 ≤ W.c.freqImu / W.c.freqCam := by
    have h3 : (((Imu.Spec.inside u v prior).length : ℝ) - 1) * (1 / W.c.freqImu) ≤ 1 / W.c.freqCam := le_trans this hlen
    rw [mul_one_div, div_le_iff₀ hf] at h3
    rw [div_eq_mul_one_div, mul_comm]
    exact h3
  have h4 : ((Imu.Spec.inside u v prior).length : ℝ) < 10 ^ 7 := by linarith
  exact_mod_cast h4

/-! ## What is fed -/

namespace Spec

/-- `S` is image number `i` of the simulation: what the cameras see at the true pose at its time -/
def IsImage (W : World) (t0 : ℝ) (i : ℕ) (S : Shot) : Prop :=
  ∃ R p r, Visits W r ∧ Sim.getPose W.c.cps (t0 + (i : ℝ) / W.c.freqCam) = some (R, p) ∧ S = simShot W R p (imgTime W t0 i) r

end Spec

/-- between the rounds -/
structure LInv (W : World) (t0 b : ℝ) (n k : ℕ) (s : Sim.SimSt) (buf : Shot) (ts : ℝ) (prior : List Reading) (seen : List Meas) : Prop where
  imu : s.imu = t0 + (n : ℝ) / W.c.freqImu
  cam : s.cam = t0 + (k : ℝ) / W.c.freqCam
  nb : 1 ≤ n → t0 + (n : ℝ) / W.c.freqImu < b
  kb : 1 ≤ k → t0 + (k : ℝ) / W.c.freqCam < b
  pr : Prior W t0 n prior
  none0 : k = 0 → buf = noShot
  bufOK : 1 ≤ k → Spec.IsImage W t0 k buf
  tsEq : ts = max (t0 + 1 / W.c.freqImu) (t0 + ((k : ℝ) - 1) / W.c.freqCam) - W.c.camDt
  seenLe : ∀ m ∈ seen, m.2.2 ≤ ts

/-- what a loop from such a state feeds -/
def SFed (o : Opts) (W : World) (t0 b : ℝ) (n k : ℕ) (bgn : Bool) (ts : ℝ) (prior : List Reading) (seen : List Meas) (evs : List LEv) (s : Sim.SimSt) : Prop :=
  Spec.LStream o W.c.camDt bgn ts prior seen evs ∧ (∀ S, LEv.shot S ∈ evs → ∃ i, 1 ≤ i ∧ Spec.IsImage W t0 i S) ∧
  ∃ N K : ℕ, (List.range n).map (fun i : ℕ => t0 + ((i : ℝ) + 1) / W.c.freqImu) ++ Spec.imuFed evs = (List.range N).map (fun i : ℕ => t0 + ((i : ℝ) + 1) / W.c.freqImu) ∧
    (List.range (k - 1)).map (fun i : ℕ => Spec.imgTime W t0 (i + 1)) ++ Spec.shotTimes evs = (List.range (K - 1)).map (fun i : ℕ => Spec.imgTime W t0 (i + 1)) ∧
    (1 ≤ N → t0 + (N : ℝ) / W.c.freqImu < b) ∧ (1 ≤ K → t0 + (K : ℝ) / W.c.freqCam < b) ∧
    (s.run = false → b ≤ t0 + ((N : ℝ) + 1) / W.c.freqImu ∧ b ≤ t0 + ((K : ℝ) + 1) / W.c.freqCam)

/-- how the streams grow: a reading -/
theorem fed_imu {o : Opts} {W : World} {t0 b : ℝ} {n k : ℕ} {bgn : Bool} {ts : ℝ} {prior : List Reading} {seen : List Meas} {evs : List LEv} {s : Sim.SimSt} (hf : 0 < W.c.freqImu) (hp : Prior W t0 n prior) {rd : Reading} (hr : rd.t = t0 + ((n : ℝ) + 1) / W.c.freqImu)
    (h : SFed o W t0 b (n + 1) k bgn ts (prior ++ [rd]) seen evs s) : SFed o W t0 b n k bgn ts prior seen (.imu rd :: evs) s := by
  obtain ⟨h1, h2, N, K, h3, h4, h5⟩ := h
  refine ⟨⟨prior_lt hp hf hr, h1⟩, fun S hS => h2 S (by simpa using hS), N, K, ?_, h4, h5⟩
  rw [← h3, List.range_succ, List.map_append, List.append_assoc]
  simp [Spec.imuFed, hr]

/-- an image is produced: the one before is fed -/
theorem fed_shot {o : Opts} {W : World} {a b t0 : ℝ} (hW : Spec.SimSetup o W a b t0) {n k : ℕ} {bgn : Bool} {ts : ℝ} {prior : List Reading} {seen : List Meas} {evs : List LEv} {s' : Sim.SimSt} {buf : Shot}
    (hp : Prior W t0 n prior) (hk : 1 ≤ k) (hbuf : Spec.IsImage W t0 k buf) (hts : ts = max (t0 + 1 / W.c.freqImu) (t0 + ((k : ℝ) - 1) / W.c.freqCam) - W.c.camDt) (hseen : ∀ m ∈ seen, m.2.2 ≤ ts)
    (hT : t0 + (k : ℝ) / W.c.freqCam + 1 / W.c.freqCam ≤ t0 + (n : ℝ) / W.c.freqImu + 1 / W.c.freqImu)
    (h : SFed o W t0 b n (k + 1) true (Spec.imgTime W t0 k) prior (seen ++ Spec.measured buf) evs s') : SFed o W t0 b n k bgn ts prior seen (.shot buf :: evs) s' := by
  have hc := hW.fc
  have hf : 0 < W.c.freqImu := hc.trans hW.lt
  have hcf : 1 / W.c.freqImu < 1 / W.c.freqCam := one_div_lt_one_div_of_lt hc hW.lt
  have pf : 0 < 1 / W.c.freqImu := by positivity
  have pc : 0 < 1 / W.c.freqCam := by positivity
  have hk1 : (1 : ℝ) ≤ k := by exact_mod_cast hk
  have hkc : 1 / W.c.freqCam ≤ (k : ℝ) / W.c.freqCam := div_le_div_of_nonneg_right hk1 hc.le
  have hkm : ((k : ℝ) - 1) / W.c.freqCam = (k : ℝ) / W.c.freqCam - 1 / W.c.freqCam := by rw [sub_div]
  have hn : 1 ≤ n := by
    by_contra h0
    have : n = 0 := by omega
    subst this
    simp at hT
    have h3 : 1 / W.c.freqImu = W.c.freqImu⁻¹ := one_div _
    have h4 : 1 / W.c.freqCam = W.c.freqCam⁻¹ := one_div _
    linarith
  have hn1 : (1 : ℝ) ≤ n := by exact_mod_cast hn
  have hnf : 1 / W.c.freqImu ≤ (n : ℝ) / W.c.freqImu := div_le_div_of_nonneg_right hn1 hf.le
  set τ := max (t0 + 1 / W.c.freqImu) (t0 + ((k : ℝ) - 1) / W.c.freqCam) with hτ
  have τ1 : t0 + 1 / W.c.freqImu ≤ τ := le_max_left _ _
  have τ3 : t0 + ((k : ℝ) - 1) / W.c.freqCam ≤ τ := le_max_right _ _
  have τ2 : τ ≤ t0 + (n : ℝ) / W.c.freqImu := max_le (by linarith) (by linarith)
  have τ4 : τ < t0 + (k : ℝ) / W.c.freqCam := max_lt (by linarith) (by linarith)
  have hbt : buf.t = Spec.imgTime W t0 k := by
    obtain ⟨R, p, r, -, -, rfl⟩ := hbuf
    rfl
  have hlt : ts < buf.t := by rw [hbt, hts, Spec.imgTime]; linarith
  obtain ⟨f1, f2, N, K, h3, h4, h5⟩ := h
  refine ⟨⟨?_, .inl ⟨hlt, ?_, ?_, ?_⟩, by rw [hbt]; exact f1⟩, ?_, N, K, h3, ?_, h5⟩
  · obtain ⟨R, p, r, hr, -, rfl⟩ := hbuf
    exact simShot_ok hW R p _ r hr seen fun m hm => lt_of_le_of_lt (hseen m hm) hlt
  · obtain ⟨x, hx, x1, x2⟩ := prior_before hp hf τ1 τ2
    have := hW.fast
    refine ⟨x, hx, ?_, ?_, ?_⟩ <;> rw [hts] <;> linarith
  · obtain ⟨x, hx, ht⟩ := prior_get hp (show n - 1 < n by omega)
    refine ⟨x, hx, ?_⟩
    have e : ((n - 1 : ℕ) : ℝ) + 1 = n := by rw [Nat.cast_sub hn]; push_cast; ring
    rw [ht, e, hbt, Spec.imgTime]
    linarith
  · refine prior_inside hp hf hc hW.ratio (by linarith) ?_
    rw [hbt, hts, Spec.imgTime]
    linarith
  · intro S hS
    rcases List.mem_cons.1 hS with h | h
    · obtain rfl := LEv.shot.inj h
      exact ⟨k, hk, hbuf⟩
    · exact f2 S h
  · rw [← h4]
    have : k + 1 - 1 = (k - 1) + 1 := by omega
    rw [this, List.range_succ, List.map_append, List.append_assoc]
    simp only [Spec.shotTimes, List.map_cons, List.map_nil, List.cons_append, List.nil_append, hbt]
    rw [Nat.sub_add_cancel hk]

theorem loop_fed {o : Opts} {W : World} {a b t0 : ℝ} (hW : Spec.SimSetup o W a b t0) : ∀ (rs : List Rnd) (s : Sim.SimSt) (buf : Shot) (n k : ℕ) (bgn : Bool) (ts : ℝ) (prior : List Reading) (seen : List Meas),
    (∀ r ∈ rs, Spec.Visits W r) → s.run = true → LInv W t0 b n k s buf ts prior seen → SFed o W t0 b n k bgn ts prior seen (simEvents W rs s buf) (simState W rs s) := by
  have hc := hW.fc
  have hf : 0 < W.c.freqImu := hc.trans hW.lt
  have hcf : 1 / W.c.freqImu < 1 / W.c.freqCam := one_div_lt_one_div_of_lt hc hW.lt
  have pf : 0 < 1 / W.c.freqImu := by positivity
  have pc : 0 < 1 / W.c.freqCam := by positivity
  have stop : ∀ {n k : ℕ} {bgn ts prior seen} {s' : Sim.SimSt}, (1 ≤ n → t0 + (n : ℝ) / W.c.freqImu < b) → (1 ≤ k → t0 + (k : ℝ) / W.c.freqCam < b) →
      (s'.run = false → b ≤ t0 + ((n : ℝ) + 1) / W.c.freqImu ∧ b ≤ t0 + ((k : ℝ) + 1) / W.c.freqCam) → SFed o W t0 b n k bgn ts prior seen [] s' := by
    intro n k bgn ts prior seen s' hn hk hs
    exact ⟨trivial, by simp, n, k, by simp [Spec.imuFed], by simp [Spec.shotTimes], hn, hk, hs⟩
  intro rs
  induction rs with
  | nil =>
    intro s buf n k bgn ts prior seen _ hrun hI
    exact stop hI.nb hI.kb (fun h => absurd h (by rw [simState, hrun]; simp))
  | cons r rs ih =>
    intro s buf n k bgn ts prior seen hvis hrun hI
    have hr := hvis r (by simp)
    have hvis' : ∀ r ∈ rs, Spec.Visits W r := fun x hx => hvis x (by simp [hx])
    have k0 : (0 : ℝ) ≤ (k : ℝ) / W.c.freqCam := by positivity
    have n0 : (0 : ℝ) ≤ (n : ℝ) / W.c.freqImu := by positivity
    have hai : a ≤ s.imu + 1 / W.c.freqImu := by rw [hI.imu]; have := hW.start; linarith
    -- the camera part, from a running simulator with `n` readings
    have camPart : ∀ (s1 : Sim.SimSt) (n : ℕ) (prior : List Reading), s1.run = true → LInv W t0 b n k s1 buf ts prior seen →
        SFed o W t0 b n k bgn ts prior seen
          ((onCam W r buf (Sim.nextCam W.c s1)).1 ++ simEvents W rs (Sim.nextCam W.c s1).1 (onCam W r buf (Sim.nextCam W.c s1)).2) (simState W rs (Sim.nextCam W.c s1).1) := by
      intro s1 n prior h1 hI
      have n0 : (0 : ℝ) ≤ (n : ℝ) / W.c.freqImu := by positivity
      have hac : a ≤ s1.cam + 1 / W.c.freqCam := by rw [hI.cam]; have := hW.start; linarith
      rcases nextCam_cases hW.cov s1 hac with ⟨-, e⟩ | ⟨hle, hb, ⟨R, p, hg⟩, e⟩ | ⟨hle, hb, s', e, h'⟩
      · rw [e]
        exact ih s1 buf n k bgn ts prior seen hvis' h1 hI
      · rw [e]
        simp only [onCam, hg]
        have hcam : s1.cam + 1 / W.c.freqCam = t0 + ((k + 1 : ℕ) : ℝ) / W.c.freqCam := by rw [hI.cam]; push_cast; ring
        have himg : Spec.IsImage W t0 (k + 1) (simShot W R p (s1.cam + 1 / W.c.freqCam - W.c.camDt) r) :=
          ⟨R, p, r, hr, by rw [← hcam]; exact hg, by rw [hcam, Spec.imgTime]⟩
        rcases Nat.eq_zero_or_pos k with hk0 | hk
        · have hb1 : ¬ buf.t ≠ -1 := by rw [hI.none0 hk0]; simp [noShot]
          rw [if_neg hb1, List.nil_append]
          have := ih { s1 with cam := s1.cam + 1 / W.c.freqCam } _ n (k + 1) bgn ts prior seen hvis' h1
            ⟨hI.imu, hcam, hI.nb, fun _ => by rw [← hcam]; exact hb, hI.pr, by simp, fun _ => himg, by
              rw [hI.tsEq, hk0]
              congr 1
              rw [max_eq_left, max_eq_left]
              · simp; exact hf.le
              · have : ((0 : ℕ) - 1 : ℝ) / W.c.freqCam ≤ 0 := div_nonpos_of_nonpos_of_nonneg (by simp) hc.le
                linarith, hI.seenLe⟩
          obtain ⟨f1, f2, N, K, h3, h4, h5⟩ := this
          refine ⟨f1, f2, N, K, h3, ?_, h5⟩
          rw [hk0] at h4 ⊢
          simpa using h4
        · have hbt : buf.t = Spec.imgTime W t0 k := by
            obtain ⟨R, p, r, -, -, e⟩ := hI.bufOK hk
            rw [e]; rfl
          have hkp : 0 < (k : ℝ) / W.c.freqCam := by
            have : (0 : ℝ) < k := by exact_mod_cast hk
            positivity
          have hb1 : buf.t ≠ -1 := by
            rw [hbt, Spec.imgTime]
            have := hW.pos
            intro h
            linarith
          rw [if_pos hb1, List.cons_append, List.nil_append]
          rw [hI.cam, hI.imu] at hle
          refine fed_shot hW hI.pr hk (hI.bufOK hk) hI.tsEq hI.seenLe hle ?_
          have hts' : Spec.imgTime W t0 k = max (t0 + 1 / W.c.freqImu) (t0 + (((k + 1 : ℕ) : ℝ) - 1) / W.c.freqCam) - W.c.camDt := by
            have hk1 : (1 : ℝ) ≤ k := by exact_mod_cast hk
            have hkc : 1 / W.c.freqCam ≤ (k : ℝ) / W.c.freqCam := div_le_div_of_nonneg_right hk1 hc.le
            push_cast
            rw [add_sub_cancel_right, max_eq_right (by linarith), Spec.imgTime]
          refine ih { s1 with cam := s1.cam + 1 / W.c.freqCam } _ n (k + 1) true _ prior _ hvis' h1 ⟨hI.imu, hcam, hI.nb, fun _ => by rw [← hcam]; exact hb, hI.pr, by simp, fun _ => himg, hts', ?_⟩
          intro m hm
          rcases List.mem_append.1 hm with hm | hm
          · have := hI.seenLe m hm
            rw [hI.tsEq] at this
            refine this.trans ?_
            rw [hts']
            refine sub_le_sub_right (max_le_max le_rfl ?_) _
            have := div_le_div_of_nonneg_right (show (k : ℝ) - 1 ≤ ((k + 1 : ℕ) : ℝ) - 1 by push_cast; linarith) hc.le
            linarith
          · simp only [Spec.measured, List.mem_map] at hm
            obtain ⟨z, -, rfl⟩ := hm
            exact hbt.le
      · rw [e]
        simp only [onCam, List.nil_append]
        rw [(simEvents_stop W rs s' buf h').1, (simEvents_stop W rs s' buf h').2]
        rw [hI.cam] at hb hle
        rw [hI.imu] at hle
        exact stop hI.nb hI.kb fun _ => ⟨by rw [add_div]; linarith, by rw [add_div]; linarith⟩
    have hnr : ¬ s.run = false := by rw [hrun]; simp
    rw [simEvents, simState, if_neg hnr, if_neg hnr]
    simp only
    rcases nextImu_cases hW.cov s hai r.dbg r.dba r.nw r.na with ⟨-, e⟩ | ⟨-, hb, s', rd, bg, ba, e, ht, hi', hc', hr'⟩ | ⟨hle, hb, s', e, hc', hr'⟩
    · rw [e]
      exact camPart s n prior hrun hI
    · rw [e]
      have himu : s.imu + 1 / W.c.freqImu = t0 + ((n + 1 : ℕ) : ℝ) / W.c.freqImu := by rw [hI.imu]; push_cast; ring
      have htr : rd.t = t0 + ((n : ℝ) + 1) / W.c.freqImu := by rw [ht, himu]; push_cast; rfl
      refine fed_imu hf hI.pr htr (camPart s' (n + 1) (prior ++ [rd]) (hr'.trans hrun) ⟨hi'.trans himu, hc'.trans hI.cam, fun _ => by rw [← himu]; exact hb, hI.kb, prior_add hI.pr htr, hI.none0, hI.bufOK, hI.tsEq, hI.seenLe⟩)
    · rw [e]
      simp only [List.nil_append]
      rw [hI.imu] at hle hb
      rw [hI.cam] at hle
      have hac : a ≤ s'.cam + 1 / W.c.freqCam := by rw [hc', hI.cam]; have := hW.start; linarith
      have fin : ∀ s'' : Sim.SimSt, s''.run = false → ∀ bf, SFed o W t0 b n k bgn ts prior seen (simEvents W rs s'' bf) (simState W rs s'') := by
        intro s'' h'' bf
        rw [(simEvents_stop W rs s'' bf h'').1, (simEvents_stop W rs s'' bf h'').2]
        exact stop hI.nb hI.kb fun _ => ⟨by rw [add_div]; linarith, by rw [add_div]; linarith⟩
      rcases nextCam_cases hW.cov s' hac with ⟨-, e⟩ | ⟨hle', hb', -, e⟩ | ⟨hle', hb', s'', e, h''⟩
      · rw [e]; exact fin s' hr' buf
      · rw [hc', hI.cam] at hb'
        linarith
      · rw [e]; exact fin s'' h'' buf

/-! ## The estimator -/

theorem loop_recast {lib : Lib} {o : Opts} {F : FCfg} {x : FMgr} (h : Spec.LoopOK lib o F [] x) : Spec.LoopOK lib o F [] (recast x) := by
  have h0 : ∀ id cam, obs ([] : DB ℝ Uv) id cam = [] := by intro id cam; simp [obs, AMap.get?]
  refine ⟨⟨h.mgr.frame, h.mgr.window⟩, tidy_nil _ _ _, h.aruco, fun e he cam => ⟨fun z hz => ?_, (h.lms e he cam).2⟩, h.rep, h.win, h.still, h.nodup, fun m hm => absurd (h.gone m hm).1 (by simp), ?_, h.srcA⟩
  · simp only [recast, h0] at hz; cases hz
  · rintro m ⟨z, hz, -⟩
    simp only [recast, h0] at hz; cases hz

theorem has_recast {F : FCfg} {off : ℝ} {prior : List Reading} {x : FMgr} (h : Spec.Has F off prior x) : Spec.Has F off prior (recast x) :=
  ⟨h.toff, h.fixed, h.poff, .inl rfl, h.sub, h.sorted, h.has, by simp [recast]⟩

theorem runS_ok {lib : Lib} {o : Opts} {F : FCfg} (hlib : St.Spec.LibOK lib) (hF : Spec.CfgOK o F) (h2 : 2 ≤ o.maxClones) (hrS : F.slam.repS ≠ .anchoredSingle) (hrA : F.slam.repA ≠ .anchoredSingle) (off : ℝ) :
    ∀ (evs : List LEv) (prior : List Reading) (x : FMgr), Spec.LoopOK lib o F [] x → Spec.Has F off prior x → Spec.LStream o off false x.m.st.ts prior [] evs →
      ∃ y, runS lib F x evs = some y ∧ y.log.Nodup ∧ (∀ m ∈ y.log, m ∈ Spec.seenIn evs) ∧ y.m.st.ts = (Spec.shotTimes evs).getLastD x.m.st.ts ∧ St.Spec.ProgOK lib o y.m.st
  | [], prior, x, hx, hh, _ => ⟨x, rfl, hx.nodup, fun m hm => absurd (hx.gone m hm).1 (by simp), rfl, hx.mgr.frame.prog⟩
  | .imu r :: es, prior, x, hx, hh, ⟨hr, hst⟩ => by
    exact runS_ok hlib hF h2 hrS hrA off es (prior ++ [r]) { x with m := feedImu F.mgr x.m r } (loop_imu hx r) (has_imu hh hr) hst
  | .shot S :: es, prior, x, hx, hh, hst => by
    obtain ⟨y, q1, q2, -, q4, q5, q6⟩ := C108_used_once hlib hF h2 hrS hrA (.shot S :: es) [] (recast x) (loop_recast hx) (C108_stream hlib hF h2 hrS hrA off (.shot S :: es) false prior [] (recast x) (loop_recast hx) (has_recast hh) (by simp) hst)
    exact ⟨y, q1, q2, fun m hm => by simpa using (q4 m hm).1, q5, q6.mgr.frame.prog⟩

theorem seenIn_mem {evs : List LEv} {m : Meas} (h : m ∈ Spec.seenIn evs) : ∃ S, LEv.shot S ∈ evs ∧ m ∈ Spec.measured S := by
  induction evs with
  | nil => cases h
  | cons e es ih =>
    cases e with
    | imu r =>
      obtain ⟨S, h1, h2⟩ := ih h
      exact ⟨S, by simp [h1], h2⟩
    | shot S =>
      rcases List.mem_append.1 h with h | h
      · exact ⟨S, by simp, h⟩
      · obtain ⟨S', h1, h2⟩ := ih h
        exact ⟨S', by simp [h1], h2⟩

namespace Spec

/-- feature `f` of the map is seen by camera `cam` in image `i`, at the true pose; its id: shifted past the tags and, when the cameras do not share ids, by camera -/
def Sees (W : World) (t0 : ℝ) (f : ℕ × V3) (m : Meas) (i : ℕ) : Prop :=
  ∃ R p k, Sim.getPose W.c.cps (t0 + (i : ℝ) / W.c.freqCam) = some (R, p) ∧ W.cams[m.2.1]? = some k ∧ Sim.Spec.Visible W.P k R p f.2 ∧
    m.1 = f.1 + (if W.P.stereo then 0 else m.2.1 * W.feats.length) + 4 * W.maxAruco + 1 ∧ m.2.2 = imgTime W t0 i

end Spec

theorem measured_image {o : Opts} {W : World} {a b t0 : ℝ} (hW : Spec.SimSetup o W a b t0) {i : ℕ} {S : Shot} (hS : Spec.IsImage W t0 i S) {m : Meas} (hm : m ∈ Spec.measured S) : ∃ f ∈ W.feats, Spec.Sees W t0 f m i := by
  obtain ⟨R, p, r, hr, hg, rfl⟩ := hS
  simp only [Spec.measured, simShot, List.append_nil, List.mem_map, List.mem_flatten] at hm
  obtain ⟨z, ⟨l, ⟨k, hk, rfl⟩, hz⟩, rfl⟩ := hm
  obtain ⟨x, hx, rfl⟩ := List.mem_map.1 hz
  obtain ⟨j, hj, rfl⟩ := List.mem_iff_getElem.1 hx
  obtain ⟨f, hf, h1, h2, -⟩ := (Sim.C91_camera_features W.P k.1 k.2 R p W.feats (r.ord k.2) (hr k.2) hW.ids (r.nz k.2)).2.2 j hj
  refine ⟨f, hf, R, p, k.1, hg, ?_, h2, ?_, rfl⟩
  · have := List.mem_zipIdx' hk
    simp only
    rw [List.getElem?_eq_some_iff]
    exact ⟨this.1, this.2.symm⟩
  · simp only [Track.simId, Track.firstId, h1]
    omega

/-- **C126** A simulated run, for every map, trajectory, rig, schedule of frequencies with fewer images than readings, all random numbers, any number of rounds of the main loop, with a known time offset between the cameras and the IMU: the estimator is started with the true state, and
processes all it is fed. It is fed the readings one after another from the first one on, without a gap; and of the images, in order, without a gap, each once, all the simulator returned except the last one. Each image is what the cameras see at the true pose at its
time. When the simulator has stopped, it has returned every reading and every image before the end of the trajectory. The state is at the time of the last image that was fed (at the start if none was). Over the whole run every measurement is given to at most one update, and every measurement used is one of
a point of the map that the camera sees from the true pose. -/
theorem C126_run {lib : Lib} {o : Opts} {B : BCfg} {bt : Boot} {W : World} {a b t0 : ℝ} (hlib : St.Spec.LibOK lib) (hF : Spec.CfgOK o B.F) (h2 : 2 ≤ o.maxClones) (hrS : B.F.slam.repS ≠ .anchoredSingle) (hrA : B.F.slam.repA ≠ .anchoredSingle)
    (hW : Spec.SimSetup o W a b t0) (hb : Spec.PowerOn lib o W.c.camDt bt) (bg ba : V3) (rs : List Rnd) (hrs : ∀ r ∈ rs, Spec.Visits W r) :
    ∃ (y : FMgr) (n k : ℕ), runSimulation lib B bt W t0 bg ba rs = some y ∧
      (let evs := simEvents W rs (Sim.simInit W.c t0 bg ba) noShot
       Spec.imuFed evs = (List.range n).map (fun i : ℕ => t0 + ((i : ℝ) + 1) / W.c.freqImu) ∧
       Spec.shotTimes evs = (List.range (k - 1)).map (fun i : ℕ => Spec.imgTime W t0 (i + 1)) ∧
       ∀ S, LEv.shot S ∈ evs → ∃ i, 1 ≤ i ∧ Spec.IsImage W t0 i S) ∧
      ((simState W rs (Sim.simInit W.c t0 bg ba)).run = false → (∀ i : ℕ, 1 ≤ i → (i ≤ n ↔ t0 + (i : ℝ) / W.c.freqImu < b)) ∧ ∀ i : ℕ, 1 ≤ i → (i ≤ k ↔ t0 + (i : ℝ) / W.c.freqCam < b)) ∧
      y.m.st.ts = (if 2 ≤ k then Spec.imgTime W t0 (k - 1) else t0 + 1 / W.c.freqImu - W.c.camDt) ∧
      y.log.Nodup ∧ (∀ m ∈ y.log, ∃ f ∈ W.feats, ∃ i, 1 ≤ i ∧ Spec.Sees W t0 f m i) ∧ St.Spec.ProgOK lib o y.m.st := by
  have hc := hW.fc
  have hf : 0 < W.c.freqImu := hc.trans hW.lt
  obtain ⟨tr, g1, g2, -⟩ := Sim.C90_initial_truth W.c hf a b t0 hW.cov hW.start bg ba hW.first
  obtain ⟨b', h1, hts, -, -, -, hloop, hhas⟩ := gt_loop hb B.F (tr.t - W.c.camDt) ⟨tr.q, tr.p, tr.v, tr.bg, tr.ba⟩
  have hz : ((0 : ℕ) - 1 : ℝ) / W.c.freqCam ≤ 0 := div_nonpos_of_nonpos_of_nonneg (by simp) hc.le
  have pf : 0 < 1 / W.c.freqImu := by positivity
  have hI : LInv W t0 b 0 0 (Sim.simInit W.c t0 bg ba) noShot (tr.t - W.c.camDt) [] [] :=
    ⟨by simp [Sim.simInit], by simp [Sim.simInit], by simp, by simp, by simp [Prior], fun _ => rfl, by simp, by rw [g2, max_eq_left (by linarith)], by simp⟩
  obtain ⟨f1, f2, N, K, f3, f4, f5, f6, f7⟩ := loop_fed hW rs (Sim.simInit W.c t0 bg ba) noShot 0 0 false _ [] [] hrs rfl hI
  simp only [List.range_zero, List.map_nil, List.nil_append, Nat.zero_sub] at f3 f4
  obtain ⟨y, r1, r2, r3, r4, r5⟩ := runS_ok hlib (cfg_startup hF b'.startup) h2 hrS hrA W.c.camDt _ [] b'.x hloop hhas (by rw [hts]; exact f1)
  refine ⟨y, N, K, ?_, ⟨f3, f4, f2⟩, fun hstop => ⟨fun i hi => ⟨fun h => ?_, fun h => ?_⟩, fun i hi => ⟨fun h => ?_, fun h => ?_⟩⟩, ?_, r2, fun m hm => ?_, r5⟩
  · unfold runSimulation
    simp only [g1]
    unfold withGt
    rw [h1]
    exact r1
  · have h3 := f5 (by omega)
    have : (i : ℝ) / W.c.freqImu ≤ (N : ℝ) / W.c.freqImu := div_le_div_of_nonneg_right (by exact_mod_cast h) hf.le
    linarith
  · by_contra h3
    have : ((N : ℝ) + 1) / W.c.freqImu ≤ (i : ℝ) / W.c.freqImu := div_le_div_of_nonneg_right (by exact_mod_cast Nat.lt_of_not_le h3) hf.le
    have := (f7 hstop).1
    linarith
  · have h3 := f6 (by omega)
    have : (i : ℝ) / W.c.freqCam ≤ (K : ℝ) / W.c.freqCam := div_le_div_of_nonneg_right (by exact_mod_cast h) hc.le
    linarith
  · by_contra h3
    have : ((K : ℝ) + 1) / W.c.freqCam ≤ (i : ℝ) / W.c.freqCam := div_le_div_of_nonneg_right (by exact_mod_cast Nat.lt_of_not_le h3) hc.le
    have := (f7 hstop).2
    linarith
  · rw [r4, f4, hts, g2]
    split_ifs with hk
    · have : K - 1 = (K - 2) + 1 := by omega
      rw [this, List.range_succ, List.map_append]
      simp only [List.map_cons, List.map_nil, List.getLastD_concat]
    · have : K - 1 = 0 := by omega
      simp [this]
  · obtain ⟨S, s1, s2⟩ := seenIn_mem (r3 m hm)
    obtain ⟨i, hi, hS⟩ := f2 S s1
    obtain ⟨f, hf, h⟩ := measured_image hW hS s2
    exact ⟨f, hf, i, hi, h⟩

/-- **C126** The main loop ends: after enough rounds, whatever the random numbers, the simulator has stopped. -/
theorem C126_ends {o : Opts} {W : World} {a b t0 : ℝ} (hW : Spec.SimSetup o W a b t0) (bg ba : V3) : ∃ N : ℕ, ∀ rs : List Rnd, N ≤ rs.length → (simState W rs (Sim.simInit W.c t0 bg ba)).run = false := by
  have hf : 0 < W.c.freqImu := hW.fc.trans hW.lt
  obtain ⟨N, hN⟩ := Sim.C60_loop_ends W.c hf hW.fc a b t0 hW.cov hW.start bg ba
  refine ⟨N, fun rs hrs => ?_⟩
  have key : ∀ (rs : List Rnd) (s : Sim.SimSt), (Sim.calls W.c s ((rs.map fun r => (r.dbg, r.dba, r.nw, r.na)).flatMap Sim.round)).1.run = false → (simState W rs s).run = false := by
    intro rs
    induction rs with
    | nil => intro s h; exact h
    | cons r rs ih =>
      intro s h
      rw [simState]
      by_cases hr : s.run = false
      · rw [if_pos hr]; exact hr
      · rw [if_neg hr]
        refine ih _ ?_
        simpa [Sim.round, Sim.calls, Sim.call, List.flatMap_cons, hr] using h
  exact key rs _ (hN (rs.map fun r => (r.dbg, r.dba, r.nw, r.na)) (by simpa using hrs))

/-! ## A concrete run -/

/-- a hundred readings and ten images a second along the line of `Sim.exLine`, two points, one after another seen by cameras that all sit at the IMU -/
noncomputable def exWorld (o : Opts) : World :=
  ⟨{ Sim.exCfg with freqImu := 100, freqCam := 10, camDt := 0 }, ⟨10, 5, true⟩, List.replicate o.numCams ⟨.radtan, ![100, 100, 100, 100, 0, 0, 0, 0], 200, 200, ⟨0, 0, 0, 1⟩, 0, id⟩, [(0, ![0, 0, 2]), (1, ![1, 0, 2])], o.maxAruco, fun _ z => z⟩

theorem exWorld_ok {o : Opts} (hn : 0 < o.numCams) : Spec.SimSetup o (exWorld o) 1 3 1 :=
  ⟨Sim.exLine_covers, le_refl _, by norm_num [exWorld], by norm_num [exWorld], by norm_num [exWorld], by norm_num [exWorld], by norm_num [exWorld], by norm_num [exWorld], by simp [exWorld], by simp [exWorld]; omega, rfl, by simp [exWorld, List.range_succ]⟩

noncomputable def exRnd (o : Opts) : Rnd := ⟨0, 0, 0, 0, fun _ => (exWorld o).feats, fun _ _ => 0, fun _ _ _ => 0, fun _ => 0⟩

/-- the run of two seconds: nineteen images, the last of which is not used; the filter stops at the eighteenth, at 2.8 s. -/
example {o : Opts} {lib : Lib} (ho : o.calibDt = false) (hc : 2 ≤ o.maxClones) (hn : 0 < o.numCams) (hlib : St.Spec.LibOK lib) :
    ∃ N : ℕ, ∀ m, N ≤ m → ∃ y, runSimulation lib exB (exBoot o) (exWorld o) 1 0 0 (List.replicate m (exRnd o)) = some y ∧ y.m.st.ts = 2.8 ∧ y.log.Nodup := by
  obtain ⟨N, hN⟩ := C126_ends (exWorld_ok hn) 0 0
  refine ⟨N, fun m hm => ?_⟩
  obtain ⟨y, n, k, h1, -, h3, h4, h5, -⟩ := C126_run (B := exB) hlib (exF_ok (by omega) : Spec.CfgOK o exB.F) hc (by simp [exB, exF]) (by simp [exB, exF]) (exWorld_ok hn) (exBoot_ok ho) 0 0 (List.replicate m (exRnd o))
    (fun r hr i => by rw [(List.mem_replicate.1 hr).2]; exact List.Perm.refl _)
  have hk := (h3 (hN _ (by simpa using hm))).2
  have a1 := (hk 19 (by norm_num)).2 (by norm_num [exWorld])
  have a2 : ¬ 20 ≤ k := fun h => by
    have := (hk 20 (by norm_num)).1 h
    norm_num [exWorld] at this
  obtain rfl : k = 19 := by omega
  exact ⟨y, h1, by rw [h4]; norm_num [Spec.imgTime, exWorld], h5⟩

end Verif.Vio
