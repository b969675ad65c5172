import Verif.Sim.Start
import Verif.Sim.PropsAddCam
import Mathlib.Algebra.BigOperators.Fin
import Mathlib.Algebra.Order.Archimedean.Basic

/-! # C149: the simulation starts at the first camera time at which the device has moved enough -/

set_option autoImplicit false

namespace Verif.Sim

open Verif Verif.Types Verif.St Verif.Imu Verif.Prop_ Matrix

namespace Spec

/-- the straight distance of two places. -/
noncomputable def apart (p q : V3) : ℝ := Real.sqrt ((p 0 - q 0) ^ 2 + (p 1 - q 1) ^ 2 + (p 2 - q 2) ^ 2)

/-- where the device is on the simulated trajectory. -/
noncomputable def place (cps : Poses) (t : ℝ) : V3 := ((getPose cps t).map Prod.snd).getD 0

/-- the `k`-th camera time after the start of the trajectory. -/
noncomputable def tick (f ts : ℝ) (k : ℕ) : ℝ := ts + (k : ℝ) / f

/-- what the device has travelled up to the `k`-th camera time: the sum of the distances between the places at consecutive ones. -/
noncomputable def travelled (cps : Poses) (f ts : ℝ) (k : ℕ) : ℝ :=
  ∑ i ∈ Finset.range k, apart (place cps (tick f ts (i + 1))) (place cps (tick f ts i))

/-- `k` is the first camera time by which the device has travelled more than `thr`, and the trajectory has a pose at every camera
time up to it. -/
def FirstMoved (cps : Poses) (f ts thr : ℝ) (k : ℕ) : Prop :=
  (∀ j ≤ k, (getPose cps (tick f ts j)).isSome) ∧ thr < travelled cps f ts k ∧ ∀ j < k, travelled cps f ts j ≤ thr

end Spec

theorem norm3_apart (p q : V3) : norm3 (p - q) = Spec.apart p q := by
  unfold norm3 Spec.apart dot3
  congr 1
  simp only [Pi.sub_apply]; ring

theorem place_of {cps : Poses} {t : ℝ} {R : M3} {q : V3} (h : getPose cps t = some (R, q)) : Spec.place cps t = q := by simp [Spec.place, h]

theorem tick_step (f ts : ℝ) (k : ℕ) : Spec.tick f ts k + 1 / f = Spec.tick f ts (k + 1) := by
  unfold Spec.tick; push_cast; ring

/-- one round of the search, begun at the `i`-th camera time with what was travelled so far. -/
theorem findMove_iff (c : SimCfg) (thr ts t0 : ℝ) : ∀ (n i : ℕ) (d : ℝ) (p : V3),
    (∀ q, Spec.place c.cps (Spec.tick c.freqCam ts i) = q → d + Spec.apart q p = Spec.travelled c.cps c.freqCam ts i) →
    (findMove c thr n (Spec.tick c.freqCam ts i) d p = some t0 ↔
      ∃ k, i ≤ k ∧ k < i + n ∧ t0 = Spec.tick c.freqCam ts k ∧ (∀ j, i ≤ j → j ≤ k → (getPose c.cps (Spec.tick c.freqCam ts j)).isSome) ∧
        thr < Spec.travelled c.cps c.freqCam ts k ∧ ∀ j, i ≤ j → j < k → Spec.travelled c.cps c.freqCam ts j ≤ thr)
  | 0, i, d, p, _ => by
    simp only [findMove, reduceCtorEq, false_iff]
    rintro ⟨k, h1, h2, _⟩; omega
  | n + 1, i, d, p, hd => by
    unfold findMove
    cases hg : getPose c.cps (Spec.tick c.freqCam ts i) with
    | none =>
      simp only [reduceCtorEq, false_iff]
      rintro ⟨k, h1, _, _, h2, _⟩
      have := h2 i le_rfl h1
      rw [hg] at this; simp at this
    | some x =>
      obtain ⟨R, q⟩ := x
      have hq := place_of hg
      have e : d + norm3 (q - p) = Spec.travelled c.cps c.freqCam ts i := by rw [norm3_apart]; exact hd q hq
      dsimp only
      rw [e]
      by_cases ht : Spec.travelled c.cps c.freqCam ts i > thr
      · rw [if_pos ht, Option.some_inj]
        constructor
        · rintro rfl
          refine ⟨i, le_rfl, by omega, rfl, ?_, ht, ?_⟩
          · intro j h1 h2; rw [show j = i by omega, hg]; rfl
          · intro j h1 h2; omega
        · rintro ⟨k, h1, _, rfl, _, _, h2⟩
          rcases h1.eq_or_lt with rfl | h1
          · rfl
          · exact absurd (h2 i le_rfl h1) (not_le.2 ht)
      · rw [if_neg ht, tick_step, findMove_iff c thr ts t0 n (i + 1) _ q ?_]
        · constructor
          · rintro ⟨k, h1, h2, h3, h4, h5, h6⟩
            refine ⟨k, by omega, by omega, h3, ?_, h5, ?_⟩
            · intro j a b
              rcases a.eq_or_lt with rfl | a
              · rw [hg]; rfl
              · exact h4 j a b
            · intro j a b
              rcases a.eq_or_lt with rfl | a
              · exact not_lt.1 ht
              · exact h6 j a b
          · rintro ⟨k, h1, h2, h3, h4, h5, h6⟩
            rcases h1.eq_or_lt with rfl | h1
            · exact absurd h5 ht
            · exact ⟨k, h1, by omega, h3, fun j a b => h4 j (by omega) b, h5, fun j a b => h6 j (by omega) b⟩
        · rintro q' rfl
          rw [← hq]
          unfold Spec.travelled
          rw [Finset.sum_range_succ]

theorem apart_self (p : V3) : Spec.apart p p = 0 := by simp [Spec.apart]

/-- **C149** For every trajectory, camera rate and threshold: the simulation starts at `t0` exactly if `t0` is the first camera time after the start of the trajectory by which the device has travelled more than the
threshold, the trajectory having poses up to it (and it lies within the `n` rounds looked at). -/
theorem C149_start (c : SimCfg) (thr : ℝ) (n : ℕ) (ts t0 : ℝ) :
    simStart c thr n ts = some t0 ↔ ∃ k < n, t0 = Spec.tick c.freqCam ts k ∧ Spec.FirstMoved c.cps c.freqCam ts thr k := by
  have z : Spec.tick c.freqCam ts 0 = ts := by simp [Spec.tick]
  unfold simStart
  cases hg : getPose c.cps ts with
  | none =>
    simp only [reduceCtorEq, false_iff]
    rintro ⟨k, _, _, h, _⟩
    have := h 0 (Nat.zero_le _)
    rw [z, hg] at this; simp at this
  | some x =>
    obtain ⟨R, q⟩ := x
    have h := findMove_iff c thr ts t0 n 0 0 q (by
      rintro q' rfl
      rw [z, place_of hg, apart_self]; simp [Spec.travelled])
    rw [z] at h
    dsimp only
    rw [h]
    constructor
    · rintro ⟨k, _, h2, h3, h4, h5, h6⟩
      exact ⟨k, by omega, h3, fun j hj => h4 j (Nat.zero_le _) hj, h5, fun j hj => h6 j (Nat.zero_le _) hj⟩
    · rintro ⟨k, h2, h3, h4, h5, h6⟩
      exact ⟨k, Nat.zero_le _, by omega, h3, fun j _ hj => h4 j hj, h5, fun j _ hj => h6 j hj⟩

/-- **C149** With a positive camera rate the search ends: from some number of rounds on its result no longer depends on it; and it ends the program (no start time) exactly if the device never travels more than the
threshold as long as the trajectory has poses. -/
theorem C149_search_ends (c : SimCfg) (hf : 0 < c.freqCam) (a b : ℝ) (hcov : Spec.Covers c.cps a b) (thr ts : ℝ) :
    ∃ N, (∀ n, N ≤ n → simStart c thr n ts = simStart c thr N ts) ∧
      (simStart c thr N ts = none ↔
        ∀ k, (∀ j ≤ k, (getPose c.cps (Spec.tick c.freqCam ts j)).isSome) → Spec.travelled c.cps c.freqCam ts k ≤ thr) := by
  obtain ⟨N, hN⟩ := exists_nat_ge ((b - ts) * c.freqCam)
  have hlt : ∀ k, (∀ j ≤ k, (getPose c.cps (Spec.tick c.freqCam ts j)).isSome) → k < N := by
    intro k h
    have := ((hcov _).1 (h k le_rfl)).2
    by_contra hk
    have hk' : (N : ℝ) ≤ k := by exact_mod_cast not_lt.1 hk
    unfold Spec.tick at this
    have h3 : (k : ℝ) / c.freqCam < b - ts := by linarith
    rw [div_lt_iff₀ hf] at h3
    linarith
  refine ⟨N, ?_, ?_⟩
  · intro n hn
    apply Option.ext
    intro t0
    rw [C149_start, C149_start]
    constructor
    · rintro ⟨k, _, h2, h3⟩; exact ⟨k, hlt k h3.1, h2, h3⟩
    · rintro ⟨k, h1, h2, h3⟩; exact ⟨k, by omega, h2, h3⟩
  · constructor
    · intro h k hk
      by_contra hc
      classical
      let P : ℕ → Prop := fun k => thr < Spec.travelled c.cps c.freqCam ts k
      have hex : ∃ k, P k := ⟨k, not_le.1 hc⟩
      have hm : Nat.find hex ≤ k := Nat.find_min' hex (not_le.1 hc)
      have : simStart c thr N ts = some (Spec.tick c.freqCam ts (Nat.find hex)) :=
        (C149_start _ _ _ _ _).2 ⟨_, hm.trans_lt (hlt k hk), rfl, fun j hj => hk j (hj.trans hm), Nat.find_spec hex, fun j hj => not_lt.1 (Nat.find_min hex hj)⟩
      rw [h] at this; simp at this
    · intro h
      cases e : simStart c thr N ts with
      | none => rfl
      | some t0 =>
        obtain ⟨k, _, _, h3, h4, _⟩ := (C149_start _ _ _ _ _).1 e
        exact absurd (h k h3) (not_le.2 h4)

/-- **C149** A trajectory that rests all the time cannot be simulated with a threshold that is not negative, however small. -/
theorem C149_at_rest (c : SimCfg) (thr : ℝ) (h0 : 0 ≤ thr) (p : V3) (hp : ∀ t R q, getPose c.cps t = some (R, q) → q = p) (n : ℕ) (ts : ℝ) :
    simStart c thr n ts = none := by
  cases e : simStart c thr n ts with
  | none => rfl
  | some t0 =>
    obtain ⟨k, _, _, h3, h4, _⟩ := (C149_start _ _ _ _ _).1 e
    have hpl : ∀ j ≤ k, Spec.place c.cps (Spec.tick c.freqCam ts j) = p := by
      intro j hj
      obtain ⟨⟨R, q⟩, hx⟩ := Option.isSome_iff_exists.1 (h3 j hj)
      rw [place_of hx]; exact hp _ _ _ hx
    have : Spec.travelled c.cps c.freqCam ts k = 0 := by
      apply Finset.sum_eq_zero
      intro i hi
      rw [Finset.mem_range] at hi
      rw [hpl _ (by omega), hpl _ (by omega), apart_self]
    linarith

/-- **C149** With a negative threshold the simulation starts with the trajectory. -/
theorem C149_negative_threshold (c : SimCfg) (thr : ℝ) (h0 : thr < 0) (n : ℕ) (hn : 0 < n) (ts : ℝ) (hp : (getPose c.cps ts).isSome) :
    simStart c thr n ts = some ts := by
  have z : Spec.tick c.freqCam ts 0 = ts := by simp [Spec.tick]
  refine (C149_start _ _ _ _ _).2 ⟨0, hn, z.symm, ?_, by simpa [Spec.travelled] using h0, by omega⟩
  intro j hj
  rw [Nat.le_zero.1 hj, z]; exact hp

/-- **C149** With a threshold that is not negative the simulation starts at least one camera period after the trajectory, and the device has moved between the camera time before the start and the start. -/
theorem C149_start_after (c : SimCfg) (hf : 0 < c.freqCam) (thr : ℝ) (h0 : 0 ≤ thr) (n : ℕ) (ts t0 : ℝ) (h : simStart c thr n ts = some t0) :
    ts + 1 / c.freqCam ≤ t0 ∧ (getPose c.cps t0).isSome ∧ Spec.place c.cps t0 ≠ Spec.place c.cps (t0 - 1 / c.freqCam) := by
  obtain ⟨k, _, rfl, h3, h4, h5⟩ := (C149_start _ _ _ _ _).1 h
  rcases k with _ | k
  · simp [Spec.travelled] at h4; linarith
  · refine ⟨?_, h3 _ le_rfl, ?_⟩
    · unfold Spec.tick
      have : 1 / c.freqCam ≤ ((k + 1 : ℕ) : ℝ) / c.freqCam := by
        apply div_le_div_of_nonneg_right _ hf.le
        push_cast; linarith [(Nat.cast_nonneg k : (0 : ℝ) ≤ k)]
      linarith
    · have e : Spec.tick c.freqCam ts (k + 1) - 1 / c.freqCam = Spec.tick c.freqCam ts k := by rw [← tick_step]; ring
      rw [e]
      intro he
      have := h5 k (by omega)
      unfold Spec.travelled at h4 this
      rw [Finset.sum_range_succ, he, apart_self] at h4
      linarith

/-- **C149** For every trajectory fed to the simulator: with a positive camera rate the search ends, and a start time found lies on the trajectory, at least two control point periods after its first time. -/
theorem C149_on_trajectory (traj : List TrajPt) (a z : TrajPt) (mid : List TrajPt) (htraj : traj = a :: mid ++ [z]) :
    ∃ (N : ℕ) (f : Fed) (tmin : ℝ) (K : ℕ), (∀ n, N ≤ n → feedTrajectory n traj = some f) ∧ IsLeast (Spec.usedTimes traj) tmin ∧
      ∀ (c : SimCfg), c.cps = f.cps → 0 < c.freqCam → ∀ thr, ∃ M, (∀ n, M ≤ n → simStart c thr n f.start = simStart c thr M f.start) ∧
        ∀ n t0, simStart c thr n f.start = some t0 → tmin + 2 * f.dt ≤ t0 ∧ t0 < tmin + ((K : ℝ) - 2) * f.dt := by
  obtain ⟨N, f, tmin, tmax, K, h1, h2, _, _, h4, _, _, _, _, h5⟩ := C61_control_points traj a z mid htraj
  refine ⟨N, f, tmin, K, h1, h2, ?_⟩
  intro c hc hf thr
  have hcov : Spec.Covers c.cps (tmin + f.dt) (tmin + ((K : ℝ) - 2) * f.dt) := by rw [hc]; exact h5
  obtain ⟨M, m1, _⟩ := C149_search_ends c hf _ _ hcov thr f.start
  refine ⟨M, m1, ?_⟩
  intro n t0 h
  obtain ⟨k, _, rfl, k3, _, _⟩ := (C149_start _ _ _ _ _).1 h
  refine ⟨?_, ((hcov _).1 (k3 k le_rfl)).2⟩
  unfold Spec.tick
  have : 0 ≤ (k : ℝ) / c.freqCam := by positivity
  linarith

/-- on the straight line at one metre a second with frames at 3 Hz and a threshold of half a metre, the simulation starts two frames after the trajectory. -/
example (n : ℕ) (hn : 3 ≤ n) : simStart exCfg (1 / 2) n 1 = some (5 / 3) := by
  have hp : ∀ j : ℕ, j ≤ 2 → getPose exCfg.cps (Spec.tick exCfg.freqCam 1 j) = some (1, ![1 + (j : ℝ) / 3, 0, 0]) := by
    intro j hj
    have h1 : (0 : ℝ) ≤ j := Nat.cast_nonneg j
    have h2 : (j : ℝ) ≤ 2 := by exact_mod_cast hj
    exact exLine_pose (1 + (j : ℝ) / 3) ⟨by linarith, by linarith⟩
  have hpl : ∀ j : ℕ, j ≤ 2 → Spec.place exCfg.cps (Spec.tick exCfg.freqCam 1 j) = ![1 + (j : ℝ) / 3, 0, 0] := fun j hj => place_of (hp j hj)
  have t1 : Spec.travelled exCfg.cps exCfg.freqCam 1 1 = 1 / 3 := by
    unfold Spec.travelled
    rw [Finset.sum_range_one, hpl 1 (by omega), hpl 0 (by omega)]
    unfold Spec.apart
    rw [Real.sqrt_eq_iff_mul_self_eq (by positivity) (by norm_num)]
    norm_num
    exact sub_self (0 : ℝ)
  have t2 : Spec.travelled exCfg.cps exCfg.freqCam 1 2 = 2 / 3 := by
    have e : Spec.travelled exCfg.cps exCfg.freqCam 1 2 = Spec.travelled exCfg.cps exCfg.freqCam 1 1 +
      Spec.apart (Spec.place exCfg.cps (Spec.tick exCfg.freqCam 1 2)) (Spec.place exCfg.cps (Spec.tick exCfg.freqCam 1 1)) := Finset.sum_range_succ _ 1
    rw [e, t1, hpl 1 (by omega), hpl 2 (by omega)]
    have : Spec.apart ![1 + ((2 : ℕ) : ℝ) / 3, 0, 0] ![1 + ((1 : ℕ) : ℝ) / 3, 0, 0] = 1 / 3 := by
      unfold Spec.apart
      rw [Real.sqrt_eq_iff_mul_self_eq (by positivity) (by norm_num)]
      norm_num
      exact sub_self (0 : ℝ)
    rw [this]; norm_num
  refine (C149_start _ _ _ _ _).2 ⟨2, by omega, ?_, fun j hj => by rw [hp j hj]; rfl, by rw [t2]; norm_num, ?_⟩
  · norm_num [Spec.tick, exCfg]
  · intro j hj
    rcases j with _ | _ | j
    · simp [Spec.travelled]
    · rw [t1]; norm_num
    · omega

/-- and its hypotheses in the other theorems. -/
example : 0 < exCfg.freqCam ∧ Spec.Covers exCfg.cps 1 3 ∧ (getPose exCfg.cps 1).isSome :=
  ⟨by norm_num [exCfg], exLine_covers, (exLine_covers 1).2 ⟨le_rfl, by norm_num⟩⟩

end Verif.Sim
