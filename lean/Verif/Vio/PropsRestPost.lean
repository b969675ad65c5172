import Verif.Vio.Props
import Verif.State.PropsInfo
import Mathlib.Tactic.IntervalCases

/-! # C133: an accepted zero velocity update is the posterior given the mean reading over the interval -/

open Classical

namespace Verif.Vio

open Verif Verif.Types Verif.St Verif.Imu Verif.Prop_ Verif.Feat Verif.Disp Finset

variable {lib : Lib} {o : Opts} {s s' : State}

namespace Spec

/-- the length of the interval of the readings: the sum of the steps. -/
def span (l : List Reading) : ℝ := ((l.zip l.tail).map fun p => p.2.t - p.1.t).sum

/-- the mean over the interval of a reading that holds until the next. -/
noncomputable def timeMean (g : Reading → V3) (l : List Reading) : V3 :=
  (1 / span l) • ((l.zip l.tail).map fun p => (p.2.t - p.1.t) • g p.1).sum

/-- the derivative of "no rotation, and a specific force of gravity alone" by the errors of orientation (columns 0-2), gyroscope bias (3-5) and
accelerometer bias (6-8), in units of the noise densities. -/
noncomputable def restJac (N : Noise) (R : M3) : Mat := fun i j =>
  if i < 3 then (if j = i + 3 then -1 / N.sw else 0)
  else if h : i - 3 < 3 ∧ j < 3 then -(skew (R.mulVec N.grav) ⟨i - 3, h.1⟩ ⟨j, h.2⟩) / N.sa
  else if j = i + 3 then -1 / N.sa else 0

/-- minus the rotation rate and minus the specific force beyond gravity, in units of the noise densities. -/
noncomputable def restRes (N : Noise) (w a : V3) : Fin 6 → ℝ := fun k =>
  if h : (k : ℕ) < 3 then -(w ⟨k, h⟩) / N.sw else -(a ⟨k - 3, by omega⟩) / N.sa

end Spec

/-- sums over stacked blocks of six rows. -/
theorem sum_six (m : ℕ) (f : ℕ → ℕ → ℝ) : ∑ r ∈ range (6 * m), f (r / 6) (r % 6) = ∑ i ∈ range m, ∑ k ∈ range 6, f i k := by
  induction m with
  | zero => simp
  | succ m ih =>
    rw [Nat.mul_succ, Finset.sum_range_add, ih, sum_range_succ (fun i => ∑ k ∈ range 6, f i k) m]
    congr 1
    refine sum_congr rfl fun k hk => ?_
    have hk := mem_range.1 hk
    rw [show (6 * m + k) / 6 = m by omega, show (6 * m + k) % 6 = k by omega]

theorem zH6_eq (N : Noise) (R : M3) (dt : ℝ) {k j : ℕ} (hk : k < 6) (hj : j < 9) : zH6 N R dt k j = Real.sqrt dt * Spec.restJac N R k j := by
  unfold zH6 Spec.restJac wOmega wAccel
  interval_cases k <;> interval_cases j <;> simp [assemble, blk, Mat.setBlock, Mat.extM] <;> ring

/-- the part of a row without its weight -/
noncomputable def res1 (kb : Bool) (N : Noise) (c : Cal) (x : Imu16) (d : Reading) : Fin 6 → ℝ :=
  Spec.restRes N (wHat kb c x d) (aHat kb c x d - (quat2Rot x.q).mulVec N.grav)

theorem zRes6_eq (kb : Bool) (N : Noise) (c : Cal) (x : Imu16) (d : Reading) (dt : ℝ) (k : Fin 6) :
    zRes6 kb N c x d dt k = Real.sqrt dt * res1 kb N c x d k := by
  unfold zRes6 res1 Spec.restRes wOmega wAccel
  by_cases h : (k : ℕ) < 3
  · simp only [dif_pos h]; ring
  · simp only [dif_neg h, dif_pos (show (k : ℕ) - 3 < 3 by omega)]; ring

theorem span_eq : ∀ l : List Reading, dtSum l = Spec.span l
  | [] => rfl
  | [_] => rfl
  | a :: b :: l => by
    rw [dtSum, span_eq (b :: l)]
    simp [Spec.span]

theorem spaced_steps : ∀ {l : List Reading}, Imu.Spec.Spaced l → ∀ p ∈ l.zip l.tail, 0 < p.2.t - p.1.t
  | [], _ => by simp
  | [_], _ => by simp
  | a :: b :: l, h => by
    simp only [Imu.Spec.Spaced, List.isChain_cons_cons] at h
    intro p hp
    simp only [List.tail_cons, List.zip_cons_cons, List.mem_cons] at hp
    rcases hp with rfl | hp
    · have h1 := h.1
      norm_num at h1
      dsimp only; linarith
    · exact spaced_steps (l := b :: l) h.2 p (by simpa using hp)

theorem span_pos {l : List Reading} (h : Imu.Spec.Spaced l) (h2 : 2 ≤ l.length) : 0 < Spec.span l := by
  unfold Spec.span
  refine List.sum_pos _ ?_ ?_
  · intro x hx
    obtain ⟨p, hp, rfl⟩ := List.mem_map.1 hx
    exact spaced_steps h p hp
  · match l, h2 with
    | a :: b :: l, _ => simp

theorem map_sum_getD (l : List (Reading × Reading)) (f : Reading × Reading → ℝ) (z : ℝ) :
    (∑ i ∈ range l.length, match l[i]? with | some p => f p | none => z) = (l.map f).sum := by
  induction l with
  | nil => simp
  | cons p l ih =>
    rw [List.length_cons, sum_range_succ']
    simp only [List.getElem?_cons_succ, List.getElem?_cons_zero, List.map_cons, List.sum_cons]
    rw [ih, add_comm]

theorem full_blocks (m n : ℕ) (H : Mat) (r : Fin m) (c : Fin n) :
    St.Spec.full Spec.blocks m n H r c = ∑ j ∈ range 9, if ix Spec.blocks j = c then H r j else 0 := by
  rw [full_eq]; rfl

theorem full_scale {m m' n : ℕ} {H H' : Mat} {r : Fin m} {r' : Fin m'} {w : ℝ} (h : ∀ j, j < 9 → H r j = w * H' r' j) (c : Fin n) :
    St.Spec.full Spec.blocks m n H r c = w * St.Spec.full Spec.blocks m' n H' r' c := by
  rw [full_blocks, full_blocks, mul_sum]
  refine sum_congr rfl fun j hj => ?_
  split_ifs
  · exact h j (mem_range.1 hj)
  · simp

/-- the sum of the weighted values -/
noncomputable def wsum (L : List (Reading × Reading)) (g : Reading → V3) : V3 := (L.map fun p => (p.2.t - p.1.t) • g p.1).sum

noncomputable def wtot (L : List (Reading × Reading)) : ℝ := (L.map fun p => p.2.t - p.1.t).sum

theorem wsum_affine (A : M3) (b : V3) (g : Reading → V3) (L : List (Reading × Reading)) :
    wsum L (fun d => A.mulVec (g d - b)) = A.mulVec (wsum L g - wtot L • b) := by
  induction L with
  | nil => simp [wsum, wtot]
  | cons p L ih =>
    simp only [wsum, wtot, List.map_cons, List.sum_cons] at ih ⊢
    rw [ih, ← Matrix.mulVec_smul, ← Matrix.mulVec_add]
    congr 1
    module

theorem wsum_sub (g h : Reading → V3) (L : List (Reading × Reading)) : wsum L (fun d => g d - h d) = wsum L g - wsum L h := by
  induction L with
  | nil => simp [wsum]
  | cons p L ih =>
    simp only [wsum, List.map_cons, List.sum_cons] at ih ⊢
    rw [ih]; module

theorem wsum_mulVec (A : M3) (g : Reading → V3) (L : List (Reading × Reading)) : wsum L (fun d => A.mulVec (g d)) = A.mulVec (wsum L g) := by
  have := wsum_affine A 0 g L
  simpa using this

theorem wsum_const (b : V3) (L : List (Reading × Reading)) : wsum L (fun _ => b) = wtot L • b := by
  induction L with
  | nil => simp [wsum, wtot]
  | cons p L ih =>
    simp only [wsum, wtot, List.map_cons, List.sum_cons] at ih ⊢
    rw [ih]; module

theorem wsum_apply (g : Reading → V3) (L : List (Reading × Reading)) (i : Fin 3) :
    (L.map fun p => (p.2.t - p.1.t) * g p.1 i).sum = wsum L g i := by
  induction L with
  | nil => simp [wsum]
  | cons p L ih =>
    simp only [wsum, List.map_cons, List.sum_cons] at ih ⊢
    rw [ih]; simp

/-- the reading with the mean values -/
noncomputable def meanReading (l : List Reading) : Reading := ⟨0, Spec.timeMean Reading.wm l, Spec.timeMean Reading.am l⟩

theorem aHat_mean (kb : Bool) (c : Cal) (x : Imu16) (l : List Reading) (hT : Spec.span l ≠ 0) :
    wsum (l.zip l.tail) (aHat kb c x) = Spec.span l • aHat kb c x (meanReading l) := by
  have e := wsum_affine (quat2Rot c.qa * Dm kb c.da) x.ba Reading.am (l.zip l.tail)
  refine (show wsum (l.zip l.tail) (aHat kb c x) = _ from e).trans ?_
  unfold aHat meanReading
  rw [← Matrix.mulVec_smul]
  congr 1
  rw [smul_sub]
  congr 1
  unfold Spec.timeMean
  rw [smul_smul, mul_one_div_cancel hT, one_smul]
  rfl

theorem wHat_mean (kb : Bool) (c : Cal) (x : Imu16) (l : List Reading) (hT : Spec.span l ≠ 0) :
    wsum (l.zip l.tail) (wHat kb c x) = Spec.span l • wHat kb c x (meanReading l) := by
  have e1 : wsum (l.zip l.tail) (wHat kb c x) = (quat2Rot c.qw * Dm kb c.dw).mulVec
      (wsum (l.zip l.tail) Reading.wm - wtot (l.zip l.tail) • x.bg - (Tm c.tg).mulVec (wsum (l.zip l.tail) (aHat kb c x))) := by
    rw [← wsum_mulVec (Tm c.tg), ← wsum_const, ← wsum_sub, ← wsum_sub, ← wsum_mulVec]
    rfl
  rw [e1, aHat_mean kb c x l hT]
  unfold wHat
  rw [← Matrix.mulVec_smul]
  congr 1
  rw [smul_sub, smul_sub, Matrix.mulVec_smul]
  congr 2
  unfold meanReading Spec.timeMean
  rw [smul_smul, mul_one_div_cancel hT, one_smul]
  rfl

/-- a weighted sum of affine rows is the row of the weighted mean. -/
theorem res1_mean (kb : Bool) (N : Noise) (c : Cal) (x : Imu16) (l : List Reading) (hT : Spec.span l ≠ 0) (k : Fin 6) :
    ((l.zip l.tail).map fun p => (p.2.t - p.1.t) * res1 kb N c x p.1 k).sum = Spec.span l * res1 kb N c x (meanReading l) k := by
  unfold res1 Spec.restRes
  by_cases h : (k : ℕ) < 3
  · simp only [dif_pos h]
    have e := congrFun (wHat_mean kb c x l hT) ⟨k, h⟩
    rw [← wsum_apply, Pi.smul_apply, smul_eq_mul] at e
    have : ((l.zip l.tail).map fun p => (p.2.t - p.1.t) * (-(wHat kb c x p.1 ⟨k, h⟩) / N.sw)) =
        ((l.zip l.tail).map fun p => (p.2.t - p.1.t) * wHat kb c x p.1 ⟨k, h⟩).map fun y => y * (-1 / N.sw) := by
      rw [List.map_map]; exact List.map_congr_left fun p _ => by simp only [Function.comp]; ring
    rw [this, List.sum_map_mul_right, List.map_id', e]; ring
  · simp only [dif_neg h]
    have e0 : wsum (l.zip l.tail) (fun d => aHat kb c x d - (quat2Rot x.q).mulVec N.grav) =
        Spec.span l • (aHat kb c x (meanReading l) - (quat2Rot x.q).mulVec N.grav) := by
      rw [wsum_sub, wsum_const, aHat_mean kb c x l hT, smul_sub]; rfl
    have e := congrFun e0 ⟨k - 3, by omega⟩
    rw [← wsum_apply, Pi.smul_apply, smul_eq_mul] at e
    have : ((l.zip l.tail).map fun p => (p.2.t - p.1.t) * (-((aHat kb c x p.1 - (quat2Rot x.q).mulVec N.grav) ⟨k - 3, by omega⟩) / N.sa)) =
        ((l.zip l.tail).map fun p => (p.2.t - p.1.t) * (aHat kb c x p.1 - (quat2Rot x.q).mulVec N.grav) ⟨k - 3, by omega⟩).map fun y => y * (-1 / N.sa) := by
      rw [List.map_map]; exact List.map_congr_left fun p _ => by simp only [Function.comp]; ring
    rw [this, List.sum_map_mul_right, List.map_id', e]; ring

/-- an entry of the placed Jacobian, by row number -/
noncomputable def fr (H : Mat) (c r : ℕ) : ℝ := ∑ j ∈ range 9, if ix Spec.blocks j = c then H r j else 0

theorem fr_scale {H H' : Mat} {r r' : ℕ} {w : ℝ} (h : ∀ j, j < 9 → H r j = w * H' r' j) (c : ℕ) : fr H c r = w * fr H' c r' := by
  unfold fr
  rw [mul_sum]
  refine sum_congr rfl fun j hj => ?_
  split_ifs
  · exact h j (mem_range.1 hj)
  · simp

theorem zH_row {N : Noise} {R : M3} {data : List Reading} {r : ℕ} {p : Reading × Reading} (h : (data.zip data.tail)[r / 6]? = some p) (c : ℕ) :
    fr (zH N R data) c r = Real.sqrt (p.2.t - p.1.t) * fr (Spec.restJac N R) c (r % 6) := by
  refine fr_scale (fun j hj => ?_) c
  unfold zH
  rw [h]
  exact zH6_eq N R _ (Nat.mod_lt _ (by norm_num)) hj

theorem zip_tail_length (data : List Reading) : (data.zip data.tail).length = data.length - 1 := by
  rw [List.length_zip, List.length_tail]; omega

theorem stacked (data : List Reading) (G : Reading × Reading → ℕ → ℝ) (F : ℕ → ℝ)
    (hF : ∀ r p, (data.zip data.tail)[r / 6]? = some p → F r = G p (r % 6)) :
    ∑ r ∈ range (6 * (data.length - 1)), F r = ((data.zip data.tail).map fun p => ∑ k ∈ range 6, G p k).sum := by
  rw [← map_sum_getD _ _ 0, zip_tail_length]
  trans ∑ r ∈ range (6 * (data.length - 1)), (match (data.zip data.tail)[r / 6]? with | some p => G p (r % 6) | none => 0)
  · refine sum_congr rfl fun r hr => ?_
    have hr := mem_range.1 hr
    have hl : r / 6 < (data.zip data.tail).length := by rw [zip_tail_length]; omega
    rw [List.getElem?_eq_getElem hl]
    exact hF r _ (List.getElem?_eq_getElem hl)
  · rw [sum_six (data.length - 1) fun i k => match (data.zip data.tail)[i]? with | some p => G p k | none => 0]
    refine sum_congr rfl fun i _ => ?_
    cases (data.zip data.tail)[i]? with
    | none => simp
    | some p => rfl

/-- the information of the stacked rows -/
theorem gram_rest (N : Noise) (R : M3) (data : List Reading) (hd : ∀ p ∈ data.zip data.tail, 0 < p.2.t - p.1.t) (n : ℕ) :
    (St.Spec.full Spec.blocks (6 * (data.length - 1)) n (zH N R data)).transpose * St.Spec.full Spec.blocks (6 * (data.length - 1)) n (zH N R data) =
      Spec.span data • ((St.Spec.full Spec.blocks 6 n (Spec.restJac N R)).transpose * St.Spec.full Spec.blocks 6 n (Spec.restJac N R)) := by
  ext a b
  simp only [Matrix.mul_apply, Matrix.transpose_apply, Matrix.smul_apply, smul_eq_mul]
  have e1 : ∀ (m : ℕ) (H : Mat), ∑ r : Fin m, St.Spec.full Spec.blocks m n H r a * St.Spec.full Spec.blocks m n H r b =
      ∑ r ∈ range m, fr H a r * fr H b r := by
    intro m H
    rw [sum_range]
    exact sum_congr rfl fun r _ => by rw [full_blocks, full_blocks]; rfl
  rw [e1, e1]
  rw [stacked data (fun p k => (p.2.t - p.1.t) * (fr (Spec.restJac N R) a k * fr (Spec.restJac N R) b k)) _ fun r p hp => by
    have h0 := (hd p (List.mem_of_getElem? hp)).le
    rw [zH_row hp, zH_row hp]
    have := Real.mul_self_sqrt h0
    linear_combination (fr (Spec.restJac N R) a (r % 6) * fr (Spec.restJac N R) b (r % 6)) * this]
  unfold Spec.span
  rw [← List.sum_map_mul_right]
  exact congrArg List.sum (List.map_congr_left fun p _ => (mul_sum _ _ _).symm)

/-- the right hand side of the stacked rows -/
theorem rhs_rest (kb : Bool) (N : Noise) (R : M3) (c : Cal) (x : Imu16) (data : List Reading) (hd : ∀ p ∈ data.zip data.tail, 0 < p.2.t - p.1.t)
    (hT : Spec.span data ≠ 0) (n : ℕ) :
    (St.Spec.full Spec.blocks (6 * (data.length - 1)) n (zH N R data)).transpose.mulVec (St.Spec.vec (6 * (data.length - 1)) (zRes kb N c x data)) =
      Spec.span data • (St.Spec.full Spec.blocks 6 n (Spec.restJac N R)).transpose.mulVec (res1 kb N c x (meanReading data)) := by
  ext a
  simp only [Matrix.mulVec, dotProduct, Matrix.transpose_apply, Pi.smul_apply, smul_eq_mul]
  let q : Reading × Reading → ℕ → ℝ := fun p k => if h : k < 6 then res1 kb N c x p.1 ⟨k, h⟩ else 0
  have e1 : ∑ r : Fin (6 * (data.length - 1)), St.Spec.full Spec.blocks _ n (zH N R data) r a * St.Spec.vec _ (zRes kb N c x data) r =
      ∑ r ∈ range (6 * (data.length - 1)), fr (zH N R data) a r * zRes kb N c x data r := by
    rw [sum_range]
    exact sum_congr rfl fun r _ => by rw [full_blocks]; rfl
  rw [e1]
  rw [stacked data (fun p k => (p.2.t - p.1.t) * (fr (Spec.restJac N R) a k * q p k)) _ fun r p hp => by
    have h0 := (hd p (List.mem_of_getElem? hp)).le
    have hz : zRes kb N c x data r = Real.sqrt (p.2.t - p.1.t) * q p (r % 6) := by
      unfold zRes
      rw [hp]
      have := zRes6_eq kb N c x p.1 (p.2.t - p.1.t) ⟨r % 6, Nat.mod_lt _ (by norm_num)⟩
      simp only [q, dif_pos (Nat.mod_lt r (show 0 < 6 by norm_num))]
      exact this
    rw [zH_row hp, hz]
    have := Real.mul_self_sqrt h0
    linear_combination (fr (Spec.restJac N R) a (r % 6) * q p (r % 6)) * this]
  have e2 : ((data.zip data.tail).map fun p => ∑ k ∈ range 6, (p.2.t - p.1.t) * (fr (Spec.restJac N R) a k * q p k)) =
      (data.zip data.tail).map fun p => ∑ k : Fin 6, fr (Spec.restJac N R) a k * ((p.2.t - p.1.t) * res1 kb N c x p.1 k) := by
    refine List.map_congr_left fun p _ => ?_
    rw [sum_range]
    refine sum_congr rfl fun k _ => ?_
    simp only [q, dif_pos k.2]; ring
  have e3 : ∀ L : List (Reading × Reading), (L.map fun p => ∑ k : Fin 6, fr (Spec.restJac N R) a k * ((p.2.t - p.1.t) * res1 kb N c x p.1 k)).sum =
      ∑ k : Fin 6, fr (Spec.restJac N R) a k * (L.map fun p => (p.2.t - p.1.t) * res1 kb N c x p.1 k).sum := by
    intro L
    induction L with
    | nil => simp
    | cons p L ih =>
      simp only [List.map_cons, List.sum_cons, ih, mul_add, sum_add_distrib]
  rw [e2, e3, mul_sum]
  refine sum_congr rfl fun k _ => ?_
  rw [res1_mean kb N c x data hT, full_blocks]
  show fr _ _ _ * _ = _ * (fr _ _ _ * _)
  ring

theorem inv_iso6 (m : ℕ) {c : ℝ} (hc : 0 < c) :
    (St.Spec.mat m m (Upd.Spec.iso m c).a)⁻¹ = (1 / c) • (1 : Matrix (Fin m) (Fin m) ℝ) := by
  have e : St.Spec.mat m m (Upd.Spec.iso m c).a = c • (1 : Matrix (Fin m) (Fin m) ℝ) := by
    ext i j
    simp [Upd.Spec.iso, St.Spec.mat, Matrix.one_apply, Fin.ext_iff]
  refine Matrix.inv_eq_left_inv ?_
  rw [e, Matrix.smul_mul, Matrix.one_mul, smul_smul, one_div_mul_cancel hc.ne', one_smul]

set_option maxHeartbeats 1600000 in
/-- **C133.** An accepted zero velocity update. The biases have walked for the interval, nothing else has moved; the result is the Bayesian posterior
given one measurement: that of the mean reading over the interval (each reading weighted by the time until the next, corrected by the calibration
and the estimated biases) being no rotation and gravity alone, with the noise densities of the sensors for the length of the interval and variances
multiplied by the configured factor. -/
theorem C133_posterior (hlib : St.Spec.LibOK lib) (hs : St.Spec.ProgOK lib o s) (Z : ZCfg) (hm : 0 < Z.mult) (mem mem' : ZMem) (buf : List Reading)
    {hist : Hist ℝ Uv} {db db' : DB ℝ Uv} (hdb : hist.run = some db) (t : ℝ) {off : ℝ} {c : Cal} {x f : Imu16} (hoff : tOff s = some off)
    (hc : calOf s = some c) (hx : imuOf s = some (x, f))
    (hsp : Imu.Spec.Spaced (select buf (s.ts + mem.off.getD off) (t + off))) (h : tryUpdate lib Z mem buf db s t = some (true, mem', s', db')) :
    let data := select buf (s.ts + mem.off.getD off) (t + off)
    let R := if Z.fej then quat2Rot f.q else quat2Rot x.q
    let a := (quat2Rot c.qa * Dm s.opts.kalibr c.da).mulVec (Spec.timeMean Reading.am data - x.ba)
    let w := (quat2Rot c.qw * Dm s.opts.kalibr c.dw).mulVec (Spec.timeMean Reading.wm data - x.bg - (Tm c.tg).mulVec a)
    let F := St.Spec.full Spec.blocks 6 s.n (Spec.restJac Z.noise R)
    0 < Spec.span data ∧ s'.ts = t ∧
    ∃ P1 s2, St.Spec.mat s.n s.n P1 = St.Spec.cov s + Spec.walkCov Z.noise (Spec.span data) s.n ∧
      St.Spec.Posterior { s with P := P1 } s2 ((Spec.span data / Z.mult) • (F.transpose * F))
        ((Spec.span data / Z.mult) • F.transpose.mulVec (Spec.restRes Z.noise w (a - (quat2Rot x.q).mulVec Z.noise.grav))) ∧
      (∀ i j, i < s.n → j < s.n → s'.P i j = s2.P i j) ∧ ∀ u, Upd.Spec.SameVal (s2.obj u).val (s'.obj u).val := by
  intro data R a w F
  obtain ⟨b, m1, s1, d1, h1, -, hb, -, heff⟩ := C44_zero_velocity hlib hs Z hm mem buf hdb t hoff hc hx hsp
  rw [h] at h1
  simp only [Option.some.injEq, Prod.mk.injEq] at h1
  obtain ⟨rfl, rfl, rfl, rfl⟩ := h1
  obtain ⟨-, -, h2, -⟩ := hb.1 rfl
  obtain ⟨hts, -, -, -, -, -, -, -, P1, s2, hP1, hok, hu, hP, hV⟩ := heff rfl
  have hpos : 0 < Spec.span data := span_pos hsp h2
  have hd := spaced_steps hsp
  refine ⟨hpos, hts, P1, s2, by rw [hP1, span_eq], ?_, hP, hV⟩
  obtain ⟨hz, -, -, -⟩ := prog_blocks hs.prog
  have hR1 : St.Spec.ReachOK lib { s with P := P1 } := by
    obtain ⟨ops, -, q2, q3⟩ := hok; exact ⟨o, ops, q2, q3⟩
  obtain ⟨L, hL, hpost⟩ := C06_information_form hlib hR1 zOrder _ _ _ (iso_sym _ _) (iso_pd _ hm) hu
  have hz1 : resolveAll { s with P := P1 } zOrder = some Spec.blocks := hz
  rw [hz1] at hL
  obtain rfl := Option.some.inj hL
  have hRi : (St.Spec.mat (Upd.Spec.iso (6 * (data.length - 1)) Z.mult).rows (Upd.Spec.iso (6 * (data.length - 1)) Z.mult).rows
      (Upd.Spec.iso (6 * (data.length - 1)) Z.mult).a)⁻¹ = (1 / Z.mult) • (1 : Matrix (Fin (6 * (data.length - 1))) (Fin (6 * (data.length - 1))) ℝ) := by
    exact inv_iso6 _ hm
  have hg := gram_rest Z.noise R data hd s.n
  have hr := rhs_rest s.opts.kalibr Z.noise R c x data hd hpos.ne' s.n
  simp only at hpost
  rw [hRi] at hpost
  have eΛ : (St.Spec.full Spec.blocks (6 * (data.length - 1)) s.n (zH Z.noise R data)).transpose * ((1 / Z.mult) • (1 : Matrix (Fin (6 * (data.length - 1))) (Fin (6 * (data.length - 1))) ℝ)) *
      St.Spec.full Spec.blocks (6 * (data.length - 1)) s.n (zH Z.noise R data) = (Spec.span data / Z.mult) • (F.transpose * F) := by
    rw [Matrix.mul_smul, Matrix.mul_one, Matrix.smul_mul, hg, smul_smul]
    congr 1; ring
  have eb : ((St.Spec.full Spec.blocks (6 * (data.length - 1)) s.n (zH Z.noise R data)).transpose * ((1 / Z.mult) • (1 : Matrix (Fin (6 * (data.length - 1))) (Fin (6 * (data.length - 1))) ℝ))).mulVec
      (St.Spec.vec (6 * (data.length - 1)) (zRes s.opts.kalibr Z.noise c x data)) =
      (Spec.span data / Z.mult) • F.transpose.mulVec (Spec.restRes Z.noise w (a - (quat2Rot x.q).mulVec Z.noise.grav)) := by
    rw [Matrix.mul_smul, Matrix.mul_one, Matrix.smul_mulVec, hr, smul_smul]
    congr 1; ring
  rw [← eΛ, ← eb]
  exact hpost

/-- **C133.** What the measurement knows: an error of the state does not show in it exactly if the error of the gyroscope bias is zero and that of the
accelerometer bias is undone by the tilt. In particular nothing is claimed about heading, position, velocity, calibration, past poses and landmarks: errors
of these, whatever they are, do not show. -/
theorem C133_seen (N : Noise) (hsw : 0 < N.sw) (hsa : 0 < N.sa) (R : M3) (n : ℕ) (hn : 15 ≤ n) (e : Fin n → ℝ) :
    let θ : V3 := fun i => e ⟨i, by omega⟩
    let bg : V3 := fun i => e ⟨9 + i, by omega⟩
    let ba : V3 := fun i => e ⟨12 + i, by omega⟩
    ((St.Spec.full Spec.blocks 6 n (Spec.restJac N R)).mulVec e = 0 ↔ bg = 0 ∧ ba = -(skew (R.mulVec N.grav)).mulVec θ) ∧
    ∀ y : ℝ, θ = y • R.mulVec N.grav → bg = 0 → ba = 0 → (St.Spec.full Spec.blocks 6 n (Spec.restJac N R)).mulVec e = 0 := by
  intro θ bg ba
  have hrow : ∀ k : Fin 6, (St.Spec.full Spec.blocks 6 n (Spec.restJac N R)).mulVec e k =
      ∑ j ∈ range 9, Spec.restJac N R k j * (if h : ix Spec.blocks j < n then e ⟨ix Spec.blocks j, h⟩ else 0) := by
    intro k
    simp only [Matrix.mulVec, dotProduct, full_blocks, sum_mul]
    rw [sum_comm]
    refine sum_congr rfl fun j hj => ?_
    have hj := mem_range.1 hj
    have hlt : ix Spec.blocks j < n := by
      interval_cases j <;> simp [ix, Spec.blocks] <;> omega
    rw [dif_pos hlt, Finset.sum_eq_single ⟨ix Spec.blocks j, hlt⟩]
    · simp
    · intro b _ hb
      rw [if_neg (fun he => hb (Fin.ext he.symm)), zero_mul]
    · simp
  have h15 : ∀ j, j < 15 → j < n := fun j hj => by omega
  have r0 : ∀ i : Fin 3, (St.Spec.full Spec.blocks 6 n (Spec.restJac N R)).mulVec e ⟨i, by omega⟩ = -(1 / N.sw) * bg i := by
    intro i
    rw [hrow]
    fin_cases i <;>
    · simp [sum_range_succ, Spec.restJac, ix, Spec.blocks, bg, h15]
      try ring
  have r1 : ∀ i : Fin 3, (St.Spec.full Spec.blocks 6 n (Spec.restJac N R)).mulVec e ⟨i + 3, by omega⟩ =
      -(1 / N.sa) * ((skew (R.mulVec N.grav)).mulVec θ i + ba i) := by
    intro i
    rw [hrow]
    simp only [Matrix.mulVec, dotProduct, Fin.sum_univ_three]
    fin_cases i <;>
    · simp [sum_range_succ, Spec.restJac, ix, Spec.blocks, ba, θ, h15, Matrix.mulVec, dotProduct, Fin.sum_univ_three]
      try ring
  have hw : -(1 / N.sw) ≠ 0 := by simp [hsw.ne']
  have ha : -(1 / N.sa) ≠ 0 := by simp [hsa.ne']
  have key : (St.Spec.full Spec.blocks 6 n (Spec.restJac N R)).mulVec e = 0 ↔ bg = 0 ∧ ba = -(skew (R.mulVec N.grav)).mulVec θ := by
    constructor
    · intro h
      constructor
      · funext i
        have := r0 i
        rw [h] at this
        exact (mul_eq_zero.1 this.symm).resolve_left hw
      · funext i
        have := r1 i
        rw [h] at this
        have := (mul_eq_zero.1 this.symm).resolve_left ha
        rw [Pi.neg_apply]
        linarith
    · rintro ⟨h1, h2⟩
      funext k
      by_cases hk : (k : ℕ) < 3
      · have := r0 ⟨k, hk⟩
        rw [h1] at this
        simpa using this
      · have := r1 ⟨k - 3, by omega⟩
        rw [h2, Pi.neg_apply, add_neg_cancel, mul_zero] at this
        have e : (⟨((⟨(k : ℕ) - 3, by omega⟩ : Fin 3) : ℕ) + 3, by simp; omega⟩ : Fin 6) = k := Fin.ext (by simp; omega)
        rw [e] at this
        exact this
  refine ⟨key, fun y hy h1 h2 => key.2 ⟨h1, ?_⟩⟩
  rw [h2, hy, Matrix.mulVec_smul]
  have : (skew (R.mulVec N.grav)).mulVec (R.mulVec N.grav) = 0 := by
    funext i
    fin_cases i <;> simp [skew, Matrix.mulVec, dotProduct, Fin.sum_univ_three] <;> ring
  rw [this]; simp

/-- The interval is that from the last image to this one, if the readings cover it (C19). -/
theorem C133_interval {t0 t1 : ℝ} (h01 : t0 < t1) (buf : List Reading) (hs : Imu.Spec.Sorted buf) (h0 : ∃ a ∈ buf, a.t ≤ t0) (h1 : ∃ b ∈ buf, t1 ≤ b.t) :
    ∃ x y, x.t = t0 ∧ y.t = t1 ∧ (Imu.Spec.Spaced (x :: Imu.Spec.inside t0 t1 buf ++ [y]) → Spec.span (select buf t0 t1) = t1 - t0) := by
  obtain ⟨x, y, hx, hy, -, -, h, -⟩ := C19_select h01 buf hs h0 h1
  refine ⟨x, y, hx, hy, fun hsp => ?_⟩
  rw [(h hsp).1]
  have key : ∀ (l : List Reading) (x : Reading), Spec.span (x :: l ++ [y]) = y.t - x.t := by
    intro l
    induction l with
    | nil => intro x; simp [Spec.span]
    | cons z l ih =>
      intro x
      have := ih z
      simp only [Spec.span, List.cons_append, List.tail_cons, List.zip_cons_cons, List.map_cons, List.sum_cons] at this ⊢
      rw [this]; ring
  rw [key, hx, hy]

/-- Three readings at 0, 1 and 3 s: the second counts twice, the third not at all. The updates of `C44_rest_accepted` are accepted ones. -/
example (w a : V3) : let l := [(⟨0, w, 0⟩ : Reading), ⟨1, a, 0⟩, ⟨3, 0, 0⟩]
    Imu.Spec.Spaced l ∧ Spec.span l = 3 ∧ Spec.timeMean Reading.wm l = (1 / 3 : ℝ) • (w + (2 : ℝ) • a) := by
  refine ⟨?_, ?_, ?_⟩
  · simp [Imu.Spec.Spaced]; norm_num
  · norm_num [Spec.span]
  · have : Spec.span [(⟨0, w, 0⟩ : Reading), ⟨1, a, 0⟩, ⟨3, 0, 0⟩] = 3 := by norm_num [Spec.span]
    unfold Spec.timeMean
    rw [this]
    simp
    norm_num

end Verif.Vio
