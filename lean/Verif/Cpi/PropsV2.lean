import Verif.Cpi.V2
import Verif.Cpi.PropsB
import Verif.Cpi.PropsCov
import Verif.Prop.Jac

/-!
# C127: preintegration with constant local acceleration
-/

set_option autoImplicit false
set_option linter.unusedSimpArgs false

open Classical

namespace Verif.Cpi

open Verif Verif.Prop_

namespace Spec

/-- gravity in the frame of the first time -/
noncomputable def gK (k : Conf2) : V3 := (quat2Rot k.qk).mulVec k.grav

/-- the local acceleration of an interval: the corrected force less gravity, at the orientation at the start, or the mean of those at the start and the end -/
noncomputable def net (k : Conf2) (x : Seg) (R0 R1 : M3) : V3 :=
  if k.avg then (1 / 2 : ℝ) • (x.a0 - k.ba - R0.mulVec (gK k)) + (1 / 2 : ℝ) • (x.a1 - k.ba - R1.mulVec (gK k)) else x.a0 - k.ba - R0.mulVec (gK k)

/-- relative rotation, velocity and position along a sequence of intervals: in each of them rigid-body motion with constant angular rate and constant local acceleration -/
inductive Follows2 (k : Conf2) : List Seg → M3 → V3 → V3 → Prop
  | start : Follows2 k [] 1 0 0
  | step {xs : List Seg} {x : Seg} {R0 : M3} {v0 p0 : V3} {R : ℝ → M3} {v p : ℝ → V3} (h : Follows2 k xs R0 v0 p0)
      (hk : Prop_.Spec.Kinematics (rate k.toConf x) (net k x R0 (R (x.t1 - x.t0))) 0 (x.t1 - x.t0) R v p) (hR : R 0 = R0) (hv : v 0 = v0) (hp : p 0 = p0) :
      Follows2 k (xs ++ [x]) (R (x.t1 - x.t0)) (v (x.t1 - x.t0)) (p (x.t1 - x.t0))

/-- the linearisation points moved by `e` times a direction: biases, and the orientation by the error state of the filter -/
noncomputable def moved2 (k : Conf2) (dw da dq : V3) (e : ℝ) : Conf2 := { k with bw := k.bw + e • dw, ba := k.ba + e • da, qk := quatUpdate k.qk (e • dq) }

end Spec

/-! ## helpers -/

theorem localAcc_eq (k : Conf2) (R0 R1 : M3) (x : Seg) : localAcc k.toConf ((quat2Rot k.qk).mulVec k.grav) R0 R1 x = Spec.net k x R0 R1 := by
  unfold localAcc Spec.net Spec.gK
  split_ifs
  · module
  · rfl

/-- the interval with the local acceleration in place of the reading, for model 1 -/
noncomputable def seg1 (k : Conf2) (s : Res2) (x : Seg) : Seg :=
  let a := Spec.net k x s.R (relRot (Spec.rate k.toConf x) (x.t1 - x.t0) * s.R)
  ⟨x.t0, x.t1, x.w0, a + k.ba, x.w1, a + k.ba⟩

theorem seg1_rate (k : Conf2) (s : Res2) (x : Seg) : Spec.rate k.toConf (seg1 k s x) = Spec.rate k.toConf x := rfl

theorem seg1_force (k : Conf2) (s : Res2) (x : Seg) : Spec.force k.toConf (seg1 k s x) = Spec.net k x s.R (relRot (Spec.rate k.toConf x) (x.t1 - x.t0) * s.R) := by
  unfold Spec.force seg1
  simp only
  split_ifs <;> module

/-- the means are those of model 1 with the local acceleration -/
theorem feed2_means (k : Conf2) (s : Res2) (x : Seg) :
    let r := feed k.toConf s.toRes (seg1 k s x)
    (feed2 k s x).DT = r.DT ∧ (feed2 k s x).R = r.R ∧ (feed2 k s x).beta = r.beta ∧ (feed2 k s x).alpha = r.alpha ∧ (feed2 k s x).q = r.q := by
  intro r
  by_cases h : x.t1 - x.t0 = 0
  · have e : r = { s.toRes with DT := s.DT + (x.t1 - x.t0) } := feed_zero (x := seg1 k s x) h s.toRes
    rw [e]
    simp [feed2, h]
  · have hb := feed_beta (k := k.toConf) (x := seg1 k s x) h s.toRes
    have ha := feed_alpha (k := k.toConf) (x := seg1 k s x) h s.toRes
    have hR := feed_R (k := k.toConf) (x := seg1 k s x) h s.toRes
    have hq := feed_q (k := k.toConf) (x := seg1 k s x) h s.toRes
    rw [seg1_force] at hb ha
    rw [seg1_rate] at hb ha hR
    refine ⟨?_, ?_, ?_, ?_, ?_⟩
    · show _ = (feed k.toConf s.toRes (seg1 k s x)).DT
      have e : ∀ r : Res2, r = feed2 k s x → r.DT = s.DT + (x.t1 - x.t0) := fun r hr => by rw [hr]; simp only [feed2, if_neg h]
      rw [e _ rfl]
      have h' : ¬ (seg1 k s x).t1 - (seg1 k s x).t0 = 0 := h
      simp only [feed, if_neg h']
      rfl
    · rw [hR]; simp only [feed2, if_neg h, rate_eq]; rfl
    · rw [hb]; simp only [feed2, if_neg h, rate_eq, localAcc_eq]; rfl
    · rw [ha]; simp only [feed2, if_neg h, rate_eq, localAcc_eq]; rfl
    · rw [hq, hR]; simp only [feed2, if_neg h, rate_eq]; rfl

theorem feed2_zero {k : Conf2} {x : Seg} (h : x.t1 - x.t0 = 0) (s : Res2) : feed2 k s x = { s with DT := s.DT + (x.t1 - x.t0) } := by
  simp [feed2, h]

theorem run2_snoc (k : Conf2) (xs : List Seg) (x : Seg) : run2 k (xs ++ [x]) = feed2 k (run2 k xs) x := by
  simp [run2, List.foldl_append]

/-! ## C127 -/

/-- **C127 (time).** The preintegration time is the total elapsed time of the intervals fed. -/
theorem C127_total_time (k : Conf2) (xs : List Seg) : (run2 k xs).DT = (xs.map fun x => x.t1 - x.t0).sum := by
  induction xs using List.reverseRecOn with
  | nil => rfl
  | append_singleton xs x ih =>
    rw [run2_snoc, List.map_append, List.sum_append, ← ih]
    have : (feed2 k (run2 k xs) x).DT = (run2 k xs).DT + (x.t1 - x.t0) := by
      unfold feed2
      simp only
      split_ifs <;> rfl
    rw [this]; simp

/-- **C127 (symmetry).** The covariance of the measurement is symmetric after any sequence of intervals. -/
theorem C127_symmetric (k : Conf2) (xs : List Seg) : (run2 k xs).P.transpose = (run2 k xs).P := by
  induction xs using List.reverseRecOn with
  | nil => simp [run2, Res2.init, Res.init]
  | append_singleton xs x ih =>
    rw [run2_snoc]
    by_cases h0 : x.t1 - x.t0 = 0
    · rw [feed2_zero h0]; exact ih
    · have hs : ∀ (w a g : V3) (R0 Rm R1 : M3) (dt : ℝ) (P : M21) i j, covStep k.toConf w a g R0 Rm R1 dt P i j = covStep k.toConf w a g R0 Rm R1 dt P j i := by
        intro w a g R0 Rm R1 dt P i j
        simp only [covStep, Matrix.smul_apply, Matrix.add_apply, Matrix.transpose_apply]
        rw [add_comm]
      simp only [feed2, if_neg h0]
      ext i j
      exact hs _ _ _ _ _ _ _ _ _ _

/-- **C127 (rotation, partial).** If every interval's corrected angular rate is zero or at least the small-rate threshold, the relative orientation is a rotation after any sequence, and the stored quaternion is the canonical unit quaternion of it.
Missing: rates strictly between, as for model 1 (`C127_small_rate_not_rotation`). -/
theorem C127_rotation_partial (k : Conf2) (xs : List Seg) (h : ∀ x ∈ xs, Spec.rate k.toConf x = 0 ∨ thr ≤ norm3 (Spec.rate k.toConf x)) :
    IsRot (run2 k xs).R ∧ ∀ q, (run2 k xs).q = some q → CanonQ q ∧ quat2Rot q = (run2 k xs).R := by
  have key : (run2 k xs).R = (run k.toConf xs).R ∧ (run2 k xs).q = (run k.toConf xs).q := by
    clear h
    induction xs using List.reverseRecOn with
    | nil => exact ⟨rfl, rfl⟩
    | append_singleton xs x ih =>
      rw [run2_snoc, run_snoc]
      by_cases h0 : x.t1 - x.t0 = 0
      · rw [feed2_zero h0, feed_zero h0]; exact ih
      · have e : (feed2 k (run2 k xs) x).R = (feed k.toConf (run k.toConf xs) x).R := by
          rw [feed_R h0, ← ih.1]
          simp only [feed2, if_neg h0, rate_eq]
        refine ⟨e, ?_⟩
        rw [feed_q h0, ← e]
        simp only [feed2, if_neg h0]
  rw [key.1, key.2]
  exact C40_rotation_partial k.toConf xs h

/-- **C127 (rotation, failure).** After one interval with a rate below the threshold that is not zero, the relative orientation is not a rotation. -/
theorem C127_small_rate_not_rotation (k : Conf2) (x : Seg) (h0 : x.t1 - x.t0 ≠ 0) (h1 : Spec.rate k.toConf x ≠ 0) (h2 : norm3 (Spec.rate k.toConf x) < thr) : ¬IsRot (run2 k [x]).R := by
  have e : (run2 k [x]).R = (run k.toConf [x]).R := by
    rw [show run k.toConf [x] = feed k.toConf Res.init x from rfl, feed_R h0]
    simp only [run2, List.foldl_cons, List.foldl_nil, feed2, if_neg h0, rate_eq]
    rfl
  rw [e]
  exact C40_small_rate_not_rotation k.toConf x h0 h1 h2

/-- **C127 (kinematics, partial).** If every interval has non-negative duration and a corrected rate that is zero or at least the threshold, the preintegrated orientation, velocity and position are those reached by rigid-body motion with,
in each interval, the corrected rate and the local acceleration: that motion exists and every such motion ends there. Missing: rates in between. -/
theorem C127_kinematics_partial (k : Conf2) (xs : List Seg) (h : ∀ x ∈ xs, x.t0 ≤ x.t1 ∧ (Spec.rate k.toConf x = 0 ∨ thr ≤ norm3 (Spec.rate k.toConf x))) (R : M3) (v p : V3) :
    Spec.Follows2 k xs R v p ↔ R = (run2 k xs).R ∧ v = (run2 k xs).beta ∧ p = (run2 k xs).alpha := by
  induction xs using List.reverseRecOn generalizing R v p with
  | nil =>
    constructor
    · intro hf
      generalize hx : ([] : List Seg) = ys at hf
      cases hf with
      | start => exact ⟨rfl, rfl, rfl⟩
      | step _ _ _ _ _ => simp at hx
    · rintro ⟨rfl, rfl, rfl⟩
      exact Spec.Follows2.start
  | append_singleton xs x ih =>
    have ih' := ih (fun y hy => h y (by simp [hy]))
    obtain ⟨ht, hr⟩ := h x (by simp)
    obtain ⟨n, hn, hE, hO, hc⟩ := feed_closed' (k := k.toConf) (x := seg1 k (run2 k xs) x) hr
    obtain ⟨c1, c2, c3⟩ := hc (run2 k xs).toRes
    obtain ⟨-, m1, m2, m3, -⟩ := feed2_means k (run2 k xs) x
    rw [← m1] at c1
    rw [← m2] at c2
    rw [← m3] at c3
    rw [seg1_force] at c2 c3
    rw [seg1_rate] at c1 c2 c3 hE hO
    have hT : (seg1 k (run2 k xs) x).t1 - (seg1 k (run2 k xs) x).t0 = x.t1 - x.t0 := rfl
    rw [hT] at c1 c2 c3
    have hrel : relRot (Spec.rate k.toConf x) (x.t1 - x.t0) * (run2 k xs).R = kE n (Spec.rate k.toConf x) (x.t1 - x.t0) * (run2 k xs).R ∨ x.t1 - x.t0 = 0 := by
      by_cases h0 : x.t1 - x.t0 = 0
      · exact .inr h0
      · left
        rw [← c1]
        simp only [feed2, if_neg h0, rate_eq]
    have hrel' : relRot (Spec.rate k.toConf x) (x.t1 - x.t0) * (run2 k xs).R = kE n (Spec.rate k.toConf x) (x.t1 - x.t0) * (run2 k xs).R := by
      rcases hrel with e | e
      · exact e
      · rw [e, kE_eq]
        congr 1
        unfold relRot
        split_ifs <;> simp
    rw [hrel'] at c2 c3
    rw [run2_snoc]
    constructor
    · intro hf
      generalize hx : xs ++ [x] = ys at hf
      cases hf with
      | start => simp at hx
      | @step xs' x' R0 v0 p0 R v p hf hk hR hv hp =>
        obtain ⟨rfl, h2⟩ := List.append_inj' hx rfl
        obtain rfl : x = x' := by simpa using h2
        obtain ⟨i1, i2, i3⟩ := (ih' _ _ _).1 hf
        obtain ⟨e1, e2, e3⟩ := kin_unique_gen hn hE hO hk (x.t1 - x.t0) ⟨sub_nonneg.2 ht, le_rfl⟩
        rw [hR, i1] at e1 e2 e3
        rw [hv, i2] at e2 e3
        rw [hp, i3] at e3
        rw [e1] at e2 e3
        rw [e1, e2, e3, c1, c2, c3]
        refine ⟨rfl, ?_, ?_⟩ <;> simp
    · rintro ⟨rfl, rfl, rfl⟩
      have hk := kin_exists_gen hn hE (Spec.net k x (run2 k xs).R (kE n (Spec.rate k.toConf x) (x.t1 - x.t0) * (run2 k xs).R)) 0 (x.t1 - x.t0) (run2 k xs).R (run2 k xs).beta (run2 k xs).alpha
      have hf : Spec.Follows2 k xs (run2 k xs).R (run2 k xs).beta (run2 k xs).alpha := (ih' _ _ _).2 ⟨rfl, rfl, rfl⟩
      generalize run2 k xs = s at *
      have := Spec.Follows2.step (R := fun t => kE n (Spec.rate k.toConf x) t * s.R) hf hk (by rw [kE_eq]; simp) (by simp [k1]) (by simp [k2])
      rw [c1, c2, c3]
      simpa using this

/-! ## Jacobians in closed form -/

theorem feed2_Jq {k : Conf2} (hk : k.trans = false) {x : Seg} (h : x.t1 - x.t0 ≠ 0) (s : Res2) :
    (feed2 k s x).Jq = relRot (Spec.rate k.toConf x) (x.t1 - x.t0) * s.Jq + (x.t1 - x.t0) • jr (Spec.rate k.toConf x) (x.t1 - x.t0) := by
  simp only [feed2, if_neg h, hk, rate_eq, Bool.false_eq_true, if_false]

theorem feed2_R {k : Conf2} {x : Seg} (h : x.t1 - x.t0 ≠ 0) (s : Res2) : (feed2 k s x).R = relRot (Spec.rate k.toConf x) (x.t1 - x.t0) * s.R := by
  simp only [feed2, if_neg h, rate_eq]

theorem feed2_beta {k : Conf2} (hv : k.avg = false) {x : Seg} (h : x.t1 - x.t0 ≠ 0) (s : Res2) : (feed2 k s x).beta =
    s.beta + ((relRot (Spec.rate k.toConf x) (x.t1 - x.t0) * s.R).transpose * betaArg (Spec.rate k.toConf x) (x.t1 - x.t0)).mulVec (x.a0 - k.ba - s.R.mulVec (Spec.gK k)) := by
  simp only [feed2, if_neg h, rate_eq, localAcc, hv, Bool.false_eq_true, if_false]; rfl

theorem feed2_alpha {k : Conf2} (hv : k.avg = false) {x : Seg} (h : x.t1 - x.t0 ≠ 0) (s : Res2) : (feed2 k s x).alpha =
    s.alpha + ((x.t1 - x.t0) • s.beta + ((relRot (Spec.rate k.toConf x) (x.t1 - x.t0) * s.R).transpose * alphaArg (Spec.rate k.toConf x) (x.t1 - x.t0)).mulVec (x.a0 - k.ba - s.R.mulVec (Spec.gK k))) := by
  simp only [feed2, if_neg h, rate_eq, localAcc, hv, Bool.false_eq_true, if_false]; rfl

theorem feed2_Hb {k : Conf2} (hk : k.trans = false) {x : Seg} (h : x.t1 - x.t0 ≠ 0) (s : Res2) :
    (feed2 k s x).Hb = s.Hb - (feed2 k s x).R.transpose * betaArg (Spec.rate k.toConf x) (x.t1 - x.t0) ∧
    (feed2 k s x).Ob = s.Ob + -((feed2 k s x).R.transpose * betaArg (Spec.rate k.toConf x) (x.t1 - x.t0)) * s.R * skew (Spec.gK k) := by
  simp only [feed2, if_neg h, hk, rate_eq, Bool.false_eq_true, if_false]
  exact ⟨trivial, rfl⟩

theorem feed2_Ha {k : Conf2} (hk : k.trans = false) {x : Seg} (h : x.t1 - x.t0 ≠ 0) (s : Res2) :
    (feed2 k s x).Ha = s.Ha - (feed2 k s x).R.transpose * alphaArg (Spec.rate k.toConf x) (x.t1 - x.t0) + (x.t1 - x.t0) • s.Hb ∧
    (feed2 k s x).Oa = s.Oa + (x.t1 - x.t0) • s.Ob + -((feed2 k s x).R.transpose * alphaArg (Spec.rate k.toConf x) (x.t1 - x.t0)) * s.R * skew (Spec.gK k) := by
  simp only [feed2, if_neg h, hk, rate_eq, Bool.false_eq_true, if_false]
  exact ⟨trivial, rfl⟩

theorem cols_sum (H J : M3) (u δ : V3) (r : Fin 3) : δ 0 * (H * skew (J.mulVec (ei 0))).mulVec u r + δ 1 * (H * skew (J.mulVec (ei 1))).mulVec u r + δ 2 * (H * skew (J.mulVec (ei 2))).mulVec u r =
    (H * skew (J.mulVec δ)).mulVec u r := by
  simp only [← Matrix.mulVec_mulVec]
  have lin : ∀ u0 u1 u2 : V3, δ 0 * H.mulVec u0 r + δ 1 * H.mulVec u1 r + δ 2 * H.mulVec u2 r = H.mulVec (δ 0 • u0 + δ 1 • u1 + δ 2 • u2) r := by
    intro u0 u1 u2
    simp only [Matrix.mulVec_add, Matrix.mulVec_smul, Pi.add_apply, Pi.smul_apply, smul_eq_mul]
  rw [lin]
  refine congrFun (congrArg H.mulVec ?_) r
  apply v3_ext <;> simp only [Pi.add_apply, Pi.smul_apply, smul_eq_mul, skew00, skew01, skew02, skew10, skew11, skew12, skew20, skew21, skew22, m3_mulVec_apply, ei] <;> simp <;> ring

theorem feed2_Ja {k : Conf2} (hk : k.trans = false) (hv : k.avg = false) {x : Seg} (h : x.t1 - x.t0 ≠ 0) (s : Res2) (δ : V3) :
    let w := Spec.rate k.toConf x
    let T := x.t1 - x.t0
    let a := x.a0 - k.ba - s.R.mulVec (Spec.gK k)
    (feed2 k s x).Ja.mulVec δ = s.Ja.mulVec δ + T • s.Jb.mulVec δ + (feed2 k s x).R.transpose.mulVec
      (-((skew ((feed2 k s x).Jq.mulVec δ)).mulVec ((alphaArg w T).mulVec a)) +
        ((dot3 w δ * (dfs (norm3 w) T).f1) • skew w - (fs (norm3 w) T).f1 • skew δ + (dot3 w δ * (dfs (norm3 w) T).f2) • (skew w * skew w) -
          (fs (norm3 w) T).f2 • (skew δ * skew w + skew w * skew δ)).mulVec a) -
      ((feed2 k s x).R.transpose * alphaArg w T * skew (s.Jq.mulVec δ)).mulVec (s.R.mulVec (Spec.gK k)) := by
  intro w T a
  funext r
  rw [Pi.sub_apply, Pi.add_apply, Pi.add_apply, ← biasCol_sum, ← cols_sum, m3_mulVec_apply, m3_mulVec_apply, Pi.smul_apply, m3_mulVec_apply, smul_eq_mul]
  simp only [feed2, if_neg h, hk, rate_eq, localAcc, hv, Bool.false_eq_true, ↓reduceIte]
  simp only [w, T, a, Spec.gK]
  ring

theorem feed2_Jb {k : Conf2} (hk : k.trans = false) (hv : k.avg = false) {x : Seg} (h : x.t1 - x.t0 ≠ 0) (s : Res2) (δ : V3) :
    let w := Spec.rate k.toConf x
    let T := x.t1 - x.t0
    let a := x.a0 - k.ba - s.R.mulVec (Spec.gK k)
    (feed2 k s x).Jb.mulVec δ = s.Jb.mulVec δ + (feed2 k s x).R.transpose.mulVec
      (-((skew ((feed2 k s x).Jq.mulVec δ)).mulVec ((betaArg w T).mulVec a)) +
        ((dot3 w δ * (dfs (norm3 w) T).f3) • skew w - (fs (norm3 w) T).f3 • skew δ + (dot3 w δ * (dfs (norm3 w) T).f4) • (skew w * skew w) -
          (fs (norm3 w) T).f4 • (skew δ * skew w + skew w * skew δ)).mulVec a) -
      ((feed2 k s x).R.transpose * betaArg w T * skew (s.Jq.mulVec δ)).mulVec (s.R.mulVec (Spec.gK k)) +
      (δ 0 * 2) • ((feed2 k s x).R.transpose * betaArg w T * skew (s.Jq.mulVec (ei 0))).mulVec (s.R.mulVec (Spec.gK k)) := by
  intro w T a
  funext r
  rw [Pi.add_apply, Pi.sub_apply, Pi.add_apply, ← biasCol_sum, ← cols_sum, m3_mulVec_apply, m3_mulVec_apply, Pi.smul_apply, smul_eq_mul]
  simp only [feed2, if_neg h, hk, rate_eq, localAcc, hv, Bool.false_eq_true, ↓reduceIte, show ¬((1 : Fin 3) = 0) by decide, show ¬((2 : Fin 3) = 0) by decide]
  simp only [w, T, a, Spec.gK]
  ring

/-- what the wrong sign adds to the first columns of the Jacobians of position and velocity with respect to the gyroscope's bias; the intervals are given last first -/
noncomputable def Spec.defectRev (k : Conf2) : List Seg → V3 × V3
  | [] => (0, 0)
  | x :: ys =>
    let s := run2 k ys.reverse
    let T := x.t1 - x.t0
    let d := Spec.defectRev k ys
    (d.1 + T • d.2, if T = 0 then d.2 else d.2 + (2 : ℝ) • ((feed2 k s x).R.transpose * betaArg (Spec.rate k.toConf x) T * skew (s.Jq.mulVec (ei 0))).mulVec (s.R.mulVec (Spec.gK k)))

noncomputable def Spec.defect (k : Conf2) (xs : List Seg) : V3 × V3 := Spec.defectRev k xs.reverse

theorem defect_snoc (k : Conf2) (xs : List Seg) (x : Seg) : Spec.defect k (xs ++ [x]) =
    ((Spec.defect k xs).1 + (x.t1 - x.t0) • (Spec.defect k xs).2, if x.t1 - x.t0 = 0 then (Spec.defect k xs).2 else (Spec.defect k xs).2 +
      (2 : ℝ) • ((feed2 k (run2 k xs) x).R.transpose * betaArg (Spec.rate k.toConf x) (x.t1 - x.t0) * skew ((run2 k xs).Jq.mulVec (ei 0))).mulVec ((run2 k xs).R.mulVec (Spec.gK k))) := by
  simp only [Spec.defect, List.reverse_append, List.reverse_cons, List.reverse_nil, List.nil_append, List.cons_append, Spec.defectRev, List.reverse_reverse]

theorem gK_moved {k : Conf2} (hq : IsUnitQ k.qk) (dw da dq : V3) : HasDv (fun e => Spec.gK (Spec.moved2 k dw da dq e)) (-((skew dq).mulVec (Spec.gK k))) := by
  have := (quat_deriv hq dq).mulVec (HasDv.const k.grav)
  refine this.congr' ?_
  simp only [Matrix.mulVec_zero, add_zero, Spec.gK, Matrix.mulVec_mulVec, ← Matrix.neg_mulVec, Matrix.neg_mul]

theorem gK_moved0 {k : Conf2} (hq : IsUnitQ k.qk) (dw da dq : V3) : Spec.gK (Spec.moved2 k dw da dq 0) = Spec.gK k := by
  unfold Spec.gK Spec.moved2
  simp only
  rw [quat_deriv0 hq]

theorem moved2_conf (k : Conf2) (dw da dq : V3) (e : ℝ) : (Spec.moved2 k dw da dq e).toConf = Spec.moved k.toConf dw da e := rfl

theorem step_alg2 (S R1 B N R G : M3) (hS : S.transpose = -S) (a da u dq : V3) :
    ((S * R1).transpose * B + R1.transpose * N).mulVec a + (R1.transpose * B).mulVec (-da - u - (R * G).mulVec dq) =
      R1.transpose.mulVec (-(S.mulVec (B.mulVec a)) + N.mulVec a) - (R1.transpose * B).mulVec da - (R1.transpose * B).mulVec u - (R1.transpose * B * R * G).mulVec dq := by
  rw [Matrix.transpose_mul, hS]
  simp only [Matrix.add_mulVec, ← Matrix.mulVec_mulVec, Matrix.neg_mulVec, Matrix.mulVec_neg, Matrix.mulVec_add, Matrix.mulVec_sub, Matrix.mul_assoc]
  abel

/-- what moves under the linearisation points in one interval: rate, force and the rotation -/
theorem run2_deriv (k : Conf2) (hk : k.trans = false) (hv : k.avg = false) (hq : IsUnitQ k.qk) (xs : List Seg) (h : ∀ x ∈ xs, Spec.rate k.toConf x = 0 ∨ thr < norm3 (Spec.rate k.toConf x)) (dw da dq : V3) :
    HasDm (fun e => (run2 (Spec.moved2 k dw da dq e) xs).R) (skew ((run2 k xs).Jq.mulVec dw) * (run2 k xs).R) ∧
    HasDv (fun e => (run2 (Spec.moved2 k dw da dq e) xs).beta) ((run2 k xs).Jb.mulVec dw + (run2 k xs).Hb.mulVec da + (run2 k xs).Ob.mulVec dq - dw 0 • (Spec.defect k xs).2) ∧
    HasDv (fun e => (run2 (Spec.moved2 k dw da dq e) xs).alpha) ((run2 k xs).Ja.mulVec dw + (run2 k xs).Ha.mulVec da + (run2 k xs).Oa.mulVec dq - dw 0 • (Spec.defect k xs).1) ∧
    (run2 (Spec.moved2 k dw da dq 0) xs).R = (run2 k xs).R := by
  induction xs using List.reverseRecOn with
  | nil =>
    have hs : skew (0 : V3) = 0 := by apply m3_ext <;> simp [skew]
    refine ⟨?_, ?_, ?_, rfl⟩
    · simpa [run2, Res2.init, Res.init, hs] using HasDm.const (1 : M3)
    · simpa [run2, Res2.init, Res.init, Spec.defect, Spec.defectRev] using HasDv.const (0 : V3)
    · simpa [run2, Res2.init, Res.init, Spec.defect, Spec.defectRev] using HasDv.const (0 : V3)
  | append_singleton xs x ih =>
    obtain ⟨i1, i2, i3, i4⟩ := ih (fun y hy => h y (by simp [hy]))
    simp only [run2_snoc, defect_snoc]
    by_cases hz : x.t1 - x.t0 = 0
    · simp only [feed2_zero hz, hz, if_true, zero_smul, add_zero]; exact ⟨i1, i2, i3, i4⟩
    · rw [if_neg hz]
      have hw := rate_moved k.toConf dw da x
      have hthr : ((fun e => Spec.rate (Spec.moved k.toConf dw da e) x) 0) = 0 ∨ thr < norm3 ((fun e => Spec.rate (Spec.moved k.toConf dw da e) x) 0) := by simpa only [moved_zero] using h x (by simp)
      have hrot : IsRot (relRot (Spec.rate k.toConf x) (x.t1 - x.t0)) := by
        rcases h x (by simp) with h0 | h0
        · have n0 : norm3 (0 : V3) < thr := by rw [show norm3 (0 : V3) = 0 by simp [norm3, dot3]]; exact thr_pos
          have hs : skew (0 : V3) = 0 := by apply m3_ext <;> simp [skew]
          rw [h0, relRot, if_pos n0, hs]
          simpa using IsRot.one
        · rw [relRot_kE h0.le]
          exact kE_orth (lt_trans thr_pos h0).ne' (norm3_sq' _) _
      have hR := (relRot_deriv' hw hthr _ hz).mul i1
      have hA := poly_deriv ((x.t1 - x.t0) ^ 2 / 2) (f1_deriv' hw hthr (x.t1 - x.t0)) (f2_deriv' hw hthr (x.t1 - x.t0)) hw
      have hB := poly_deriv (x.t1 - x.t0) (f3_deriv' hw hthr (x.t1 - x.t0)) (f4_deriv' hw hthr (x.t1 - x.t0)) hw
      simp only [moved_zero, i4] at hR hA hB
      have hR1 : HasDm (fun e => relRot (Spec.rate (Spec.moved k.toConf dw da e) x) (x.t1 - x.t0) * (run2 (Spec.moved2 k dw da dq e) xs).R)
          (skew ((feed2 k (run2 k xs) x).Jq.mulVec dw) * (relRot (Spec.rate k.toConf x) (x.t1 - x.t0) * (run2 k xs).R)) := by
        refine hR.congr' ?_
        rw [feed2_Jq hk hz, Matrix.add_mulVec, skew_add, Matrix.add_mul, ← Matrix.mulVec_mulVec, ← rot_skew hrot, Matrix.smul_mulVec, Matrix.mulVec_neg,
          smul_neg, skew_neg, neg_neg]
        rw [Matrix.mul_assoc _ _ (_ * (run2 k xs).R), ← Matrix.mul_assoc _ (relRot (Spec.rate k.toConf x) (x.t1 - x.t0)) (run2 k xs).R, hrot.orth, Matrix.one_mul,
          Matrix.mul_assoc, Matrix.mul_assoc, add_comm]
      -- the local acceleration
      have ha : HasDv (fun e => x.a0 - (Spec.moved2 k dw da dq e).ba - (run2 (Spec.moved2 k dw da dq e) xs).R.mulVec (Spec.gK (Spec.moved2 k dw da dq e)))
          (-da - (skew ((run2 k xs).Jq.mulVec dw)).mulVec ((run2 k xs).R.mulVec (Spec.gK k)) - ((run2 k xs).R * skew (Spec.gK k)).mulVec dq) := by
        have h1 : HasDv (fun e => x.a0 - (Spec.moved2 k dw da dq e).ba) (-da) := (HasDv.line (x.a0 - k.ba) (-da)).congr_fun fun e => by simp only [Spec.moved2]; module
        refine (h1.sub (i1.mulVec (gK_moved hq dw da dq))).congr' ?_
        rw [i4, gK_moved0 hq, (QuatProps.C25_skew_vee dq (Spec.gK k)).2.1, neg_neg, ← Matrix.mulVec_mulVec, ← Matrix.mulVec_mulVec]
        abel
      have hbeta := (hR1.tr.mul hB).mulVec ha
      have halpha := (hR1.tr.mul hA).mulVec ha
      have hba : (Spec.moved2 k dw da dq 0).ba = k.ba := by simp [Spec.moved2]
      simp only [moved_zero, i4, gK_moved0 hq, hba] at hbeta halpha
      refine ⟨?_, ?_, ?_, ?_⟩
      · simp only [feed2_R hz, moved2_conf]; exact hR1
      · have e : (fun e => (feed2 (Spec.moved2 k dw da dq e) (run2 (Spec.moved2 k dw da dq e) xs) x).beta) = _ := funext fun e => feed2_beta (k := Spec.moved2 k dw da dq e) hv hz _
        rw [e]
        refine (i2.add hbeta).congr' ?_
        rw [neg_dir, ← betaArg, step_alg2 _ _ _ _ _ _ (skew_transpose _), feed2_Jb hk hv hz, (feed2_Hb hk hz _).1, (feed2_Hb hk hz _).2, feed2_R hz]
        simp only [Matrix.sub_mulVec, Matrix.add_mulVec, Matrix.neg_mul, Matrix.neg_mulVec, ← Matrix.mulVec_mulVec]
        module
      · have e : (fun e => (feed2 (Spec.moved2 k dw da dq e) (run2 (Spec.moved2 k dw da dq e) xs) x).alpha) = _ := funext fun e => feed2_alpha (k := Spec.moved2 k dw da dq e) hv hz _
        rw [e]
        refine (i3.add ((i2.smul (x.t1 - x.t0)).add halpha)).congr' ?_
        rw [neg_dir, ← alphaArg, step_alg2 _ _ _ _ _ _ (skew_transpose _), feed2_Ja hk hv hz, (feed2_Ha hk hz _).1, (feed2_Ha hk hz _).2, feed2_R hz]
        simp only [Matrix.sub_mulVec, Matrix.add_mulVec, Matrix.neg_mul, Matrix.neg_mulVec, Matrix.smul_mulVec, ← Matrix.mulVec_mulVec]
        module
      · rw [feed2_R hz, feed2_R hz, moved2_conf, moved_zero, i4]

/-- **C127 (Jacobians in closed form, partial).** Without averaging and with the Jacobians in closed form, if every interval's corrected rate is zero or exceeds the small-rate threshold, the Jacobians after any sequence of intervals are the
first-order effect of moving the two biases and the orientation at the first time (by the filter's error state) in any direction that does not move the first axis of the gyroscope's bias: on the orientation the rotation vector `J_q δ_w` on the
left, on the velocity `J_b δ_w + H_b δ_a + O_b δ_θ`, on the position `J_a δ_w + H_a δ_a + O_a δ_θ`. The Jacobian of the orientation holds in every direction. Missing: the first axis, where the claim is false of the code
(`C127_first_axis_wrong`), smaller rates, and averaging. -/
theorem C127_jacobians_partial (k : Conf2) (hk : k.trans = false) (hv : k.avg = false) (hq : IsUnitQ k.qk) (xs : List Seg) (h : ∀ x ∈ xs, Spec.rate k.toConf x = 0 ∨ thr < norm3 (Spec.rate k.toConf x)) (dw da dq : V3) :
    HasDm (fun e => (run2 (Spec.moved2 k dw da dq e) xs).R) (skew ((run2 k xs).Jq.mulVec dw) * (run2 k xs).R) ∧
    (dw 0 = 0 →
      HasDv (fun e => (run2 (Spec.moved2 k dw da dq e) xs).beta) ((run2 k xs).Jb.mulVec dw + (run2 k xs).Hb.mulVec da + (run2 k xs).Ob.mulVec dq) ∧
      HasDv (fun e => (run2 (Spec.moved2 k dw da dq e) xs).alpha) ((run2 k xs).Ja.mulVec dw + (run2 k xs).Ha.mulVec da + (run2 k xs).Oa.mulVec dq)) := by
  obtain ⟨h1, h2, h3, -⟩ := run2_deriv k hk hv hq xs h dw da dq
  refine ⟨h1, fun h0 => ?_⟩
  rw [h0, zero_smul, sub_zero] at h2 h3
  exact ⟨h2, h3⟩

theorem relRot_zero (t : ℝ) : relRot 0 t = 1 := by
  have n0 : norm3 (0 : V3) < thr := by rw [show norm3 (0 : V3) = 0 by simp [norm3, dot3]]; exact thr_pos
  have hs : skew (0 : V3) = 0 := by apply m3_ext <;> simp [skew]
  rw [relRot, if_pos n0, hs]; simp

theorem jr_zero (t : ℝ) : jr 0 t = 1 := by
  have n0 : norm3 (0 : V3) < thr := by rw [show norm3 (0 : V3) = 0 by simp [norm3, dot3]]; exact thr_pos
  have hs : skew (0 : V3) = 0 := by apply m3_ext <;> simp [skew]
  simp only [jr, if_pos n0, smul_zero, hs]; simp

theorem betaArg_zero (t : ℝ) : betaArg 0 t = t • (1 : M3) := by
  have hs : skew (0 : V3) = 0 := by apply m3_ext <;> simp [skew]
  simp [betaArg, hs]

/-- **C127 (Jacobian of the first axis, failure).** In closed form and without averaging, after two intervals without rotation, the first column of the Jacobian of the velocity with respect to the gyroscope's bias is not the first-order effect
of that bias, unless gravity in the first frame is along its first axis: it is off by `2 Δt₁ Δt₂ (0, -g_z, g_y)`. -/
theorem C127_first_axis_wrong (k : Conf2) (hk : k.trans = false) (hv : k.avg = false) (hq : IsUnitQ k.qk) (x y : Seg) (hx : Spec.rate k.toConf x = 0) (hy : Spec.rate k.toConf y = 0)
    (tx : x.t0 < x.t1) (ty : y.t0 < y.t1) (hg : Spec.gK k 1 ≠ 0 ∨ Spec.gK k 2 ≠ 0) :
    HasDv (fun e => (run2 (Spec.moved2 k (ei 0) 0 0 e) [x, y]).beta) ((run2 k [x, y]).Jb.mulVec (ei 0) - (2 * (x.t1 - x.t0) * (y.t1 - y.t0)) • ![0, -Spec.gK k 2, Spec.gK k 1]) ∧
    ¬HasDv (fun e => (run2 (Spec.moved2 k (ei 0) 0 0 e) [x, y]).beta) ((run2 k [x, y]).Jb.mulVec (ei 0)) := by
  have zx : x.t1 - x.t0 ≠ 0 := by linarith
  have zy : y.t1 - y.t0 ≠ 0 := by linarith
  obtain ⟨-, h2, -, -⟩ := run2_deriv k hk hv hq [x, y] (by simp [hx, hy]) (ei 0) 0 0
  have hd : (Spec.defect k [x, y]).2 = (2 * (x.t1 - x.t0) * (y.t1 - y.t0)) • ![0, -Spec.gK k 2, Spec.gK k 1] := by
    have e0 : ([x, y] : List Seg) = [] ++ [x] ++ [y] := rfl
    rw [e0, defect_snoc, defect_snoc]
    simp only [if_neg zx, if_neg zy, run2_snoc, feed2_R zx, feed2_R zy, feed2_Jq hk zx, hx, hy, relRot_zero, jr_zero, betaArg_zero]
    apply v3_ext <;> simp [Spec.defect, Spec.defectRev, run2, Res2.init, Res.init, m3_mulVec_apply, ei, skew, Matrix.one_apply, Matrix.vecHead, Matrix.vecTail] <;> ring
  have hb : (1 : ℝ) = ei 0 0 := by simp [ei]
  rw [hd, ← hb, one_smul, Matrix.mulVec_zero, Matrix.mulVec_zero, add_zero, add_zero] at h2
  refine ⟨h2, fun h => ?_⟩
  have hp : 0 < 2 * (x.t1 - x.t0) * (y.t1 - y.t0) := by
    have := sub_pos.2 tx; have := sub_pos.2 ty; positivity
  rcases hg with hg | hg
  · have := (h2 2).unique (h 2)
    simp at this
    rcases this with (h' | h') | h' <;> first | exact hg h' | (exfalso; linarith)
  · have := (h2 1).unique (h 1)
    simp at this
    rcases this with (h' | h') | h' <;> first | exact hg h' | (exfalso; linarith)

/-! ## examples -/

namespace Ex2

/-- upright, gravity 9.81 m/s² along the third axis -/
noncomputable def conf (trans : Bool) : Conf2 := { sw := 1, swb := 1, sa := 1, sab := 1, avg := false, bw := 0, ba := 0, qk := ⟨0, 0, 0, 1⟩, grav := ![0, 0, 9.81], trans := trans }

/-- at rest, then turning at 1 rad/s about the first and at 2 rad/s about the second axis -/
noncomputable def segs : List Seg :=
  [⟨-1, 0, 0, ![0, 0, 1], 0, ![0, 0, 1]⟩, ⟨0, 1, ![1, 0, 0], ![0, 0, 1], ![1, 0, 0], ![0, 0, 1]⟩, ⟨1, 2, ![0, 2, 0], ![0, 1, 1], ![0, 2, 0], ![0, 1, 1]⟩]

/-- the hypotheses of the theorems about many intervals -/
example (tr : Bool) : IsUnitQ (conf tr).qk ∧ (conf tr).avg = false ∧ (conf tr).trans = tr ∧
    ∀ x ∈ segs, x.t0 ≤ x.t1 ∧ (Spec.rate (conf tr).toConf x = 0 ∨ thr < norm3 (Spec.rate (conf tr).toConf x)) := by
  refine ⟨by simp [IsUnitQ, conf], rfl, rfl, ?_⟩
  have h1 : norm3 (![1, 0, 0] : V3) = 1 := by rw [norm3, show dot3 ![1, 0, 0] ![1, 0, 0] = 1 by simp [dot3], Real.sqrt_one]
  have h2 : norm3 (![0, 2, 0] : V3) = 2 := by
    rw [norm3, show dot3 ![0, 2, 0] ![0, 2, 0] = 2 * 2 by simp [dot3]]; exact Real.sqrt_mul_self (by norm_num)
  intro x hx
  simp only [segs, List.mem_cons, List.not_mem_nil, or_false] at hx
  rcases hx with rfl | rfl | rfl
  · simp [Spec.rate, conf]
  · simp only [Spec.rate, conf, Bool.false_eq_true, if_false, sub_zero, h1]; unfold thr; norm_num
  · simp only [Spec.rate, conf, Bool.false_eq_true, if_false, sub_zero, h2]; unfold thr; norm_num

/-- the hypotheses of `C127_first_axis_wrong`: two seconds at rest, upright -/
example : let x : Seg := ⟨0, 1, 0, ![0, 0, 9.81], 0, ![0, 0, 9.81]⟩
    let y : Seg := ⟨1, 2, 0, ![0, 0, 9.81], 0, ![0, 0, 9.81]⟩
    Spec.rate (conf false).toConf x = 0 ∧ Spec.rate (conf false).toConf y = 0 ∧ x.t0 < x.t1 ∧ y.t0 < y.t1 ∧ Spec.gK (conf false) 2 ≠ 0 := by
  refine ⟨by simp [Spec.rate, conf], by simp [Spec.rate, conf], by norm_num, by norm_num, ?_⟩
  simp [Spec.gK, conf, quat2Rot, m3_mulVec_apply, Quat.vec, outer, skew]
  norm_num

end Ex2

end Verif.Cpi
