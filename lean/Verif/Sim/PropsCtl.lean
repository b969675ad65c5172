import Verif.Sim.PropsSpline
import Verif.Quat.PropsC

/-! # C61: where the control points lie between the rows of the trajectory -/

set_option autoImplicit false

namespace Verif.Sim

open Verif Matrix

namespace Spec

/-- the pose of a row: orientation of the body in the world and position -/
def rowPose (r : TrajPt) : M4 := mkSE3 (quat2Rot r.q).transpose r.p 1

/-- the rotation from one row to another is none or outside the small-angle and near-half-turn branches of the logarithm -/
def RegularTurn (a b : TrajPt) : Prop :=
  let Q := (quat2Rot b.q).transpose * quat2Rot a.q
  Q = 1 ∨ (1e-10 ≤ tr3 Q + 1 ∧ tr3 Q - 3 < -1e-7)

end Spec

theorem ctlLoop_mem (pts : Poses) (dt : ℝ) (n : ℕ) (t : ℝ) (acc : Poses) (h : ∀ p ∈ acc, ∃ a b, findPoses p.1 pts = some (a, b) ∧ p.2 = ctlPose p.1 a b) :
    ∀ p ∈ ctlLoop pts dt n t acc, ∃ a b, findPoses p.1 pts = some (a, b) ∧ p.2 = ctlPose p.1 a b := by
  induction n generalizing t acc with
  | zero => exact h
  | succ n ih =>
    unfold ctlLoop
    cases hp : findPoses t pts with
    | none => exact h
    | some ab =>
      refine ih _ _ fun p hp' => ?_
      rcases mapInsert_mem hp' with rfl | hp'
      · exact ⟨ab.1, ab.2, hp, rfl⟩
      · exact h p hp'

theorem trajMap_sorted_rows (traj : List TrajPt) (h : (traj.map TrajPt.t).Pairwise (· < ·)) :
    trajMap traj = traj.dropLast.map fun r => (r.t, Spec.rowPose r) := by
  have key : ∀ (l : List TrajPt) (m : Poses), (l.map TrajPt.t).Pairwise (· < ·) → (∀ p ∈ m, ∀ r ∈ l, p.1 < r.t) →
      l.foldl (fun m a => mapInsert a.t (trajPose a) m) m = m ++ l.map fun r => (r.t, Spec.rowPose r) := by
    intro l
    induction l with
    | nil => intro m _ _; simp
    | cons r l ih =>
      intro m h1 h2
      rw [List.map_cons, List.pairwise_cons] at h1
      rw [List.foldl_cons, mapInsert_last fun p hp => h2 p hp r (by simp), ih _ h1.2]
      · simp [Spec.rowPose, trajPose]
      · intro p hp x hx
        rcases List.mem_append.1 hp with hp | hp
        · exact h2 p hp x (by simp [hx])
        · simp only [List.mem_singleton] at hp
          subst hp
          exact h1.1 x.t (List.mem_map.2 ⟨x, hx, rfl⟩)
  have hd : (traj.dropLast.map TrajPt.t).Pairwise (· < ·) := h.sublist ((List.dropLast_sublist traj).map _)
  have := key traj.dropLast [] hd (by simp)
  simpa [trajMap] using this

theorem rowPose_se3 {r : TrajPt} (h : IsUnitQ r.q) : IsSE3 (Spec.rowPose r) :=
  isSE3_mk (QuatProps.C24_rotation_round_trip.1 _ h).transpose _

/-- **C61** (between the rows) For every trajectory with increasing times and unit quaternions: each control point lies between two neighbouring rows `a`, `b` of those before the last one, and its pose is on the constant-twist motion from
the pose of `a` to the pose of `b`: there is one twist, of rotation angle below a half turn, that takes the pose of `a` to that of `b`, and the control point is the pose of `a` moved by the fraction of this twist which has passed at its time. -/
theorem C61_between_rows (n : ℕ) (traj : List TrajPt) (h : (traj.map TrajPt.t).Pairwise (· < ·)) (hu : ∀ r ∈ traj, IsUnitQ r.q) (f : Fed) (hf : feedTrajectory n traj = some f)
    (p : ℝ × M4) (hp : p ∈ f.cps) :
    ∃ l a b r, traj.dropLast = l ++ a :: b :: r ∧ a.t ≤ p.1 ∧ p.1 < b.t ∧
      (Spec.RegularTurn a b → ∃ w u : V3, norm3 w < Real.pi ∧ expSE3 w u * Spec.rowPose a = Spec.rowPose b ∧
        p.2 = expSE3 (((p.1 - a.t) / (b.t - a.t)) • w) (((p.1 - a.t) / (b.t - a.t)) • u) * Spec.rowPose a) := by
  unfold feedTrajectory at hf
  split_ifs at hf
  have hm := trajMap_sorted_rows traj h
  have hs : Sorted (trajMap traj) := (trajFold traj.dropLast [] List.Pairwise.nil).1
  cases htm : trajMap traj with
  | nil => rw [htm] at hf; simp at hf
  | cons x y =>
    rw [htm] at hf hs
    simp only [Option.some.injEq] at hf
    subst hf
    obtain ⟨A, B, h1, h2⟩ := ctlLoop_mem _ _ _ _ [] (by simp) p hp
    obtain ⟨l, r, e, h3, h4⟩ := (C61_bounding_poses p.1 _ hs A B).1.1 h1
    rw [← htm, hm] at e
    obtain ⟨l1, l2, e1, e2, e3⟩ := List.map_eq_append_iff.1 e
    cases l2 with
    | nil => simp at e3
    | cons a l2 =>
      cases l2 with
      | nil => simp at e3
      | cons b l2 =>
        simp only [List.map_cons, List.cons.injEq] at e3
        obtain ⟨rfl, rfl, -⟩ := e3
        refine ⟨l1, a, b, l2, e1, h3, h4, fun hreg => ?_⟩
        have ha : IsSE3 (Spec.rowPose a) := rowPose_se3 (hu a (List.mem_of_mem_dropLast (by rw [e1]; simp)))
        have hb : IsSE3 (Spec.rowPose b) := rowPose_se3 (hu b (List.mem_of_mem_dropLast (by rw [e1]; simp)))
        obtain ⟨i1, i2, i3⟩ := QuatProps.C25_se3.1 _ ha
        have hT := QuatProps.C25_se3.2.1 _ _ hb i1
        have hrot : rotBlock (Spec.rowPose b * invSE3 (Spec.rowPose a)) = (quat2Rot b.q).transpose * quat2Rot a.q := by
          rw [Spec.rowPose, Spec.rowPose, invSE3]
          simp only [rotBlock_mkSE3, posBlock_mkSE3, mkSE3_mul, Matrix.transpose_transpose]
        have hreg' := hreg
        simp only [Spec.RegularTurn] at hreg'
        rw [← hrot] at hreg'
        obtain ⟨j1, j2⟩ := QuatProps.C25_se3_exp_log _ hT hreg'
        refine ⟨(logSE3 (Spec.rowPose b * invSE3 (Spec.rowPose a))).1, (logSE3 (Spec.rowPose b * invSE3 (Spec.rowPose a))).2, ?_, ?_, ?_⟩
        · rw [j2]; exact (QuatProps.C25_exp_log _ hT.rot hreg').2.1
        · rw [j1, Matrix.mul_assoc, i2, Matrix.mul_one]
        · rw [h2]; rfl

/-- three rows, with a turn of about 74 degrees between the first two, meet the hypotheses, and there is a control point. -/
example : ∃ traj : List TrajPt, (traj.map TrajPt.t).Pairwise (· < ·) ∧ (∀ r ∈ traj, IsUnitQ r.q) ∧ (∃ n f p, feedTrajectory n traj = some f ∧ p ∈ f.cps) ∧
    ∃ a b, traj.dropLast = [a, b] ∧ Spec.RegularTurn a b := by
  let a : TrajPt := ⟨0, ![0, 0, 0], ⟨0, 0, 0, 1⟩⟩
  let b : TrajPt := ⟨1, ![1, 2, 0], ⟨0, 0, 3 / 5, 4 / 5⟩⟩
  let z : TrajPt := ⟨3 / 2, ![1, 2, 3], ⟨0, 0, 3 / 5, 4 / 5⟩⟩
  refine ⟨[a, b, z], ?_, ?_, ?_, a, b, rfl, Or.inr ?_⟩
  · simp [a, b, z]; norm_num
  · intro r hr
    simp only [List.mem_cons, List.not_mem_nil, or_false] at hr
    rcases hr with rfl | rfl | rfl <;> (simp only [IsUnitQ, a, b, z]; norm_num)
  · obtain ⟨N, f, tmin, tmax, K, h1, h2, h3, -, -, h6, h7, -⟩ := C61_control_points [a, b, z] a z [b] rfl
    have hK : 0 < K := by
      rw [h6]
      have e0 : tmin ≤ 0 := h2.2 ⟨a, by simp, rfl⟩
      have e1 : 1 ≤ tmax := h3.2 ⟨b, by simp, rfl⟩
      simp; linarith
    have hne : f.cps ≠ [] := by
      intro e
      rw [e] at h7
      have := congrArg List.length h7
      simp at this; omega
    obtain ⟨p, hp⟩ := List.exists_mem_of_ne_nil _ hne
    exact ⟨N, f, p, h1 N le_rfl, hp⟩
  · simp [tr3, quat2Rot, m3_mul_apply, skew, outer, Quat.vec, a, b]
    norm_num

end Verif.Sim
