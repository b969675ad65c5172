import Verif.Base.Rk4
import Verif.Prop.PropsRk

/-!
# The Runge-Kutta prediction as a classical Runge-Kutta step

The code normalises the quaternion after every stage; that makes its stages those of a smooth differential equation whose solutions of unit
length are the true motion.
-/

set_option linter.unusedSimpArgs false
set_option linter.unusedVariables false

open Classical

namespace Verif.Prop_

open Verif Verif.Types Verif.St Verif.Imu Matrix Finset Topology Filter Asymptotics ContDiff

/-- quaternion, velocity and position as a vector. -/
abbrev RkE := (Fin 4 → ℝ) × (Fin 3 → ℝ) × (Fin 3 → ℝ)

def toQ (u : Fin 4 → ℝ) : Quat := ⟨u 0, u 1, u 2, u 3⟩
def ofQ (q : Quat) : Fin 4 → ℝ := ![q.x, q.y, q.z, q.w]

/-- the differential equation whose Runge-Kutta step the code takes. -/
noncomputable def rkRhs (g : V3) (q0 : Quat) (w α a j : V3) (t : ℝ) (z : RkE) : RkE :=
  (ofQ (Quat.smul 0.5 (omegaMul (w + t • α) (quatnorm (toQ z.1)))),
   (quat2Rot (quatMul (quatnorm (toQ z.1)) q0)).transpose.mulVec (a + t • j) - g, z.2.1)

def rkStart (x : Imu16) : RkE := (ofQ ⟨0, 0, 0, 1⟩, x.v, x.p)

theorem qadd_half (h : ℝ) (q : Quat) : qadd ⟨0, 0, 0, 1⟩ (Quat.smul 0.5 (Quat.smul h q)) = toQ (ofQ ⟨0, 0, 0, 1⟩ + (h / 2) • ofQ q) := by
  ext <;> simp [qadd, Quat.smul, toQ, ofQ] <;> ring
theorem qadd_full (h : ℝ) (q : Quat) : qadd ⟨0, 0, 0, 1⟩ (Quat.smul h q) = toQ (ofQ ⟨0, 0, 0, 1⟩ + h • ofQ q) := by
  ext <;> simp [qadd, Quat.smul, toQ, ofQ] <;> ring
theorem qadd_sum (h : ℝ) (q1 q2 q3 q4 : Quat) :
    qadd (qadd (qadd (qadd ⟨0, 0, 0, 1⟩ (Quat.smul (1 / 6) (Quat.smul h q1))) (Quat.smul (1 / 3) (Quat.smul h q2))) (Quat.smul (1 / 3) (Quat.smul h q3)))
      (Quat.smul (1 / 6) (Quat.smul h q4)) = toQ (ofQ ⟨0, 0, 0, 1⟩ + (h / 6) • (ofQ q1 + (2 : ℝ) • ofQ q2 + (2 : ℝ) • ofQ q3 + ofQ q4)) := by
  ext <;> simp [qadd, Quat.smul, toQ, ofQ] <;> ring
theorem toQ_ofQ (q : Quat) : toQ (ofQ q) = q := by ext <;> simp [toQ, ofQ]

/-- the prediction is the Runge-Kutta step of that equation. -/
theorem meanRk4_step (g : V3) (x : Imu16) (h : ℝ) (w α a j : V3) :
    meanRk4 g x h w a (w + h • α) (a + h • j) =
      (quatMul (quatnorm (toQ (Rk.rk4t (rkRhs g x.q w α a j) (rkStart x) h).1)) x.q, (Rk.rk4t (rkRhs g x.q w α a j) (rkStart x) h).2.1,
        (Rk.rk4t (rkRhs g x.q w α a j) (rkStart x) h).2.2) := by
  have hv : ∀ u V : V3, u + (0.5 : ℝ) • (h • V) = u + (h / 2) • V := fun u V => by
    rw [smul_smul]; congr 2; ring
  have hm : ∀ u V : V3, (0.5 : ℝ) • (u + (u + h • V)) = u + (h / 2) • V := fun u V => by
    ext i; simp; ring
  rw [rk4_mid]
  simp only [rk4Mid, hm, hv]
  simp only [qadd_sum]
  simp only [qadd_half]
  simp only [qadd_full]
  simp only [Rk.rk4t, rkRhs, rkStart, zero_smul, add_zero, Prod.fst_add, Prod.snd_add, Prod.smul_fst, Prod.smul_snd, toQ_ofQ, id_norm]
  refine Prod.ext rfl (Prod.ext ?_ ?_)
  · simp only; module
  · simp only; module

/-! ## Smoothness -/

/-- smooth curves of quaternions (in several variables). -/
structure SmQ {F : Type*} [NormedAddCommGroup F] [NormedSpace ℝ F] (q : F → Quat) (s0 : F) : Prop where
  x : ContDiffAt ℝ ω (fun s => (q s).x) s0
  y : ContDiffAt ℝ ω (fun s => (q s).y) s0
  z : ContDiffAt ℝ ω (fun s => (q s).z) s0
  w : ContDiffAt ℝ ω (fun s => (q s).w) s0

variable {F : Type*} [NormedAddCommGroup F] [NormedSpace ℝ F]

theorem SmQ.norm {u : F → Fin 4 → ℝ} {z : F} (hu : ContDiffAt ℝ ω u z) (h0 : 0 < u z 3) :
    SmQ (fun s => (toQ (u s)).divS (toQ (u s)).norm) z ∧ ∀ᶠ s in 𝓝 z, quatnorm (toQ (u s)) = (toQ (u s)).divS (toQ (u s)).norm ∧ IsUnitQ (quatnorm (toQ (u s))) := by
  have hc : ∀ i, ContDiffAt ℝ ω (fun s => u s i) z := fun i => contDiffAt_pi.1 hu i
  have hpos : 0 < (toQ (u z)).normSq := by
    simp only [toQ, Quat.normSq]; positivity
  have hn : ContDiffAt ℝ ω (fun s => (toQ (u s)).norm) z := by
    have h1 : ContDiffAt ℝ ω (fun s => (toQ (u s)).normSq) z := by
      simp only [toQ, Quat.normSq]
      exact ((((hc 0).pow 2).add ((hc 1).pow 2)).add ((hc 2).pow 2)).add ((hc 3).pow 2)
    exact h1.sqrt hpos.ne'
  have hn0 : (toQ (u z)).norm ≠ 0 := (Real.sqrt_pos.2 hpos).ne'
  refine ⟨⟨(hc 0).div hn hn0, (hc 1).div hn hn0, (hc 2).div hn hn0, (hc 3).div hn hn0⟩, ?_⟩
  filter_upwards [(hc 3).continuousAt.eventually (lt_mem_nhds h0)] with s hs
  refine ⟨?_, unit_of_w (q := toQ (u s)) hs.ne'⟩
  have : ¬ (toQ (u s)).w < 0 := not_lt.2 (le_of_lt hs)
  simp only [quatnorm, if_neg this]

theorem SmQ.rot {q : F → Quat} {z : F} (h : SmQ q z) (i k : Fin 3) : ContDiffAt ℝ ω (fun s => quat2Rot (q s) i k) z := by
  have hx := h.x; have hy := h.y; have hz := h.z; have hw := h.w
  obtain ⟨fx, ex⟩ : ∃ f : F → ℝ, ∀ s, (q s).x = f s := ⟨_, fun _ => rfl⟩
  obtain ⟨fy, ey⟩ : ∃ f : F → ℝ, ∀ s, (q s).y = f s := ⟨_, fun _ => rfl⟩
  obtain ⟨fz, ez⟩ : ∃ f : F → ℝ, ∀ s, (q s).z = f s := ⟨_, fun _ => rfl⟩
  obtain ⟨fw, ew⟩ : ∃ f : F → ℝ, ∀ s, (q s).w = f s := ⟨_, fun _ => rfl⟩
  simp only [ex, ey, ez, ew] at hx hy hz hw
  fin_cases i <;> fin_cases k <;>
  simp only [Fin.zero_eta, Fin.mk_one, Fin.reduceFinMk, q2r00, q2r01, q2r02, q2r10, q2r11, q2r12, q2r20, q2r21, q2r22, ex, ey, ez, ew] <;> fun_prop

theorem smooth_mul {A B : F → M3} {z : F} (hA : ∀ i k, ContDiffAt ℝ ω (fun s => A s i k) z) (hB : ∀ i k, ContDiffAt ℝ ω (fun s => B s i k) z) (i k : Fin 3) :
    ContDiffAt ℝ ω (fun s => (A s * B s) i k) z := by
  simp only [m3_mul_apply]
  exact (((hA i 0).mul (hB 0 k)).add ((hA i 1).mul (hB 1 k))).add ((hA i 2).mul (hB 2 k))

theorem rkRhs_smooth (g : V3) (x : Imu16) (hq : IsUnitQ x.q) (w α a j : V3) :
    AnalyticAt ℝ (fun z : ℝ × RkE => rkRhs g x.q w α a j z.1 z.2) (0, rkStart x) := by
  refine ContDiffAt.analyticAt ?_
  have hu : ContDiffAt ℝ ω (fun z : ℝ × RkE => z.2.1) (0, rkStart x) := by fun_prop
  obtain ⟨hs, he⟩ := SmQ.norm hu (by simp [rkStart, ofQ])
  set N : ℝ × RkE → Quat := fun z => (toQ z.2.1).divS (toQ z.2.1).norm with hN
  have hx := hs.x; have hy := hs.y; have hz := hs.z; have hw := hs.w
  have hr := hs.rot
  have hlin : ∀ (b c : V3) (i : Fin 3), ContDiffAt ℝ ω (fun z : ℝ × RkE => (b + z.1 • c) i) (0, rkStart x) := by
    intro b c i
    simp only [Pi.add_apply, Pi.smul_apply, smul_eq_mul]; fun_prop
  have hS : ContDiffAt ℝ ω (fun z : ℝ × RkE => ((ofQ (Quat.smul 0.5 (omegaMul (w + z.1 • α) (N z))),
      (quat2Rot (N z) * quat2Rot x.q).transpose.mulVec (a + z.1 • j) - g, z.2.2.1) : RkE)) (0, rkStart x) := by
    refine ContDiffAt.prodMk ?_ (ContDiffAt.prodMk ?_ (by fun_prop))
    · have l0 := hlin w α 0; have l1 := hlin w α 1; have l2 := hlin w α 2
      obtain ⟨fx, ex⟩ : ∃ f : ℝ × RkE → ℝ, ∀ s, (N s).x = f s := ⟨_, fun _ => rfl⟩
      obtain ⟨fy, ey⟩ : ∃ f : ℝ × RkE → ℝ, ∀ s, (N s).y = f s := ⟨_, fun _ => rfl⟩
      obtain ⟨fz, ez⟩ : ∃ f : ℝ × RkE → ℝ, ∀ s, (N s).z = f s := ⟨_, fun _ => rfl⟩
      obtain ⟨fw, ew⟩ : ∃ f : ℝ × RkE → ℝ, ∀ s, (N s).w = f s := ⟨_, fun _ => rfl⟩
      simp only [ex, ey, ez, ew] at hx hy hz hw
      obtain ⟨f0, e0⟩ : ∃ f : ℝ × RkE → ℝ, ∀ s : ℝ × RkE, (w + s.1 • α) 0 = f s := ⟨_, fun _ => rfl⟩
      obtain ⟨f1, e1⟩ : ∃ f : ℝ × RkE → ℝ, ∀ s : ℝ × RkE, (w + s.1 • α) 1 = f s := ⟨_, fun _ => rfl⟩
      obtain ⟨f2, e2⟩ : ∃ f : ℝ × RkE → ℝ, ∀ s : ℝ × RkE, (w + s.1 • α) 2 = f s := ⟨_, fun _ => rfl⟩
      simp only [e0, e1, e2] at l0 l1 l2
      refine contDiffAt_pi' fun i => ?_
      fin_cases i <;>
      simp only [Fin.zero_eta, Fin.mk_one, Fin.reduceFinMk, ofQ, Quat.smul, omegaMul, Matrix.cons_val, ex, ey, ez, ew, e0, e1, e2] <;> fun_prop
    · refine contDiffAt_pi' fun i => ?_
      have hm := smooth_mul hr (fun i k => (contDiffAt_const : ContDiffAt ℝ ω (fun _ : ℝ × RkE => quat2Rot x.q i k) (0, rkStart x)))
      simp only [Pi.sub_apply, m3_mulVec_apply, Matrix.transpose_apply]
      exact ((((hm 0 i).mul (hlin a j 0)).add ((hm 1 i).mul (hlin a j 1))).add ((hm 2 i).mul (hlin a j 2))).sub contDiffAt_const
  refine hS.congr_of_eventuallyEq ?_
  filter_upwards [he] with z hz
  simp only [rkRhs]
  rw [(QuatProps.C23_quat_multiply _ _ hz.2 hq).2.2, hz.1]

end Verif.Prop_
