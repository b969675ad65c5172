import Verif.Upd.Props
import Mathlib.Tactic

/-!
# C79 with first-estimate Jacobians: the linearisation point is the first estimate
-/

set_option linter.unusedVariables false
open Classical

namespace Verif.Upd

open Verif Mat Verif.Land Verif.Types Verif.Prop_ Finset

namespace Spec

/-- the state at which Jacobians are taken: with first-estimate Jacobians every clone is at its first estimate, calibrations are at their estimates. -/
def linState (st : St) : St :=
  { st with clone := fun t => (st.clone t).map fun x => ⟨if st.doFej then x.fej else x.val, x.fej⟩ }

/-- the global position of the feature according to the current estimates. -/
noncomputable def here (st : St) (f : Feat) : Option V3 :=
  if Land.Spec.Anchored f.rep then
    f.ancCam.bind fun c => (st.calib c).bind fun cal => (st.clone f.ancT).bind fun an => some (world an.val cal f.pA)
  else some f.pG

/-- the global position at which its Jacobians are taken: an anchored feature is where the current estimates put it, a global one at its own first estimate. -/
noncomputable def linPos (st : St) (f : Feat) : Option V3 :=
  if Land.Spec.Anchored f.rep then here st f else some (if st.doFej then f.pGf else f.pG)

/-- normalised image coordinates of a point in the camera frame. -/
noncomputable def norm2 (p : V3) : Cam.V2 := ![p 0 / p 2, p 1 / p 2]

/-- the normalised coordinates at which camera `o.1` sees the landmark with parameter `l` (bearing `b`) from the clone of time `o.2`. -/
noncomputable def bearing (st : St) (f : Feat) (b l : V3) (o : ℕ × ℝ) : Option Cam.V2 :=
  (position st f b l).bind fun g => (st.clone o.2).bind fun cl => (st.calib o.1).bind fun ca => some (norm2 (inCam cl.val ca g))

end Spec

theorem lin_position_deriv {st : St} {f : Feat} {b l g0 g : V3} (hu : Spec.Units st) (hl : Spec.Chart f.rep b l) (h0 : Spec.here st f = some g0)
    (hg : Spec.position (Spec.linState st) f b l = some g) (hlp : Spec.linPos st f = some g)
    {Hf : M3} {xs : List (Var × Matrix (Fin 3) (Fin 6) ℝ)} (hj : repJac st f = some (Hf, xs))
    (δ : Var → ℕ → ℝ) (dl : V3) (hP : st.doPose = false → ∀ c, δ (.calib c) = 0) :
    (jacobsize f.rep = 1 → ∀ i, Hf i 1 = 0 ∧ Hf i 2 = 0) ∧
    ∃ gg : ℝ → V3, (∀ e, Spec.position (Spec.perturb (Spec.linState st) (fun v i => e * δ v i)) f b (l + e • dl) = some (gg e)) ∧ gg 0 = g ∧
      HasDv gg (Hf.mulVec dl + (xs.map fun x => x.2.mulVec (fun i => δ x.1 i)).sum) := by
  by_cases hr : Land.Spec.Anchored f.rep
  · simp only [Spec.here, if_pos hr, Option.bind_eq_some_iff] at h0
    obtain ⟨c, hc, cal, hcal, an, han, h0⟩ := h0
    have hg' := hg
    simp only [Spec.position, if_pos hr, hc, Option.bind_some, Spec.linState, hcal, han, Option.map_some, Option.some.injEq] at hg'
    simp only [Spec.linPos, if_pos hr, Spec.here, hc, Option.bind_some, hcal, han, Option.some.injEq] at hlp
    obtain ⟨Hf', Hanc, Hcal, h1, h2, h3⟩ := C34_anchored_partial st f hr hc hcal han hu hl (by rw [hg', hlp])
    rw [h1] at hj
    obtain ⟨rfl, rfl⟩ := Prod.mk.inj (Option.some.inj hj)
    refine ⟨h2, fun e => Spec.world ((if st.doFej then an.fej else an.val).update (fun i => e * δ (.clone f.ancT) i)) (cal.update (fun i => e * δ (.calib c) i))
      (Spec.xyz f.rep b (l + e • dl)), fun e => ?_, ?_, ?_⟩
    · simp only [Spec.position, if_pos hr, hc, Option.bind_some, Spec.perturb, Spec.linState, hcal, han, Option.map_some]
    · have hcu := hu.2 c cal hcal
      have hau := hu.1 _ an han
      have hau' : IsUnitQ (if st.doFej then an.fej else an.val).q := by split_ifs; exacts [hau.2, hau.1]
      rw [← hg']
      simp only [Spec.world, Pose.R0 hcu, Pose.R0 hau', Pose.p0, zero_smul, add_zero]
    · refine (h3 (δ (.clone f.ancT)) (δ (.calib c)) dl).congr' ?_
      by_cases hp : st.doPose = true
      · simp [hp, add_assoc]
      · have hz : (fun i : Fin 6 => δ (.calib c) i) = 0 := by
          funext i; rw [hP (by simpa using hp) c]; rfl
        simp [hp, hz]
  · simp only [Spec.position, if_neg hr, Option.some.injEq] at hg
    simp only [Spec.linPos, if_neg hr, Option.some.injEq] at hlp
    have hr' : f.rep = .global3d ∨ f.rep = .globalFull := by
      revert hr hl; cases f.rep <;> simp [Land.Spec.Anchored, Spec.Chart]
    obtain ⟨Hf', h1, h2⟩ := C34_global_partial st f hr' (b := b) (l := l) hl (by rw [hg, hlp])
    rw [h1] at hj
    obtain ⟨rfl, rfl⟩ := Prod.mk.inj (Option.some.inj hj)
    refine ⟨fun h => ?_, fun e => Spec.xyz f.rep b (l + e • dl), fun e => ?_, ?_, ?_⟩
    · rcases hr' with h' | h' <;> simp [jacobsize, h'] at h
    · simp only [Spec.position, if_neg hr]
    · simpa using hg
    · simpa using h2 dl

theorem globalPos_here (st : St) (f : Feat) : globalPos st f = Spec.here st f := by
  unfold globalPos Spec.here
  by_cases hr : Land.Spec.Anchored f.rep
  · rw [if_pos ((rel_anchored _).2 hr), if_pos hr]
    simp only [Option.bind_eq_bind, Spec.world, Matrix.mulVec_mulVec]
  · rw [if_neg (fun h => hr ((rel_anchored _).1 h)), if_neg hr]

/-- **C79** (first-estimate Jacobians) In every mode the stacked matrices are the derivative of the prediction at the linearisation point: with first-estimate
Jacobians the clones are at their first estimates, a landmark held in an anchor is where the current estimates put it, a global one at its own first estimate,
and the calibrations are at their estimates. The geometry (from the state to the normalised coordinates) is differentiated there; the lens is differentiated at
the current estimate. The residual is always measured pixel minus the pixel predicted by the current estimates. -/
theorem C79_first_estimates (st : St) (f : Feat) {b l g0 g : V3} {out : Out} (hout : full st f = some out)
    (hcams : (f.obs.map Prod.fst).Nodup) (hu : Spec.Units st) (hl : Spec.Chart f.rep b l) (h0 : Spec.here st f = some g0)
    (hg : Spec.position (Spec.linState st) f b l = some g) (hlp : Spec.linPos st f = some g)
    (hvis : ∀ o ∈ flat f, ∀ cl ca k, st.clone o.2.1 = some cl → st.calib o.1 = some ca → st.cam o.1 = some k →
      Spec.inCam (if st.doFej then cl.fej else cl.val) ca g 2 ≠ 0 ∧ CamOK k.1 (Spec.norm2 (Spec.inCam cl.val ca g0)))
    (δ : Var → ℕ → ℝ) (dl : V3) (hP : st.doPose = false → ∀ c, δ (.calib c) = 0) (hI : st.doIntr = false → ∀ c, δ (.intr c) = 0) :
    out.order.Nodup ∧ out.rows = 2 * (flat f).length ∧
    ∀ n (hn : n < (flat f).length), ∃ cl ca k, st.clone (flat f)[n].2.1 = some cl ∧ st.calib (flat f)[n].1 = some ca ∧ st.cam (flat f)[n].1 = some k ∧
      (∀ a : Fin 2, out.res (2 * n + a) = (flat f)[n].2.2 a - Cam.distort k.1 k.2 (Spec.norm2 (Spec.inCam cl.val ca g0)) a) ∧
      ∃ y : ℝ → Cam.V2,
        (∀ e, Spec.bearing (Spec.perturb (Spec.linState st) (fun v i => e * δ v i)) f b (l + e • dl) ((flat f)[n].1, (flat f)[n].2.1) = some (y e)) ∧
        HasDv (fun e => Cam.distort k.1 (fun i => k.2 i + e * δ (.intr (flat f)[n].1) i) (Spec.norm2 (Spec.inCam cl.val ca g0) + (y e - y 0)))
          (fun a => ∑ k ∈ range (total out.order), out.Hx (2 * n + a) k * Spec.stack δ out.order k
            + ∑ k ∈ range (jacobsize f.rep), out.Hf (2 * n + a) k * extV dl k) := by
  obtain ⟨hnd, hmem⟩ := layout_spec st f hcams
  unfold full at hout
  rw [globalPos_here, h0] at hout
  simp only [Option.bind_eq_bind, Option.bind_eq_some_iff, Option.bind_some] at hout
  obtain ⟨-, -, ms, hms, j, hj, hout⟩ := hout
  obtain ⟨Hf, xs⟩ := j
  have hout := (Option.some.inj hout).symm
  subst hout
  obtain ⟨hlen, hget⟩ := mapM_spec hms
  refine ⟨hnd, by simp [hlen], fun n hn => ?_⟩
  obtain ⟨hz, gg, hgg, hgg0, hdg⟩ := lin_position_deriv hu hl h0 hg hlp hj δ dl hP
  have hvars := repJac_vars hj
  have hnm : n < ms.length := by omega
  have hlk := hget n hn hnm
  have hmemo : (flat f)[n] ∈ flat f := List.getElem_mem hn
  generalize hpGf : (if isRelative f.rep = true then g0 else f.pGf) = pGf at *
  let Q : Meas → Fin 2 → (ℕ → ℝ) → (ℕ → ℝ) → ℝ → Prop := fun m a hx hf r =>
    (∑ j ∈ range (total (layout st f)), hx j * Spec.stack δ (layout st f) j =
      (dzc st g0 pGf m * hcat (m.cal.R * skew (lin st g0 pGf m).2.1) (-(m.cal.R * (lin st g0 pGf m).1))).mulVec
        (fun k => δ (.clone m.t) k) a
      + (xs.map fun x => (dzc st g0 pGf m * (m.cal.R * (lin st g0 pGf m).1) * x.2).mulVec (fun k => δ x.1 k) a).sum
      + (if st.doPose then (dzc st g0 pGf m * hcat (skew ((lin st g0 pGf m).2.2 - m.cal.p)) 1).mulVec (fun k => δ (.calib m.cam) k) a else 0)
      + (if st.doIntr then (Cam.distortZ m.kind m.intr (uvn g0 m)).mulVec (fun k => δ (.intr m.cam) k) a else 0)) ∧
    (∑ j ∈ range (jacobsize f.rep), hf j * extV dl j = (dzc st g0 pGf m * (m.cal.R * (lin st g0 pGf m).1) * Hf).mulVec dl a) ∧
    r = m.uv a - Spec.pixel m.kind m.intr m.clone.val m.cal g0 a
  have hQ := (fold_rows st (layout st f) g0 pGf Hf xs (jacobsize f.rep) (Q := Q) ms ⟨0, fun _ _ => 0, fun _ _ => 0, fun _ => 0⟩
    (fun i _ j => rfl) (by
      intro m hm A hA a
      obtain ⟨i, hi, rfl⟩ := List.getElem_of_mem hm
      have hi' : i < (flat f).length := by omega
      have hlk := hget i hi' hi
      simp only [look, Option.bind_eq_bind, Option.bind_eq_some_iff] at hlk
      obtain ⟨cl, hcl, ca, hca, k, hk, hmk⟩ := hlk
      have hmk := Option.some.inj hmk
      obtain ⟨c, hc, hc1, mm, hmm, hmm1⟩ := mem_flat (List.getElem_mem hi')
      have e1 : ms[i].cam = c.1 := by rw [← hmk, hc1]
      have e2 : ms[i].t = mm.1 := by rw [← hmk, hmm1]
      have k1 : .clone ms[i].t ∈ layout st f := (hmem _).2 (Or.inl ⟨c, hc, Or.inr (Or.inr ⟨mm, hmm, by rw [e2]⟩)⟩)
      have k2 : st.doPose = true → .calib ms[i].cam ∈ layout st f := fun hp => (hmem _).2 (Or.inl ⟨c, hc, Or.inl ⟨hp, by rw [e1]⟩⟩)
      have k3 : st.doIntr = true → .intr ms[i].cam ∈ layout st f := fun hp =>
        (hmem _).2 (Or.inl ⟨c, hc, Or.inr (Or.inl ⟨hp, by rw [e1]⟩)⟩)
      have k4 : ∀ x ∈ xs, x.1 ∈ layout st f ∧ x.1.size = 6 := by
        intro x hx
        have := hvars x hx
        refine ⟨(hmem _).2 (Or.inr this), ?_⟩
        rcases this.2 with h | ⟨_, c, _, h⟩ <;> rw [h] <;> rfl
      have k5 : ∀ x ∈ xs, x.1 ≠ .intr ms[i].cam := by
        intro x hx
        rcases (hvars x hx).2 with h | ⟨_, c, _, h⟩ <;> rw [h] <;> simp
      refine ⟨?_, write_Hf _ _ _ _ _ _ _ _ _ a dl hz (by unfold jacobsize; split_ifs <;> simp), write_res _ _ _ _ _ _ _ _ _ a⟩
      rw [write_row st (layout st f) g0 pGf Hf xs (jacobsize f.rep) A ms[i] hA k1 k4 k2 k3 k5 (Spec.stack δ (layout st f)) a]
      have s6 : ∀ v : Var, v ∈ layout st f → v.size = 6 → (fun k : Fin 6 => Spec.stack δ (layout st f) (off (layout st f) v + k)) =
          fun k : Fin 6 => δ v k := fun v hv h6 => by
        funext k; exact stack_off (by rw [h6]; exact k.2) hv
      have s8 : st.doIntr = true → (fun k : Fin 8 => Spec.stack δ (layout st f) (off (layout st f) (.intr ms[i].cam) + k)) =
          fun k : Fin 8 => δ (.intr ms[i].cam) k := fun h => by
        funext k; exact stack_off k.2 (k3 h)
      rw [s6 _ k1 rfl]
      congr 1
      · congr 1
        · congr 2
          apply List.map_congr_left
          intro x hx
          rw [s6 _ (k4 x hx).1 (k4 x hx).2]
        · split_ifs with hp
          · rw [s6 _ (k2 hp) rfl]
          · rfl
      · split_ifs with hp
        · rw [s8 hp]
        · rfl)).2 n hnm
  simp only [Nat.zero_add] at hQ
  simp only [look, Option.bind_eq_bind, Option.bind_eq_some_iff] at hlk
  obtain ⟨cl, hcl, ca, hca, k, hk, hmk⟩ := hlk
  have hmk := Option.some.inj hmk
  obtain ⟨hv1, hv2⟩ := hvis _ hmemo cl ca k hcl hca hk
  have hclu := hu.1 _ _ hcl
  have hcau := hu.2 _ _ hca
  set A := if st.doFej then cl.fej else cl.val with hAdef
  have hAu : IsUnitQ A.q := by rw [hAdef]; split_ifs; exacts [hclu.2, hclu.1]
  have hin0 : Spec.inCam (A.update (fun i => 0 * δ (.clone (flat f)[n].2.1) i)) (ca.update (fun i => 0 * δ (.calib (flat f)[n].1) i)) (gg 0) =
      Spec.inCam A ca g := by
    simp only [Spec.inCam, Pose.R0 hAu, Pose.R0 hcau, Pose.p0, hgg0]
  refine ⟨cl, ca, k, hcl, hca, hk, fun a => ?_, fun e => Spec.norm2 (Spec.inCam (A.update (fun i => e * δ (.clone (flat f)[n].2.1) i))
    (ca.update (fun i => e * δ (.calib (flat f)[n].1) i)) (gg e)), fun e => ?_, ?_⟩
  · refine (hQ a).2.2.trans ?_
    rw [← hmk]
    rfl
  · simp only [Spec.bearing, hgg e, Option.bind_some]
    simp only [Spec.perturb, Spec.linState, hcl, hca, Option.map_some, Option.bind_some, hAdef]
  · have hlin : lin st g0 pGf ms[n] = (A.R, A.R.mulVec (g - A.p), Spec.inCam A ca g) := by
      have h2 : (if st.doFej then pGf else g0) = g := by
        by_cases hr : Land.Spec.Anchored f.rep
        · simp only [Spec.linPos, if_pos hr, h0, Option.some.injEq] at hlp
          rw [if_pos ((rel_anchored _).2 hr)] at hpGf
          rw [← hpGf, hlp]; simp
        · simp only [Spec.linPos, if_neg hr, Option.some.injEq] at hlp
          simp only [Spec.here, if_neg hr, Option.some.injEq] at h0
          rw [if_neg (fun h => hr ((rel_anchored _).1 h))] at hpGf
          rw [← hpGf, ← h0, hlp]
      rw [← hmk]
      simp only [lin, Spec.inCam, hAdef]
      by_cases hf : st.doFej = true
      · simp only [hf, if_true] at h2 ⊢
        simp only [h2]
      · simp only [hf] at h2 ⊢
        simp only [Bool.false_eq_true, if_false] at h2 ⊢
        simp only [h2]
    have d1 := inCam_deriv hAu hcau (δ (.clone (flat f)[n].2.1)) (δ (.calib (flat f)[n].1)) hdg
    have d2 := proj_deriv d1 (by rw [hin0]; exact hv1)
    have d3 : HasDv (fun e => (fun i => k.2 i + e * δ (.intr (flat f)[n].1) i : Cam.Intr)) (fun i => δ (.intr (flat f)[n].1) i) :=
      HasDv.line k.2 (fun i : Fin 8 => δ (.intr (flat f)[n].1) i)
    have d2' : HasDv (fun e => Spec.norm2 (Spec.inCam cl.val ca g0) + (Spec.norm2 (Spec.inCam (A.update (fun i => e * δ (.clone (flat f)[n].2.1) i))
        (ca.update (fun i => e * δ (.calib (flat f)[n].1) i)) (gg e)) - Spec.norm2 (Spec.inCam (A.update (fun i => 0 * δ (.clone (flat f)[n].2.1) i))
        (ca.update (fun i => 0 * δ (.calib (flat f)[n].1) i)) (gg 0)))) _ := fun i => ((d2 i).sub_const _).const_add _
    have d4 := distort_deriv (k := k.1) d3 d2' (by simp only [sub_self, add_zero]; exact hv2)
    refine d4.congr' ?_
    funext a
    obtain ⟨q1, q2, -⟩ := hQ a
    refine Eq.trans ?_ (congrArg₂ (· + ·) q1 q2).symm
    rw [sum_chain]
    simp only [hin0]
    have ek : (fun i : Fin 8 => k.2 i) = k.2 := rfl
    simp only [hgg0, hlin, dzc, zero_mul, add_zero, sub_self]
    simp only [← hmk]
    rw [ek]
    have ep : ∀ M : Matrix (Fin 2) (Fin 6) ℝ, (if st.doPose = true then M.mulVec (fun i => δ (.calib (flat f)[n].1) i) a else 0) =
        M.mulVec (fun i => δ (.calib (flat f)[n].1) i) a := by
      intro M
      split_ifs with hp
      · rfl
      · have hz : (fun i : Fin 6 => δ (.calib (flat f)[n].1) i) = 0 := by
          funext i; rw [hP (by simpa using hp)]; rfl
        rw [hz]; simp
    have ei : ∀ M : Matrix (Fin 2) (Fin 8) ℝ, (if st.doIntr = true then M.mulVec (fun i => δ (.intr (flat f)[n].1) i) a else 0) =
        M.mulVec (fun i => δ (.intr (flat f)[n].1) i) a := by
      intro M
      split_ifs with hp
      · rfl
      · have hz : (fun i : Fin 8 => δ (.intr (flat f)[n].1) i) = 0 := by
          funext i; rw [hI (by simpa using hp)]; rfl
        rw [hz]; simp
    rw [ep, ei]
    have eu : uvn g0 ⟨(flat f)[n].1, (flat f)[n].2.1, (flat f)[n].2.2, cl, ca, k.1, k.2⟩ = Spec.norm2 (Spec.inCam cl.val ca g0) := rfl
    rw [eu]
    simp only [← Matrix.mulVec_mulVec, Matrix.mulVec_add, Pi.add_apply]
    ring

/-- the hypotheses are met with estimates that differ from the first estimates: the anchor clone has moved by `(1, 0, 0)` since its first estimate, so the point `(1, 2, 4)` of
its camera is at `(2, 2, 4)`, which the first estimate of the anchor sees at `(2, 2, 4)`. -/
example : ∃ (st : St) (f : Feat) (b l g : V3) (out : Out), full st f = some out ∧ (f.obs.map Prod.fst).Nodup ∧ Spec.Units st ∧ st.doFej = true ∧
    (∃ t cl, st.clone t = some cl ∧ cl.val ≠ cl.fej) ∧ Land.Spec.Anchored f.rep ∧ Spec.Chart f.rep b l ∧ Spec.here st f = some g ∧
    Spec.position (Spec.linState st) f b l = some g ∧ Spec.linPos st f = some g ∧ (flat f).length = 2 ∧
    ∀ o ∈ flat f, ∀ cl ca k, st.clone o.2.1 = some cl → st.calib o.1 = some ca → st.cam o.1 = some k →
      Spec.inCam (if st.doFej then cl.fej else cl.val) ca g 2 ≠ 0 ∧ CamOK k.1 (Spec.norm2 (Spec.inCam cl.val ca g)) := by
  let q : Pose := ⟨⟨0, 0, 0, 1⟩, ![1, 0, 0]⟩
  let st : St := ⟨fun _ => some ⟨q, pose1⟩, fun _ => some pose1, fun _ => some (.equi, fun _ => 1), true, true, true⟩
  let f : Feat := ⟨.anchoredMsckf, [(0, [(1, 0), (2, 0)])], some 0, 1, ![1, 2, 4], 0, 0⟩
  have h1 : IsUnitQ pose1.q := by simp [IsUnitQ, pose1]
  have h2 : IsUnitQ q.q := by simp [IsUnitQ, q]
  have hR : pose1.R = 1 := by
    unfold Pose.R pose1
    funext i j; fin_cases i <;> fin_cases j <;> simp [quat2Rot, skew, outer, Quat.vec] <;> norm_num
  have hRq : q.R = 1 := hR
  have hf : ∃ out, full st f = some out := by
    have hch : Spec.Chart f.rep 0 ![1/4, 1/2, 1/4] := by simp [Spec.Chart, f]
    have hho : Spec.Holds f 0 ![1/4, 1/2, 1/4] := by
      have ha : Land.Spec.Anchored f.rep := trivial
      rw [Spec.Holds, if_pos ha]
      funext i; fin_cases i <;> simp [f, Spec.xyz] <;> norm_num
    exact C79_returns st f (g := Spec.world q pose1 (Spec.xyz .anchoredMsckf 0 ![1/4, 1/2, 1/4])) hch hho
      (by simp only [Spec.position, Land.Spec.Anchored, if_true, f, st, Option.bind_some]) (by intro o _; simp [st]) (by intro o _; simp [st])
  obtain ⟨out, ho⟩ := hf
  have hw : Spec.world q pose1 ![1, 2, 4] = ![2, 2, 4] := by
    simp only [Spec.world, hR, hRq]
    funext i; fin_cases i <;> simp [q, pose1] <;> norm_num
  have hx : Spec.xyz .anchoredMsckf 0 ![1/2, 1/2, 1/4] = ![2, 2, 4] := by
    funext i; fin_cases i <;> simp [Spec.xyz] <;> norm_num
  have hw1 : Spec.world pose1 pose1 ![2, 2, 4] = ![2, 2, 4] := by
    simp only [Spec.world, hR]; simp [pose1]
  have hh : Spec.here st f = some ![2, 2, 4] := by
    simp only [Spec.here, Land.Spec.Anchored, if_true, f, st, Option.bind_some, hw]
  refine ⟨st, f, 0, ![1/2, 1/2, 1/4], ![2, 2, 4], out, ho, by simp [f], ⟨?_, ?_⟩, rfl, ⟨1, _, rfl, ?_⟩, trivial, by simp [Spec.Chart, f], hh, ?_, ?_, by simp [flat, f], ?_⟩
  · rintro t x hx; simp only [st, Option.some.injEq] at hx; subst hx; exact ⟨h2, h1⟩
  · rintro c x hx; simp only [st, Option.some.injEq] at hx; subst hx; exact h1
  · intro h
    have := congrFun (congrArg Pose.p h) 0
    simp [q, pose1] at this
  · simp only [Spec.position, Land.Spec.Anchored, if_true, f, st, Spec.linState, Option.map_some, Option.bind_some, hx, hw1]
  · simp only [Spec.linPos, Land.Spec.Anchored, if_true, f]
    exact hh
  · intro o _ cl ca k hcl hca hk
    simp only [st, Option.some.injEq] at hcl hca hk
    subst hcl hca hk
    have hin : Spec.inCam pose1 pose1 ![2, 2, 4] = ![2, 2, 4] := by
      simp only [Spec.inCam, hR]; simp [pose1]
    have hin2 : Spec.inCam q pose1 ![2, 2, 4] = ![1, 2, 4] := by
      simp only [Spec.inCam, hR, hRq]
      funext i; fin_cases i <;> simp [q, pose1] <;> norm_num
    simp only [st, if_true, hin, hin2]
    refine ⟨by simp, fun _ => ?_⟩
    have : (1 : ℝ) / 4 ≤ Cam.rad (Spec.norm2 ![1, 2, 4]) := by
      unfold Cam.rad Spec.norm2
      refine Real.le_sqrt_of_sq_le ?_
      simp; norm_num
    exact lt_of_lt_of_le (by norm_num) this

end Verif.Upd
