import Verif.Types.Props

/-! # C71: ids and places of variables and their parts, continued -/

set_option autoImplicit false

namespace Verif.Types

open Verif

namespace Spec

/-- the variable and all its parts are marked as not in the state. -/
def Unplaced (o : ImuO) : Prop :=
  o.id = -1 ∧ o.pose.id = -1 ∧ o.pose.q.id = -1 ∧ o.pose.p.id = -1 ∧ o.v.id = -1 ∧ o.bg.id = -1 ∧ o.ba.id = -1

/-- the same for a pose. -/
def UnplacedPose (o : PoseO) : Prop := o.id = -1 ∧ o.q.id = -1 ∧ o.p.id = -1

/-- the places of the variable and its parts. -/
def ids (o : ImuO) : List ℤ := [o.id, o.pose.id, o.pose.q.id, o.pose.p.id, o.v.id, o.bg.id, o.ba.id]

/-- the same for a pose. -/
def idsPose (o : PoseO) : List ℤ := [o.id, o.q.id, o.p.id]

/-- row `k` of a variable belongs to its part `s`. -/
def Covers (x : Val) (s : Sub) (k : ℕ) : Prop := ∃ off y, x.part s = some (off, y) ∧ off ≤ k ∧ k < off + y.size

end Spec

/-- **C71** A new variable and a clone of any variable are not in the state, with all their parts, wherever the original is. -/
theorem C71_new_clone :
    Spec.Unplaced ImuO.new ∧ (∀ o : ImuO, Spec.Unplaced o.clone) ∧ Spec.UnplacedPose PoseO.new ∧ (∀ o : PoseO, Spec.UnplacedPose o.clone) := by
  refine ⟨⟨rfl, rfl, rfl, rfl, rfl, rfl, rfl⟩, fun _ => ⟨rfl, rfl, rfl, rfl, rfl, rfl, rfl⟩, ⟨rfl, rfl, rfl⟩, fun _ => ⟨rfl, rfl, rfl⟩⟩

/-- **C71** Setting or correcting the value, or the first estimate, moves nothing. -/
theorem C71_values_keep_ids (o : ImuO) (po : PoseO) (x : Imu16) (y : Quat × V3) (dx : ℕ → ℝ) :
    Spec.ids (o.setValue x) = Spec.ids o ∧ Spec.ids (o.setFej x) = Spec.ids o ∧ Spec.ids (o.update dx) = Spec.ids o ∧
      Spec.idsPose (po.setValue y) = Spec.idsPose po ∧ Spec.idsPose (po.setFej y) = Spec.idsPose po ∧
      Spec.idsPose (po.update dx) = Spec.idsPose po := ⟨rfl, rfl, rfl, rfl, rfl, rfl⟩

/-- **C71** (no overlap, nothing left out) Every row of an IMU variable belongs to exactly one of its five elementary parts, every row of a pose to
exactly one of its two, and the rows of the pose of an IMU are those of its orientation and position. No part has a row outside. -/
theorem C71_cover (x : Imu16) (q : Quat) (p : V3) :
    (∀ k, k < (Val.imu x).size → ∃! s : Sub, s ∈ [Sub.q, Sub.p, Sub.v, Sub.bg, Sub.ba] ∧ Spec.Covers (.imu x) s k) ∧
      (∀ k s, Spec.Covers (.imu x) s k → k < (Val.imu x).size) ∧
      (∀ k, k < (Val.pose q p).size → ∃! s : Sub, s ∈ [Sub.q, Sub.p] ∧ Spec.Covers (.pose q p) s k) ∧
      (∀ k s, Spec.Covers (.pose q p) s k → k < (Val.pose q p).size) ∧
      (∀ k, Spec.Covers (.imu x) .pose k ↔ Spec.Covers (.imu x) .q k ∨ Spec.Covers (.imu x) .p k) := by
  have hq : ∀ k, Spec.Covers (.imu x) .q k ↔ k < 3 := fun k => by simp [Spec.Covers, Val.part, Val.size]
  have hp : ∀ k, Spec.Covers (.imu x) .p k ↔ 3 ≤ k ∧ k < 6 := fun k => by simp [Spec.Covers, Val.part, Val.size]
  have hv : ∀ k, Spec.Covers (.imu x) .v k ↔ 6 ≤ k ∧ k < 9 := fun k => by simp [Spec.Covers, Val.part, Val.size]
  have hbg : ∀ k, Spec.Covers (.imu x) .bg k ↔ 9 ≤ k ∧ k < 12 := fun k => by simp [Spec.Covers, Val.part, Val.size]
  have hba : ∀ k, Spec.Covers (.imu x) .ba k ↔ 12 ≤ k ∧ k < 15 := fun k => by simp [Spec.Covers, Val.part, Val.size]
  have hpo : ∀ k, Spec.Covers (.imu x) .pose k ↔ k < 6 := fun k => by simp [Spec.Covers, Val.part, Val.size]
  have hse : ∀ k, Spec.Covers (.imu x) .self k ↔ k < 15 := fun k => by simp [Spec.Covers, Val.part, Val.size]
  have gq : ∀ k, Spec.Covers (.pose q p) .q k ↔ k < 3 := fun k => by simp [Spec.Covers, Val.part, Val.size]
  have gp : ∀ k, Spec.Covers (.pose q p) .p k ↔ 3 ≤ k ∧ k < 6 := fun k => by simp [Spec.Covers, Val.part, Val.size]
  have gs : ∀ k, Spec.Covers (.pose q p) .self k ↔ k < 6 := fun k => by simp [Spec.Covers, Val.part, Val.size]
  have gn : ∀ k s, s ≠ Sub.q → s ≠ Sub.p → s ≠ Sub.self → ¬ Spec.Covers (.pose q p) s k := by
    intro k s h1 h2 h3
    cases s <;> simp_all [Spec.Covers, Val.part]
  refine ⟨?_, ?_, ?_, ?_, ?_⟩
  · intro k hk
    simp only [Val.size] at hk
    have huniq : ∀ s t : Sub, s ∈ [Sub.q, Sub.p, Sub.v, Sub.bg, Sub.ba] → t ∈ [Sub.q, Sub.p, Sub.v, Sub.bg, Sub.ba] →
        Spec.Covers (.imu x) s k → Spec.Covers (.imu x) t k → s = t := by
      intro s t hs ht h1 h2
      simp only [List.mem_cons, List.not_mem_nil, or_false] at hs ht
      rcases hs with rfl | rfl | rfl | rfl | rfl <;> rcases ht with rfl | rfl | rfl | rfl | rfl <;>
        simp only [hq, hp, hv, hbg, hba] at h1 h2 <;> first | rfl | omega
    have hex : ∃ s : Sub, s ∈ [Sub.q, Sub.p, Sub.v, Sub.bg, Sub.ba] ∧ Spec.Covers (.imu x) s k := by
      by_cases h1 : k < 3
      · exact ⟨.q, by simp, (hq k).mpr h1⟩
      by_cases h2 : k < 6
      · exact ⟨.p, by simp, (hp k).mpr ⟨by omega, h2⟩⟩
      by_cases h3 : k < 9
      · exact ⟨.v, by simp, (hv k).mpr ⟨by omega, h3⟩⟩
      by_cases h4 : k < 12
      · exact ⟨.bg, by simp, (hbg k).mpr ⟨by omega, h4⟩⟩
      · exact ⟨.ba, by simp, (hba k).mpr ⟨by omega, hk⟩⟩
    obtain ⟨s, hs, hc⟩ := hex
    exact ⟨s, ⟨hs, hc⟩, fun t ht => huniq t s ht.1 hs ht.2 hc⟩
  · intro k s h
    simp only [Val.size]
    cases s <;> simp only [hq, hp, hv, hbg, hba, hpo, hse] at h <;> omega
  · intro k hk
    simp only [Val.size] at hk
    have huniq : ∀ s t : Sub, s ∈ [Sub.q, Sub.p] → t ∈ [Sub.q, Sub.p] →
        Spec.Covers (.pose q p) s k → Spec.Covers (.pose q p) t k → s = t := by
      intro s t hs ht h1 h2
      simp only [List.mem_cons, List.not_mem_nil, or_false] at hs ht
      rcases hs with rfl | rfl <;> rcases ht with rfl | rfl <;> simp only [gq, gp] at h1 h2 <;> first | rfl | omega
    by_cases h1 : k < 3
    · exact ⟨.q, ⟨by simp, (gq k).mpr h1⟩, fun t ht => huniq t .q ht.1 (by simp) ht.2 ((gq k).mpr h1)⟩
    · have h2 : 3 ≤ k ∧ k < 6 := ⟨by omega, hk⟩
      exact ⟨.p, ⟨by simp, (gp k).mpr h2⟩, fun t ht => huniq t .p ht.1 (by simp) ht.2 ((gp k).mpr h2)⟩
  · intro k s h
    simp only [Val.size]
    by_cases h1 : s = .q
    · subst h1; have := (gq k).mp h; omega
    by_cases h2 : s = .p
    · subst h2; have := (gp k).mp h; omega
    by_cases h3 : s = .self
    · subst h3; exact (gs k).mp h
    · exact absurd h (gn k s h1 h2 h3)
  · intro k
    rw [hpo, hq, hp]
    omega

/-- Non-vacuity: an IMU variable placed at row 30 has its gyroscope bias at row 39, and its clone is not placed. -/
example : (ImuO.new.setId 30).bg.id = 39 ∧ (ImuO.new.setId 30).clone.bg.id = -1 := by
  refine ⟨?_, rfl⟩
  simp [ImuO.setId, PoseO.setId, Vec3O.setId, QuatO.setId]

end Verif.Types
