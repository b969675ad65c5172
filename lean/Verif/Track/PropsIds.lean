import Verif.Track.Ids
import Verif.Feat.Props

/-!
# Feature ids (C48, C49, C63, C86)
-/

set_option autoImplicit false

namespace Verif.Track

open Verif Verif.Feat

theorem drawIds_spec : ∀ (n cur : ℕ), (drawIds cur n).1 = List.range' (cur + 1) n ∧ (drawIds cur n).2 = cur + n
  | 0, cur => ⟨rfl, rfl⟩
  | n + 1, cur => by
    obtain ⟨h1, h2⟩ := drawIds_spec n (cur + 1)
    simp only [drawIds, h1, h2, List.range'_succ, true_and]
    omega

/-- **C48** For every maximum number of tags and every image and history: every id the tag tracker uses is at most `4 * max`, every id a tracker draws and every id of a simulated feature is above; hence they never
collide. The SLAM and tag lists given to the user are exactly the landmarks above and at or below that bound, and together they are all landmarks, each in one list. -/
theorem C48_id_ranges (maxTag : ℕ) :
    (∀ masked tags, ∀ i ∈ tagIds maxTag masked tags, i ≤ 4 * maxTag) ∧
    (∀ n, ∀ i ∈ (drawIds (firstId maxTag) n).1, 4 * maxTag < i) ∧ (∀ f, 4 * maxTag < simId maxTag f) ∧
    (∀ ids : List ℕ, (slamList maxTag ids ++ arucoList maxTag ids).Perm ids ∧
      (∀ i, i ∈ slamList maxTag ids ↔ i ∈ ids ∧ 4 * maxTag < i) ∧ ∀ i, i ∈ arucoList maxTag ids ↔ i ∈ ids ∧ i ≤ 4 * maxTag) := by
  refine ⟨?_, ?_, ?_, ?_⟩
  · intro masked tags i hi
    simp only [tagIds, List.mem_flatMap, List.mem_filterMap, List.mem_range] at hi
    obtain ⟨tag, _, n, hn, h⟩ := hi
    split_ifs at h
    unfold cornerId at h
    split_ifs at h with h2
    obtain rfl := Option.some.inj h
    have : n * maxTag ≤ 3 * maxTag := Nat.mul_le_mul_right _ (by omega)
    omega
  · intro n i hi
    rw [(drawIds_spec n _).1, List.mem_range'_1] at hi
    unfold firstId at hi; omega
  · intro f; unfold simId firstId; omega
  · intro ids
    refine ⟨?_, ?_, ?_⟩
    · have e : arucoList maxTag ids = ids.filter fun i => !(!decide (i ≤ 4 * maxTag)) := by
        unfold arucoList; apply List.filter_congr; intro i _; rw [Bool.eq_iff_iff]; simp
      rw [e]
      exact List.filter_append_perm _ ids
    · intro i; simp [slamList]
    · intro i; simp [arucoList]

example : tagIds 10 (fun _ _ => false) [3, 11, 10] = [3, 13, 23, 33, 10, 20, 30, 40] ∧ (drawIds (firstId 10) 2).1 = [42, 43] := by decide

/-- **C49** (partial) The settings used by the SLAM updater are the right ones for ids below `max_aruco_features` (first corners) and above `4 * max_aruco_features` (tracked features). Missing:
the ids in between, see `C49_other_corners_wrong`. -/
theorem C49_tag_settings_partial {α : Type} (maxTag : ℕ) (tag slam : α) (id : ℕ) (h : id < maxTag ∨ 4 * maxTag < id) :
    updaterSetting maxTag tag slam id = if id ≤ 4 * maxTag then tag else slam := by
  unfold updaterSetting
  split_ifs <;> first | rfl | omega

/-- **C49** (what is false) For every tag (other than tag 0) the second, third and fourth corner get the settings of ordinary SLAM features: noise, chi-square multiplier and representation. -/
theorem C49_other_corners_wrong {α : Type} (maxTag tag n : ℕ) (ht : tag ≤ maxTag) (hn : 1 ≤ n ∧ n < 4) (a b : α) :
    ∃ id, cornerId maxTag tag n = some id ∧ id ≤ 4 * maxTag ∧ updaterSetting maxTag a b id = b := by
  have h1 : 1 * maxTag ≤ n * maxTag := Nat.mul_le_mul_right _ hn.1
  have h2 : n * maxTag ≤ 3 * maxTag := Nat.mul_le_mul_right _ (by omega)
  refine ⟨tag + n * maxTag, by rw [cornerId, if_neg (by omega)], by omega, ?_⟩
  rw [updaterSetting, if_neg (by omega)]

example : cornerId 1024 5 1 = some 1029 ∧ updaterSetting 1024 "tag" "slam" 1029 = "slam" := by decide

/-- **C86** (partial) Different corners of tags with ids below `max_aruco_features` have different ids. Missing: the tag with id exactly `max_aruco_features`, which is not skipped, see `C86_corner_collision`. -/
theorem C86_corner_ids_partial (maxTag t1 n1 t2 n2 : ℕ) (h1 : t1 < maxTag) (h2 : t2 < maxTag) (he : cornerId maxTag t1 n1 = cornerId maxTag t2 n2) : t1 = t2 ∧ n1 = n2 := by
  rw [cornerId, cornerId, if_neg (by omega), if_neg (by omega), Option.some.injEq] at he
  have hm : (t1 + n1 * maxTag) % maxTag = (t2 + n2 * maxTag) % maxTag := by rw [he]
  rw [Nat.add_mul_mod_self_right, Nat.add_mul_mod_self_right, Nat.mod_eq_of_lt h1, Nat.mod_eq_of_lt h2] at hm
  subst hm
  exact ⟨rfl, Nat.eq_of_mul_eq_mul_right (by omega) (Nat.add_left_cancel he)⟩

/-- **C86** (what is false) The tag whose id is `max_aruco_features` is accepted and each of its corners has the same id as the next corner of tag 0: their observations go into one track. -/
theorem C86_corner_collision (maxTag n : ℕ) : cornerId maxTag maxTag n = cornerId maxTag 0 (n + 1) ∧ (cornerId maxTag maxTag n).isSome := by
  rw [cornerId, cornerId, if_neg (by omega), if_neg (by omega)]
  exact ⟨by congr 1; ring, rfl⟩

/-- two different corners of two different tags seen in one image with twenty tags allowed: ids 20 and 20. -/
example : (tagIds 20 (fun t n => !((t = 20 && n = 0) || (t = 0 && n = 1))) [0, 20]) = [20, 20] := by decide

/-- **C63** (fresh ids) Whatever the number of draws and in whatever order threads make them, the atomic counter never returns the same id twice, all ids are larger than every id drawn before, and ids of
different simulated features differ. -/
theorem C63_ids_unique_partial (cur n m : ℕ) :
    let a := drawIds cur n
    let b := drawIds a.2 m
    (a.1 ++ b.1).Nodup ∧ (∀ i ∈ a.1, cur < i ∧ i ≤ a.2) ∧ (∀ i ∈ a.1, ∀ j ∈ b.1, i < j) ∧ (∀ k f g, simId k f = simId k g → f = g) := by
  intro a b
  have ha := drawIds_spec n cur
  have hb := drawIds_spec m a.2
  simp only [show a = drawIds cur n from rfl] at *
  simp only [show b = drawIds (drawIds cur n).2 m from rfl]
  rw [hb.1, ha.1, ha.2]
  have hlt : ∀ i ∈ List.range' (cur + 1) n, ∀ j ∈ List.range' (cur + n + 1) m, i < j := by
    intro i hi j hj
    rw [List.mem_range'_1] at hi hj; omega
  refine ⟨?_, ?_, hlt, ?_⟩
  · rw [List.nodup_append]
    exact ⟨List.nodup_range', List.nodup_range', fun i hi j hj e => by have := hlt i hi j hj; omega⟩
  · intro i hi; rw [List.mem_range'_1] at hi; omega
  · intro k f g h; unfold simId at h; omega

variable {T U : Type}

/-- **C63** (what is false) For every database, relabelling a stored feature to an unused id does not do what it promises: the database still answers under the old id, with an object that now
carries the new id, and has nothing under the new id. The current ids of the cameras are changed, so the next image starts a second track. -/
theorem C63_relabel_wrong (db : DB T U) (last : List (ℕ × List ℕ)) (old new : ℕ) (f : Feature T U)
    (hf : db.get? old = some f) (hn : db.get? new = none) :
    let r := changeFeatId db last old new
    r.1.get? old = some { f with featid := new } ∧ r.1.get? new = none ∧
    ∀ e ∈ r.2, old ≠ new → old ∉ e.2 := by
  intro r
  have hne : old ≠ new := by rintro rfl; rw [hf] at hn; simp at hn
  refine ⟨?_, ?_, ?_⟩
  · simp only [r, changeFeatId, AMap.get?_modify, hf, if_true, Option.map_some]
  · simp only [r, changeFeatId, AMap.get?_modify]
    rw [if_neg (Ne.symm hne)]
    exact hn
  · intro e he _ hm
    simp only [r, changeFeatId, List.mem_map] at he
    obtain ⟨e', _, rfl⟩ := he
    simp only [List.mem_map] at hm
    obtain ⟨i, _, hi⟩ := hm
    split_ifs at hi with h
    · exact hne hi.symm
    · exact h hi

example : let db : DB ℕ ℕ := updateFeature [] 7 0 0 0 0
    let r := changeFeatId db [(0, [7, 8])] 7 9
    (r.1.get? 7).isSome ∧ r.1.get? 9 = none ∧ r.2 = [(0, [9, 8])] := by decide

end Verif.Track
