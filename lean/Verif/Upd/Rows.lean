import Verif.Upd.Deriv

/-! # Column layout and rows of the stacked measurement Jacobian (lemmas for C79) -/

set_option linter.unusedSimpArgs false

open Classical

namespace Verif.Upd

open Verif Mat Verif.Land Verif.Types Verif.Prop_ Finset

namespace Spec

/-- the corrections of the listed variables, one after the other. -/
def stack (δ : Var → ℕ → ℝ) : List Var → ℕ → ℝ
  | [], _ => 0
  | v :: l, k => if k < v.size then δ v k else stack δ l (k - v.size)

end Spec

theorem off_le {v : Var} : ∀ {o : List Var}, v ∈ o → off o v + v.size ≤ total o
  | a :: l, h => by
    simp only [off, total, List.map_cons, List.sum_cons]
    by_cases e : a = v
    · subst e; simp
    · rw [if_neg e]
      have := off_le (v := v) (o := l) (by simpa [Ne.symm e] using h)
      simp only [total] at this
      omega

theorem stack_off {δ : Var → ℕ → ℝ} {v : Var} {k : ℕ} (hk : k < v.size) : ∀ {o : List Var}, v ∈ o → Spec.stack δ o (off o v + k) = δ v k
  | a :: l, h => by
    by_cases e : a = v
    · subst e; simp [off, Spec.stack, hk]
    · have ho : off (a :: l) v = a.size + off l v := if_neg e
      rw [ho]
      show (if _ then _ else _) = _
      rw [if_neg (by omega), show a.size + off l v + k - a.size = off l v + k by omega]
      exact stack_off hk (by simpa [Ne.symm e] using h)

theorem off_disj {v w : Var} (hne : v ≠ w) : ∀ {o : List Var}, v ∈ o → w ∈ o → off o v + v.size ≤ off o w ∨ off o w + w.size ≤ off o v
  | a :: l, hv, hw => by
    simp only [off]
    by_cases e : a = v
    · have e' : ¬ a = w := fun h => hne (e.symm.trans h)
      rw [if_pos e, if_neg e', e]; left; omega
    · by_cases e' : a = w
      · rw [if_neg e, if_pos e', e']; right; omega
      · rw [if_neg e, if_neg e']
        have := off_disj hne (o := l) (by simpa [Ne.symm e] using hv) (by simpa [Ne.symm e'] using hw)
        omega

/-! ## the layout -/

theorem addVar_nodup {o : List Var} (h : o.Nodup) (v : Var) : (addVar o v).Nodup := by
  unfold addVar; split_ifs with hv
  · exact h
  · exact List.Nodup.append h (by simp) (by simpa using hv)

theorem mem_addVar {o : List Var} {v w : Var} : w ∈ addVar o v ↔ w ∈ o ∨ w = v := by
  unfold addVar; split_ifs with hv
  · constructor
    · exact Or.inl
    · rintro (h | rfl) <;> assumption
  · simp

theorem foldl_addVar : ∀ (l : List (ℝ × Cam.V2)) {o : List Var}, o.Nodup →
    (l.foldl (fun o m => addVar o (.clone m.1)) o).Nodup ∧
    ∀ w, w ∈ l.foldl (fun o m => addVar o (.clone m.1)) o ↔ w ∈ o ∨ ∃ m ∈ l, w = .clone m.1
  | [], o, h => ⟨h, by simp⟩
  | m :: l, o, h => by
    obtain ⟨h1, h2⟩ := foldl_addVar l (addVar_nodup h (.clone m.1))
    refine ⟨h1, fun w => ?_⟩
    rw [List.foldl_cons, h2, mem_addVar]
    simp only [List.mem_cons, exists_eq_or_imp]
    rw [or_assoc]

theorem layoutCam_spec (st : St) {o : List Var} (h : o.Nodup) (c : ℕ × List (ℝ × Cam.V2)) (h1 : .calib c.1 ∉ o) (h2 : .intr c.1 ∉ o) :
    (layoutCam st o c).Nodup ∧ ∀ w, w ∈ layoutCam st o c ↔
      w ∈ o ∨ (st.doPose = true ∧ w = .calib c.1) ∨ (st.doIntr = true ∧ w = .intr c.1) ∨ ∃ m ∈ c.2, w = .clone m.1 := by
  unfold layoutCam
  have hA : (if st.doPose then o ++ [.calib c.1] else o).Nodup := by
    split_ifs
    · exact List.Nodup.append h (by simp) (by simpa using h1)
    · exact h
  have hB : (if st.doIntr then (if st.doPose then o ++ [.calib c.1] else o) ++ [.intr c.1]
      else (if st.doPose then o ++ [.calib c.1] else o)).Nodup := by
    by_cases hi : st.doIntr = true
    · rw [if_pos hi]
      refine List.Nodup.append hA (by simp) ?_
      split_ifs <;> simp [h2]
    · rw [if_neg hi]; exact hA
  obtain ⟨k1, k2⟩ := foldl_addVar c.2 hB
  refine ⟨k1, fun w => ?_⟩
  rw [k2]
  cases st.doPose <;> cases st.doIntr <;> simp [or_assoc]

theorem layout_obs (st : St) : ∀ (obs : List (ℕ × List (ℝ × Cam.V2))) {o : List Var}, o.Nodup → (obs.map Prod.fst).Nodup →
    (∀ c ∈ obs.map Prod.fst, .calib c ∉ o ∧ .intr c ∉ o) →
    (obs.foldl (layoutCam st) o).Nodup ∧ ∀ w, w ∈ obs.foldl (layoutCam st) o ↔ w ∈ o ∨ ∃ c ∈ obs,
      (st.doPose = true ∧ w = .calib c.1) ∨ (st.doIntr = true ∧ w = .intr c.1) ∨ ∃ m ∈ c.2, w = .clone m.1
  | [], o, h, _, _ => ⟨h, by simp⟩
  | c :: obs, o, h, hn, hc => by
    simp only [List.map_cons, List.nodup_cons] at hn
    obtain ⟨k1, k2⟩ := layoutCam_spec st h c (hc c.1 (by simp)).1 (hc c.1 (by simp)).2
    have hne : ∀ d ∈ obs.map Prod.fst, d ≠ c.1 := fun d hd e => hn.1 (e ▸ hd)
    obtain ⟨j1, j2⟩ := layout_obs st obs k1 hn.2 (by
      intro d hd
      have hd' := hc d (by simp only [List.map_cons, List.mem_cons]; exact Or.inr hd)
      rw [k2, k2]
      simp [hd'.1, hd'.2, hne d hd])
    refine ⟨j1, fun w => ?_⟩
    rw [List.foldl_cons, j2, k2]
    simp only [List.mem_cons, exists_eq_or_imp]
    rw [or_assoc]

/-- the variables listed: each once; extrinsics and intrinsics of the measuring cameras if estimated, the measuring clones, and the anchor clone and
its camera's extrinsics for an anchored feature. -/
theorem layout_spec (st : St) (f : Feat) (hn : (f.obs.map Prod.fst).Nodup) :
    (layout st f).Nodup ∧ ∀ w, w ∈ layout st f ↔
      (∃ c ∈ f.obs, (st.doPose = true ∧ w = .calib c.1) ∨ (st.doIntr = true ∧ w = .intr c.1) ∨ ∃ m ∈ c.2, w = .clone m.1) ∨
      (isRelative f.rep = true ∧ (w = .clone f.ancT ∨ (st.doPose = true ∧ ∃ c, f.ancCam = some c ∧ w = .calib c))) := by
  obtain ⟨j1, j2⟩ := layout_obs st f.obs List.nodup_nil hn (by simp)
  unfold layout
  by_cases hr : isRelative f.rep = true
  · simp only [hr, if_true]
    cases hp : st.doPose <;> cases hc : f.ancCam
    all_goals
      simp only
      refine ⟨by first | exact addVar_nodup j1 _ | exact addVar_nodup (addVar_nodup j1 _) _, fun w => ?_⟩
      simp only [mem_addVar, j2, hp]
      simp
    · rw [or_assoc]
  · simp only [hr, if_false]
    refine ⟨by simpa using j1, fun w => ?_⟩
    simp [j2]

/-! ## rows -/

theorem sum_addBlock {r0 c0 h w : ℕ} {B M : Mat} {i d : ℕ} (s : ℕ → ℝ) (hi : r0 ≤ i ∧ i < r0 + h) (hd : c0 + w ≤ d) :
    ∑ j ∈ range d, addBlock r0 c0 h w B M i j * s j =
      ∑ j ∈ range w, B (i - r0) j * s (c0 + j) + ∑ j ∈ range d, M i j * s j := by
  have e : ∀ j, addBlock r0 c0 h w B M i j = setBlock r0 c0 h w B (fun _ _ => 0) i j + M i j := by
    intro j
    unfold addBlock setBlock
    by_cases h1 : c0 ≤ j ∧ j < c0 + w
    · rw [if_pos ⟨hi.1, hi.2, h1⟩, if_pos ⟨hi, h1⟩]; ring
    · rw [if_neg (fun h => h1 ⟨h.2.2.1, h.2.2.2⟩), if_neg (fun h => h1 h.2)]; ring
  simp only [e, add_mul, sum_add_distrib]
  rw [sum_setBlock (M := fun _ _ => 0) s hi hd (by simp)]
  simp

theorem sum_extM {m n : ℕ} (B : Matrix (Fin m) (Fin n) ℝ) (s : ℕ → ℝ) (a : Fin m) :
    ∑ j ∈ range n, extM B a j * s j = B.mulVec (fun j => s j) a := by
  rw [Finset.sum_range]
  simp [Matrix.mulVec, dotProduct, extM]

theorem addBlock_row {r0 c0 h w : ℕ} {B M : Mat} {i : ℕ} (hi : ¬ (r0 ≤ i ∧ i < r0 + h)) : addBlock r0 c0 h w B M i = M i := by
  funext j; unfold addBlock; rw [if_neg (fun h => hi ⟨h.1, h.2.1⟩)]

theorem setBlock_row {r0 c0 h w : ℕ} {B M : Mat} {i : ℕ} (hi : ¬ (r0 ≤ i ∧ i < r0 + h)) : setBlock r0 c0 h w B M i = M i := by
  funext j; unfold setBlock; rw [if_neg (fun h => hi h.1)]

theorem addBlock_col {r0 c0 h w : ℕ} {B M : Mat} {i j : ℕ} (hj : ¬ (c0 ≤ j ∧ j < c0 + w)) : addBlock r0 c0 h w B M i j = M i j := by
  unfold addBlock; rw [if_neg (fun h => hj ⟨h.2.2.1, h.2.2.2⟩)]

theorem setBlock_col {r0 c0 h w : ℕ} {B M : Mat} {i j : ℕ} (hj : ¬ (c0 ≤ j ∧ j < c0 + w)) : setBlock r0 c0 h w B M i j = M i j := by
  unfold setBlock; rw [if_neg (fun h => hj h.2)]

/-- adding the extra blocks. -/
theorem foldl_add_row {r0 i : ℕ} (hi : ¬ (r0 ≤ i ∧ i < r0 + 2)) (g : Var → ℕ) (P : Matrix (Fin 2) (Fin 3) ℝ) :
    ∀ (xs : List (Var × Matrix (Fin 3) (Fin 6) ℝ)) (M : Mat),
      (xs.foldl (fun H x => addBlock r0 (g x.1) 2 6 (extM (P * x.2)) H) M) i = M i
  | [], _ => rfl
  | x :: xs, M => by rw [List.foldl_cons, foldl_add_row hi g P xs, addBlock_row hi]

theorem foldl_add_col {r0 i j : ℕ} (g : Var → ℕ) (P : Matrix (Fin 2) (Fin 3) ℝ) :
    ∀ (xs : List (Var × Matrix (Fin 3) (Fin 6) ℝ)) (M : Mat), (∀ x ∈ xs, ¬ (g x.1 ≤ j ∧ j < g x.1 + 6)) →
      (xs.foldl (fun H x => addBlock r0 (g x.1) 2 6 (extM (P * x.2)) H) M) i j = M i j
  | [], _, _ => rfl
  | x :: xs, M, h => by
    rw [List.foldl_cons, foldl_add_col g P xs _ (fun y hy => h y (by simp [hy])), addBlock_col (h x (by simp))]

theorem foldl_add_sum {r0 d : ℕ} (g : Var → ℕ) (P : Matrix (Fin 2) (Fin 3) ℝ) (s : ℕ → ℝ) (a : Fin 2) :
    ∀ (xs : List (Var × Matrix (Fin 3) (Fin 6) ℝ)) (M : Mat), (∀ x ∈ xs, g x.1 + 6 ≤ d) →
      ∑ j ∈ range d, (xs.foldl (fun H x => addBlock r0 (g x.1) 2 6 (extM (P * x.2)) H) M) (r0 + a) j * s j =
        (xs.map fun x => (P * x.2).mulVec (fun k => s (g x.1 + k)) a).sum + ∑ j ∈ range d, M (r0 + a) j * s j
  | [], M, _ => by simp
  | x :: xs, M, h => by
    rw [List.foldl_cons, foldl_add_sum g P s a xs _ (fun y hy => h y (by simp [hy])),
      sum_addBlock s ⟨by omega, by omega⟩ (h x (by simp)), show r0 + (a:ℕ) - r0 = a by omega,
      sum_extM _ (fun k => s (g x.1 + k))]
    simp only [List.map_cons, List.sum_cons]
    ring

/-- rows not yet written are zero. -/
def Clean (A : Acc) : Prop := ∀ i, 2 * A.c ≤ i → ∀ j, A.Hx i j = 0

section
variable (st : St) (order : List Var) (pG pGf : V3) (dl : M3) (xs : List (Var × Matrix (Fin 3) (Fin 6) ℝ)) (jf : ℕ) (A : Acc) (m : Meas)

theorem write_c : (writeMeas st order pG pGf dl xs jf A m).c = A.c + 1 := rfl

theorem write_other {i : ℕ} (hi : ¬ (2 * A.c ≤ i ∧ i < 2 * A.c + 2)) :
    (writeMeas st order pG pGf dl xs jf A m).Hx i = A.Hx i ∧ (writeMeas st order pG pGf dl xs jf A m).Hf i = A.Hf i ∧
    (writeMeas st order pG pGf dl xs jf A m).res i = A.res i := by
  refine ⟨?_, setBlock_row hi, if_neg hi⟩
  simp only [writeMeas]
  split_ifs <;> simp only [setBlock_row hi, addBlock_row hi, foldl_add_row hi (off order)]

theorem write_clean (h : Clean A) : Clean (writeMeas st order pG pGf dl xs jf A m) := by
  intro i hi j
  rw [write_c] at hi
  rw [(write_other st order pG pGf dl xs jf A m (i := i) (by omega)).1]
  exact h i (by omega) j

/-- linearisation point of a measurement's clone: rotation, position in the body frame, position in the camera. -/
noncomputable def lin : M3 × V3 × V3 :=
  let pFI := m.clone.val.R.mulVec (pG - m.clone.val.p)
  let pFI' := if st.doFej then m.clone.fej.R.mulVec (pGf - m.clone.fej.p) else pFI
  (if st.doFej then m.clone.fej.R else m.clone.val.R, pFI',
    if st.doFej then m.cal.R.mulVec pFI' + m.cal.p else m.cal.R.mulVec pFI + m.cal.p)

/-- normalised coordinates of the current estimate. -/
noncomputable def uvn : Cam.V2 :=
  ![Spec.inCam m.clone.val m.cal pG 0 / Spec.inCam m.clone.val m.cal pG 2, Spec.inCam m.clone.val m.cal pG 1 / Spec.inCam m.clone.val m.cal pG 2]

noncomputable def dzc : Matrix (Fin 2) (Fin 3) ℝ := Cam.distortN m.kind m.intr (uvn pG m) * projJac (lin st pG pGf m).2.2

/-- what the two rows of a measurement are, contracted with any vector. -/
theorem write_row (hA : Clean A) (hm1 : .clone m.t ∈ order) (hx : ∀ x ∈ xs, x.1 ∈ order ∧ x.1.size = 6)
    (hP : st.doPose = true → .calib m.cam ∈ order) (hI : st.doIntr = true → .intr m.cam ∈ order) (hxi : ∀ x ∈ xs, x.1 ≠ .intr m.cam)
    (s : ℕ → ℝ) (a : Fin 2) :
    ∑ j ∈ range (total order), (writeMeas st order pG pGf dl xs jf A m).Hx (2 * A.c + a) j * s j =
      (dzc st pG pGf m * hcat (m.cal.R * skew (lin st pG pGf m).2.1) (-(m.cal.R * (lin st pG pGf m).1))).mulVec
        (fun k => s (off order (.clone m.t) + k)) a
      + (xs.map fun x => (dzc st pG pGf m * (m.cal.R * (lin st pG pGf m).1) * x.2).mulVec (fun k => s (off order x.1 + k)) a).sum
      + (if st.doPose then (dzc st pG pGf m * hcat (skew ((lin st pG pGf m).2.2 - m.cal.p)) 1).mulVec
          (fun k => s (off order (.calib m.cam) + k)) a else 0)
      + (if st.doIntr then (Cam.distortZ m.kind m.intr (uvn pG m)).mulVec (fun k => s (off order (.intr m.cam) + k)) a else 0) := by
  have hrow : 2 * A.c ≤ 2 * A.c + (a:ℕ) ∧ 2 * A.c + (a:ℕ) < 2 * A.c + 2 := ⟨by omega, by omega⟩
  have hsub : 2 * A.c + (a:ℕ) - 2 * A.c = a := by omega
  have hcl := off_le hm1
  simp only [Var.size] at hcl
  have hxs : ∀ x ∈ xs, off order x.1 + 6 ≤ total order := fun x h => by
    have := off_le (hx x h).1; rw [(hx x h).2] at this; exact this
  -- the clone block
  have h1 : ∀ (B : Matrix (Fin 2) (Fin 6) ℝ), ∑ j ∈ range (total order),
      setBlock (2 * A.c) (off order (.clone m.t)) 2 6 (extM B) A.Hx (2 * A.c + a) j * s j =
      B.mulVec (fun k => s (off order (.clone m.t) + k)) a := by
    intro B
    rw [sum_setBlock s hrow hcl (fun j _ _ => hA _ (by omega) j), hsub, sum_extM B (fun k => s (off order (.clone m.t) + k))]
    simp [hA _ hrow.1]
  -- the extra blocks
  have h2 : ∀ (B : Matrix (Fin 2) (Fin 6) ℝ) (P : Matrix (Fin 2) (Fin 3) ℝ), ∑ j ∈ range (total order),
      (xs.foldl (fun H x => addBlock (2 * A.c) (off order x.1) 2 6 (extM (P * x.2)) H)
        (setBlock (2 * A.c) (off order (.clone m.t)) 2 6 (extM B) A.Hx)) (2 * A.c + a) j * s j =
      (xs.map fun x => (P * x.2).mulVec (fun k => s (off order x.1 + k)) a).sum + B.mulVec (fun k => s (off order (.clone m.t) + k)) a := by
    intro B P
    rw [foldl_add_sum (off order) P s a xs _ hxs, h1]
  -- the extrinsics block
  have h3 : ∀ (B C : Matrix (Fin 2) (Fin 6) ℝ) (P : Matrix (Fin 2) (Fin 3) ℝ), ∑ j ∈ range (total order),
      (if st.doPose then addBlock (2 * A.c) (off order (.calib m.cam)) 2 6 (extM C)
        (xs.foldl (fun H x => addBlock (2 * A.c) (off order x.1) 2 6 (extM (P * x.2)) H)
          (setBlock (2 * A.c) (off order (.clone m.t)) 2 6 (extM B) A.Hx))
        else xs.foldl (fun H x => addBlock (2 * A.c) (off order x.1) 2 6 (extM (P * x.2)) H)
          (setBlock (2 * A.c) (off order (.clone m.t)) 2 6 (extM B) A.Hx)) (2 * A.c + a) j * s j =
      (if st.doPose then C.mulVec (fun k => s (off order (.calib m.cam) + k)) a else 0) +
      ((xs.map fun x => (P * x.2).mulVec (fun k => s (off order x.1 + k)) a).sum +
        B.mulVec (fun k => s (off order (.clone m.t) + k)) a) := by
    intro B C P
    by_cases hp : st.doPose = true
    · have hq := off_le (hP hp)
      simp only [Var.size] at hq
      simp only [if_pos hp]
      rw [sum_addBlock s hrow hq, hsub, sum_extM C (fun k => s (off order (.calib m.cam) + k)), h2]
    · simp only [if_neg hp, zero_add]
      exact h2 B P
  -- the intrinsics block
  by_cases hi : st.doIntr = true
  · have hq := off_le (hI hi)
    simp only [Var.size] at hq
    simp only [writeMeas, if_pos hi]
    rw [sum_setBlock s hrow hq, hsub, sum_extM _ (fun k => s (off order (.intr m.cam) + k)), h3]
    · simp only [dzc, lin, uvn, Spec.inCam]; ring
    · intro j hj1 hj2
      have hd : ∀ v ∈ order, v ≠ .intr m.cam → v.size = 6 → ¬ (off order v ≤ j ∧ j < off order v + 6) := by
        intro v hv hne h6 hcon
        have := off_disj hne hv (hI hi)
        rw [h6] at this
        simp only [Var.size] at this
        omega
      have hfold : ∀ (B : Matrix (Fin 2) (Fin 6) ℝ) (P : Matrix (Fin 2) (Fin 3) ℝ),
          (xs.foldl (fun H x => addBlock (2 * A.c) (off order x.1) 2 6 (extM (P * x.2)) H)
            (setBlock (2 * A.c) (off order (.clone m.t)) 2 6 (extM B) A.Hx)) (2 * A.c + a) j = 0 := by
        intro B P
        rw [foldl_add_col (off order) P xs _ (fun x h => hd _ (hx x h).1 (hxi x h) (hx x h).2),
          setBlock_col (hd _ hm1 (by simp) rfl), hA _ hrow.1]
      by_cases hp : st.doPose = true
      · simp only [if_pos hp]
        rw [addBlock_col (hd _ (hP hp) (by simp) rfl), hfold]
      · simp only [if_neg hp]
        exact hfold _ _
  · simp only [writeMeas, if_neg hi]
    rw [h3]
    simp only [dzc, lin, uvn, Spec.inCam]; ring

theorem write_Hf (a : Fin 2) (s : V3) (hz : jf = 1 → ∀ i, dl i 1 = 0 ∧ dl i 2 = 0) (hj : jf = 1 ∨ jf = 3) :
    ∑ j ∈ range jf, (writeMeas st order pG pGf dl xs jf A m).Hf (2 * A.c + a) j * extV s j =
      (dzc st pG pGf m * (m.cal.R * (lin st pG pGf m).1) * dl).mulVec s a := by
  have e : ∀ j ∈ range jf, (writeMeas st order pG pGf dl xs jf A m).Hf (2 * A.c + a) j =
      extM (dzc st pG pGf m * (m.cal.R * (lin st pG pGf m).1) * dl) a j := by
    intro j hj
    rw [mem_range] at hj
    show setBlock _ _ _ _ _ _ _ _ = _
    unfold setBlock
    rw [if_pos ⟨⟨by omega, by omega⟩, by omega, by omega⟩, show 2 * A.c + (a:ℕ) - 2 * A.c = a by omega, Nat.sub_zero]
    simp only [dzc, lin, uvn, Spec.inCam]
  rw [Finset.sum_congr rfl fun j hj => by rw [e j hj]]
  generalize dzc st pG pGf m * (m.cal.R * (lin st pG pGf m).1) = P at *
  have ha : (a:ℕ) < 2 := a.2
  have hE : ∀ j (h : j < 3), extM (P * dl) a j = (P * dl) a ⟨j, h⟩ := fun j h => by
    simp only [extM]; rw [dif_pos ⟨ha, h⟩]
  rcases hj with rfl | rfl
  · have hz' := hz rfl
    rw [Finset.sum_range_one, hE 0 (by omega)]
    simp [Finset.sum_range_succ, extM, extV, Matrix.mulVec, dotProduct, Fin.sum_univ_succ, Matrix.mul_apply, hz']
  · rw [Finset.sum_range_succ, Finset.sum_range_succ, Finset.sum_range_one, hE 0 (by omega), hE 1 (by omega), hE 2 (by omega)]
    simp [extV, Matrix.mulVec, dotProduct, Fin.sum_univ_succ]
    ring

theorem write_res (a : Fin 2) :
    (writeMeas st order pG pGf dl xs jf A m).res (2 * A.c + a) = m.uv a - Spec.pixel m.kind m.intr m.clone.val m.cal pG a := by
  show (if _ then _ else _) = _
  rw [if_pos ⟨by omega, by omega⟩, show 2 * A.c + (a:ℕ) - 2 * A.c = a by omega]
  simp only [extV, dif_pos a.2]
  rfl

/-- the whole loop: earlier rows are kept, and every measurement's rows are those of its own pass. -/
theorem fold_rows {Q : Meas → Fin 2 → (ℕ → ℝ) → (ℕ → ℝ) → ℝ → Prop} : ∀ (ms : List Meas) (A : Acc), Clean A →
    (∀ m ∈ ms, ∀ A, Clean A → ∀ a : Fin 2, Q m a ((writeMeas st order pG pGf dl xs jf A m).Hx (2 * A.c + a))
      ((writeMeas st order pG pGf dl xs jf A m).Hf (2 * A.c + a)) ((writeMeas st order pG pGf dl xs jf A m).res (2 * A.c + a))) →
    (∀ i, i < 2 * A.c → (ms.foldl (writeMeas st order pG pGf dl xs jf) A).Hx i = A.Hx i ∧
      (ms.foldl (writeMeas st order pG pGf dl xs jf) A).Hf i = A.Hf i ∧ (ms.foldl (writeMeas st order pG pGf dl xs jf) A).res i = A.res i) ∧
    ∀ n (h : n < ms.length) (a : Fin 2), Q ms[n] a ((ms.foldl (writeMeas st order pG pGf dl xs jf) A).Hx (2 * (A.c + n) + a))
      ((ms.foldl (writeMeas st order pG pGf dl xs jf) A).Hf (2 * (A.c + n) + a))
      ((ms.foldl (writeMeas st order pG pGf dl xs jf) A).res (2 * (A.c + n) + a))
  | [], A, _, _ => ⟨fun i _ => ⟨rfl, rfl, rfl⟩, fun n h => absurd h (by simp)⟩
  | m :: ms, A, hA, hQ => by
    obtain ⟨h1, h2⟩ := fold_rows ms (writeMeas st order pG pGf dl xs jf A m) (write_clean _ _ _ _ _ _ _ _ _ hA)
      (fun x hx => hQ x (by simp [hx]))
    rw [write_c] at h1 h2
    refine ⟨fun i hi => ?_, fun n hn a => ?_⟩
    · obtain ⟨a1, a2, a3⟩ := h1 i (by omega)
      obtain ⟨b1, b2, b3⟩ := write_other st order pG pGf dl xs jf A m (i := i) (by omega)
      exact ⟨a1.trans b1, a2.trans b2, a3.trans b3⟩
    · cases n with
      | zero =>
        obtain ⟨a1, a2, a3⟩ := h1 (2 * (A.c + 0) + a) (by omega)
        rw [List.foldl_cons, a1, a2, a3]
        exact hQ m (by simp) A hA a
      | succ n =>
        have := h2 n (by simpa using hn) a
        rw [show A.c + (n + 1) = A.c + 1 + n by omega]
        exact this

end

end Verif.Upd
