import Verif.Sim.Perturb
import Verif.Quat.Props

/-!
# C130: a perturbed simulation changes what the estimator is told, never the truth
-/

namespace Verif.Perturb

open Verif.Quat Verif.Prop_ Verif.QuatProps

/-! ## Specification -/

/-- A configuration as `print_and_load_state` leaves it: every camera id names its own camera object, and every camera of the rig has
an object and an extrinsic calibration with a unit quaternion. -/
structure Configured (o : Opts) (h : Heap) : Prop where
  ids : (o.cams.map (·.1)).Nodup
  objs : (o.cams.map (·.2)).Nodup
  valid : ∀ p ∈ o.cams, p.2 < h.length
  rig : ∀ i < o.num, (∃ a, (i, a) ∈ o.cams) ∧ ∃ q p, o.ext i = some (q, p) ∧ IsUnitQ q

/-- `q'` is the orientation `q` turned by the rotation vector `v` (rotation vectors shorter than 1e-7 other than zero excepted, see
C25), in the stored form of an orientation. -/
def Turned (v : V3) (q q' : Quat) : Prop :=
  1e-7 ≤ norm3 v ∨ v = 0 → CanonQ q' ∧ quat2Rot q' = expSO3 v * quat2Rot q

/-- The perturbed camera: same model and size, focal lengths and principal point off by one pixel per unit, distortion by 0.005. -/
structure CamOff (w : ℕ → ℝ) (b : ℕ) (c c' : CamObj) : Prop where
  equi : c'.equi = c.equi
  width : c'.w = c.w
  height : c'.h = c.h
  lens : ∀ r : Fin 8, c'.val r - c.val r = (if r.1 < 4 then 1 else 0.005) * w (b + r.1)

/-- The perturbed pose of a camera on the rig: turned by 0.001 per unit, moved by 0.01 per unit. -/
structure PoseOff (w : ℕ → ℝ) (b : ℕ) (q : Quat) (p : V3) (q' : Quat) (p' : V3) : Prop where
  turn : Turned ![0.001 * w b, 0.001 * w (b + 1), 0.001 * w (b + 2)] q q'
  move : ∀ j : Fin 3, p' j - p j = 0.01 * w (b + 3 + j.1)

/-! ## Lemmas -/

theorem turn_turned (v : V3) {q : Quat} (hq : IsUnitQ q) : Turned v q (turn v q) := by
  intro hv
  have h1 := (C25_exp_rotation v).1 hv
  have h2 := C24_rotation_round_trip.1 q hq
  exact C24_rotation_round_trip.2 _ (h1.mul h2)

def lookA (l : List (ℕ × ℕ)) (i : ℕ) : Option ℕ := (l.find? fun p => p.1 == i).map (·.2)

theorem addr_eq (o : Opts) (i : ℕ) : o.addr i = lookA o.cams i := rfl

theorem lookA_mem {l : List (ℕ × ℕ)} {i a : ℕ} (h : lookA l i = some a) : (i, a) ∈ l := by
  unfold lookA at h
  rw [Option.map_eq_some_iff] at h
  obtain ⟨⟨k, b⟩, hf, rfl⟩ := h
  have h1 := List.find?_some hf
  have h2 := List.mem_of_find?_eq_some hf
  simp only [beq_iff_eq] at h1
  subst h1; exact h2

theorem lookA_cons (k a i : ℕ) (l : List (ℕ × ℕ)) :
    lookA ((k, a) :: l) i = if k = i then some a else lookA l i := by
  unfold lookA
  by_cases h : k = i
  · subst h; simp
  · have hb : (k == i) = false := by simpa using h
    rw [if_neg h, List.find?_cons]
    simp only [hb]

theorem lookA_of_mem {l : List (ℕ × ℕ)} {i a : ℕ} (hk : (l.map (·.1)).Nodup) (h : (i, a) ∈ l) : lookA l i = some a := by
  induction l with
  | nil => cases h
  | cons x l ih =>
    obtain ⟨k, b⟩ := x
    rw [lookA_cons]
    simp only [List.map_cons, List.nodup_cons] at hk
    rcases List.mem_cons.1 h with h | h
    · cases h; simp
    · rw [if_neg, ih hk.2 h]
      rintro rfl
      exact hk.1 (List.mem_map.2 ⟨_, h, rfl⟩)

theorem lookA_inj {l : List (ℕ × ℕ)} {i j a : ℕ} (ho : (l.map (·.2)).Nodup) (hi : lookA l i = some a) (hj : lookA l j = some a) :
    i = j := by
  have h1 := lookA_mem hi
  have h2 := lookA_mem hj
  have := List.inj_on_of_nodup_map ho h1 h2 rfl
  exact congrArg Prod.fst this

theorem copyCams_spec : ∀ (l : List (ℕ × ℕ)) (h : Heap), (∀ p ∈ l, p.2 < h.length) →
    ∃ l' n, copyCams l h = some (l', h ++ n) ∧ (∀ p ∈ l', h.length ≤ p.2) ∧
      ∀ i, (lookA l' i).bind (fun a => (h ++ n)[a]?) = (lookA l i).bind fun a => h[a]? := by
  intro l
  induction l with
  | nil => intro h _; exact ⟨[], [], by simp [copyCams], by simp, fun i => by simp [lookA]⟩
  | cons x l ih =>
    intro h hv
    obtain ⟨k, a⟩ := x
    have ha : a < h.length := hv (k, a) (by simp)
    obtain ⟨c, hc⟩ : ∃ c, h[a]? = some c := ⟨h[a], List.getElem?_eq_getElem ha⟩
    have hcc : (if c.equi then (⟨true, c.w, c.h, c.val⟩ : CamObj) else ⟨false, c.w, c.h, c.val⟩) = c := by
      cases c with
      | mk e w h v => cases e <;> rfl
    obtain ⟨l', n, h1, h2, h3⟩ := ih (h ++ [c]) (fun p hp => by
      have := hv p (List.mem_cons_of_mem _ hp)
      simp only [List.length_append, List.length_singleton]; omega)
    refine ⟨(k, h.length) :: l', c :: n, ?_, ?_, ?_⟩
    · simp only [copyCams, hc, hcc, h1]
      simp
    · intro p hp
      rcases List.mem_cons.1 hp with rfl | hp
      · exact le_rfl
      · have := h2 p hp
        simp only [List.length_append, List.length_singleton] at this; omega
    · intro i
      rw [lookA_cons, lookA_cons]
      by_cases hi : k = i
      · simp only [if_pos hi, Option.bind_some, hc]
        rw [List.getElem?_append_right le_rfl]; simp
      · simp only [if_neg hi]
        have h4 := h3 i
        rw [List.append_assoc, List.singleton_append] at h4
        rw [h4]
        cases hl : lookA l i with
        | none => rfl
        | some b =>
          have hb := hv (i, b) (List.mem_cons_of_mem _ (lookA_mem hl))
          simp only [Option.bind_some]
          rw [List.getElem?_append_left hb]

/-- the objects from address `n` on are the same. -/
def Above (n : ℕ) (h H : Heap) : Prop := H.length = h.length ∧ ∀ a, n ≤ a → H[a]? = h[a]?

theorem Above.set {n a : ℕ} {h : Heap} (c : CamObj) (ha : a < n) : Above n h (h.set a c) :=
  ⟨List.length_set, fun b hb => List.getElem?_set_ne (by omega)⟩

theorem Above.trans {n : ℕ} {h H K : Heap} (h1 : Above n h H) (h2 : Above n H K) : Above n h K :=
  ⟨h2.1.trans h1.1, fun a ha => (h2.2 a ha).trans (h1.2 a ha)⟩

theorem perturbCam_above {w : ℕ → ℝ} {b i n : ℕ} {o o' : Opts} {h h' : Heap} (hv : ∀ p ∈ o.cams, p.2 < n)
    (he : perturbCam w b i o h = some (o', h')) :
    Above n h h' ∧ o'.cams = o.cams := by
  unfold perturbCam at he
  split at he
  · cases he
  · rename_i a ha
    split at he
    · simp only [Option.some.injEq, Prod.mk.injEq] at he
      obtain ⟨rfl, rfl⟩ := he
      exact ⟨Above.set _ (hv _ (lookA_mem ha)), rfl⟩
    · cases he

theorem perturbCams_above {w : ℕ → ℝ} {n : ℕ} : ∀ (k b i : ℕ) (o o' : Opts) (h h' : Heap) (b' : ℕ), (∀ p ∈ o.cams, p.2 < n) →
    perturbCams w k b i o h = some (o', h', b') → Above n h h' ∧ o'.cams = o.cams := by
  intro k
  induction k with
  | zero =>
    intro b i o o' h h' b' _ he
    simp only [perturbCams, Option.some.injEq, Prod.mk.injEq] at he
    obtain ⟨rfl, rfl, _⟩ := he
    exact ⟨⟨rfl, fun _ _ => rfl⟩, rfl⟩
  | succ k ih =>
    intro b i o o' h h' b' hv he
    unfold perturbCams at he
    split at he
    · cases he
    · rename_i o1 h1 h2
      obtain ⟨a1, a2⟩ := perturbCam_above hv h2
      obtain ⟨a3, a4⟩ := ih _ _ _ _ _ _ _ (by rw [a2]; exact hv) he
      exact ⟨a1.trans a3, a4.trans a2⟩

theorem perturbImu_cams (w : ℕ → ℝ) (b : ℕ) (o : Opts) : (perturbImu w b o).1.cams = o.cams := by
  unfold perturbImu; split <;> rfl

theorem perturbG_cams (w : ℕ → ℝ) (b : ℕ) (o : Opts) : (perturbG w b o).1.cams = o.cams := by
  unfold perturbG; split <;> rfl

theorem perturbParams_above {w : ℕ → ℝ} {n b : ℕ} {o o' : Opts} {h h' : Heap} (hv : ∀ p ∈ o.cams, p.2 < n)
    (he : perturbParams w o h = some (o', h', b)) : Above n h h' ∧ o'.cams = o.cams := by
  unfold perturbParams at he
  split at he
  · cases he
  · rename_i o1 h1 b1 h2
    obtain ⟨a1, a2⟩ := perturbCams_above (n := n) _ _ _ _ _ _ _ _ (by exact hv) h2
    simp only [Option.some.injEq, Prod.mk.injEq] at he
    obtain ⟨rfl, rfl, _⟩ := he
    refine ⟨a1, ?_⟩
    rw [perturbG_cams, perturbImu_cams, a2]

theorem estWrite_above {e : Est} {n : ℕ} (hv : ∀ p ∈ e.cams, p.2 < n) (h : Heap) (x : ℕ × (Fin 8 → ℝ)) :
    Above n h (estWrite e h x) := by
  unfold estWrite
  split
  · exact ⟨rfl, fun _ _ => rfl⟩
  · rename_i a ha
    split
    · exact ⟨rfl, fun _ _ => rfl⟩
    · exact Above.set _ (hv _ (lookA_mem ha))

theorem estWrites_above {e : Est} {n : ℕ} (hv : ∀ p ∈ e.cams, p.2 < n) : ∀ (ws : List (ℕ × (Fin 8 → ℝ))) (h : Heap),
    Above n h (ws.foldl (estWrite e) h) := by
  intro ws
  induction ws with
  | nil => intro h; exact ⟨rfl, fun _ _ => rfl⟩
  | cons x ws ih => intro h; exact (estWrite_above hv h x).trans (ih _)

theorem estCtor_cams {o : Opts} {h : Heap} {e : Est} (he : estCtor o h = some e) : e.cams = o.cams := by
  unfold estCtor at he
  split at he
  · cases he; rfl
  · cases he

theorem simCtor_inv {w : ℕ → ℝ} {o sim main : Opts} {h H : Heap} (hv : ∀ p ∈ o.cams, p.2 < h.length)
    (hs : simCtor w o h = some (sim, main, H)) :
    ∃ l n, copyCams o.cams h = some (l, h ++ n) ∧ sim = { o with cams := l } ∧ main.cams = o.cams ∧ Above h.length (h ++ n) H ∧
      (∀ p ∈ l, h.length ≤ p.2) ∧
      ∀ i, (lookA l i).bind (fun a => (h ++ n)[a]?) = (lookA o.cams i).bind fun a => h[a]? := by
  obtain ⟨l, n, h1, h2, h3⟩ := copyCams_spec o.cams h hv
  refine ⟨l, n, h1, ?_⟩
  unfold simCtor at hs
  simp only [h1] at hs
  split at hs
  · split at hs
    · cases hs
    · rename_i o2 h2' b2 h4
      simp only [Option.some.injEq, Prod.mk.injEq] at hs
      obtain ⟨rfl, rfl, rfl⟩ := hs
      obtain ⟨a1, a2⟩ := perturbParams_above hv h4
      exact ⟨rfl, a2, a1, h2, h3⟩
  · simp only [Option.some.injEq, Prod.mk.injEq] at hs
    obtain ⟨rfl, rfl, rfl⟩ := hs
    exact ⟨rfl, rfl, ⟨rfl, fun _ _ => rfl⟩, h2, h3⟩

/-! ## The truth -/

/-- **C130.** The simulator's own calibration is the configured one, whatever the perturbation was and whatever the estimator later
stores in the camera objects it was given: the time offset, the IMU calibration, the camera poses and, for every camera, the model,
the size and the eight lens values. -/
theorem C130_truth_kept (w : ℕ → ℝ) (o sim main : Opts) (h H : Heap) (e : Est) (hv : ∀ p ∈ o.cams, p.2 < h.length)
    (hs : simCtor w o h = some (sim, main, H)) (he : estCtor main H = some e) (ws : List (ℕ × (Fin 8 → ℝ))) :
    sim.dt = o.dt ∧ sim.cal = o.cal ∧ sim.ext = o.ext ∧ sim.num = o.num ∧ sim.kalibr = o.kalibr ∧
    ∀ i, sim.cam (ws.foldl (estWrite e) H) i = o.cam h i := by
  obtain ⟨l, n, h1, rfl, h2, h3, h4, h5⟩ := simCtor_inv hv hs
  refine ⟨rfl, rfl, rfl, rfl, rfl, fun i => ?_⟩
  have hc : e.cams = o.cams := (estCtor_cams he).trans h2
  have ha := h3.trans (estWrites_above (e := e) (n := h.length) (by rw [hc]; exact hv) ws H)
  have h6 := h5 i
  show (lookA l i).bind _ = (lookA o.cams i).bind _
  rw [← h6]
  cases hl : lookA l i with
  | none => rfl
  | some a => exact ha.2 a (h4 _ (lookA_mem hl))

/-- **C130.** The estimator does write to the objects it was given: after a write the camera object it uses (and that the caller's
options still name) holds exactly the values written. So the copy in the constructor is what keeps the truth. -/
theorem C130_estimator_writes (o : Opts) (H : Heap) (e : Est) (he : estCtor o H = some e) (i : ℕ) (v : Fin 8 → ℝ) (c : CamObj)
    (hc : o.cam H i = some c) : o.cam (estWrite e H (i, v)) i = some { c with val := v } := by
  have hcs := estCtor_cams he
  unfold Opts.cam at hc ⊢
  rw [addr_eq] at hc ⊢
  cases ha : lookA o.cams i with
  | none => rw [ha] at hc; cases hc
  | some a =>
    rw [ha] at hc
    simp only [Option.bind_some] at hc ⊢
    have : estWrite e H (i, v) = H.set a { c with val := v } := by
      unfold estWrite
      have hl : (List.find? (fun p => p.1 == (i, v).1) e.cams).map (·.2) = some a := by rw [hcs]; exact ha
      rw [hl]; simp only [hc]
    rw [this]
    have hlt : a < H.length := (List.getElem?_eq_some_iff.1 hc).1
    rw [List.getElem?_set_self hlt]

/-! ## What the estimator starts from -/

theorem perturbCam_spec {w : ℕ → ℝ} {b i : ℕ} {o : Opts} {h : Heap} {c : CamObj} {q : Quat} {p : V3}
    (ho : (o.cams.map (·.2)).Nodup) (hc : o.cam h i = some c) (hx : o.ext i = some (q, p)) (hq : IsUnitQ q) :
    ∃ o' h' c' q' p', perturbCam w b i o h = some (o', h') ∧
      o' = { o with ext := o'.ext } ∧
      o'.cam h' i = some c' ∧ o'.ext i = some (q', p') ∧ CamOff w b c c' ∧ PoseOff w (b + 8) q p q' p' ∧
      ∀ j, j ≠ i → o'.cam h' j = o.cam h j ∧ o'.ext j = o.ext j := by
  unfold Opts.cam at hc
  rw [addr_eq] at hc
  cases ha : lookA o.cams i with
  | none => rw [ha] at hc; cases hc
  | some a =>
    rw [ha] at hc
    simp only [Option.bind_some] at hc
    have hlt : a < h.length := (List.getElem?_eq_some_iff.1 hc).1
    have hadd : o.addr i = some a := ha
    let q' := turn ![0.001 * w (b + 8), 0.001 * w (b + 9), 0.001 * w (b + 10)] q
    let p' : V3 := ![p 0 + 0.01 * w (b + 11), p 1 + 0.01 * w (b + 12), p 2 + 0.01 * w (b + 13)]
    let c' : CamObj :=
      { c with val := fun r => if r.1 < 4 then c.val r + 1 * w (b + r.1) else c.val r + 0.005 * w (b + r.1) }
    refine ⟨{ o with ext := Function.update o.ext i (some (q', p')) }, h.set a c', c', q', p', ?_, rfl, ?_, ?_, ?_, ?_, ?_⟩
    · unfold perturbCam
      simp only [hadd, hc, hx, q', p', c']
    · unfold Opts.cam
      show (lookA o.cams i).bind _ = _
      rw [ha, Option.bind_some, List.getElem?_set_self hlt]
    · simp only [Function.update_self]
    · refine ⟨rfl, rfl, rfl, fun r => ?_⟩
      simp only [c']
      split_ifs <;> ring
    · refine ⟨?_, ?_⟩
      · exact turn_turned _ hq
      · intro j
        fin_cases j <;> simp [add_assoc, p']
    · intro j hj
      refine ⟨?_, by simp only [Function.update_of_ne hj]⟩
      unfold Opts.cam
      show (lookA o.cams j).bind _ = (lookA o.cams j).bind _
      cases hl : lookA o.cams j with
      | none => rfl
      | some a' =>
        simp only [Option.bind_some]
        rw [List.getElem?_set_ne]
        rintro rfl
        exact hj (lookA_inj ho hl ha)

theorem perturbCams_spec {w : ℕ → ℝ} : ∀ (k b i : ℕ) (o : Opts) (h : Heap),
    (o.cams.map (·.2)).Nodup →
    (∀ j, i ≤ j → j < i + k → (∃ c, o.cam h j = some c) ∧ ∃ q p, o.ext j = some (q, p) ∧ IsUnitQ q) →
    ∃ o' h', perturbCams w k b i o h = some (o', h', b + 14 * k) ∧ o' = { o with ext := o'.ext } ∧
      (∀ j, i ≤ j → j < i + k → ∃ c q p c' q' p', o.cam h j = some c ∧ o.ext j = some (q, p) ∧
        o'.cam h' j = some c' ∧ o'.ext j = some (q', p') ∧ CamOff w (b + 14 * (j - i)) c c' ∧
        PoseOff w (b + 14 * (j - i) + 8) q p q' p') ∧
      ∀ j, j < i ∨ i + k ≤ j → o'.cam h' j = o.cam h j ∧ o'.ext j = o.ext j := by
  intro k
  induction k with
  | zero =>
    intro b i o h _ _
    exact ⟨o, h, by simp [perturbCams], rfl, fun j h1 h2 => by omega, fun j _ => ⟨rfl, rfl⟩⟩
  | succ k ih =>
    intro b i o h ho hr
    obtain ⟨⟨c, hc⟩, q, p, hx, hq⟩ := hr i le_rfl (by omega)
    obtain ⟨o1, h1, c', q', p', e1, e2, e3, e4, e5, e6, e7⟩ := perturbCam_spec (w := w) (b := b) ho hc hx hq
    have hcams : o1.cams = o.cams := by rw [e2]
    obtain ⟨o2, h2, f1, f2, f3, f4⟩ := ih (b + 14) (i + 1) o1 h1 (by rw [hcams]; exact ho) (fun j hj1 hj2 => by
      obtain ⟨g1, g2⟩ := e7 j (by omega)
      rw [g1, g2]
      exact hr j (by omega) (by omega))
    refine ⟨o2, h2, ?_, ?_, ?_, ?_⟩
    · simp only [perturbCams, e1, f1]
      congr 3; ring
    · rw [f2, e2]
    · intro j hj1 hj2
      rcases Nat.eq_or_lt_of_le hj1 with rfl | hlt
      · obtain ⟨g1, g2⟩ := f4 i (Or.inl (by omega))
        exact ⟨c, q, p, c', q', p', hc, hx, g1.trans e3, g2.trans e4, by simpa using e5, by simpa using e6⟩
      · obtain ⟨d, r, s, d', r', s', g1, g2, g3, g4, g5, g6⟩ := f3 j (by omega) (by omega)
        obtain ⟨k1, k2⟩ := e7 j (by omega)
        have hb : b + 14 + 14 * (j - (i + 1)) = b + 14 * (j - i) := by omega
        rw [hb] at g5 g6
        exact ⟨d, r, s, d', r', s', k1.symm.trans g1, k2.symm.trans g2, g3, g4, g5, g6⟩
    · intro j hj
      obtain ⟨g1, g2⟩ := f4 j (by omega)
      obtain ⟨k1, k2⟩ := e7 j (by omega)
      exact ⟨g1.trans k1, g2.trans k2⟩

/-- The IMU calibration the estimator is given, `m` being the number of random numbers used before. -/
structure ImuOff (w : ℕ → ℝ) (m : ℕ) (o : Opts) (c : Cal) : Prop where
  dw : ∀ j < 6, c.dw j - o.cal.dw j = if o.calibImu then 0.004 * w (m + 2 * j) else 0
  da : ∀ j < 6, c.da j - o.cal.da j = if o.calibImu then 0.004 * w (m + 2 * j + 1) else 0
  tg : ∀ j < 9, c.tg j - o.cal.tg j = if o.calibG then 0.004 * w (m + (if o.calibImu then 15 else 0) + j) else 0
  qw : if o.calibImu ∧ o.kalibr
    then Turned ![0.002 * w (m + 12), 0.002 * w (m + 13), 0.002 * w (m + 14)] o.cal.qw c.qw else c.qw = o.cal.qw
  qa : if o.calibImu ∧ ¬ o.kalibr
    then Turned ![0.002 * w (m + 12), 0.002 * w (m + 13), 0.002 * w (m + 14)] o.cal.qa c.qa else c.qa = o.cal.qa

theorem imu_off (w : ℕ → ℝ) (m : ℕ) (o : Opts) (hw : IsUnitQ o.cal.qw) (ha : IsUnitQ o.cal.qa) :
    ImuOff w m o (perturbG w (perturbImu w m o).2 (perturbImu w m o).1).1.cal ∧
    (perturbG w (perturbImu w m o).2 (perturbImu w m o).1).2
      = m + (if o.calibImu then 15 else 0) + (if o.calibG then 9 else 0) ∧
    (perturbG w (perturbImu w m o).2 (perturbImu w m o).1).1
      = { o with cal := (perturbG w (perturbImu w m o).2 (perturbImu w m o).1).1.cal } := by
  obtain ⟨num, dt, cams, ext, cal, ci, cg, kal, per⟩ := o
  cases ci <;> cases cg <;> cases kal <;>
    (refine ⟨⟨?_, ?_, ?_, ?_, ?_⟩, rfl, rfl⟩ <;>
      first
      | (intro j hj; simp [perturbG, perturbImu, hj])
      | (simp [perturbG, perturbImu]; done)
      | (simp only [perturbG, perturbImu]; simp; first | exact turn_turned _ hw | exact turn_turned _ ha))

theorem cam_of_mem {o : Opts} {h : Heap} (hc : Configured o h) {i : ℕ} (hi : i < o.num) : ∃ c, o.cam h i = some c := by
  obtain ⟨⟨a, ha⟩, -⟩ := hc.rig i hi
  have h1 := lookA_of_mem hc.ids ha
  have h2 := hc.valid _ ha
  refine ⟨h[a], ?_⟩
  unfold Opts.cam
  rw [addr_eq, h1, Option.bind_some, List.getElem?_eq_getElem h2]

theorem cam_append {o : Opts} {h : Heap} (hv : ∀ p ∈ o.cams, p.2 < h.length) (n : Heap) (i : ℕ) :
    o.cam (h ++ n) i = o.cam h i := by
  unfold Opts.cam
  rw [addr_eq]
  cases hl : lookA o.cams i with
  | none => rfl
  | some a =>
    simp only [Option.bind_some]
    rw [List.getElem?_append_left (hv _ (lookA_mem hl))]

/-- **C130.** With the perturbation on, both constructors succeed for every configuration, and the estimator starts from the configured
calibration plus the perturbation: every component is off by its own scale times its own random number (no two components share one:
the time offset uses number 0, camera `i` the fourteen from `1 + 14 i`, the IMU those after the cameras), orientations being turned
and stored as unit quaternions; the camera objects it uses agree with its own variables; the IMU intrinsics and the gravity
sensitivity are off only if they are estimated. -/
theorem C130_perturbed_start (w : ℕ → ℝ) (o : Opts) (h : Heap) (hc : Configured o h) (hp : o.perturb = true)
    (hw : IsUnitQ o.cal.qw) (ha : IsUnitQ o.cal.qa) :
    ∃ sim main H e, simCtor w o h = some (sim, main, H) ∧ estCtor main H = some e ∧
      e.dt - o.dt = 0.01 * w 0 ∧ ImuOff w (1 + 14 * o.num) o e.cal ∧
      ∀ i < o.num, ∃ c q p c' q' p', o.cam h i = some c ∧ o.ext i = some (q, p) ∧
        main.cam H i = some c' ∧ e.intr i = some c'.val ∧ e.ext i = some (q', p') ∧
        CamOff w (1 + 14 * i) c c' ∧ PoseOff w (1 + 14 * i + 8) q p q' p' := by
  obtain ⟨l, n, h1, -, -⟩ := copyCams_spec o.cams h hc.valid
  obtain ⟨o1, h1', f1, f2, f3, f4⟩ := perturbCams_spec (w := w) o.num 1 0 { o with dt := o.dt + 0.01 * w 0 } (h ++ n) hc.objs
    (fun j _ hj => by
      obtain ⟨c, hcc⟩ := cam_of_mem hc (i := j) (by omega)
      obtain ⟨-, hx⟩ := hc.rig j (by omega)
      exact ⟨⟨c, by rw [← hcc]; exact cam_append (o := o) hc.valid n j⟩, hx⟩)
  have hcal : o1.cal = o.cal := by rw [f2]
  have hci : o1.calibImu = o.calibImu := by rw [f2]
  have hcg : o1.calibG = o.calibG := by rw [f2]
  have hck : o1.kalibr = o.kalibr := by rw [f2]
  have hcn : o1.num = o.num := by rw [f2]
  have hcd : o1.dt = o.dt + 0.01 * w 0 := by rw [f2]
  obtain ⟨g1, g2, g3⟩ := imu_off w (1 + 14 * o.num) o1 (by rw [hcal]; exact hw) (by rw [hcal]; exact ha)
  set O := (perturbG w (perturbImu w (1 + 14 * o.num) o1).2 (perturbImu w (1 + 14 * o.num) o1).1).1 with hO
  have hcam : ∀ i, O.cam h1' i = o1.cam h1' i := fun i => by rw [g3]; rfl
  have hext : O.ext = o1.ext := by rw [g3]
  have hnum : O.num = o.num := by rw [g3]; exact hcn
  have hctor : simCtor w o h = some ({ o with cams := l }, O, h1') := by
    unfold simCtor
    simp only [h1, hp, if_true]
    unfold perturbParams
    simp only [f1, hO]
  have hall : ∀ i < O.num, (O.cam h1' i).isSome ∧ (O.ext i).isSome := by
    intro i hi
    obtain ⟨c, q, p, c', q', p', a1, a2, a3, a4, -, -⟩ := f3 i (by omega) (by omega)
    rw [hcam, hext, a3, a4]; exact ⟨rfl, rfl⟩
  refine ⟨_, O, h1', _, hctor, by unfold estCtor; rw [if_pos hall], ?_, ?_, ?_⟩
  · show O.dt - o.dt = _
    rw [g3]; show o1.dt - o.dt = _
    rw [hcd]; ring
  · obtain ⟨b1, b2, b3, b4, b5⟩ := g1
    rw [hcal, hci] at b1 b2
    rw [hcal, hci, hcg] at b3
    rw [hcal, hci, hck] at b4 b5
    exact ⟨b1, b2, b3, b4, b5⟩
  · intro i hi
    obtain ⟨c, q, p, c', q', p', a1, a2, a3, a4, a5, a6⟩ := f3 i (by omega) (by omega)
    have hi' : i < O.num := by omega
    refine ⟨c, q, p, c', q', p', ?_, a2, (hcam i).trans a3, ?_, ?_, by simpa using a5, by simpa using a6⟩
    · rw [← a1]; exact (cam_append (o := o) hc.valid n i).symm
    · dsimp only
      rw [if_pos hi', hcam, a3]; rfl
    · dsimp only
      rw [if_pos hi', hext, a4]

/-- **C130.** Without the perturbation the estimator starts from the configured calibration itself. -/
theorem C130_unperturbed_start (w : ℕ → ℝ) (o : Opts) (h : Heap) (hc : Configured o h) (hp : o.perturb = false) :
    ∃ sim main H e, simCtor w o h = some (sim, main, H) ∧ estCtor main H = some e ∧ main = o ∧
      e.dt = o.dt ∧ e.cal = o.cal ∧
      ∀ i < o.num, main.cam H i = o.cam h i ∧ e.intr i = (o.cam h i).map (·.val) ∧ e.ext i = o.ext i := by
  obtain ⟨l, n, h1, -, -⟩ := copyCams_spec o.cams h hc.valid
  have hall : ∀ i < o.num, (o.cam (h ++ n) i).isSome ∧ (o.ext i).isSome := by
    intro i hi
    obtain ⟨c, hcc⟩ := cam_of_mem hc hi
    obtain ⟨-, q, p, hx, -⟩ := hc.rig i hi
    rw [cam_append hc.valid, hcc, hx]; exact ⟨rfl, rfl⟩
  refine ⟨{ o with cams := l }, o, h ++ n, _, ?_, by unfold estCtor; rw [if_pos hall], rfl, rfl, rfl, ?_⟩
  · unfold simCtor
    simp [h1, hp]
  · intro i hi
    refine ⟨cam_append hc.valid n i, ?_, ?_⟩
    · dsimp only; rw [if_pos hi, cam_append hc.valid]
    · dsimp only; rw [if_pos hi]

/-- A stereo rig with a fisheye and a radial-tangential camera meets the hypotheses. -/
example : ∃ (o : Opts) (h : Heap), Configured o h ∧ o.perturb = true ∧ o.num = 2 ∧ IsUnitQ o.cal.qw ∧ IsUnitQ o.cal.qa := by
  refine ⟨⟨2, 0, [(1, 0), (0, 1)], fun _ => some (⟨0, 0, 0, 1⟩, 0), ⟨0, 0, 0, ⟨0, 0, 0, 1⟩, ⟨0, 0, 0, 1⟩⟩, true, true, true, true⟩,
    [⟨true, 752, 480, fun _ => 1⟩, ⟨false, 640, 480, fun _ => 2⟩], ⟨by decide, by decide, by simp, ?_⟩, rfl, rfl,
    by norm_num [IsUnitQ], by norm_num [IsUnitQ]⟩
  intro i hi
  refine ⟨?_, _, _, rfl, by norm_num [IsUnitQ]⟩
  have : i = 0 ∨ i = 1 := by simp only at hi; omega
  rcases this with rfl | rfl
  · exact ⟨1, by simp⟩
  · exact ⟨0, by simp⟩

end Verif.Perturb
