import Verif.Imu.Model
import Mathlib.Tactic.Linarith
import Mathlib.Tactic.FieldSimp
import Mathlib.Tactic.Ring
import Mathlib.Tactic.NormNum

/-!
# Property theorems about IMU selection, interpolation and the buffer (C19, C20, C21)
-/

open Classical

set_option linter.unusedVariables false
set_option linter.unusedSimpArgs false

namespace Verif.Imu

open Verif

/-! ### C20 -/

/-- **C20** Interpolation gives the requested time, is exact at both ends, linear in between, and bounded componentwise. -/
theorem C20_interpolate (a b : Reading) (h : a.t ≠ b.t) (t : ℝ) :
    (interp a b t).t = t ∧ interp a b a.t = a ∧ interp a b b.t = b ∧
    (∀ i, ((interp a b t).wm i - a.wm i) * (b.t - a.t) = (b.wm i - a.wm i) * (t - a.t)) ∧
    (∀ i, ((interp a b t).am i - a.am i) * (b.t - a.t) = (b.am i - a.am i) * (t - a.t)) ∧
    (a.t ≤ t → t ≤ b.t → ∀ i, min (a.wm i) (b.wm i) ≤ (interp a b t).wm i ∧ (interp a b t).wm i ≤ max (a.wm i) (b.wm i) ∧
      min (a.am i) (b.am i) ≤ (interp a b t).am i ∧ (interp a b t).am i ≤ max (a.am i) (b.am i)) := by
  have hd : b.t - a.t ≠ 0 := fun e => h (by linarith)
  refine ⟨rfl, ?_, ?_, ?_, ?_, ?_⟩
  · simp [interp]
  · simp [interp, div_self hd]
  · intro i; simp only [interp, Pi.add_apply, Pi.smul_apply, smul_eq_mul]; field_simp; ring
  · intro i; simp only [interp, Pi.add_apply, Pi.smul_apply, smul_eq_mul]; field_simp; ring
  · intro h1 h2 i
    have hpos : 0 < b.t - a.t := by
      rcases lt_or_eq_of_le (h1.trans h2) with h' | h'
      · linarith
      · exact absurd h' h
    have l0 : 0 ≤ (t - a.t) / (b.t - a.t) := div_nonneg (by linarith) hpos.le
    have l1 : (t - a.t) / (b.t - a.t) ≤ 1 := by rw [div_le_one hpos]; linarith
    have key : ∀ (l x y : ℝ), 0 ≤ l → l ≤ 1 → min x y ≤ (1 - l) * x + l * y ∧ (1 - l) * x + l * y ≤ max x y := by
      intro l x y a0 a1
      have m1 := min_le_left x y; have m2 := min_le_right x y
      have m3 := le_max_left x y; have m4 := le_max_right x y
      constructor <;> nlinarith
    simp only [interp, Pi.add_apply, Pi.smul_apply, smul_eq_mul]
    exact ⟨(key _ _ _ l0 l1).1, (key _ _ _ l0 l1).2, (key _ _ _ l0 l1).1, (key _ _ _ l0 l1).2⟩

/-! ### C19 -/

/-- the reading `x` is on the piecewise linear signal through the buffer: it is a buffered reading, or lies strictly between
two consecutive ones on the line through them. -/
def Spec.OnSignal (buf : List Reading) (x : Reading) : Prop :=
  x ∈ buf ∨ ∃ a b, [a, b] <:+: buf ∧ a.t < x.t ∧ x.t < b.t ∧
    ∀ i, (x.wm i - a.wm i) * (b.t - a.t) = (b.wm i - a.wm i) * (x.t - a.t) ∧
         (x.am i - a.am i) * (b.t - a.t) = (b.am i - a.am i) * (x.t - a.t)

/-- strictly increasing times. -/
def Spec.Sorted (l : List Reading) : Prop := l.Pairwise fun a b => a.t < b.t

theorem onSignal_interp {buf : List Reading} {a b : Reading} (h : [a, b] <:+: buf) {t : ℝ} (h1 : a.t ≤ t) (h2 : t ≤ b.t)
    (h3 : a.t < b.t) : Spec.OnSignal buf (interp a b t) := by
  obtain ⟨c1, c2, c3, c4, c5, _⟩ := C20_interpolate a b h3.ne t
  rcases eq_or_lt_of_le h1 with rfl | h1
  · rw [c2]; exact .inl (h.subset (by simp))
  · rcases eq_or_lt_of_le h2 with rfl | h2
    · rw [c3]; exact .inl (h.subset (by simp))
    · exact .inr ⟨a, b, h, h1, h2, fun i => ⟨c4 i, c5 i⟩⟩

theorem onSignal_mono {l buf : List Reading} (h : l <:+: buf) {x : Reading} (hx : Spec.OnSignal l x) : Spec.OnSignal buf x := by
  rcases hx with hx | ⟨a, b, h1, h2⟩
  · exact .inl (h.subset hx)
  · exact .inr ⟨a, b, h1.trans h, h2⟩

theorem endAt_last (a b : Reading) (t1 : ℝ) (acc : List Reading) (x : Reading) (h : x.t = t1) :
    endAt a b t1 (acc ++ [x]) = acc ++ [x] := by simp [endAt, h]

theorem endAt_ne (a b : Reading) (t1 : ℝ) (acc : List Reading) (x : Reading) (h : x.t ≠ t1) :
    endAt a b t1 (acc ++ [x]) = acc ++ [x] ++ [interp a b t1] := by simp [endAt, h]

theorem selLoop_cons (t0 t1 : ℝ) (prev : Option Reading) (a b : Reading) (rest acc : List Reading) :
    selLoop t0 t1 prev (a :: b :: rest) acc =
      if t0 < b.t ∧ a.t < t0 then selLoop t0 t1 (some a) (b :: rest) (acc ++ [interp a b t0])
      else if t0 ≤ a.t ∧ b.t ≤ t1 then selLoop t0 t1 (some a) (b :: rest) (acc ++ [a])
      else if t1 < b.t then
        if t1 < a.t then
          match prev with
          | none => acc
          | some z => endAt a b t1 (acc ++ [interp z a t1])
        else endAt a b t1 (acc ++ [a])
      else selLoop t0 t1 (some a) (b :: rest) acc := by
  cases prev <;> simp only [selLoop]

theorem flt_pos {a : Reading} {l : List Reading} {t1 : ℝ} (h : a.t < t1) :
    (a :: l).filter (fun r => decide (r.t < t1)) = a :: l.filter (fun r => decide (r.t < t1)) := by
  rw [List.filter_cons]; simp [h]

theorem flt_neg {a : Reading} {l : List Reading} {t1 : ℝ} (h : ¬ a.t < t1) :
    (a :: l).filter (fun r => decide (r.t < t1)) = l.filter (fun r => decide (r.t < t1)) := by
  rw [List.filter_cons]; simp [h]

theorem filter_lt_nil {l : List Reading} {t1 : ℝ} (h : ∀ x ∈ l, t1 ≤ x.t) : l.filter (fun r => decide (r.t < t1)) = [] := by
  rw [List.filter_eq_nil_iff]
  intro x hx
  have := h x hx
  simpa using this

/-- the loop once the start of the interval has been passed. -/
theorem selLoop_mid (t0 t1 : ℝ) : ∀ (l : List Reading) (a : Reading) (prev : Option Reading) (acc : List Reading),
    Spec.Sorted (a :: l) → t0 ≤ a.t → a.t ≤ t1 →
    ((∃ x ∈ l, t1 < x.t) → ∃ y, y.t = t1 ∧ Spec.OnSignal (a :: l) y ∧
      selLoop t0 t1 prev (a :: l) acc = acc ++ (a :: l).filter (fun r => decide (r.t < t1)) ++ [y]) ∧
    ((∀ x ∈ l, x.t ≤ t1) → selLoop t0 t1 prev (a :: l) acc = acc ++ (a :: l).dropLast) := by
  intro l
  induction l with
  | nil => intro a prev acc _ _ _; exact ⟨by simp, by simp [selLoop]⟩
  | cons b l ih =>
    intro a prev acc hs h0 h1
    have hab : a.t < b.t := (List.pairwise_cons.1 hs).1 b (by simp)
    have hs' := (List.pairwise_cons.1 hs).2
    have n1 : ¬ (t0 < b.t ∧ a.t < t0) := fun h => absurd h.2 (not_lt.2 h0)
    by_cases hb : b.t ≤ t1
    · have e : selLoop t0 t1 prev (a :: b :: l) acc = selLoop t0 t1 (some a) (b :: l) (acc ++ [a]) := by
        rw [selLoop_cons, if_neg n1, if_pos ⟨h0, hb⟩]
      have hat : a.t < t1 := hab.trans_le hb
      obtain ⟨i1, i2⟩ := ih b (some a) (acc ++ [a]) hs' (h0.trans hab.le) hb
      constructor
      · rintro ⟨x, hx, hxt⟩
        rcases List.mem_cons.1 hx with rfl | hx
        · exact absurd hxt (not_lt.2 hb)
        · obtain ⟨y, y1, y2, y3⟩ := i1 ⟨x, hx, hxt⟩
          refine ⟨y, y1, onSignal_mono ⟨[a], [], by simp⟩ y2, ?_⟩
          rw [e, y3, flt_pos hat]
          simp
      · intro h
        rw [e, i2 fun x hx => h x (by simp [hx])]
        simp
    · push Not at hb
      have hnil : (b :: l).filter (fun r => decide (r.t < t1)) = [] := by
        refine filter_lt_nil fun x hx => ?_
        rcases List.mem_cons.1 hx with rfl | hx
        · exact hb.le
        · exact (hb.trans ((List.pairwise_cons.1 hs').1 x hx)).le
      have e : selLoop t0 t1 prev (a :: b :: l) acc = endAt a b t1 (acc ++ [a]) := by
        rw [selLoop_cons, if_neg n1, if_neg (fun h => absurd h.2 (not_le.2 hb)), if_pos hb, if_neg (not_lt.2 h1)]
      refine ⟨fun _ => ?_, fun h => absurd (h b (by simp)) (not_le.2 hb)⟩
      by_cases ha : a.t = t1
      · refine ⟨a, ha, .inl (by simp), ?_⟩
        rw [e, endAt_last _ _ _ _ _ ha, flt_neg (by rw [ha]; exact lt_irrefl _), hnil]
        simp
      · refine ⟨interp a b t1, rfl, onSignal_interp ⟨[], l, by simp⟩ h1 hb.le hab, ?_⟩
        rw [e, endAt_ne _ _ _ _ _ ha, flt_pos (lt_of_le_of_ne h1 ha), hnil]

/-- the readings strictly inside the interval. -/
noncomputable def Spec.inside (t0 t1 : ℝ) (l : List Reading) : List Reading :=
  l.filter fun r => decide (t0 < r.t ∧ r.t < t1)

theorem inside_skip {t0 t1 : ℝ} {a : Reading} {l : List Reading} (h : a.t ≤ t0) :
    Spec.inside t0 t1 (a :: l) = Spec.inside t0 t1 l := by
  unfold Spec.inside
  rw [List.filter_cons_of_neg (by simp; intro h'; linarith)]

theorem inside_eq {t0 t1 : ℝ} {l : List Reading} (h : ∀ x ∈ l, t0 < x.t) :
    Spec.inside t0 t1 l = l.filter (fun r => decide (r.t < t1)) := by
  unfold Spec.inside
  refine List.filter_congr fun x hx => ?_
  simp [h x hx]

/-- the loop from the beginning of a buffer that reaches back to the start of the interval. -/
theorem selLoop_start (t0 t1 : ℝ) (h01 : t0 < t1) : ∀ (l : List Reading) (a : Reading) (prev : Option Reading)
    (acc : List Reading), Spec.Sorted (a :: l) → a.t ≤ t0 →
    ((∃ x ∈ l, t1 < x.t) → (∃ y ∈ (a :: l).dropLast, t0 ≤ y.t) → ∃ x y, x.t = t0 ∧ y.t = t1 ∧ Spec.OnSignal (a :: l) x ∧
      Spec.OnSignal (a :: l) y ∧ selLoop t0 t1 prev (a :: l) acc = acc ++ [x] ++ Spec.inside t0 t1 (a :: l) ++ [y]) ∧
    ((∀ x ∈ l, x.t ≤ t1) ∨ (∀ y ∈ (a :: l).dropLast, y.t < t0) → (∃ y ∈ l, t0 < y.t) → ∃ x, x.t = t0 ∧
      Spec.OnSignal (a :: l) x ∧
      selLoop t0 t1 prev (a :: l) acc = acc ++ [x] ++ Spec.inside t0 t1 (a :: l).dropLast) := by
  intro l
  induction l with
  | nil => intro a prev acc _ _; exact ⟨by simp, by simp⟩
  | cons b l ih =>
    intro a prev acc hs h0
    have hab : a.t < b.t := (List.pairwise_cons.1 hs).1 b (by simp)
    have hs' := (List.pairwise_cons.1 hs).2
    have hbl : ∀ x ∈ l, b.t < x.t := (List.pairwise_cons.1 hs').1
    have hdl : (a :: b :: l).dropLast = a :: (b :: l).dropLast := rfl
    have sub : (b :: l) <:+: (a :: b :: l) := ⟨[a], [], by simp⟩
    rcases eq_or_lt_of_le h0 with ha | ha
    · -- the first reading is exactly at the start
      obtain ⟨m1, m2⟩ := selLoop_mid t0 t1 (b :: l) a prev acc hs ha.ge (ha.le.trans h01.le)
      have hin : Spec.inside t0 t1 (a :: b :: l) = (b :: l).filter (fun r => decide (r.t < t1)) := by
        rw [inside_skip h0, inside_eq]
        intro x hx
        rcases List.mem_cons.1 hx with rfl | hx
        · linarith
        · have := hbl x hx; linarith
      refine ⟨fun hx hy => ?_, fun hx hy => ?_⟩
      · obtain ⟨y, y1, y2, y3⟩ := m1 hx
        refine ⟨a, y, ha, y1, .inl (by simp), y2, ?_⟩
        rw [y3, hin, flt_pos (by linarith)]
        simp
      · have hx : ∀ x ∈ b :: l, x.t ≤ t1 := by
          rcases hx with hx | hx
          · exact hx
          · have := hx a (by rw [hdl]; simp); linarith
        refine ⟨a, ha, .inl (by simp), ?_⟩
        rw [m2 hx, hdl, inside_skip h0]
        have : Spec.inside t0 t1 (b :: l).dropLast = (b :: l).dropLast := by
          unfold Spec.inside
          rw [List.filter_eq_self]
          intro x hx'
          have hxm := List.dropLast_subset _ hx'
          have g1 : t0 < x.t := by
            rcases List.mem_cons.1 hxm with rfl | h
            · linarith
            · have := hbl x h; linarith
          have g2 : x.t < t1 := by
            -- the last element is later
            have hne : (b :: l) ≠ [] := by simp
            have hl := List.dropLast_append_getLast hne
            have hp : Spec.Sorted ((b :: l).dropLast ++ [(b :: l).getLast hne]) := by rw [hl]; exact hs'
            have := (List.pairwise_append.1 hp).2.2 x hx' ((b :: l).getLast hne) (by simp)
            exact this.trans_le (hx _ (List.getLast_mem hne))
          simp [g1, g2]
        rw [this]; simp
    · by_cases hb : t0 < b.t
      · -- case 1: the start is strictly between `a` and `b`
        have e : selLoop t0 t1 prev (a :: b :: l) acc = selLoop t0 t1 (some a) (b :: l) (acc ++ [interp a b t0]) := by
          rw [selLoop_cons, if_pos ⟨hb, ha⟩]
        have hx0 : Spec.OnSignal (a :: b :: l) (interp a b t0) := onSignal_interp ⟨[], l, by simp⟩ h0 hb.le hab
        have hin : Spec.inside t0 t1 (a :: b :: l) = (b :: l).filter (fun r => decide (r.t < t1)) := by
          rw [inside_skip h0, inside_eq]
          intro x hx
          rcases List.mem_cons.1 hx with rfl | hx
          · linarith
          · have := hbl x hx; linarith
        by_cases hb1 : b.t ≤ t1
        · obtain ⟨m1, m2⟩ := selLoop_mid t0 t1 l b (some a) (acc ++ [interp a b t0]) hs' hb.le hb1
          refine ⟨fun hx hy => ?_, fun hx hy => ?_⟩
          · have hx' : ∃ x ∈ l, t1 < x.t := by
              obtain ⟨x, hx, hxt⟩ := hx
              rcases List.mem_cons.1 hx with rfl | hx
              · exact absurd hxt (not_lt.2 hb1)
              · exact ⟨x, hx, hxt⟩
            obtain ⟨y, y1, y2, y3⟩ := m1 hx'
            exact ⟨interp a b t0, y, rfl, y1, hx0, onSignal_mono sub y2, by rw [e, y3, hin]⟩
          · have hx : ∀ x ∈ l, x.t ≤ t1 := by
              rcases hx with hx | hx
              · exact fun x h => hx x (by simp [h])
              · cases l with
                | nil => simp
                | cons c l =>
                  have := hx b (by rw [hdl]; simp)
                  linarith
            refine ⟨interp a b t0, rfl, hx0, ?_⟩
            rw [e, m2 hx, hdl, inside_skip h0]
            have : Spec.inside t0 t1 (b :: l).dropLast = (b :: l).dropLast := by
              unfold Spec.inside
              rw [List.filter_eq_self]
              intro x hx'
              have hxm := List.dropLast_subset _ hx'
              have g1 : t0 < x.t := by
                rcases List.mem_cons.1 hxm with rfl | h
                · linarith
                · have := hbl x h; linarith
              have g2 : x.t < t1 := by
                have hne : (b :: l) ≠ [] := by simp
                have hl := List.dropLast_append_getLast hne
                have hp : Spec.Sorted ((b :: l).dropLast ++ [(b :: l).getLast hne]) := by rw [hl]; exact hs'
                have := (List.pairwise_append.1 hp).2.2 x hx' ((b :: l).getLast hne) (by simp)
                refine this.trans_le ?_
                have hm := List.getLast_mem hne
                rcases List.mem_cons.1 hm with h | h
                · rw [h]; exact hb1
                · exact hx _ h
              simp [g1, g2]
            rw [this]
        · push Not at hb1
          have hnil : (b :: l).filter (fun r => decide (r.t < t1)) = [] := by
            refine filter_lt_nil fun x hx => ?_
            rcases List.mem_cons.1 hx with rfl | hx
            · exact hb1.le
            · exact (hb1.trans (hbl x hx)).le
          refine ⟨fun hx hy => ?_, fun hx hy => ?_⟩
          · cases l with
            | nil =>
              obtain ⟨y, hy, hyt⟩ := hy
              simp at hy; subst hy; linarith
            | cons c l =>
              have hbc := hbl c (by simp)
              refine ⟨interp a b t0, interp a b t1, rfl, rfl, hx0,
                onSignal_interp ⟨[], c :: l, by simp⟩ (by linarith) hb1.le hab, ?_⟩
              rw [e, selLoop_cons, if_neg (fun h => absurd h.2 (not_lt.2 hb.le)),
                if_neg (fun h => absurd h.2 (not_le.2 (hb1.trans hbc))), if_pos (hb1.trans hbc), if_pos hb1]
              show endAt b c t1 (acc ++ [interp a b t0] ++ [interp a b t1]) = _
              rw [show endAt b c t1 (acc ++ [interp a b t0] ++ [interp a b t1]) = acc ++ [interp a b t0] ++ [interp a b t1] from
                endAt_last _ _ t1 _ (interp a b t1) rfl, hin, hnil]
              simp
          · cases l with
            | nil =>
              refine ⟨interp a b t0, rfl, hx0, ?_⟩
              rw [e, hdl, inside_skip h0]
              simp [selLoop, Spec.inside]
            | cons c l =>
              exfalso
              rcases hx with hx | hx
              · have := hx b (by simp); linarith
              · have := hx b (by rw [hdl]; simp); linarith
      · -- the start is not yet reached
        push Not at hb
        have e : selLoop t0 t1 prev (a :: b :: l) acc = selLoop t0 t1 (some a) (b :: l) acc := by
          rw [selLoop_cons, if_neg (fun h => absurd h.1 (not_lt.2 hb)), if_neg (fun h => absurd h.1 (not_le.2 ha)),
            if_neg (not_lt.2 (hb.trans h01.le))]
        obtain ⟨i1, i2⟩ := ih b (some a) acc hs' hb
        refine ⟨fun hx hy => ?_, fun hx hy => ?_⟩
        · have hx' : ∃ x ∈ l, t1 < x.t := by
            obtain ⟨x, hx, hxt⟩ := hx
            rcases List.mem_cons.1 hx with rfl | hx
            · linarith
            · exact ⟨x, hx, hxt⟩
          have hy' : ∃ y ∈ (b :: l).dropLast, t0 ≤ y.t := by
            obtain ⟨y, hy, hyt⟩ := hy
            rw [hdl] at hy
            rcases List.mem_cons.1 hy with rfl | hy
            · linarith
            · exact ⟨y, hy, hyt⟩
          obtain ⟨x, y, x1, y1, x2, y2, h3⟩ := i1 hx' hy'
          exact ⟨x, y, x1, y1, onSignal_mono sub x2, onSignal_mono sub y2, by rw [e, h3, inside_skip h0]⟩
        · have hy' : ∃ y ∈ l, t0 < y.t := by
            obtain ⟨y, hy, hyt⟩ := hy
            rcases List.mem_cons.1 hy with rfl | hy
            · linarith
            · exact ⟨y, hy, hyt⟩
          have hx' : (∀ x ∈ l, x.t ≤ t1) ∨ (∀ y ∈ (b :: l).dropLast, y.t < t0) := by
            rcases hx with hx | hx
            · exact .inl fun x h => hx x (by simp [h])
            · exact .inr fun y h => hx y (by rw [hdl]; simp [h])
          obtain ⟨x, x1, x2, h3⟩ := i2 hx' hy'
          refine ⟨x, x1, onSignal_mono sub x2, ?_⟩
          rw [e, h3, hdl, inside_skip h0]

theorem exists_last_two : ∀ (l : List Reading) (a : Reading), l ≠ [] → ∃ pre y z, a :: l = pre ++ [y, z] := by
  intro l a h
  induction l generalizing a with
  | nil => exact absurd rfl h
  | cons b l ih =>
    cases l with
    | nil => exact ⟨[], a, b, rfl⟩
    | cons c l =>
      obtain ⟨pre, y, z, e⟩ := ih b (by simp)
      exact ⟨a :: pre, y, z, by rw [e]; rfl⟩

/-- everything but the removal of zero intervals. -/
theorem select_raw {t0 t1 : ℝ} (h01 : t0 < t1) {a : Reading} {l : List Reading} (hs : Spec.Sorted (a :: l)) (ha : a.t ≤ t0)
    (hz : ∃ x ∈ l, t0 < x.t) :
    ∃ x y pre u z, a :: l = pre ++ [u, z] ∧ x.t = t0 ∧ y.t = t1 ∧ Spec.OnSignal (a :: l) x ∧
      (t1 ≤ z.t → Spec.OnSignal (a :: l) y) ∧ (z.t < t1 → y = interp u z t1) ∧
      selLoop t0 t1 none (a :: l) [] ≠ [] ∧
      stretch (a :: l) t1 (selLoop t0 t1 none (a :: l) []) = x :: Spec.inside t0 t1 (a :: l).dropLast ++ [y] := by
  obtain ⟨s1, s2⟩ := selLoop_start t0 t1 h01 l a none [] hs ha
  have hne : l ≠ [] := by rintro rfl; simp at hz
  obtain ⟨pre, u, z, hbuf⟩ := exists_last_two l a hne
  have hdl : (a :: l).dropLast = pre ++ [u] := by rw [hbuf]; simp
  have hp : Spec.Sorted (pre ++ [u] ++ [z]) := by simpa [hbuf] using hs
  have hlast : ∀ v ∈ (a :: l).dropLast, v.t < z.t := by
    intro v hv; rw [hdl] at hv
    exact (List.pairwise_append.1 hp).2.2 v hv z (by simp)
  have huz : u.t < z.t := hlast u (by rw [hdl]; simp)
  have hzl : z ∈ l := by
    have : z ∈ a :: l := by rw [hbuf]; simp
    rcases List.mem_cons.1 this with rfl | h
    · have : z.t < z.t := by
        have hm : ∃ v ∈ (z :: l).dropLast, v = z := by
          cases l with
          | nil => simp at hne
          | cons c l => exact ⟨z, by simp, rfl⟩
        obtain ⟨v, hv, rfl⟩ := hm
        exact hlast v hv
      exact absurd this (lt_irrefl _)
    · exact h
  have hmax : ∀ v ∈ a :: l, v.t ≤ z.t := by
    intro v hv
    rw [hbuf, show pre ++ [u, z] = pre ++ [u] ++ [z] by simp] at hv
    rcases List.mem_append.1 hv with hv | hv
    · exact (hlast v (by rw [hdl]; exact hv)).le
    · obtain rfl := List.mem_singleton.1 hv; exact le_rfl
  by_cases hA : (∃ x ∈ l, t1 < x.t) ∧ ∃ y ∈ (a :: l).dropLast, t0 ≤ y.t
  · obtain ⟨x, y, x1, y1, x2, y2, e⟩ := s1 hA.1 hA.2
    obtain ⟨v, hv, hvt⟩ := hA.1
    have hz1 : t1 < z.t := hvt.trans_le (hmax v (by simp [hv]))
    refine ⟨x, y, pre, u, z, hbuf, x1, y1, x2, fun _ => y2, fun h => absurd h (not_lt.2 hz1.le), by rw [e]; simp, ?_⟩
    have hins : Spec.inside t0 t1 (a :: l) = Spec.inside t0 t1 (a :: l).dropLast := by
      rw [hdl, hbuf, show pre ++ [u, z] = pre ++ [u] ++ [z] by simp]
      unfold Spec.inside
      rw [List.filter_append (pre ++ [u]) [z]]
      simp [not_lt.2 hz1.le]
    rw [e, hins, stretch, if_pos (by rw [List.getLast?_append]; simp [y1])]
    simp
  · have hB : (∀ x ∈ l, x.t ≤ t1) ∨ (∀ y ∈ (a :: l).dropLast, y.t < t0) := by
      by_contra hc
      push Not at hc
      exact hA hc
    obtain ⟨x, x1, x2, e⟩ := s2 hB hz
    refine ⟨x, interp u z t1, pre, u, z, hbuf, x1, rfl, x2, fun h => ?_, fun _ => rfl, by rw [e]; simp, ?_⟩
    · refine onSignal_interp ⟨pre, [], by rw [hbuf]; simp⟩ ?_ h huz
      rcases hB with hB | hB
      · exact huz.le.trans (hB z hzl)
      · have := hB u (by rw [hdl]; simp); linarith
    · rw [e, stretch, if_neg]
      · rw [hbuf]; simp
      · have hall : ∀ v ∈ [] ++ [x] ++ Spec.inside t0 t1 (a :: l).dropLast, v.t < t1 := by
          intro v hv
          simp only [List.nil_append, List.singleton_append, List.mem_cons] at hv
          rcases hv with rfl | hv
          · linarith
          · have := (List.mem_filter.1 hv).2
            simp only [decide_eq_true_eq] at this
            exact this.2
        intro h
        cases hl : ([] ++ [x] ++ Spec.inside t0 t1 (a :: l).dropLast).getLast? with
        | none => rw [hl] at h; simp at h
        | some v =>
          rw [hl] at h
          simp at h
          have := hall v (List.mem_of_getLast? hl)
          linarith

/-- consecutive times at least `1e-12` apart. -/
def Spec.Spaced (l : List Reading) : Prop := l.IsChain fun a b => 1e-12 ≤ b.t - a.t

theorem dropZero_id : ∀ l : List Reading, Spec.Spaced l → dropZero l = l
  | [], _ => rfl
  | [_], _ => rfl
  | a :: b :: l, h => by
    simp only [Spec.Spaced, List.isChain_cons_cons] at h
    rw [dropZero, if_neg, dropZero_id (b :: l) h.2]
    rw [abs_of_nonneg (by have := h.1; norm_num at this ⊢; linarith)]
    exact not_lt.2 h.1

theorem dropZero_sublist : ∀ l : List Reading, (dropZero l).Sublist l
  | [] => List.Sublist.refl _
  | [_] => List.Sublist.refl _
  | a :: b :: l => by
    rw [dropZero]
    split_ifs
    · exact (dropZero_sublist (b :: l)).trans (List.sublist_cons_self _ _)
    · exact (dropZero_sublist (b :: l)).cons_cons a

theorem dropZero_last : ∀ (l : List Reading), (dropZero l).getLast? = l.getLast?
  | [] => rfl
  | [_] => rfl
  | a :: b :: l => by
    have ih := dropZero_last (b :: l)
    rw [dropZero]
    split_ifs
    · rw [ih]; simp
    · have hne : dropZero (b :: l) ≠ [] := by
        intro e; rw [e] at ih; simp [List.getLast?_cons] at ih
      rw [List.getLast?_cons, ih]
      simp [List.getLast?_cons]

/-- elapsed time of a list of readings, as summed by the propagation loop. -/
def Spec.elapsed : List Reading → ℝ
  | a :: b :: l => (b.t - a.t) + Spec.elapsed (b :: l)
  | _ => 0

theorem elapsed_eq : ∀ (l : List Reading) (x y : Reading), Spec.elapsed (x :: l ++ [y]) = y.t - x.t
  | [], x, y => by simp [Spec.elapsed]
  | a :: l, x, y => by
    have := elapsed_eq l a y
    simp only [List.cons_append, Spec.elapsed] at this ⊢
    rw [this]; ring

/-- after the removal, consecutive readings are at least `1e-12` apart, the last reading is unchanged and the first has moved
by less than `1e-12` for every removed reading. -/
theorem dropZero_spec : ∀ (l : List Reading) (x : Reading), Spec.Sorted (x :: l) →
    Spec.Spaced (dropZero (x :: l)) ∧ ∃ y m, dropZero (x :: l) = y :: m ∧ x.t ≤ y.t ∧
      y.t - x.t ≤ 1e-12 * ((l.length : ℝ) - m.length)
  | [], x, _ => by
    simp only [dropZero]
    exact ⟨by simp [Spec.Spaced], x, [], rfl, le_rfl, by norm_num⟩
  | b :: l, x, h => by
    have hb : x.t < b.t := (List.pairwise_cons.1 h).1 b (by simp)
    obtain ⟨i1, y, m, i2, i3, i4⟩ := dropZero_spec l b (List.pairwise_cons.1 h).2
    rw [dropZero]
    have hab : |b.t - x.t| = b.t - x.t := abs_of_pos (by linarith)
    split_ifs with hc
    · rw [hab] at hc
      refine ⟨i1, y, m, i2, by linarith, ?_⟩
      push_cast [List.length_cons]
      linarith
    · rw [hab, not_lt] at hc
      refine ⟨?_, x, dropZero (b :: l), rfl, le_rfl, ?_⟩
      · have : Spec.Spaced (x :: dropZero (b :: l)) := by
          rw [i2] at i1 ⊢
          unfold Spec.Spaced at i1 ⊢
          rw [List.isChain_cons_cons]
          exact ⟨by linarith, i1⟩
        exact this
      · have hlen : (dropZero (b :: l)).length ≤ (b :: l).length := (dropZero_sublist _).length_le
        have : (0:ℝ) ≤ ((b :: l).length : ℝ) - ((dropZero (b :: l)).length : ℝ) := by
          have : ((dropZero (b :: l)).length : ℝ) ≤ ((b :: l).length : ℝ) := by exact_mod_cast hlen
          linarith
        rw [sub_self]; positivity

theorem sorted_inside {t0 t1 : ℝ} {l : List Reading} (hs : Spec.Sorted l) {x y : Reading} (hx : x.t = t0) (hy : y.t = t1)
    (h01 : t0 < t1) : Spec.Sorted (x :: Spec.inside t0 t1 l ++ [y]) := by
  have hm : ∀ v ∈ Spec.inside t0 t1 l, t0 < v.t ∧ v.t < t1 := by
    intro v hv
    have := (List.mem_filter.1 hv).2
    simpa using this
  unfold Spec.Sorted
  rw [List.cons_append, List.pairwise_cons, List.pairwise_append]
  refine ⟨?_, hs.filter _, by simp, ?_⟩
  · intro v hv
    rcases List.mem_append.1 hv with hv | hv
    · rw [hx]; exact (hm v hv).1
    · obtain rfl := List.mem_singleton.1 hv; linarith
  · intro v hv w hw
    obtain rfl := List.mem_singleton.1 hw
    rw [hy]; exact (hm v hv).2

/-- **C19** For every buffer with strictly increasing times that reaches from `t0` (or before) to `t1` (or after), the
selection consists of a reading at `t0`, exactly the buffered readings strictly inside in order, and a reading at `t1`, the
two end readings being on the piecewise linear signal — provided these times are at least `1e-12` apart. In general (third
part) readings closer than `1e-12` to their successor are dropped: the result still ends at `t1`, is strictly increasing with
steps of at least `1e-12`, and the total elapsed time differs from `t1 - t0` by at most `1e-12` per dropped reading. -/
theorem C19_select {t0 t1 : ℝ} (h01 : t0 < t1) (buf : List Reading) (hs : Spec.Sorted buf) (h0 : ∃ a ∈ buf, a.t ≤ t0)
    (h1 : ∃ b ∈ buf, t1 ≤ b.t) :
    ∃ x y, x.t = t0 ∧ y.t = t1 ∧ Spec.OnSignal buf x ∧ Spec.OnSignal buf y ∧
      let all := x :: Spec.inside t0 t1 buf ++ [y]
      (Spec.Spaced all → select buf t0 t1 = all ∧ Spec.elapsed (select buf t0 t1) = t1 - t0) ∧
      ((select buf t0 t1).Sublist all ∧ (select buf t0 t1).getLast? = some y ∧ Spec.Spaced (select buf t0 t1) ∧
        |(t1 - t0) - Spec.elapsed (select buf t0 t1)| ≤ 1e-12 * ((all.length : ℝ) - (select buf t0 t1).length)) := by
  obtain ⟨a, ha, hat⟩ := h0
  obtain ⟨b, hb, hbt⟩ := h1
  cases buf with
  | nil => simp at ha
  | cons c l =>
    have hc : c.t ≤ t0 := by
      rcases List.mem_cons.1 ha with rfl | h
      · exact hat
      · exact ((List.pairwise_cons.1 hs).1 a h).le.trans hat
    have hbl : b ∈ l := by
      rcases List.mem_cons.1 hb with rfl | h
      · linarith
      · exact h
    obtain ⟨x, y, pre, u, z, hbuf, x1, y1, x2, y2, _, hne, e⟩ := select_raw h01 hs hc ⟨b, hbl, by linarith⟩
    have hp : Spec.Sorted (pre ++ [u] ++ [z]) := by simpa [hbuf] using hs
    have hz : t1 ≤ z.t := by
      rw [hbuf, show pre ++ [u, z] = pre ++ [u] ++ [z] by simp] at hb
      rcases List.mem_append.1 hb with hb | hb
      · exact hbt.trans ((List.pairwise_append.1 hp).2.2 b hb z (by simp)).le
      · obtain rfl := List.mem_singleton.1 hb; exact hbt
    have hins : Spec.inside t0 t1 (c :: l).dropLast = Spec.inside t0 t1 (c :: l) := by
      rw [hbuf, show pre ++ [u, z] = pre ++ [u] ++ [z] by simp]
      unfold Spec.inside
      rw [List.filter_append (pre ++ [u]) [z], List.dropLast_append_of_ne_nil (by simp)]
      simp [not_lt.2 hz]
    rw [hins] at e
    refine ⟨x, y, x1, y1, x2, y2 hz, ?_⟩
    intro all
    have hsel : select (c :: l) t0 t1 = dropZero all := by
      unfold select; simp only; rw [if_neg hne, e]
    have hso : Spec.Sorted all := sorted_inside hs x1 y1 h01
    refine ⟨fun hsp => ?_, ?_⟩
    · rw [hsel, dropZero_id _ hsp]
      refine ⟨rfl, ?_⟩
      show Spec.elapsed (x :: Spec.inside t0 t1 (c :: l) ++ [y]) = _
      rw [elapsed_eq, x1, y1]
    · rw [hsel]
      obtain ⟨d1, w, m, d2, d3, d4⟩ := dropZero_spec (Spec.inside t0 t1 (c :: l) ++ [y]) x hso
      have hall : all = x :: (Spec.inside t0 t1 (c :: l) ++ [y]) := rfl
      have hl : (dropZero all).getLast? = some y := by
        rw [dropZero_last, hall, ← List.cons_append, List.getLast?_append]; simp
      refine ⟨dropZero_sublist _, hl, by rw [hall]; exact d1, ?_⟩
      rw [hall, d2]
      have hel : Spec.elapsed (w :: m) = t1 - w.t := by
        rw [hall, d2] at hl
        rcases List.eq_nil_or_concat m with rfl | ⟨m', v, rfl⟩
        · simp at hl; subst hl; simp [Spec.elapsed, y1]
        · have : v = y := by
            rw [List.concat_eq_append, ← List.cons_append, List.getLast?_append] at hl
            simpa using hl
          subst this
          rw [List.concat_eq_append, ← List.cons_append, elapsed_eq, y1]
      rw [hel, show t1 - t0 - (t1 - w.t) = w.t - t0 by ring, abs_of_nonneg (by linarith)]
      push_cast [List.length_cons] at d4 ⊢
      rw [x1] at d4
      refine d4.trans (le_of_eq ?_)
      ring

/-- **C19** (missing data) If the newest reading is before `t1` (but after `t0`), it is replaced by the extrapolation of the
last two readings to `t1`, so the selection still covers the whole interval. -/
theorem C19_select_stretch {t0 t1 : ℝ} (h01 : t0 < t1) (pre : List Reading) (u z : Reading)
    (hs : Spec.Sorted (pre ++ [u, z])) (h0 : ∃ a ∈ pre ++ [u], a.t ≤ t0) (h1 : t0 < z.t) (h2 : z.t < t1) :
    ∃ x, x.t = t0 ∧ Spec.OnSignal (pre ++ [u, z]) x ∧
      let all := x :: Spec.inside t0 t1 (pre ++ [u]) ++ [interp u z t1]
      (Spec.Spaced all → select (pre ++ [u, z]) t0 t1 = all ∧ Spec.elapsed (select (pre ++ [u, z]) t0 t1) = t1 - t0) := by
  obtain ⟨a, ha, hat⟩ := h0
  obtain ⟨c, l, hcl⟩ : ∃ c l, pre ++ [u, z] = c :: l := by
    cases pre with
    | nil => exact ⟨u, [z], rfl⟩
    | cons c p => exact ⟨c, p ++ [u, z], rfl⟩
  have hc : c.t ≤ t0 := by
    have hm : a ∈ c :: l := by rw [← hcl]; simp at ha ⊢; tauto
    rw [hcl] at hs
    rcases List.mem_cons.1 hm with rfl | h
    · exact hat
    · exact ((List.pairwise_cons.1 hs).1 a h).le.trans hat
  have hz : ∃ x ∈ l, t0 < x.t := by
    have : z ∈ c :: l := by rw [← hcl]; simp
    rcases List.mem_cons.1 this with rfl | h
    · linarith
    · exact ⟨z, h, h1⟩
  rw [hcl] at hs
  obtain ⟨x, y, pre', u', z', hbuf, x1, y1, x2, _, y3, hne, e⟩ := select_raw h01 hs hc hz
  rw [← hcl] at hbuf
  have huz : pre = pre' ∧ u = u' ∧ z = z' := by
    have := List.append_inj' hbuf (by simp)
    simp at this
    exact this
  obtain ⟨rfl, rfl, rfl⟩ := huz
  rw [y3 h2, ← hcl, show (pre ++ [u, z]).dropLast = pre ++ [u] by simp] at e
  rw [hcl]
  refine ⟨x, x1, x2, ?_⟩
  intro all hsp
  have hsel : select (c :: l) t0 t1 = dropZero all := by
    unfold select; simp only; rw [if_neg hne, ← hcl, e]
  rw [hsel, dropZero_id _ hsp]
  refine ⟨rfl, ?_⟩
  show Spec.elapsed (x :: Spec.inside t0 t1 (pre ++ [u]) ++ [interp u z t1]) = _
  rw [elapsed_eq, x1]; rfl

/-- the hypotheses of C19 are met: four readings, an interval that cuts two of them. -/
example : let r : ℝ → Reading := fun t => ⟨t, fun _ => t, fun _ => 0⟩
    Spec.Sorted [r 0, r 1, r 2, r 3] ∧ (∃ a ∈ [r 0, r 1, r 2, r 3], a.t ≤ 1/2) ∧ (∃ b ∈ [r 0, r 1, r 2, r 3], 5/2 ≤ b.t) ∧
      Spec.inside (1/2) (5/2) [r 0, r 1, r 2, r 3] = [r 1, r 2] := by
  intro r
  refine ⟨?_, ⟨r 0, by simp, by norm_num [r]⟩, ⟨r 3, by simp, by norm_num [r]⟩, ?_⟩
  · simp [Spec.Sorted, r]; norm_num
  · simp only [Spec.inside, List.filter, r]; norm_num

/-- **C19** (initialiser) `InitializerHelper::select_imu_readings` gives the same readings when some buffered reading is
strictly after `t1` and some reading before the newest is at or after `t0`. -/
theorem C19_selectInit {t0 t1 : ℝ} (h01 : t0 < t1) (buf : List Reading) (hs : Spec.Sorted buf) (h0 : ∃ a ∈ buf, a.t ≤ t0)
    (h1 : ∃ b ∈ buf, t1 < b.t) (h2 : ∃ y ∈ buf.dropLast, t0 ≤ y.t) :
    ∃ x y, x.t = t0 ∧ y.t = t1 ∧ Spec.OnSignal buf x ∧ Spec.OnSignal buf y ∧
      let all := x :: Spec.inside t0 t1 buf ++ [y]
      (Spec.Spaced all → selectInit buf t0 t1 = all ∧ Spec.elapsed (selectInit buf t0 t1) = t1 - t0) := by
  obtain ⟨a, ha, hat⟩ := h0
  obtain ⟨b, hb, hbt⟩ := h1
  cases buf with
  | nil => simp at ha
  | cons c l =>
    have hc : c.t ≤ t0 := by
      rcases List.mem_cons.1 ha with rfl | h
      · exact hat
      · exact ((List.pairwise_cons.1 hs).1 a h).le.trans hat
    have hbl : b ∈ l := by
      rcases List.mem_cons.1 hb with rfl | h
      · linarith
      · exact h
    obtain ⟨x, y, x1, y1, x2, y2, e⟩ := (selLoop_start t0 t1 h01 l c none [] hs hc).1 ⟨b, hbl, hbt⟩ h2
    refine ⟨x, y, x1, y1, x2, y2, ?_⟩
    intro all hsp
    have hall : selLoop t0 t1 none (c :: l) [] = all := by rw [e]; simp [all]
    have hsel : selectInit (c :: l) t0 t1 = all := by
      unfold selectInit; simp only; rw [hall, if_neg (by simp [all]), dropZero_id _ hsp]
    rw [hsel]
    refine ⟨rfl, ?_⟩
    show Spec.elapsed (x :: Spec.inside t0 t1 (c :: l) ++ [y]) = _
    rw [elapsed_eq, x1, y1]

/-- **C19** (finding) When the newest buffered reading is exactly at `t1`, the initialiser's selection does not reach `t1`:
two readings at `0` and `1` and the interval `[0, 1]` give a single reading, i.e. no elapsed time at all. The propagator's
selection covers the interval. -/
theorem C19_selectInit_misses_end : ∃ buf : List Reading, Spec.Sorted buf ∧ (∃ a ∈ buf, a.t ≤ 0) ∧ (∃ b ∈ buf, 1 ≤ b.t) ∧
    Spec.elapsed (selectInit buf 0 1) = 0 ∧ Spec.elapsed (select buf 0 1) = 1 := by
  have hs : Spec.Sorted [(⟨0, 0, 0⟩ : Reading), ⟨1, 0, 0⟩] := by simp [Spec.Sorted]
  refine ⟨[⟨0, 0, 0⟩, ⟨1, 0, 0⟩], hs, ⟨_, List.mem_cons_self, le_rfl⟩, ⟨⟨1, 0, 0⟩, by simp, le_rfl⟩, ?_, ?_⟩
  · unfold selectInit
    simp [selLoop, dropZero, Spec.elapsed]
  · obtain ⟨x, y, hx, hy, _, _, h, _⟩ := C19_select one_pos _ hs ⟨_, List.mem_cons_self, le_rfl⟩ ⟨⟨1, 0, 0⟩, by simp, le_rfl⟩
    rw [(h _).2]; · norm_num
    have : Spec.inside 0 1 [(⟨0, 0, 0⟩ : Reading), ⟨1, 0, 0⟩] = [] := by simp [Spec.inside]
    rw [this]
    simp [Spec.Spaced, hx, hy]; norm_num

/-- **C19** (no data) Without any reading after `t0`, or on an empty buffer, nothing is selected. -/
theorem C19_select_nothing {t0 t1 : ℝ} (h01 : t0 < t1) (buf : List Reading) (h : ∀ a ∈ buf, a.t < t0) :
    select buf t0 t1 = [] := by
  have key : ∀ (l : List Reading) (prev : Option Reading), (∀ a ∈ l, a.t < t0) → selLoop t0 t1 prev l [] = [] := by
    intro l
    induction l with
    | nil => intro p _; simp [selLoop]
    | cons a l ih =>
      intro p hl
      cases l with
      | nil => simp [selLoop]
      | cons b l =>
        have h1 := hl a (by simp); have h2 := hl b (by simp)
        rw [selLoop_cons, if_neg (fun h => by linarith [h.1]), if_neg (fun h => by linarith [h.1]), if_neg (by linarith)]
        exact ih _ fun x hx => hl x (by simp [hx])
  unfold select
  simp [key buf none h]

/-! ### C21 -/

/-- the discard time of an operation, if it discards at all: `oldest - 0.1` for a fed reading, `oldest` for a clean-up;
negative times mean "keep everything". -/
noncomputable def Spec.limit : BufOp → Option ℝ
  | .feed _ o => if o - 0.10 < 0 then none else some (o - 0.10)
  | .clean o => if o < 0 then none else some o

/-- the reading is not older than any discard time of the operations. -/
def Spec.Survives (r : Reading) (ops : List BufOp) : Prop := ∀ o ∈ ops, ∀ t, Spec.limit o = some t → t ≤ r.t

/-- the arrivals of a history, in order, each with the operations from its arrival on (its own included). -/
def Spec.arrivals : List BufOp → List (Reading × List BufOp)
  | [] => []
  | .feed m o :: ops => (m, .feed m o :: ops) :: Spec.arrivals ops
  | .clean _ :: ops => Spec.arrivals ops

theorem run_filter (b : List Reading) (op : BufOp) :
    op.run b = (match op with | .feed m _ => b ++ [m] | .clean _ => b).filter
      (fun r => decide (Spec.Survives r [op])) := by
  have key : ∀ (o : ℝ) (l : List Reading) (op : BufOp), Spec.limit op = (if o < 0 then none else some o) →
      cleanOld o l = l.filter fun r => decide (Spec.Survives r [op]) := by
    intro o l op h
    unfold cleanOld
    split_ifs with ho
    · symm
      rw [List.filter_eq_self]
      intro r _
      simp only [decide_eq_true_eq]
      intro o' ho' t ht
      obtain rfl := List.mem_singleton.1 ho'
      rw [h, if_pos ho] at ht; cases ht
    · apply List.filter_congr
      intro r _
      rw [decide_eq_decide]
      constructor
      · intro hr o' ho' t ht
        obtain rfl := List.mem_singleton.1 ho'
        rw [h, if_neg ho] at ht; cases ht
        exact not_lt.1 hr
      · intro hr
        exact not_lt.2 (hr op (by simp) o (by rw [h, if_neg ho]))
  cases op with
  | feed m o => exact key (o - 0.10) (b ++ [m]) (.feed m o) rfl
  | clean o => exact key o b (.clean o) rfl

/-- **C21** After any history of feeding and cleaning, the buffer holds exactly, in arrival order, the readings that are at or
after every discard time issued from their arrival on; nothing else is dropped, duplicated or reordered. -/
theorem C21_buffer (ops : List BufOp) :
    runBuf [] ops = ((Spec.arrivals ops).filter fun a => decide (Spec.Survives a.1 a.2)).map Prod.fst := by
  have key : ∀ (ops : List BufOp) (b : List Reading),
      runBuf b ops = b.filter (fun r => decide (Spec.Survives r ops)) ++
        ((Spec.arrivals ops).filter fun a => decide (Spec.Survives a.1 a.2)).map Prod.fst := by
    intro ops
    induction ops with
    | nil => intro b; simp [runBuf, Spec.arrivals, Spec.Survives]
    | cons op ops ih =>
      intro b
      have hsv : ∀ r, Spec.Survives r (op :: ops) ↔ Spec.Survives r [op] ∧ Spec.Survives r ops := by
        intro r; unfold Spec.Survives; simp
      have hr : runBuf b (op :: ops) = runBuf (op.run b) ops := rfl
      rw [hr, ih, run_filter, List.filter_filter]
      have hff : (fun r => decide (Spec.Survives r ops) && decide (Spec.Survives r [op])) =
          fun r => decide (Spec.Survives r (op :: ops)) := by
        funext r; rw [← Bool.decide_and, decide_eq_decide, hsv, and_comm]
      rw [hff]
      cases op with
      | clean o => rfl
      | feed m o =>
        simp only [List.filter_append, Spec.arrivals, List.filter_cons, List.append_assoc]
        congr 1
        by_cases h : Spec.Survives m (.feed m o :: ops)
        · simp [h]
        · simp [h]
  have := key ops []
  simpa using this

/-- **C21** (initialiser) the same for the initialiser's buffer; here every discard time other than `-1` counts. -/
theorem C21_buffer_init (ops : List (Reading × ℝ)) :
    runInit [] ops = ((ops.tails.filterMap fun t => t.head?.map fun h => (h.1, t)).filter
      (fun a => decide (∀ o ∈ a.2, o.2 ≠ -1 → o.2 ≤ a.1.t))).map Prod.fst := by
  have hfeed : ∀ (b : List Reading) (o : Reading × ℝ),
      feedInit b o.1 o.2 = (b ++ [o.1]).filter fun r => decide (o.2 ≠ -1 → o.2 ≤ r.t) := by
    intro b o
    unfold feedInit
    split_ifs with h
    · apply List.filter_congr
      intro r _; rw [decide_eq_decide, not_lt]; exact ⟨fun x _ => x, fun x => x h⟩
    · symm; rw [List.filter_eq_self]; intro r _; simp [h]
  have key : ∀ (ops : List (Reading × ℝ)) (b : List Reading),
      runInit b ops = b.filter (fun r => decide (∀ o ∈ ops, o.2 ≠ -1 → o.2 ≤ r.t)) ++
        ((ops.tails.filterMap fun t => t.head?.map fun h => (h.1, t)).filter
          (fun a => decide (∀ o ∈ a.2, o.2 ≠ -1 → o.2 ≤ a.1.t))).map Prod.fst := by
    intro ops
    induction ops with
    | nil => intro b; simp [runInit]
    | cons op ops ih =>
      intro b
      have hr : runInit b (op :: ops) = runInit (feedInit b op.1 op.2) ops := rfl
      rw [hr, ih, hfeed, List.filter_filter]
      have hff : (fun r : Reading => decide (∀ o ∈ ops, o.2 ≠ -1 → o.2 ≤ r.t) && decide (op.2 ≠ -1 → op.2 ≤ r.t)) =
          fun r => decide (∀ o ∈ op :: ops, o.2 ≠ -1 → o.2 ≤ r.t) := by
        funext r; rw [← Bool.decide_and, decide_eq_decide, List.forall_mem_cons, and_comm]
      rw [hff]
      simp only [List.filter_append, List.tails_cons, List.filterMap_cons, List.head?_cons, Option.map_some,
        List.filter_cons, List.append_assoc]
      congr 1
      by_cases h : ∀ o ∈ op :: ops, o.2 ≠ -1 → o.2 ≤ op.1.t
      · rw [if_pos (decide_eq_true h), if_pos (decide_eq_true h)]; rfl
      · rw [if_neg (by rw [decide_eq_true_eq]; exact h), if_neg (by rw [decide_eq_true_eq]; exact h)]; rfl
  have := key ops []
  simpa using this

/-- a history where one reading is dropped by a later feed, and one by a clean-up. -/
example : runBuf [] [.feed ⟨1, 0, 0⟩ (-1), .feed ⟨2, 0, 0⟩ (3/2), .feed ⟨3, 0, 0⟩ (3/2), .clean (5/2)] = [⟨3, 0, 0⟩] := by
  simp only [runBuf, List.foldl, BufOp.run, Imu.feed, cleanOld]
  norm_num [List.filter]

end Verif.Imu
