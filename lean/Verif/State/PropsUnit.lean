import Verif.State.Cov
import Verif.Types.Props
import Verif.State.Spec
import Verif.Quat.Lemmas
import Mathlib.Tactic

/-!
# Orientations of the whole filter state over any history (C26)
-/

open Classical

namespace Verif.St

open Verif Verif.Types Mat

variable {lib : Lib} {s s' : State}

namespace Spec

/-- the orientation of a value, if it has one. -/
def orient : Val → Option Quat
  | .vec _ _ => none
  | .quat q => some q
  | .pose q _ => some q
  | .imu x => some x.q

/-- the values a history writes directly (IMU and calibration at start-up, the propagated mean, new landmarks) have orientations in `A`. -/
def Writes (A : Quat → Prop) : Op → Prop
  | .alloc v f => (∀ q, orient v = some q → A q) ∧ ∀ q, orient f = some q → A q
  | .setVal _ v => ∀ q, orient v = some q → A q
  | .setFej _ v => ∀ q, orient v = some q → A q
  | _ => True

end Spec

/-- the orientations of all objects are in `A`. -/
def Good (A : Quat → Prop) (s : State) : Prop := ∀ u, (∀ q, Spec.orient (s.obj u).val = some q → A q) ∧ ∀ q, Spec.orient (s.obj u).fej = some q → A q

variable {A : Quat → Prop}

theorem orient_update {v : Val} (hA : ∀ q d, A q → A (quatUpdate q d)) (h : ∀ q, Spec.orient v = some q → A q) (dx : ℕ → ℝ) :
    ∀ q, Spec.orient (v.update dx) = some q → A q := by
  cases v <;> simp only [Val.update, Spec.orient, Option.some.injEq, forall_eq', reduceCtorEq, false_imp_iff, implies_true] at h ⊢ <;> exact hA _ _ h

theorem orient_part {v w : Val} {p : Sub} {o : ℕ} (h : ∀ q, Spec.orient v = some q → A q) (hp : v.part p = some (o, w)) : ∀ q, Spec.orient w = some q → A q := by
  cases v <;> cases p <;> simp only [Val.part, Option.some.injEq, Prod.mk.injEq, reduceCtorEq] at hp <;> obtain ⟨-, rfl⟩ := hp <;>
    simpa [Spec.orient] using h

theorem good_fold (hA : ∀ q d, A q → A (quatUpdate q d)) (dx : Vect) (l : List ℕ) (obj : ℕ → Obj)
    (h : ∀ u, (∀ q, Spec.orient (obj u).val = some q → A q) ∧ ∀ q, Spec.orient (obj u).fej = some q → A q) :
    ∀ u, (∀ q, Spec.orient (l.foldl (applyDx dx) obj u).val = some q → A q) ∧ ∀ q, Spec.orient (l.foldl (applyDx dx) obj u).fej = some q → A q := by
  induction l generalizing obj with
  | nil => exact h
  | cons a t ih =>
    rw [List.foldl_cons]
    refine ih _ fun u => ?_
    unfold applyDx
    split_ifs with hu
    · exact ⟨orient_update hA (h a).1 _, (h a).2⟩
    · exact h u

theorem good_update (hA : ∀ q d, A q → A (quatUpdate q d)) {order H res R} (hs : Good A s) (h : update lib s order H res R = some s') : Good A s' := by
  obtain ⟨L, Ma, -, -, -, -, -, -, rfl⟩ := update_some h
  exact good_fold hA _ _ _ hs

theorem shift_obj (u : ℕ) (mid : ℤ) (sz : ℕ) (l : List ℕ) (obj : ℕ → Obj) (w : ℕ) :
    (l.foldl (shiftId u mid sz) obj w).val = (obj w).val ∧ (l.foldl (shiftId u mid sz) obj w).fej = (obj w).fej := by
  induction l generalizing obj with
  | nil => exact ⟨rfl, rfl⟩
  | cons a t ih =>
    rw [List.foldl_cons]
    obtain ⟨h1, h2⟩ := ih (shiftId u mid sz obj a)
    rw [h1, h2]
    unfold shiftId
    split_ifs with hc
    · rw [hc.1]; exact ⟨rfl, rfl⟩
    · exact ⟨rfl, rfl⟩

theorem good_marg {u : ℕ} (hs : Good A s) (h : marginalize s u = some s') : Good A s' := by
  unfold marginalize at h
  split_ifs at h
  rw [Option.bind_eq_bind, Option.bind_eq_some_iff] at h
  obtain ⟨b, -, h⟩ := h
  obtain rfl := Option.some.inj h
  intro w
  simp only
  split_ifs with hw
  · subst hw
    simp only [(shift_obj _ _ _ _ _ _).1, (shift_obj _ _ _ _ _ _).2]
    exact hs w
  · rw [(shift_obj _ _ _ _ _ _).1, (shift_obj _ _ _ _ _ _).2]
    exact hs w

theorem good_drop {t : ℝ} (hs : Good A s) (h : dropClone s t = some s') : Good A s' := by
  obtain ⟨c, s1, -, h1, rfl⟩ := dropClone_some h
  have := good_marg hs h1
  exact this

theorem good_clone {r : Ref} {u : ℕ} (hs : Good A s) (h : clone s r = some (s', u)) : Good A s' := by
  unfold clone at h
  split_ifs at h
  simp only [Option.bind_eq_bind, Option.bind_eq_some_iff] at h
  obtain ⟨b, -, ⟨o1, v⟩, hv, ⟨o2, f⟩, hf, h⟩ := h
  obtain ⟨rfl, -⟩ := Prod.mk.inj (Option.some.inj h)
  intro w
  simp only
  split_ifs
  · exact ⟨orient_part (hs _).1 hv, orient_part (hs _).2 hf⟩
  · exact hs w

theorem good_initInv (hA : ∀ q d, A q → A (quatUpdate q d)) {u order HR HL R res} (hs : Good A s) (h : initInv lib s u order HR HL R res = some s') : Good A s' := by
  obtain ⟨-, -, -, -, -, -, -, -, -, -, L, Ma, -, -, -, rfl⟩ := initInv_some h
  intro w
  simp only
  split_ifs
  · exact ⟨orient_update hA (hs _).1 _, (hs _).2⟩
  · exact hs w

theorem good_slam (todo kept : List (ℕ × ℕ)) (hs : Good A s) (h : margSlamLoop todo kept s = some s') : Good A s' := by
  induction todo generalizing s kept with
  | nil => obtain rfl := Option.some.inj h; exact hs
  | cons f t ih =>
    unfold margSlamLoop at h
    split_ifs at h
    · rw [Option.bind_eq_bind, Option.bind_eq_some_iff] at h
      obtain ⟨s1, h1, h⟩ := h
      exact ih kept (good_marg hs h1) h
    · exact ih _ hs h

theorem good_step (hA : ∀ q d, A q → A (quatUpdate q d)) {op : Op} (hw : Spec.Writes A op) (hs : Good A s) (h : step lib s op = some s') : Good A s' := by
  cases op with
  | propagate nw old Phi Q => obtain ⟨_, _, _, _, -, -, -, -, -, -, -, -, -, -, -, rfl⟩ := propagate_some h; exact hs
  | update order H res R => exact good_update hA hs h
  | setInit C order => obtain ⟨L, -, -, -, rfl⟩ := setInit_some h; exact hs
  | marginalize u => exact good_marg hs h
  | clone r =>
    simp only [step, Option.map_eq_some_iff] at h
    obtain ⟨⟨s1, u⟩, h1, rfl⟩ := h
    exact good_clone hs h1
  | initInv u order HR HL R res => exact good_initInv hA hs h
  | initDelayed u order HR HL R res mult =>
    simp only [step, Option.map_eq_some_iff] at h
    obtain ⟨⟨s1, b⟩, h1, rfl⟩ := h
    obtain ⟨-, -, -, -, -, -, -, -, -, ⟨-, h2⟩ | ⟨-, s2, h2, ⟨-, h3⟩ | ⟨-, h3⟩⟩⟩ := initDelayed_some h1
    · subst h2; exact hs
    · subst h3; exact good_initInv hA hs h2
    · exact good_update hA (good_initInv hA hs h2) h3
  | augment w =>
    obtain ⟨-, s1, u, h1, ⟨-, h2⟩ | ⟨-, x, b, d, -, -, -, -, -, h2⟩⟩ := augment_some h <;> subst h2 <;> (have := good_clone hs h1; exact this)
  | margOld =>
    simp only [step, margOld] at h
    split_ifs at h
    · rw [Option.bind_eq_bind, Option.bind_eq_some_iff] at h
      obtain ⟨t, -, h⟩ := h
      exact good_drop hs h
    · obtain rfl := Option.some.inj h; exact hs
  | dropClone t => exact good_drop hs h
  | margSlam => exact good_slam _ _ hs h
  | alloc v f =>
    simp only [step] at h
    split_ifs at h
    obtain rfl := Option.some.inj h
    intro w; simp only; split_ifs
    · exact hw
    · exact hs w
  | setVal u v =>
    simp only [step] at h
    split_ifs at h
    obtain rfl := Option.some.inj h
    intro w; simp only; split_ifs
    · exact ⟨hw, (hs u).2⟩
    · exact hs w
  | setFej u v =>
    simp only [step] at h
    split_ifs at h
    obtain rfl := Option.some.inj h
    intro w; simp only; split_ifs
    · exact ⟨(hs u).1, hw⟩
    · exact hs w
  | setMarg u b =>
    obtain rfl := Option.some.inj h
    intro w; simp only; split_ifs
    · exact hs u
    · exact hs w
  | addSlam fid u =>
    simp only [step] at h
    split_ifs at h <;> obtain rfl := Option.some.inj h <;> exact hs
  | setTime t => obtain rfl := Option.some.inj h; exact hs
  | setCam i v => obtain rfl := Option.some.inj h; exact hs

theorem good_ctor (h1 : A ⟨0, 0, 0, 1⟩) (o : Opts) : Good A (ctor o) := by
  have hf : ∀ (l : List ℕ) (t : State) u, ((l.foldl push t).obj u).val = (t.obj u).val ∧ ((l.foldl push t).obj u).fej = (t.obj u).fej := by
    intro l
    induction l with
    | nil => exact fun _ _ => ⟨rfl, rfl⟩
    | cons a l ih =>
      intro t u
      rw [List.foldl_cons, (ih _ u).1, (ih _ u).2]
      unfold push
      simp only
      split_ifs with hu
      · subst hu; exact ⟨rfl, rfl⟩
      · exact ⟨rfl, rfl⟩
  intro u
  unfold ctor
  simp only [(hf _ _ _).1, (hf _ _ _).2]
  unfold heap0
  simp only
  split_ifs <;> simp [Spec.orient, imu0, idQuat, h1]

/-- **C26** (whole state) Let a property of orientations hold for the identity and survive every correction `δθ ↦ δq ⊗ q`. After any history of filter operations,
including rejected and accepted delayed initialisations, cloning and marginalisation, it holds for the orientation and the first-estimate orientation of every variable,
provided the values written directly have it. -/
theorem C26_history (hA : ∀ q d, A q → A (quatUpdate q d)) (h1 : A ⟨0, 0, 0, 1⟩) {o : Opts} {ops : List Op} (hw : ∀ op ∈ ops, Spec.Writes A op)
    (h : run lib (ctor o) ops = some s) (u : ℕ) (q : Quat) (hq : Spec.orient (s.obj u).val = some q ∨ Spec.orient (s.obj u).fej = some q) : A q := by
  have key : ∀ (ops : List Op) (t : State), (∀ op ∈ ops, Spec.Writes A op) → Good A t → run lib t ops = some s → Good A s := by
    intro ops
    induction ops with
    | nil => intro t _ ht h; obtain rfl := Option.some.inj h; exact ht
    | cons op l ih =>
      intro t hw ht h
      unfold run at h
      rw [Option.bind_eq_bind, Option.bind_eq_some_iff] at h
      obtain ⟨t1, h1, h⟩ := h
      exact ih t1 (fun op hop => hw op (by simp [hop])) (good_step hA (hw op (by simp)) ht h1) h
  have := key ops _ hw (good_ctor h1 o) h u
  exact hq.elim (this.1 q) (this.2 q)

/-- **C26** (unit) If the orientations written directly are unit quaternions then, after any history, so is the orientation of every variable, and so is its first
estimate. -/
theorem C26_history_unit {o : Opts} {ops : List Op} (hw : ∀ op ∈ ops, Spec.Writes IsUnitQ op) (h : run lib (ctor o) ops = some s) (u : ℕ) (q : Quat)
    (hq : Spec.orient (s.obj u).val = some q ∨ Spec.orient (s.obj u).fej = some q) : IsUnitQ q :=
  C26_history (fun q d hq => (canon_quatUpdate hq d).1) (by simp [IsUnitQ]) hw h u q hq

/-- **C26** (sign) and if they have non-negative scalar part, so does every orientation afterwards. -/
theorem C26_history_canon {o : Opts} {ops : List Op} (hw : ∀ op ∈ ops, Spec.Writes CanonQ op) (h : run lib (ctor o) ops = some s) (u : ℕ) (q : Quat)
    (hq : Spec.orient (s.obj u).val = some q ∨ Spec.orient (s.obj u).fej = some q) : CanonQ q :=
  C26_history (fun q d hq => canon_quatUpdate hq.1 d) (by simp [CanonQ, IsUnitQ]) hw h u q hq

end Verif.St
