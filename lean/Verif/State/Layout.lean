import Verif.State.Index

/-!
# The layout invariant
-/

set_option linter.unusedVariables false
set_option linter.unusedSimpArgs false
open Classical

namespace Verif.St

open Verif Verif.Types Finset Mat

/-- size of a heap object. -/
abbrev osz (obj : ℕ → Obj) (u : ℕ) : ℕ := (obj u).val.size

/-- variables of the list occupy `[a,b)` consecutively. -/
def Contig (obj : ℕ → Obj) : List ℕ → ℕ → ℕ → Prop
  | [], a, b => a = b
  | u :: t, a, b => (obj u).id = (a : ℤ) ∧ Contig obj t (a + osz obj u) b

theorem Contig.congr {obj obj' : ℕ → Obj} {l : List ℕ} {a b : ℕ}
    (h : ∀ u ∈ l, (obj' u).id = (obj u).id ∧ osz obj' u = osz obj u) (hc : Contig obj l a b) : Contig obj' l a b := by
  induction l generalizing a with
  | nil => exact hc
  | cons u t ih =>
    obtain ⟨h1, h2⟩ := hc
    have hu := h u (by simp)
    refine ⟨hu.1.trans h1, ?_⟩
    rw [hu.2]
    exact ih (fun v hv => h v (by simp [hv])) h2

theorem Contig.le {obj : ℕ → Obj} {l : List ℕ} {a b : ℕ} (h : Contig obj l a b) : a ≤ b := by
  induction l generalizing a with
  | nil => exact le_of_eq h
  | cons u t ih => have := ih h.2; omega

theorem Contig.mem {obj : ℕ → Obj} {l : List ℕ} {a b : ℕ} (h : Contig obj l a b) {u : ℕ} (hu : u ∈ l) :
    (a : ℤ) ≤ (obj u).id ∧ (obj u).id + osz obj u ≤ b := by
  induction l generalizing a with
  | nil => simp at hu
  | cons v t ih =>
    have hle := h.2.le
    rcases List.mem_cons.1 hu with rfl | hu
    · rw [h.1]; constructor
      · exact le_refl _
      · push_cast; omega
    · have := ih h.2 hu; omega

theorem Contig.append {obj : ℕ → Obj} {l l' : List ℕ} {a b : ℕ} :
    Contig obj (l ++ l') a b ↔ ∃ c, Contig obj l a c ∧ Contig obj l' c b := by
  induction l generalizing a with
  | nil => simp [Contig]
  | cons u t ih =>
    simp only [List.cons_append, Contig, ih]
    constructor
    · rintro ⟨h1, c, h2, h3⟩; exact ⟨c, ⟨h1, h2⟩, h3⟩
    · rintro ⟨c, ⟨h1, h2⟩, h3⟩; exact ⟨h1, c, h2, h3⟩

/-- The invariant behind C01. -/
structure Inv (s : State) : Prop where
  contig : Contig s.obj s.vars 0 s.n
  nodup : s.vars.Nodup
  out : ∀ u, u ∉ s.vars → (s.obj u).id = -1
  alloc : ∀ u ∈ s.vars, u < s.next
  kind : ∀ u, sameKind (s.obj u).val (s.obj u).fej

theorem sameKind_size {a b : Val} (h : sameKind a b) : a.size = b.size := by
  cases a <;> cases b <;> simp_all [sameKind, Val.size]

theorem sameKind_refl (a : Val) : sameKind a a := by cases a <;> simp [sameKind]

theorem sameKind_trans {a b c : Val} (h : sameKind a b) (h' : sameKind b c) : sameKind a c := by
  cases a <;> cases b <;> cases c <;> simp_all [sameKind]

theorem sameKind_symm {a b : Val} (h : sameKind a b) : sameKind b a := by
  cases a <;> cases b <;> simp_all [sameKind]

theorem sameKind_update (a : Val) (dx : ℕ → ℝ) : sameKind a (a.update dx) := by
  cases a <;> simp [sameKind, Val.update]

theorem size_update (a : Val) (dx : ℕ → ℝ) : (a.update dx).size = a.size := (sameKind_size (sameKind_update a dx)).symm

/-- parts depend on the kind only. -/
theorem part_kind {a b : Val} (h : sameKind a b) (r : Sub) :
    (a.part r = none ∧ b.part r = none) ∨
      ∃ off v w, a.part r = some (off, v) ∧ b.part r = some (off, w) ∧ sameKind v w := by
  cases a <;> cases b <;> simp only [sameKind] at h <;> cases r <;>
    simp_all [Val.part, sameKind]

theorem part_size {a : Val} {r : Sub} {off : ℕ} {v : Val} (h : a.part r = some (off, v)) : off + v.size ≤ a.size := by
  cases a <;> cases r <;> simp_all [Val.part] <;> obtain ⟨rfl, rfl⟩ := h <;> simp [Val.size]

/-! ### resolving in-state variables -/

theorem Inv.resolve_self {s : State} (h : Inv s) {u : ℕ} (hu : u ∈ s.vars) :
    ∃ k : ℕ, (s.obj u).id = k ∧ k + osz s.obj u ≤ s.n ∧ resolve s (u, .self) = some (k, osz s.obj u) := by
  have hm := h.contig.mem hu
  have hz : osz s.obj u = (s.obj u).val.size := rfl
  obtain ⟨k, hk⟩ := Int.eq_ofNat_of_zero_le (by simpa using hm.1)
  refine ⟨k, hk, by omega, ?_⟩
  simp only [resolve, Val.part, osz]
  rw [if_pos]
  · simp [hk]
  · rw [hk]; simp; omega

theorem resolve_out {s : State} {r : Ref} (h : (s.obj r.1).id = -1) : resolve s r = none := by
  unfold resolve
  split
  · rfl
  · rw [if_neg]; rw [h]; omega

theorem Inv.resolve_mem {s : State} (h : Inv s) {r : Ref} {b : ℕ × ℕ} (hr : resolve s r = some b) : r.1 ∈ s.vars := by
  by_contra hn
  rw [resolve_out (h.out _ hn)] at hr
  simp at hr

/-- a handle with existing part to an active variable resolves. -/
theorem Inv.resolve_part {s : State} (h : Inv s) {r : Ref} (hu : r.1 ∈ s.vars) {off : ℕ} {v : Val}
    (hp : (s.obj r.1).val.part r.2 = some (off, v)) :
    ∃ k : ℕ, (s.obj r.1).id = k ∧ resolve s r = some (k + off, v.size) ∧ k + off + v.size ≤ s.n := by
  have hm := h.contig.mem hu
  have hs := part_size hp
  have hz : osz s.obj r.1 = (s.obj r.1).val.size := rfl
  obtain ⟨k, hk⟩ := Int.eq_ofNat_of_zero_le (by simpa using hm.1)
  refine ⟨k, hk, ?_, by omega⟩
  unfold resolve
  rw [hp]
  simp only
  rw [if_pos]
  · simp [hk]
  · rw [hk]; simp; omega

/-! ### frame: operations that keep ids, sizes, variables -/

/-- ids, kinds and liveness of all objects, the variable list and the allocation counter are the same. -/
structure SameLayout (s s' : State) : Prop where
  n : s'.n = s.n
  vars : s'.vars = s.vars
  next : s'.next = s.next
  id : ∀ u, (s'.obj u).id = (s.obj u).id
  kval : ∀ u, sameKind (s.obj u).val (s'.obj u).val
  kfej : ∀ u, sameKind (s.obj u).fej (s'.obj u).fej

theorem Inv.same {s s' : State} (h : Inv s) (e : SameLayout s s') : Inv s' where
  contig := by
    rw [e.vars, e.n]
    exact h.contig.congr fun u _ => ⟨e.id u, (sameKind_size (e.kval u)).symm⟩
  nodup := by rw [e.vars]; exact h.nodup
  out := by intro u hu; rw [e.vars] at hu; rw [e.id]; exact h.out u hu
  alloc := by rw [e.vars, e.next]; exact h.alloc
  kind := fun u => sameKind_trans (sameKind_symm (e.kval u)) (sameKind_trans (h.kind u) (e.kfej u))

theorem SameLayout.refl (s : State) : SameLayout s s :=
  ⟨rfl, rfl, rfl, fun _ => rfl, fun _ => sameKind_refl _, fun _ => sameKind_refl _⟩

theorem SameLayout.resolve {s s' : State} (e : SameLayout s s') (r : Ref) : resolve s' r = St.resolve s r := by
  unfold St.resolve
  rcases part_kind (e.kval r.1) r.2 with ⟨h1, h2⟩ | ⟨off, v, w, h1, h2, h3⟩
  · rw [h1, h2]
  · rw [h1, h2]
    simp only [e.id, e.n, sameKind_size h3]

/-! ### loops over the variable list -/

theorem foldl_applyDx (dx : Vect) (l : List ℕ) (hn : l.Nodup) (obj : ℕ → Obj) (w : ℕ) :
    (l.foldl (applyDx dx) obj) w =
      if w ∈ l then { obj w with val := (obj w).val.update fun i => dx ((obj w).id.toNat + i) } else obj w := by
  induction l generalizing obj with
  | nil => simp
  | cons u t ih =>
    have hu : u ∉ t := (List.nodup_cons.1 hn).1
    rw [List.foldl_cons, ih (List.nodup_cons.1 hn).2]
    by_cases hw : w = u
    · subst hw
      simp [applyDx, hu]
    · simp [applyDx, hw]

theorem foldl_shift (u : ℕ) (mid : ℤ) (sz : ℕ) (l : List ℕ) (hn : l.Nodup) (obj : ℕ → Obj) (w : ℕ) :
    (l.foldl (shiftId u mid sz) obj) w =
      if w ∈ l ∧ w ≠ u ∧ mid < (obj w).id then { obj w with id := (obj w).id - sz } else obj w := by
  induction l generalizing obj with
  | nil => simp
  | cons v t ih =>
    have hv : v ∉ t := (List.nodup_cons.1 hn).1
    rw [List.foldl_cons, ih (List.nodup_cons.1 hn).2]
    by_cases hw : w = v
    · subst hw
      simp [shiftId, hv]
    · simp [shiftId, hw]

/-! ### each operation -/

theorem propagate_same {s s' : State} {nw old Phi Q} (h : propagate s nw old Phi Q = some s') :
    SameLayout s s' ∧ s'.obj = s.obj := by
  unfold propagate at h
  cases hN : resolveAll s nw with
  | none => rw [hN] at h; simp at h
  | some N =>
    cases hO : resolveAll s old with
    | none => rw [hN, hO] at h; simp at h
    | some O =>
      rw [hN, hO] at h
      simp only [Option.bind_eq_bind, Option.bind_some] at h
      split at h
      · simp at h
      · split_ifs at h <;> simp at h
        subst h
        exact ⟨⟨rfl, rfl, rfl, fun _ => rfl, fun _ => sameKind_refl _, fun _ => sameKind_refl _⟩, rfl⟩

theorem applyDx_same (s : State) (dx : Vect) (hn : s.vars.Nodup) (P' : Mat) (cam : ℕ → Val) :
    SameLayout s { s with P := P', obj := s.vars.foldl (applyDx dx) s.obj, cam := cam } := by
  refine ⟨rfl, rfl, rfl, ?_, ?_, ?_⟩ <;> intro u <;> simp only <;> rw [foldl_applyDx dx _ hn] <;> split_ifs <;>
    first | rfl | exact sameKind_update _ _ | exact sameKind_refl _

/-- Everything `update` does, in one equation. -/
theorem update_some {lib : Lib} {s s' : State} {order H res R} (h : update lib s order H res R = some s') :
    ∃ L Ma, resolveAll s order = some L ∧ res.rows = R.rows ∧ H.rows = R.rows ∧ R.cols = R.rows ∧ H.cols = tot L ∧
      fillMa s L R.rows H.a s.vars (fun _ _ => 0) = some Ma ∧
      s' = { s with
        P := updCov R.rows s.P (gain lib R.rows Ma (resCov H.cols H.a (margCov s.P L) R.a)) Ma,
        obj := s.vars.foldl (applyDx (Mat.mulVec R.rows (gain lib R.rows Ma (resCov H.cols H.a (margCov s.P L) R.a))
          res.a)) s.obj,
        cam := syncCams s.opts (s.vars.foldl (applyDx (Mat.mulVec R.rows (gain lib R.rows Ma
          (resCov H.cols H.a (margCov s.P L) R.a)) res.a)) s.obj) s.cam } := by
  unfold update at h
  cases hL : resolveAll s order with
  | none => rw [hL] at h; simp at h
  | some L =>
    rw [hL] at h
    simp only [Option.bind_eq_bind, Option.bind_some] at h
    split_ifs at h with h1
    cases hM : fillMa s L R.rows H.a s.vars (fun _ _ => 0) with
    | none => rw [hM] at h; simp at h
    | some Ma =>
      rw [hM] at h
      simp only [Option.bind_some] at h
      split_ifs at h with h2
      simp only [Option.some.injEq] at h
      exact ⟨L, Ma, rfl, h1.1, h1.2.1.trans h1.1, h1.2.2.1, h1.2.2.2, hM, h.symm⟩

theorem update_same {lib : Lib} {s s' : State} {order H res R} (hn : s.vars.Nodup)
    (h : update lib s order H res R = some s') : SameLayout s s' := by
  obtain ⟨L, Ma, _, _, _, _, _, _, rfl⟩ := update_some h
  exact applyDx_same s _ hn _ _

theorem setInit_some {s s' : State} {C order} (h : setInit s C order = some s') :
    ∃ L, resolveAll s order = some L ∧ tot L ≤ C.rows ∧ tot L ≤ C.cols ∧
      s' = { s with P := mirrorU (setLoop C.a L L 0 s.P) } := by
  unfold setInit at h
  cases hL : resolveAll s order with
  | none => rw [hL] at h; simp at h
  | some L =>
    rw [hL] at h
    simp only [Option.bind_eq_bind, Option.bind_some] at h
    split_ifs at h with h1
    simp only [Option.some.injEq] at h
    exact ⟨L, rfl, h1.1, h1.2, h.symm⟩

theorem setInit_same {s s' : State} {C order} (h : setInit s C order = some s') : SameLayout s s' := by
  obtain ⟨L, _, _, _, rfl⟩ := setInit_some h
  exact ⟨rfl, rfl, rfl, fun _ => rfl, fun _ => sameKind_refl _, fun _ => sameKind_refl _⟩

/-- `marginalize` on an active variable succeeds, with this result. -/
theorem marginalize_eq {s : State} (hI : Inv s) {u : ℕ} (hu : u ∈ s.vars) :
    ∃ k : ℕ, (s.obj u).id = k ∧ k + osz s.obj u ≤ s.n ∧ ∃ s', marginalize s u = some s' ∧
      s'.n = s.n - osz s.obj u ∧ s'.P = margPcov s.n k (osz s.obj u) s.P ∧ s'.vars = s.vars.filter (· ≠ u) ∧
      s'.next = s.next ∧ s'.opts = s.opts ∧ s'.ts = s.ts ∧ s'.clones = s.clones ∧ s'.slam = s.slam ∧ s'.cam = s.cam ∧
      ∀ w, s'.obj w = if w = u then { s.obj u with id := -1 }
        else if w ∈ s.vars ∧ (k : ℤ) < (s.obj w).id then { s.obj w with id := (s.obj w).id - osz s.obj u }
        else s.obj w := by
  obtain ⟨k, hk, hkn, hr⟩ := hI.resolve_self hu
  refine ⟨k, hk, hkn, ?_⟩
  unfold marginalize
  rw [if_pos hu, hr]
  simp only [Option.bind_eq_bind, Option.bind_some, Option.pure_def]
  refine ⟨_, rfl, rfl, rfl, rfl, rfl, rfl, rfl, rfl, rfl, rfl, ?_⟩
  intro w
  simp only
  by_cases hw : w = u
  · rw [if_pos hw, if_pos hw, foldl_shift _ _ _ _ hI.nodup]
    simp
  · rw [if_neg hw, if_neg hw, foldl_shift _ _ _ _ hI.nodup]
    simp [hw]

theorem marginalize_mem {s s' : State} {u : ℕ} (h : marginalize s u = some s') : u ∈ s.vars := by
  unfold marginalize at h
  by_contra hn
  rw [if_neg hn] at h
  simp at h

theorem Contig.unshifted {obj obj' : ℕ → Obj} {l : List ℕ} {a b : ℕ} (hc : Contig obj l a b)
    (h : ∀ w ∈ l, obj' w = obj w) : Contig obj' l a b :=
  hc.congr fun u hu => by simp only [osz]; rw [h u hu]; exact ⟨rfl, rfl⟩

theorem Contig.shifted {obj obj' : ℕ → Obj} {l : List ℕ} {a b sz : ℕ} (hc : Contig obj l (a + sz) (b + sz))
    (h : ∀ w ∈ l, (obj' w).id = (obj w).id - sz ∧ osz obj' w = osz obj w) : Contig obj' l a b := by
  induction l generalizing a with
  | nil => simp only [Contig] at hc ⊢; omega
  | cons u t ih =>
    obtain ⟨h1, h2⟩ := hc
    have hu := h u (by simp)
    refine ⟨by rw [hu.1, h1]; push_cast; omega, ?_⟩
    rw [hu.2]
    refine ih ?_ fun w hw => h w (by simp [hw])
    rw [show a + osz obj u + sz = a + sz + osz obj u by omega]
    exact h2

theorem marginalize_inv {s s' : State} {u : ℕ} (hI : Inv s) (h : marginalize s u = some s') : Inv s' := by
  have hu := marginalize_mem h
  obtain ⟨k, hk, hkn, s1, h1, e1, e2, e3, e4, _, _, _, _, _, e5⟩ := marginalize_eq hI hu
  rw [h] at h1
  obtain rfl := Option.some.inj h1
  obtain ⟨l1, l2, hl⟩ := List.append_of_mem hu
  have hnd := hI.nodup
  rw [hl] at hnd
  have hu1 : u ∉ l1 := by
    intro hc
    exact (List.nodup_append.1 hnd).2.2 u hc u (by simp) rfl
  have hu2 : u ∉ l2 := (List.nodup_cons.1 (List.nodup_append.1 hnd).2.1).1
  have hC := hI.contig
  rw [hl] at hC
  obtain ⟨c, hc1, hc2⟩ := Contig.append.1 hC
  have hck : c = k := by have := hc2.1; rw [hk] at this; exact_mod_cast this.symm
  subst hck
  have hvars : s'.vars = l1 ++ l2 := by
    rw [e3, hl, List.filter_append, List.filter_cons]
    have f1 : l1.filter (fun x => decide (x ≠ u)) = l1 := List.filter_eq_self.2 fun x hx => by
      simp; rintro rfl; exact hu1 hx
    have f2 : l2.filter (fun x => decide (x ≠ u)) = l2 := List.filter_eq_self.2 fun x hx => by
      simp; rintro rfl; exact hu2 hx
    rw [f1, f2]; simp
  refine ⟨?_, ?_, ?_, ?_, ?_⟩
  · rw [hvars]
    refine Contig.append.2 ⟨c, ?_, ?_⟩
    · refine hc1.unshifted fun w hw => ?_
      have hne : w ≠ u := by rintro rfl; exact hu1 hw
      have := hc1.mem hw
      rw [e5, if_neg hne, if_neg]
      rintro ⟨_, hlt⟩
      omega
    · refine Contig.shifted (sz := osz s.obj u) (obj := s.obj) ?_ ?_
      · rw [e1, Nat.sub_add_cancel (by omega)]; exact hc2.2
      · intro w hw
        have hne : w ≠ u := by rintro rfl; exact hu2 hw
        have := hc2.2.mem hw
        have hwv : w ∈ s.vars := by rw [hl]; simp [hw]
        have hz : osz s.obj u = (s.obj u).val.size := rfl
        simp only [osz, e5, if_neg hne]
        by_cases hlt : (c : ℤ) < (s.obj w).id
        · rw [if_pos ⟨hwv, hlt⟩]; exact ⟨rfl, rfl⟩
        · rw [if_neg (by tauto)]
          refine ⟨?_, rfl⟩
          have := this.1
          push_cast at this
          omega
  · rw [e3]; exact hI.nodup.filter _
  · intro w hw
    rw [e5]
    by_cases hwu : w = u
    · rw [if_pos hwu]
    · rw [if_neg hwu]
      have : w ∉ s.vars := by
        intro hc; apply hw; rw [e3]; simp [hc, hwu]
      rw [if_neg (by tauto)]
      exact hI.out w this
  · intro w hw
    rw [e3] at hw; rw [e4]
    exact hI.alloc w (List.mem_filter.1 hw).1
  · intro w
    rw [e5]
    split_ifs with h1 h2
    · exact hI.kind u
    · exact hI.kind w
    · exact hI.kind w

theorem clone_eq {s s' : State} {r : Ref} {u : ℕ} (hI : Inv s) (h : clone s r = some (s', u)) :
    ∃ (k off : ℕ) (v f : Val), r.1 ∈ s.vars ∧ (s.obj r.1).id = k ∧ (s.obj r.1).val.part r.2 = some (off, v) ∧
      (s.obj r.1).fej.part r.2 = some (off, f) ∧ sameKind v f ∧ k + off + v.size ≤ s.n ∧
      resolve s r = some (k + off, v.size) ∧ u = s.next ∧
      s' = { s with n := s.n + v.size, P := cloneCov s.n (k + off) v.size s.P,
                    obj := fun w => if w = s.next then ⟨s.n, v, f, false, false⟩ else s.obj w,
                    next := s.next + 1, vars := s.vars ++ [s.next] } := by
  unfold clone at h
  split_ifs at h with hu
  rcases part_kind (hI.kind r.1) r.2 with ⟨p1, _⟩ | ⟨off, v, f, p1, p2, p3⟩
  · simp [resolve, p1] at h
  · obtain ⟨k, hk, hr, hle⟩ := hI.resolve_part hu p1
    rw [hr, p1, p2] at h
    simp only [Option.bind_eq_bind, Option.bind_some, Option.pure_def, Option.some.injEq, Prod.mk.injEq] at h
    exact ⟨k, off, v, f, hu, hk, p1, p2, p3, hle, hr, h.2.symm, h.1.symm⟩

/-- appending a variable at the end. -/
theorem append_inv {s s' : State} {u : ℕ} (hI : Inv s) (hu : u ∉ s.vars) (hlt : u < s'.next) (hnx : s.next ≤ s'.next)
    (hv : s'.vars = s.vars ++ [u]) (hid : (s'.obj u).id = s.n) (hn : s'.n = s.n + osz s'.obj u)
    (hk : sameKind (s'.obj u).val (s'.obj u).fej) (ho : ∀ w, w ≠ u → s'.obj w = s.obj w) : Inv s' := by
  have hne : ∀ w ∈ s.vars, w ≠ u := fun w hw => by rintro rfl; exact hu hw
  refine ⟨?_, ?_, ?_, ?_, ?_⟩
  · rw [hv]
    exact Contig.append.2 ⟨s.n, hI.contig.unshifted fun w hw => ho w (hne w hw), hid, hn.symm⟩
  · rw [hv, List.nodup_append]
    refine ⟨hI.nodup, by simp, ?_⟩
    intro a ha b hb
    simp at hb; subst hb
    exact hne a ha
  · intro w hw
    rw [hv] at hw
    simp at hw
    rw [ho w hw.2]
    exact hI.out w hw.1
  · intro w hw
    rw [hv] at hw
    simp at hw
    rcases hw with hw | rfl
    · have := hI.alloc w hw; omega
    · exact hlt
  · intro w
    by_cases h : w = u
    · subst h; exact hk
    · rw [ho w h]; exact hI.kind w

theorem clone_inv {s s' : State} {r : Ref} {u : ℕ} (hI : Inv s) (h : clone s r = some (s', u)) : Inv s' := by
  obtain ⟨k, off, v, f, hu, hk, p1, p2, p3, hle, hr, rfl, rfl⟩ := clone_eq hI h
  refine append_inv (u := s.next) hI ?_ (by simp) (by simp) rfl ?_ ?_ ?_ ?_
  · intro hc; exact absurd (hI.alloc _ hc) (lt_irrefl _)
  · simp
  · simp [osz]
  · simpa using p3
  · intro w hw; simp [hw]

theorem initInv_some {lib : Lib} {s s' : State} {u order HR HL R res}
    (h : initInv lib s u order HR HL R res = some s') :
    u ∉ s.vars ∧ u < s.next ∧ R.rows = R.cols ∧ 0 < R.rows ∧ isoNoise R.rows R.a ∧ res.rows = R.rows ∧
      HL.rows = R.rows ∧ HR.rows = R.rows ∧ HL.cols = R.rows ∧ osz s.obj u = R.rows ∧
      ∃ L Ma, resolveAll s order = some L ∧ HR.cols = tot L ∧
        fillMa s L R.rows HR.a s.vars (fun _ _ => 0) = some Ma ∧
        s' = { s with
          n := s.n + R.rows,
          P := initCov s.n R.rows s.P Ma (lib.inv R.rows HL.a) (resCov HR.cols HR.a (margCov s.P L) R.a),
          obj := fun w => if w = u then
            { s.obj u with val := (s.obj u).val.update (Mat.mulVec R.rows (lib.inv R.rows HL.a) res.a), id := s.n }
            else s.obj w,
          vars := s.vars ++ [u] } := by
  unfold initInv at h
  split_ifs at h with h1 h2 h3 h4
  push Not at h1
  cases hL : resolveAll s order with
  | none => rw [hL] at h; simp at h
  | some L =>
    rw [hL] at h
    simp only [Option.bind_eq_bind, Option.bind_some] at h
    split_ifs at h with h5 h6
    · cases hM : fillMa s L R.rows HR.a s.vars (fun _ _ => 0) with
      | none => rw [hM] at h; simp at h
      | some Ma =>
        rw [hM] at h
        simp only [Option.bind_some] at h
        simp only [Option.some.injEq] at h
        have e : (s.obj u).val.size = R.rows := by omega
        rw [e] at h
        exact ⟨h1.1, h1.2, h2.1, h2.2, h3, h4.1, by omega, by omega, by omega, e, L, Ma, rfl, by simpa using h5, hM,
          h.symm⟩
    · cases hM : fillMa s L R.rows HR.a s.vars (fun _ _ => 0) <;> rw [hM] at h <;> simp at h

theorem initInv_inv {lib : Lib} {s s' : State} {u order HR HL R res} (hI : Inv s)
    (h : initInv lib s u order HR HL R res = some s') : Inv s' := by
  obtain ⟨hu, hlt, _, _, _, _, _, _, _, hsz, L, Ma, _, _, _, rfl⟩ := initInv_some h
  refine append_inv (u := u) hI hu hlt (le_refl _) rfl ?_ ?_ ?_ ?_
  · simp
  · simp [osz, size_update]; exact hsz.symm
  · simp only [if_true]
    exact sameKind_trans (sameKind_symm (sameKind_update _ _)) (hI.kind u)
  · intro w hw; simp [hw]

/-- The three outcomes of delayed initialisation. -/
theorem initDelayed_some {lib : Lib} {s s' : State} {u order HR HL R res mult b}
    (h : initDelayed lib s u order HR HL R res mult = some (s', b)) :
    isoNoise R.rows R.a ∧ R.rows = R.cols ∧ 0 < R.rows ∧ u ∉ s.vars ∧ osz s.obj u = HL.cols ∧ HL.rows = R.rows ∧
    HR.rows = R.rows ∧ res.rows = R.rows ∧ HL.cols ≤ R.rows ∧
    ((b = false ∧ s' = s) ∨
     (b = true ∧
      ∃ s1, initInv lib s u order ⟨HL.cols, HR.cols, (Givens.run R.rows HL.cols ⟨HL.a, HR.a, res.a⟩).B⟩
          ⟨HL.cols, HL.cols, (Givens.run R.rows HL.cols ⟨HL.a, HR.a, res.a⟩).A⟩ ⟨HL.cols, HL.cols, R.a⟩
          ⟨HL.cols, (Givens.run R.rows HL.cols ⟨HL.a, HR.a, res.a⟩).v⟩ = some s1 ∧
        ((HL.cols = R.rows ∧ s' = s1) ∨
         (HL.cols < R.rows ∧
          update lib s1 order ⟨R.rows - HL.cols, HR.cols,
              Mat.block HL.cols 0 (Givens.run R.rows HL.cols ⟨HL.a, HR.a, res.a⟩).B⟩
            ⟨R.rows - HL.cols, fun i => (Givens.run R.rows HL.cols ⟨HL.a, HR.a, res.a⟩).v (HL.cols + i)⟩
            ⟨R.rows - HL.cols, R.rows - HL.cols, Mat.block HL.cols HL.cols R.a⟩ = some s')))) := by
  unfold initDelayed at h
  split_ifs at h with h1 h2 h3
  push Not at h1
  simp only at h
  by_cases h4 : (s.obj u).val.size = HL.cols ∧ HL.rows = HR.rows ∧ res.rows = HL.rows ∧ R.rows = HL.rows ∧
    (s.obj u).val.size ≤ HL.rows
  · rw [if_neg (not_not.2 h4)] at h
    obtain ⟨e1, e2, e3, e4, e5⟩ := h4
    rw [e1, ← e4] at h
    cases hL : resolveAll s order with
    | none => rw [hL] at h; simp at h
    | some L =>
      rw [hL] at h
      simp only [Option.bind_eq_bind, Option.bind_some] at h
      by_cases h5 : HR.cols = tot L
      · rw [if_neg (not_not.2 h5)] at h
        refine ⟨h3, h2.1, h2.2, h1.1, e1, e4.symm, by omega, by omega, by omega, ?_⟩
        split at h
        · simp only [Option.some.injEq, Prod.mk.injEq] at h
          exact .inl ⟨h.2.symm, h.1.symm⟩
        · right
          rw [Option.bind_eq_some_iff] at h
          obtain ⟨s1, g1, g2⟩ := h
          by_cases h7 : 0 < R.rows - HL.cols
          · rw [if_pos h7, Option.bind_eq_some_iff] at g2
            obtain ⟨s2, g2, g3⟩ := g2
            simp only [Option.pure_def, Option.some.injEq, Prod.mk.injEq] at g3
            obtain ⟨rfl, rfl⟩ := g3
            exact ⟨rfl, s1, g1, .inr ⟨by omega, g2⟩⟩
          · rw [if_neg h7] at g2
            simp only [Option.pure_def, Option.some.injEq, Prod.mk.injEq] at g2
            obtain ⟨rfl, rfl⟩ := g2
            exact ⟨rfl, s1, g1, .inl ⟨by omega, rfl⟩⟩
      · rw [if_pos h5] at h; simp at h
  · rw [if_pos h4] at h; simp at h

theorem initDelayed_inv {lib : Lib} {s s' : State} {u order HR HL R res mult b} (hI : Inv s)
    (h : initDelayed lib s u order HR HL R res mult = some (s', b)) : Inv s' := by
  obtain ⟨_, _, _, _, _, _, _, _, _, h | ⟨_, s1, h1, h2⟩⟩ := initDelayed_some h
  · rw [h.2]; exact hI
  · have hI1 := initInv_inv hI h1
    rcases h2 with ⟨_, rfl⟩ | ⟨_, h2⟩
    · exact hI1
    · exact hI1.same (update_same hI1.nodup h2)

theorem augment_some {s s' : State} {w : V3} (h : augment s w = some s') :
    s.clones.find? (fun c => decide (c.1 = s.ts)) = none ∧
    ∃ s1 u, clone s (imuUid, .pose) = some (s1, u) ∧
      ((s1.opts.calibDt = false ∧ s' = { s1 with clones := insertClone s1.ts u s1.clones }) ∨
       (s1.opts.calibDt = true ∧ ∃ x b d, (s1.obj imuUid).val = .imu x ∧ resolve s1 (u, .self) = some b ∧
          resolve s1 (dtUid, .self) = some d ∧ b.1 + 6 ≤ s1.n ∧ d.1 < s1.n ∧
          s' = { s1 with clones := insertClone s1.ts u s1.clones, P := dtCov s1.n b.1 d.1 (dncDt w x.v) s1.P })) := by
  unfold augment at h
  split_ifs at h with h1
  refine ⟨Option.not_isSome_iff_eq_none.1 h1, ?_⟩
  rw [Option.bind_eq_bind, Option.bind_eq_some_iff] at h
  obtain ⟨⟨s1, u⟩, h2, h3⟩ := h
  refine ⟨s1, u, h2, ?_⟩
  simp only at h3
  split_ifs at h3 with h4
  · right
    refine ⟨h4, ?_⟩
    split at h3
    · rename_i x hx
      rw [Option.bind_eq_bind, Option.bind_eq_some_iff] at h3
      obtain ⟨b, hb, h3⟩ := h3
      rw [Option.bind_eq_some_iff] at h3
      obtain ⟨d, hd, h3⟩ := h3
      split_ifs at h3 with h5
      simp only [Option.pure_def, Option.some.injEq] at h3
      exact ⟨x, b, d, hx, hb, hd, h5.1, h5.2, h3.symm⟩
    · simp at h3
  · left
    simp only [Option.pure_def, Option.some.injEq] at h3
    exact ⟨by simpa using h4, h3.symm⟩

theorem augment_inv {s s' : State} {w : V3} (hI : Inv s) (h : augment s w = some s') : Inv s' := by
  obtain ⟨_, s1, u, h1, h2⟩ := augment_some h
  have hI1 := clone_inv hI h1
  rcases h2 with ⟨_, rfl⟩ | ⟨_, x, b, d, _, _, _, _, _, rfl⟩
  all_goals exact hI1.same ⟨rfl, rfl, rfl, fun _ => rfl, fun _ => sameKind_refl _, fun _ => sameKind_refl _⟩

theorem dropClone_some {s s' : State} {t : ℝ} (h : dropClone s t = some s') :
    ∃ c s1, s.clones.find? (fun c => decide (c.1 = t)) = some c ∧ marginalize s c.2 = some s1 ∧
      s' = { s1 with clones := s1.clones.filter fun c => decide (c.1 ≠ t) } := by
  unfold dropClone at h
  rw [Option.bind_eq_bind, Option.bind_eq_some_iff] at h
  obtain ⟨c, hc, h⟩ := h
  rw [Option.bind_eq_bind, Option.bind_eq_some_iff] at h
  obtain ⟨s1, h1, h⟩ := h
  simp only [Option.pure_def, Option.some.injEq] at h
  exact ⟨c, s1, hc, h1, h.symm⟩

theorem dropClone_inv {s s' : State} {t : ℝ} (hI : Inv s) (h : dropClone s t = some s') : Inv s' := by
  obtain ⟨c, s1, _, h1, rfl⟩ := dropClone_some h
  exact (marginalize_inv hI h1).same
    ⟨rfl, rfl, rfl, fun _ => rfl, fun _ => sameKind_refl _, fun _ => sameKind_refl _⟩

theorem margOld_cases {s s' : State} (h : margOld s = some s') :
    (s.clones.length ≤ s.opts.maxClones ∧ s' = s) ∨
    (s.opts.maxClones < s.clones.length ∧ ∃ t, margtimestep s = some t ∧ dropClone s t = some s') := by
  unfold margOld at h
  split_ifs at h with h1
  · right
    rw [Option.bind_eq_bind, Option.bind_eq_some_iff] at h
    exact ⟨h1, h⟩
  · left; exact ⟨by omega, by simpa using h.symm⟩

theorem margOld_inv {s s' : State} (hI : Inv s) (h : margOld s = some s') : Inv s' := by
  rcases margOld_cases h with ⟨_, rfl⟩ | ⟨_, t, _, h⟩
  · exact hI
  · exact dropClone_inv hI h

theorem margSlamLoop_inv (todo : List (ℕ × ℕ)) : ∀ (kept : List (ℕ × ℕ)) {s s' : State}, Inv s →
    margSlamLoop todo kept s = some s' → Inv s' := by
  induction todo with
  | nil =>
    intro kept s s' hI h
    simp only [margSlamLoop, Option.some.injEq] at h
    subst h
    exact hI.same ⟨rfl, rfl, rfl, fun _ => rfl, fun _ => sameKind_refl _, fun _ => sameKind_refl _⟩
  | cons f t ih =>
    intro kept s s' hI h
    simp only [margSlamLoop] at h
    split_ifs at h with h1
    · rw [Option.bind_eq_bind, Option.bind_eq_some_iff] at h
      obtain ⟨s1, h2, h3⟩ := h
      exact ih kept (marginalize_inv hI h2) h3
    · exact ih _ hI h

theorem step_inv {lib : Lib} {s s' : State} {op : Op} (hI : Inv s) (h : step lib s op = some s') : Inv s' := by
  have frame : ∀ u (o : Obj), o.id = (s.obj u).id → sameKind (s.obj u).val o.val → sameKind (s.obj u).fej o.fej →
      Inv { s with obj := fun w => if w = u then o else s.obj w } := by
    intro u o e1 e2 e3
    refine hI.same ⟨rfl, rfl, rfl, ?_, ?_, ?_⟩ <;> intro w <;> by_cases hw : w = u
    all_goals first
      | (subst hw; simp only [if_true]; assumption)
      | (simp only [if_neg hw]; done)
      | (simp only [if_neg hw]; exact sameKind_refl _)
  cases op with
  | propagate nw old Phi Q => exact hI.same (propagate_same h).1
  | update order H res R => exact hI.same (update_same hI.nodup h)
  | setInit C order => exact hI.same (setInit_same h)
  | marginalize u => exact marginalize_inv hI h
  | clone r =>
    simp only [step, Option.map_eq_some_iff] at h
    obtain ⟨⟨a, u⟩, h1, rfl⟩ := h
    exact clone_inv hI h1
  | initInv u order HR HL R res => exact initInv_inv hI h
  | initDelayed u order HR HL R res mult =>
    simp only [step, Option.map_eq_some_iff] at h
    obtain ⟨⟨a, b⟩, h1, rfl⟩ := h
    exact initDelayed_inv hI h1
  | augment w => exact augment_inv hI h
  | margOld => exact margOld_inv hI h
  | dropClone t => exact dropClone_inv hI h
  | margSlam => exact margSlamLoop_inv _ _ hI h
  | alloc v f =>
    simp only [step] at h
    split_ifs at h with hk
    simp only [Option.some.injEq] at h
    subst h
    have hnv : s.next ∉ s.vars := fun hc => absurd (hI.alloc _ hc) (lt_irrefl _)
    refine ⟨hI.contig.unshifted fun w hw => ?_, hI.nodup, ?_, ?_, ?_⟩
    · show (if w = s.next then _ else _) = _
      rw [if_neg]; rintro rfl; exact hnv hw
    · intro w hw
      show (if w = s.next then _ else _ : Obj).id = -1
      split_ifs
      · rfl
      · exact hI.out w hw
    · intro w hw; have := hI.alloc w hw; show w < s.next + 1; omega
    · intro w
      simp only
      split_ifs
      · exact hk
      · exact hI.kind w
  | setVal u v =>
    simp only [step] at h
    split_ifs at h with h1
    simp only [Option.some.injEq] at h
    subst h
    exact frame u _ rfl h1 (sameKind_refl _)
  | setFej u v =>
    simp only [step] at h
    split_ifs at h with h1
    simp only [Option.some.injEq] at h
    subst h
    exact frame u _ rfl (sameKind_refl _) h1
  | setMarg u b =>
    simp only [step, Option.some.injEq] at h
    subst h
    exact frame u _ rfl (sameKind_refl _) (sameKind_refl _)
  | addSlam fid u =>
    simp only [step] at h
    split_ifs at h with h1
    · simp only [Option.some.injEq] at h; subst h; exact hI
    · simp only [Option.some.injEq] at h; subst h
      exact hI.same ⟨rfl, rfl, rfl, fun _ => rfl, fun _ => sameKind_refl _, fun _ => sameKind_refl _⟩
  | setTime t =>
    simp only [step, Option.some.injEq] at h
    subst h
    exact hI.same ⟨rfl, rfl, rfl, fun _ => rfl, fun _ => sameKind_refl _, fun _ => sameKind_refl _⟩
  | setCam i v =>
    simp only [step, Option.some.injEq] at h
    subst h
    exact hI.same ⟨rfl, rfl, rfl, fun _ => rfl, fun _ => sameKind_refl _, fun _ => sameKind_refl _⟩

/-! ### the constructor -/

theorem push_inv {s : State} {u : ℕ} (hI : Inv s) (hu : u ∉ s.vars) (hlt : u < s.next) : Inv (push s u) := by
  refine append_inv (u := u) hI hu hlt (le_refl _) rfl ?_ ?_ ?_ ?_
  · simp [push]
  · simp [push, osz]
  · simp [push]; exact hI.kind u
  · intro w hw; simp [push, hw]

theorem foldl_push_inv (l : List ℕ) : ∀ (s : State), Inv s → l.Nodup → (∀ u ∈ l, u ∉ s.vars) → (∀ u ∈ l, u < s.next) →
    Inv (l.foldl push s) := by
  induction l with
  | nil => intro s hI _ _ _; exact hI
  | cons u t ih =>
    intro s hI hn hd hlt
    rw [List.foldl_cons]
    refine ih _ (push_inv hI (hd u (by simp)) (hlt u (by simp))) (List.nodup_cons.1 hn).2 ?_ ?_
    · intro v hv
      simp only [push, List.mem_append, List.mem_singleton, not_or]
      refine ⟨hd v (by simp [hv]), ?_⟩
      rintro rfl
      exact (List.nodup_cons.1 hn).1 hv
    · intro v hv; exact hlt v (by simp [hv])

theorem camList_mem (o : Opts) (u : ℕ)
    (h : u ∈ (List.range o.numCams).flatMap fun i =>
      (if o.calibPose then [7 + 2 * i] else []) ++ (if o.calibIntr then [intrUid i] else [])) :
    7 ≤ u ∧ u < 7 + 2 * o.numCams := by
  simp only [List.mem_flatMap, List.mem_range, List.mem_append] at h
  obtain ⟨i, hi, h⟩ := h
  rcases h with h | h <;> split_ifs at h <;> simp [intrUid] at h <;> omega

theorem camList_nodup (o : Opts) :
    ((List.range o.numCams).flatMap fun i =>
      (if o.calibPose then [7 + 2 * i] else []) ++ (if o.calibIntr then [intrUid i] else [])).Nodup := by
  rw [List.nodup_flatMap]
  refine ⟨?_, ?_⟩
  · intro i _
    cases o.calibPose <;> cases o.calibIntr <;> simp [intrUid]
  · have := List.nodup_range (n := o.numCams)
    refine List.Pairwise.imp ?_ this
    intro i j hij
    simp only [Function.onFun, List.disjoint_left]
    intro a ha hb
    cases h1 : o.calibPose <;> cases h2 : o.calibIntr <;> simp [intrUid, h1, h2] at ha hb <;> omega

theorem ctorVars_spec (o : Opts) : (ctorVars o).Nodup ∧ ∀ u ∈ ctorVars o, u < 7 + 2 * o.numCams := by
  unfold ctorVars
  constructor
  · rw [List.nodup_append]
    refine ⟨?_, camList_nodup o, ?_⟩
    · cases o.calibImu <;> cases o.calibG <;> cases o.kalibr <;> cases o.calibDt <;> decide
    · intro a ha b hb
      have := camList_mem o b hb
      have ha' : a < 7 := by
        revert ha
        cases o.calibImu <;> cases o.calibG <;> cases o.kalibr <;> cases o.calibDt <;> simp <;> omega
      omega
  · intro u hu
    rw [List.mem_append] at hu
    rcases hu with hu | hu
    · have ha' : u < 7 := by
        revert hu
        cases o.calibImu <;> cases o.calibG <;> cases o.kalibr <;> cases o.calibDt <;> simp <;> omega
      omega
    · exact (camList_mem o u hu).2

theorem heap0_id (u : ℕ) : (heap0 u).id = -1 := by
  unfold heap0; simp only; split_ifs <;> rfl

theorem heap0_kind (u : ℕ) : sameKind (heap0 u).val (heap0 u).fej := by
  unfold heap0; simp only; split_ifs <;> simp [sameKind]

/-- the state before the covariance is filled in. -/
def ctorBase (o : Opts) : State :=
  ⟨o, 0, fun _ _ => 0, heap0, 7 + 2 * o.numCams, [], -1, [], [], fun _ => .vec 8 fun _ => 0⟩

theorem ctorBase_inv (o : Opts) : Inv (ctorBase o) :=
  ⟨rfl, List.nodup_nil, fun u _ => heap0_id u, by simp [ctorBase], heap0_kind⟩

theorem ctor_pushed_inv (o : Opts) : Inv ((ctorVars o).foldl push (ctorBase o)) :=
  foldl_push_inv _ _ (ctorBase_inv o) (ctorVars_spec o).1 (by simp [ctorBase]) (ctorVars_spec o).2

theorem ctor_inv (o : Opts) : Inv (ctor o) :=
  (ctor_pushed_inv o).same ⟨rfl, rfl, rfl, fun _ => rfl, fun _ => sameKind_refl _, fun _ => sameKind_refl _⟩

end Verif.St
