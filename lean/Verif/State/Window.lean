import Verif.State.PropsB

/-!
# Invariant of the clone window, the landmark map and the constructor's variables

For histories in which variables are only removed through `marginalize_old_clone`, the clone removal of the zero-velocity
updater and `marginalize_slam` (the only uses of `StateHelper::marginalize` in the program).
-/

set_option linter.unusedVariables false
set_option linter.unusedSimpArgs false
open Classical

namespace Verif.St

open Verif Verif.Types Finset Mat

variable {lib : Lib} {s s' : State} {o : Opts}

/-- first uid not used by the constructor. -/
def base (o : Opts) : ℕ := 7 + 2 * o.numCams

/-- not a direct call of `StateHelper::marginalize`. -/
def Spec.NotRaw : Op → Prop
  | .marginalize _ => False
  | _ => True

/-- states reached by the program: variables are only removed by clone and landmark marginalisation. -/
def Spec.Prog (lib : Lib) (o : Opts) (s : State) : Prop := ∃ ops, (∀ op ∈ ops, Spec.NotRaw op) ∧ run lib (ctor o) ops = some s

theorem Spec.Prog.reach (h : Spec.Prog lib o s) : Spec.Reach lib s := by
  obtain ⟨ops, _, h⟩ := h; exact ⟨o, ops, h⟩

structure W (o : Opts) (s : State) : Prop where
  opts : s.opts = o
  next : base o ≤ s.next
  pre : ∃ rest, s.vars = ctorVars o ++ rest
  kind : ∀ u, u < base o → sameKind (heap0 u).val (s.obj u).val
  low : ∀ u, u < base o → (s.obj u).lm = false
  sorted : s.clones.Pairwise (fun a b => a.1 < b.1)
  cin : ∀ c ∈ s.clones, c.2 ∈ s.vars ∧ (s.obj c.2).lm = false ∧ base o ≤ c.2 ∧ osz s.obj c.2 = 6
  cuid : s.clones.Pairwise (fun a b => a.2 ≠ b.2)
  sin : ∀ f ∈ s.slam, f.2 ∈ s.vars ∧ (s.obj f.2).lm = true
  skey : s.slam.Pairwise (fun a b => a.1 ≠ b.1)
  suid : s.slam.Pairwise (fun a b => a.2 ≠ b.2)
  cpose : ∀ c ∈ s.clones, ∃ q p, (s.obj c.2).val = .pose q p

theorem sameKind_pose {q : Quat} {p : V3} {b : Val} (h : sameKind (.pose q p) b) : ∃ q' p', b = .pose q' p' := by
  cases b <;> simp_all [sameKind]

theorem W.mem (h : W o s) {u : ℕ} (hu : u ∈ ctorVars o) : u ∈ s.vars := by
  obtain ⟨rest, hr⟩ := h.pre
  rw [hr]; simp [hu]

theorem zero_mem_ctorVars (o : Opts) : 0 ∈ ctorVars o := by simp [ctorVars]

/-- operations that only append variables and keep flags, kinds, clones and landmarks. -/
theorem W.frame (h : W o s) (hI : Inv s) (e1 : s'.opts = s.opts) (e2 : s.next ≤ s'.next)
    (e3 : ∃ ex, s'.vars = s.vars ++ ex) (e4 : s'.clones = s.clones) (e5 : s'.slam = s.slam)
    (e6 : ∀ u, u < s.next → (s'.obj u).lm = (s.obj u).lm ∧ sameKind (s.obj u).val (s'.obj u).val) : W o s' := by
  obtain ⟨ex, e3⟩ := e3
  have hin : ∀ u ∈ s.vars, u ∈ s'.vars := fun u hu => by rw [e3]; simp [hu]
  have hlow : ∀ u, u < base o → u < s.next := fun u hu => lt_of_lt_of_le hu h.next
  refine ⟨e1.trans h.opts, h.next.trans e2, ?_, ?_, ?_, ?_, ?_, ?_, ?_, ?_, ?_, ?_⟩
  · obtain ⟨rest, hr⟩ := h.pre
    exact ⟨rest ++ ex, by rw [e3, hr, List.append_assoc]⟩
  · intro u hu; exact sameKind_trans (h.kind u hu) (e6 u (hlow u hu)).2
  · intro u hu; rw [(e6 u (hlow u hu)).1]; exact h.low u hu
  · rw [e4]; exact h.sorted
  · rw [e4]
    intro c hc
    obtain ⟨h1, h2, h3, h4⟩ := h.cin c hc
    have := e6 c.2 (hI.alloc _ h1)
    exact ⟨hin _ h1, by rw [this.1]; exact h2, h3, by rw [← h4]; exact (sameKind_size this.2).symm⟩
  · rw [e4]; exact h.cuid
  · rw [e5]
    intro f hf
    obtain ⟨h1, h2⟩ := h.sin f hf
    exact ⟨hin _ h1, by rw [(e6 f.2 (hI.alloc _ h1)).1]; exact h2⟩
  · rw [e5]; exact h.skey
  · rw [e5]; exact h.suid
  · rw [e4]
    intro c hc
    obtain ⟨q, p, hq⟩ := h.cpose c hc
    have := (e6 c.2 (hI.alloc _ (h.cin c hc).1)).2
    rw [hq] at this
    exact sameKind_pose this

/-- removing a variable that is not one of the constructor's, together with its map entry. -/
theorem W.marg (h : W o s) (hI : Inv s) {u : ℕ} {s1 : State} (hm : marginalize s u = some s1) (hu : u ∉ ctorVars o)
    {C : List (ℝ × ℕ)} {S : List (ℕ × ℕ)} (hC : C.Sublist s.clones) (hS : S.Sublist s.slam) (hCu : ∀ c ∈ C, c.2 ≠ u)
    (hSu : ∀ f ∈ S, f.2 ≠ u) : W o { s1 with clones := C, slam := S } := by
  have hmem := marginalize_mem hm
  obtain ⟨k, hk, hkn, s2, h1, e1, e2, e3, e4, e5, _, _, _, _, e6⟩ := marginalize_eq hI hmem
  rw [hm] at h1
  obtain rfl := Option.some.inj h1
  have hobj : ∀ w, (s1.obj w).lm = (s.obj w).lm ∧ (s1.obj w).val = (s.obj w).val := by
    intro w; rw [e6]; split_ifs with a b
    · subst a; exact ⟨rfl, rfl⟩
    · exact ⟨rfl, rfl⟩
    · exact ⟨rfl, rfl⟩
  refine ⟨e5.trans h.opts, by show base o ≤ s1.next; rw [e4]; exact h.next, ?_, ?_, ?_, h.sorted.sublist hC, ?_, h.cuid.sublist hC, ?_,
    h.skey.sublist hS, h.suid.sublist hS, fun c hc => by
      show ∃ q p, (s1.obj c.2).val = _
      rw [(hobj _).2]; exact h.cpose c (hC.subset hc)⟩
  · obtain ⟨rest, hr⟩ := h.pre
    refine ⟨rest.filter (· ≠ u), ?_⟩
    show s1.vars = _
    rw [e3, hr, List.filter_append]
    congr 1
    exact List.filter_eq_self.2 fun x hx => by simp; rintro rfl; exact hu hx
  · intro w hw; show sameKind _ (s1.obj w).val; rw [(hobj w).2]; exact h.kind w hw
  · intro w hw; show (s1.obj w).lm = _; rw [(hobj w).1]; exact h.low w hw
  · intro c hc
    obtain ⟨h1, h2, h3, h4⟩ := h.cin c (hC.subset hc)
    refine ⟨?_, ?_, h3, ?_⟩
    · show c.2 ∈ s1.vars; rw [e3]; simp [h1, hCu c hc]
    · show (s1.obj c.2).lm = _; rw [(hobj _).1]; exact h2
    · show (s1.obj c.2).val.size = _; rw [(hobj _).2]; exact h4
  · intro f hf
    obtain ⟨h1, h2⟩ := h.sin f (hS.subset hf)
    refine ⟨?_, ?_⟩
    · show f.2 ∈ s1.vars; rw [e3]; simp [h1, hSu f hf]
    · show (s1.obj f.2).lm = _; rw [(hobj _).1]; exact h2

theorem update_lm {order H res R} (hn : s.vars.Nodup) (h : update lib s order H res R = some s') :
    (∀ u, (s'.obj u).lm = (s.obj u).lm ∧ sameKind (s.obj u).val (s'.obj u).val) ∧ s'.opts = s.opts ∧ s'.next = s.next ∧
      s'.vars = s.vars ∧ s'.clones = s.clones ∧ s'.slam = s.slam := by
  obtain ⟨L, Ma, hL, e1, e2, e3, hc, hM, rfl⟩ := update_some h
  refine ⟨fun u => ?_, rfl, rfl, rfl, rfl, rfl⟩
  simp only [foldl_applyDx _ _ hn]
  split_ifs
  · exact ⟨rfl, sameKind_update _ _⟩
  · exact ⟨rfl, sameKind_refl _⟩

theorem W.update {order H res R} (h : W o s) (hI : Inv s) (hs : St.update lib s order H res R = some s') : W o s' := by
  obtain ⟨e1, e2, e3, e4, e5, e6⟩ := update_lm hI.nodup hs
  exact h.frame hI e2 e3.ge ⟨[], by rw [e4]; simp⟩ e5 e6 fun u _ => e1 u

theorem W.initInv {u order HR HL R res} (h : W o s) (hI : Inv s) (hs : St.initInv lib s u order HR HL R res = some s') :
    W o s' := by
  obtain ⟨hu, hnx, hRc, hR0, hiso, hrr, hHL, hHR, hHLc, hk, L, Ma, hL, hc, hM, rfl⟩ := initInv_some hs
  refine h.frame hI rfl le_rfl ⟨[u], rfl⟩ rfl rfl fun w _ => ?_
  simp only
  split_ifs with hw
  · subst hw; exact ⟨rfl, sameKind_update _ _⟩
  · exact ⟨rfl, sameKind_refl _⟩

theorem W.clone {r u} (h : W o s) (hI : Inv s) (hs : St.clone s r = some (s', u)) : W o s' := by
  obtain ⟨k, off, v, f, hu, hk, p1, p2, p3, hle, hr, rfl, rfl⟩ := clone_eq hI hs
  refine h.frame hI rfl (Nat.le_succ _) ⟨[s.next], rfl⟩ rfl rfl fun w hw => ?_
  simp only
  rw [if_neg (by omega)]
  exact ⟨rfl, sameKind_refl _⟩

theorem mem_insertClone (t : ℝ) (u : ℕ) (l : List (ℝ × ℕ)) (hl : ∀ c ∈ l, c.1 ≠ t) (c : ℝ × ℕ) :
    c ∈ insertClone t u l ↔ c = (t, u) ∨ c ∈ l := by
  induction l with
  | nil => simp [insertClone]
  | cons a l ih =>
    simp only [insertClone]
    split_ifs with h1 h2
    · simp
    · exact absurd h2 (hl a (by simp))
    · rw [List.mem_cons, ih fun c hc => hl c (by simp [hc]), List.mem_cons]; tauto

theorem insertClone_length (t : ℝ) (u : ℕ) (l : List (ℝ × ℕ)) (hl : ∀ c ∈ l, c.1 ≠ t) :
    (insertClone t u l).length = l.length + 1 := by
  induction l with
  | nil => simp [insertClone]
  | cons a l ih =>
    simp only [insertClone]
    split_ifs with h1 h2
    · simp
    · exact absurd h2 (hl a (by simp))
    · rw [List.length_cons, ih fun c hc => hl c (by simp [hc]), List.length_cons]

theorem insertClone_sorted (t : ℝ) (u : ℕ) (l : List (ℝ × ℕ)) (hl : ∀ c ∈ l, c.1 ≠ t)
    (hs : l.Pairwise fun a b => a.1 < b.1) : (insertClone t u l).Pairwise fun a b => a.1 < b.1 := by
  induction l with
  | nil => simp [insertClone]
  | cons a l ih =>
    obtain ⟨h3, h4⟩ := List.pairwise_cons.1 hs
    simp only [insertClone]
    split_ifs with h1 h2
    · refine List.pairwise_cons.2 ⟨fun c hc => ?_, hs⟩
      rcases List.mem_cons.1 hc with rfl | hc
      · exact h1
      · exact h1.trans (h3 c hc)
    · exact absurd h2 (hl a (by simp))
    · have hl' : ∀ c ∈ l, c.1 ≠ t := fun c hc => hl c (by simp [hc])
      refine List.pairwise_cons.2 ⟨fun c hc => ?_, ih hl' h4⟩
      rcases (mem_insertClone t u l hl' c).1 hc with rfl | hc
      · exact lt_of_le_of_ne (not_lt.1 h1) h2
      · exact h3 c hc

theorem insertClone_uid (t : ℝ) (u : ℕ) (l : List (ℝ × ℕ)) (hl : ∀ c ∈ l, c.1 ≠ t) (hu : ∀ c ∈ l, c.2 ≠ u)
    (hs : l.Pairwise fun a b => a.2 ≠ b.2) : (insertClone t u l).Pairwise fun a b => a.2 ≠ b.2 := by
  induction l with
  | nil => simp [insertClone]
  | cons a l ih =>
    obtain ⟨h3, h4⟩ := List.pairwise_cons.1 hs
    simp only [insertClone]
    split_ifs with h1 h2
    · refine List.pairwise_cons.2 ⟨fun c hc => ?_, hs⟩
      exact (hu c hc).symm
    · exact absurd h2 (hl a (by simp))
    · have hl' : ∀ c ∈ l, c.1 ≠ t := fun c hc => hl c (by simp [hc])
      refine List.pairwise_cons.2 ⟨fun c hc => ?_, ih hl' (fun c hc => hu c (by simp [hc])) h4⟩
      rcases (mem_insertClone t u l hl' c).1 hc with rfl | hc
      · exact hu a (by simp)
      · exact h3 c hc

/-- effect of `augment_clone` on the maps. -/
theorem augment_maps (hI : Inv s) {w : V3} (hs : augment s w = some s') :
    (∀ c ∈ s.clones, c.1 ≠ s.ts) ∧ s'.clones = insertClone s.ts s.next s.clones ∧ s'.slam = s.slam ∧ s'.opts = s.opts ∧
      s'.ts = s.ts ∧ s'.next = s.next + 1 ∧ s'.vars = s.vars ++ [s.next] ∧ (∀ u, u < s.next → s'.obj u = s.obj u) ∧
      ∃ off v f, (s.obj imuUid).val.part .pose = some (off, v) ∧ (s.obj imuUid).fej.part .pose = some (off, f) ∧
        s'.obj s.next = ⟨s.n, v, f, false, false⟩ := by
  obtain ⟨h0, s1, u, h1, h2⟩ := augment_some hs
  obtain ⟨k, off, v, f, hu, hk, p1, p2, p3, hle, hr, rfl, rfl⟩ := clone_eq hI h1
  have hne : ∀ c ∈ s.clones, c.1 ≠ s.ts := by
    intro c hc
    have := List.find?_eq_none.1 h0 c hc
    simpa using this
  refine ⟨hne, ?_⟩
  rcases h2 with ⟨_, rfl⟩ | ⟨_, x, b, d, _, _, _, _, _, rfl⟩
  all_goals
    refine ⟨rfl, rfl, rfl, rfl, rfl, rfl, fun u hu => ?_, off, v, f, p1, p2, ?_⟩
    · simp only; rw [if_neg (by omega)]
    · simp

theorem pose_part {u_val v : Val} {off : ℕ} (h : sameKind (heap0 0).val u_val) (hp : u_val.part .pose = some (off, v)) :
    off = 0 ∧ v.size = 6 := by
  simp only [heap0, if_true] at h
  cases u_val <;> simp_all [sameKind, Val.part]
  obtain ⟨rfl, rfl⟩ := hp
  simp [Val.size]

theorem pose_part_val {u_val v : Val} {off : ℕ} (h : sameKind (heap0 0).val u_val) (hp : u_val.part .pose = some (off, v)) :
    ∃ q p, v = .pose q p := by
  simp only [heap0, if_true] at h
  cases u_val <;> simp_all [sameKind, Val.part]
  obtain ⟨rfl, rfl⟩ := hp
  exact ⟨_, _, rfl⟩

theorem W.augment {w : V3} (h : W o s) (hI : Inv s) (hs : St.augment s w = some s') : W o s' := by
  obtain ⟨h0, e1, e2, e3, e4, e5, e6, e7, off, v, f, p1, p2, e8⟩ := augment_maps hI hs
  have hb0 : 0 < base o := by unfold base; omega
  have hsz := pose_part (h.kind 0 hb0) p1
  have hfresh : ∀ c ∈ s.clones, c.2 ≠ s.next := fun c hc => (hI.alloc _ (h.cin c hc).1).ne
  have hlow : ∀ u, u < base o → u < s.next := fun u hu => lt_of_lt_of_le hu h.next
  refine ⟨e3.trans h.opts, by rw [e5]; exact h.next.trans (Nat.le_succ _), ?_, ?_, ?_, ?_, ?_, ?_, ?_, ?_, ?_, ?_⟩
  · obtain ⟨rest, hr⟩ := h.pre
    exact ⟨rest ++ [s.next], by rw [e6, hr, List.append_assoc]⟩
  · intro u hu; rw [e7 u (hlow u hu)]; exact h.kind u hu
  · intro u hu; rw [e7 u (hlow u hu)]; exact h.low u hu
  · rw [e1]; exact insertClone_sorted _ _ _ h0 h.sorted
  · rw [e1]
    intro c hc
    rcases (mem_insertClone _ _ _ h0 c).1 hc with rfl | hc
    · refine ⟨by rw [e6]; simp, by rw [e8], h.next, ?_⟩
      simp only [osz, e8]; exact hsz.2
    · obtain ⟨h1, h2, h3, h4⟩ := h.cin c hc
      have := e7 c.2 (hI.alloc _ h1)
      exact ⟨by rw [e6]; simp [h1], by rw [this]; exact h2, h3, by simp only [osz, this]; exact h4⟩
  · rw [e1]; exact insertClone_uid _ _ _ h0 hfresh h.cuid
  · rw [e2]
    intro f hf
    obtain ⟨h1, h2⟩ := h.sin f hf
    exact ⟨by rw [e6]; simp [h1], by rw [e7 f.2 (hI.alloc _ h1)]; exact h2⟩
  · rw [e2]; exact h.skey
  · rw [e2]; exact h.suid
  · rw [e1]
    intro c hc
    rcases (mem_insertClone _ _ _ h0 c).1 hc with rfl | hc
    · obtain ⟨q, p, hv⟩ := pose_part_val (h.kind 0 hb0) p1
      exact ⟨q, p, by simp only [e8, hv]⟩
    · rw [e7 c.2 (hI.alloc _ (h.cin c hc).1)]
      exact h.cpose c hc

theorem W.dropClone {t : ℝ} (h : W o s) (hI : Inv s) (hs : St.dropClone s t = some s') :
    W o s' ∧ s'.clones = s.clones.filter (fun c => decide (c.1 ≠ t)) ∧ s'.clones.length + 1 = s.clones.length := by
  obtain ⟨c, s1, hc, h1, rfl⟩ := dropClone_some hs
  have hcm := List.mem_of_find?_eq_some hc
  have hct : c.1 = t := by simpa using List.find?_some hc
  obtain ⟨g1, g2, g3, g4⟩ := h.cin c hcm
  obtain ⟨k, hk, hkn, s2, h1', e1, e2, e3, e4, e5, _, ec, es, _, e6⟩ := marginalize_eq hI g1
  rw [h1] at h1'
  obtain rfl := Option.some.inj h1'
  have hnot : c.2 ∉ ctorVars o := fun hm => by have := (ctorVars_spec o).2 _ hm; unfold base at g3; omega
  have hinj : ∀ d ∈ s.clones, d.2 = c.2 → d = c := by
    intro d hd he
    by_contra hne
    have : Std.Symm (fun a b : ℝ × ℕ => a.2 ≠ b.2) := ⟨fun _ _ h => h.symm⟩
    exact h.cuid.forall hd hcm hne he
  have hW := h.marg hI h1 hnot (C := s.clones.filter fun c => decide (c.1 ≠ t)) (S := s.slam) List.filter_sublist
    (List.Sublist.refl _) (by
      intro d hd he
      obtain ⟨hd1, hd2⟩ := List.mem_filter.1 hd
      rw [hinj d hd1 he, hct] at hd2
      simp at hd2) (by
      intro f hf he
      have := (h.sin f hf).2
      rw [he, g2] at this
      simp at this)
  refine ⟨?_, by show s1.clones.filter _ = _; rw [ec], ?_⟩
  · have : ({ s1 with clones := s1.clones.filter fun c => decide (c.1 ≠ t) } : State) =
        { s1 with clones := s.clones.filter fun c => decide (c.1 ≠ t), slam := s.slam } := by rw [ec, ← es]
    rw [this]; exact hW
  · show (s1.clones.filter _).length + 1 = _
    rw [ec]
    have key : ∀ (l : List (ℝ × ℕ)), l.Pairwise (fun a b => a.1 < b.1) → c ∈ l →
        (l.filter fun c => decide (c.1 ≠ t)).length + 1 = l.length := by
      intro l hp hm
      induction l with
      | nil => simp at hm
      | cons a l ih =>
        obtain ⟨q1, q2⟩ := List.pairwise_cons.1 hp
        rcases List.mem_cons.1 hm with rfl | hm
        · have : l.filter (fun c => decide (c.1 ≠ t)) = l := by
            rw [List.filter_eq_self]
            intro d hd; have := q1 d hd; rw [hct] at this; simp; exact this.ne'
          rw [List.filter_cons, if_neg (by simp [hct]), this, List.length_cons]
        · have : a.1 ≠ t := by have := q1 c hm; rw [hct] at this; exact this.ne
          rw [List.filter_cons, if_pos (by simp [this]), List.length_cons, ih q2 hm, List.length_cons]
    exact key _ h.sorted hcm

theorem W.margOld (h : W o s) (hI : Inv s) (hs : St.margOld s = some s') : W o s' := by
  rcases margOld_cases hs with ⟨_, rfl⟩ | ⟨_, t, _, h1⟩
  · exact h
  · exact (h.dropClone hI h1).1

/-- the loop of `marginalize_slam`, in full. -/
theorem margSlamLoop_spec (todo : List (ℕ × ℕ)) : ∀ (kept : List (ℕ × ℕ)) (s : State), Inv s →
    W o { s with slam := kept ++ todo } →
    ∃ s', margSlamLoop todo kept s = some s' ∧ W o s' ∧
      s'.slam = kept ++ todo.filter (fun f => decide (¬ ((s.obj f.2).marg = true ∧ 4 * o.maxAruco < f.1))) := by
  induction todo with
  | nil =>
    intro kept s hI h
    exact ⟨_, rfl, by simpa using h, by simp⟩
  | cons f t ih =>
    intro kept s hI h
    have ho : s.opts = o := h.opts
    simp only [margSlamLoop, ho]
    by_cases hc : (s.obj f.2).marg = true ∧ 4 * o.maxAruco < f.1
    · rw [if_pos hc]
      obtain ⟨hf1, hf2⟩ := h.sin f (by simp)
      have hf1' : f.2 ∈ s.vars := hf1
      obtain ⟨k, hk, hkn, s1, h1, e1, e2, e3, e4, e5, e7, ec, es, ecam, e6⟩ := marginalize_eq hI hf1'
      have hI' : Inv { s with slam := kept ++ f :: t } :=
        hI.same ⟨rfl, rfl, rfl, fun _ => rfl, fun _ => sameKind_refl _, fun _ => sameKind_refl _⟩
      have hnot : f.2 ∉ ctorVars o := fun hm => by
        have h2 := h.low f.2 ((ctorVars_spec o).2 _ hm)
        rw [hf2] at h2; simp at h2
      have h1' : marginalize { s with slam := kept ++ f :: t } f.2 = some { s1 with slam := kept ++ f :: t } := by
        have : resolve { s with slam := kept ++ f :: t } (f.2, .self) = resolve s (f.2, .self) := rfl
        unfold marginalize at h1 ⊢
        rw [if_pos hf1'] at h1
        rw [if_pos (by exact hf1'), this]
        cases hr : resolve s (f.2, .self) with
        | none => rw [hr] at h1; simp at h1
        | some b =>
          rw [hr] at h1
          simp only [Option.bind_eq_bind, Option.bind_some, Option.pure_def, Option.some.injEq] at h1 ⊢
          rw [← h1]
      have hpw := List.pairwise_append.1 h.suid
      have hpw2 := List.pairwise_cons.1 hpw.2.1
      have hW := h.marg hI' h1' hnot (C := s.clones) (S := kept ++ t) (List.Sublist.refl _)
        ((List.Sublist.refl _).append (List.sublist_cons_self _ _)) (by
          intro c hc' he
          have := (h.cin c hc').2.1
          rw [he, hf2] at this; simp at this) (by
          intro g hg
          rcases List.mem_append.1 hg with hg | hg
          · exact hpw.2.2 g hg f (by simp)
          · exact (hpw2.1 g hg).symm)
      have hW' : W o { s1 with slam := kept ++ t } := by
        have : ({ { s1 with slam := kept ++ f :: t } with clones := s.clones, slam := kept ++ t } : State) =
            { s1 with slam := kept ++ t } := by rw [← ec]
        rw [this] at hW; exact hW
      obtain ⟨s', g1, g2, g3⟩ := ih kept s1 (marginalize_inv hI h1) hW'
      rw [h1]
      refine ⟨s', g1, g2, ?_⟩
      rw [g3, List.filter_cons, if_neg (by simp [hc])]
      congr 1
      refine List.filter_congr fun g hg => ?_
      have hg' : (s1.obj g.2).marg = (s.obj g.2).marg := by
        rw [e6]; split_ifs with a b
        · rw [a]
        · rfl
        · rfl
      rw [hg']
    · rw [if_neg hc]
      obtain ⟨s', g1, g2, g3⟩ := ih (kept ++ [f]) s hI (by simpa using h)
      refine ⟨s', g1, g2, ?_⟩
      rw [g3, List.filter_cons, if_pos (decide_eq_true hc)]
      simp

theorem W.step {op : Op} (h : W o s) (hI : Inv s) (hop : Spec.NotRaw op) (hs : St.step lib s op = some s') : W o s' := by
  cases op with
  | propagate nw old Phi Q =>
    obtain ⟨N, O, b, t, hN, hO, rfl, _, hcon, hr, _, _, hq, hle, _, rfl⟩ := propagate_some hs
    exact h.frame hI rfl le_rfl ⟨[], by simp⟩ rfl rfl fun u _ => ⟨rfl, sameKind_refl _⟩
  | update order H res R => exact h.update hI hs
  | setInit C order =>
    obtain ⟨L, _, _, _, rfl⟩ := setInit_some hs
    exact h.frame hI rfl le_rfl ⟨[], by simp⟩ rfl rfl fun u _ => ⟨rfl, sameKind_refl _⟩
  | marginalize u => exact absurd hop (by simp [Spec.NotRaw])
  | clone r =>
    simp only [St.step, Option.map_eq_some_iff] at hs
    obtain ⟨⟨a, u⟩, h1, rfl⟩ := hs
    exact h.clone hI h1
  | initInv u order HR HL R res => exact h.initInv hI hs
  | initDelayed u order HR HL R res mult =>
    simp only [St.step, Option.map_eq_some_iff] at hs
    obtain ⟨⟨a, b⟩, h1, rfl⟩ := hs
    obtain ⟨_, _, _, _, _, _, _, _, _, h2 | ⟨_, s1, h2, h3⟩⟩ := initDelayed_some h1
    · rw [h2.2]; exact h
    · have hW := h.initInv hI h2
      rcases h3 with ⟨_, rfl⟩ | ⟨_, h3⟩
      · exact hW
      · exact hW.update (initInv_inv hI h2) h3
  | augment w => exact h.augment hI hs
  | margOld => exact h.margOld hI hs
  | dropClone t => exact (h.dropClone hI hs).1
  | margSlam =>
    obtain ⟨s1, g1, g2, _⟩ := margSlamLoop_spec s.slam [] s hI (by simpa using h)
    have : margSlam s = some s' := hs
    unfold margSlam at this
    rw [g1] at this
    obtain rfl := Option.some.inj this
    exact g2
  | alloc v f =>
    simp only [St.step] at hs
    split_ifs at hs with hk
    obtain rfl := Option.some.inj hs
    refine h.frame hI rfl (Nat.le_succ _) ⟨[], by simp⟩ rfl rfl fun u hu => ?_
    simp only; rw [if_neg (by omega)]; exact ⟨rfl, sameKind_refl _⟩
  | setVal u v =>
    simp only [St.step] at hs
    split_ifs at hs with hk
    obtain rfl := Option.some.inj hs
    refine h.frame hI rfl le_rfl ⟨[], by simp⟩ rfl rfl fun w hw => ?_
    simp only
    split_ifs with hwu
    · subst hwu; exact ⟨rfl, hk⟩
    · exact ⟨rfl, sameKind_refl _⟩
  | setFej u v =>
    simp only [St.step] at hs
    split_ifs at hs with hk
    obtain rfl := Option.some.inj hs
    refine h.frame hI rfl le_rfl ⟨[], by simp⟩ rfl rfl fun w hw => ?_
    simp only
    split_ifs with hwu
    · subst hwu; exact ⟨rfl, sameKind_refl _⟩
    · exact ⟨rfl, sameKind_refl _⟩
  | setMarg u b =>
    simp only [St.step] at hs
    obtain rfl := Option.some.inj hs
    refine h.frame hI rfl le_rfl ⟨[], by simp⟩ rfl rfl fun w hw => ?_
    simp only
    split_ifs with hwu
    · subst hwu; exact ⟨rfl, sameKind_refl _⟩
    · exact ⟨rfl, sameKind_refl _⟩
  | addSlam fid u =>
    simp only [St.step] at hs
    split_ifs at hs with h1 h2
    · obtain rfl := Option.some.inj hs; exact h
    · obtain rfl := Option.some.inj hs
      have hk : ∀ e ∈ s.slam, e.1 ≠ fid := by
        intro e he hf
        apply h1
        rw [List.find?_isSome]
        exact ⟨e, he, by simpa using hf⟩
      refine ⟨h.opts, h.next, h.pre, h.kind, h.low, h.sorted, h.cin, h.cuid, ?_, ?_, ?_, h.cpose⟩
      · intro f hf
        rcases List.mem_append.1 hf with hf | hf
        · exact h.sin f hf
        · obtain rfl := List.mem_singleton.1 hf; exact ⟨h2.1, h2.2.1⟩
      · refine List.pairwise_append.2 ⟨h.skey, by simp, fun a ha b hb => ?_⟩
        obtain rfl := List.mem_singleton.1 hb; exact hk a ha
      · refine List.pairwise_append.2 ⟨h.suid, by simp, fun a ha b hb => ?_⟩
        obtain rfl := List.mem_singleton.1 hb; exact h2.2.2 a ha
  | setTime t =>
    simp only [St.step] at hs
    obtain rfl := Option.some.inj hs
    exact h.frame hI rfl le_rfl ⟨[], by simp⟩ rfl rfl fun u _ => ⟨rfl, sameKind_refl _⟩
  | setCam i v =>
    simp only [St.step] at hs
    obtain rfl := Option.some.inj hs
    exact h.frame hI rfl le_rfl ⟨[], by simp⟩ rfl rfl fun u _ => ⟨rfl, sameKind_refl _⟩

/-! ### the constructor -/

theorem foldl_push_same (l : List ℕ) : ∀ (s : State), (l.foldl push s).opts = s.opts ∧ (l.foldl push s).next = s.next ∧
    (l.foldl push s).vars = s.vars ++ l ∧ (l.foldl push s).clones = s.clones ∧ (l.foldl push s).slam = s.slam ∧
    (l.foldl push s).ts = s.ts ∧
    ∀ u, ((l.foldl push s).obj u).lm = (s.obj u).lm ∧ ((l.foldl push s).obj u).val = (s.obj u).val ∧
      ((l.foldl push s).obj u).fej = (s.obj u).fej := by
  induction l with
  | nil => intro s; simp
  | cons u t ih =>
    intro s
    rw [List.foldl_cons]
    obtain ⟨h1, h2, h3, h4, h5, h6, h7⟩ := ih (push s u)
    refine ⟨h1, h2, by rw [h3]; simp [push], h4, h5, h6, fun w => ?_⟩
    obtain ⟨g1, g2, g3⟩ := h7 w
    rw [g1, g2, g3]
    by_cases hw : w = u
    · subst hw; simp [push]
    · simp [push, hw]

theorem ctor_W (o : Opts) : W o (ctor o) := by
  obtain ⟨h1, h2, h3, h4, h5, h6, h7⟩ := foldl_push_same (ctorVars o) (ctorBase o)
  have hv : (ctor o).vars = ctorVars o := h3.trans (by simp [ctorBase])
  have hc : (ctor o).clones = [] := h4
  have hs : (ctor o).slam = [] := h5
  refine ⟨h1, ?_, ⟨[], by rw [hv]; simp⟩, ?_, ?_, by rw [hc]; simp, by rw [hc]; simp, by rw [hc]; simp, by rw [hs]; simp,
    by rw [hs]; simp, by rw [hs]; simp, by rw [hc]; simp⟩
  · have : (ctor o).next = 7 + 2 * o.numCams := h2
    rw [this]; exact le_rfl
  · intro u _
    have : ((ctor o).obj u).val = (heap0 u).val := (h7 u).2.1
    rw [this]; exact sameKind_refl _
  · intro u _
    have : ((ctor o).obj u).lm = (heap0 u).lm := (h7 u).1
    rw [this]
    unfold heap0
    simp only
    split_ifs <;> rfl

theorem run_W (ops : List Op) : ∀ {s : State}, W o s → Inv s → (∀ op ∈ ops, Spec.NotRaw op) → run lib s ops = some s' →
    W o s' := by
  induction ops with
  | nil => intro s h _ _ hr; simp only [run, Option.some.injEq] at hr; subst hr; exact h
  | cons op t ih =>
    intro s h hI ho hr
    simp only [run, Option.bind_eq_bind, Option.bind_eq_some_iff] at hr
    obtain ⟨s1, h1, h2⟩ := hr
    exact ih (h.step hI (ho op (by simp)) h1) (step_inv hI h1) (fun x hx => ho x (by simp [hx])) h2

theorem prog_W (h : Spec.Prog lib o s) : W o s := by
  obtain ⟨ops, ho, hr⟩ := h
  exact run_W ops (ctor_W o) (ctor_inv o) ho hr

end Verif.St
