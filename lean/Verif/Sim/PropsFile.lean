import Verif.Sim.File

/-!
# C147: the trajectory of a simulation is that of its file
-/

set_option autoImplicit false
open Classical

namespace Verif.Sim

open Verif

namespace Spec

/-- the lines of a text: each ends with a line feed, only the last may lack it -/
def Lines (text : List Char) (ls : List (List Char)) : Prop :=
  (∀ l ∈ ls, '\n' ∉ l) ∧ (text = (ls.map fun l => l ++ ['\n']).flatten ∨ ∃ init last, ls = init ++ [last] ∧ last ≠ [] ∧ text = (init.map fun l => l ++ ['\n']).flatten ++ last)

/-- the words of a line: what stands between its spaces -/
inductive Words : List Char → List (List Char) → Prop
  | nil (s : List Char) (h : ∀ c ∈ s, c = ' ') : Words s []
  | cons (s w rest : List Char) (ws : List (List Char)) (hs : ∀ c ∈ s, c = ' ') (hw : w ≠ []) (hw' : ' ' ∉ w) (hr : rest = [] ∨ ∃ r, rest = ' ' :: r) (h : Words rest ws) : Words (s ++ w ++ rest) (w :: ws)

/-- the line gives the pose `a`: it does not start with `#`, it has at least eight words, and the first eight are, as numbers, the time, the position and the orientation (x, y, z, w) -/
def Gives (atof : List Char → ℝ) (l : List Char) (a : TrajPt) : Prop :=
  l.head? ≠ some '#' ∧ ∃ w0 w1 w2 w3 w4 w5 w6 w7 more, Words l (w0 :: w1 :: w2 :: w3 :: w4 :: w5 :: w6 :: w7 :: more) ∧
    a = ⟨atof w0, ![atof w1, atof w2, atof w3], ⟨atof w4, atof w5, atof w6, atof w7⟩⟩

/-- the poses of a list of lines, in order -/
inductive Poses (atof : List Char → ℝ) : List (List Char) → List TrajPt → Prop
  | nil : Poses atof [] []
  | gives (l : List Char) (ls : List (List Char)) (a : TrajPt) (as : List TrajPt) (h : Gives atof l a) (hs : Poses atof ls as) : Poses atof (l :: ls) (a :: as)
  | skip (l : List Char) (ls : List (List Char)) (as : List TrajPt) (h : ∀ a, ¬ Gives atof l a) (hs : Poses atof ls as) : Poses atof (l :: ls) as

/-- the poses of a file -/
def FilePoses (atof : List Char → ℝ) (text : List Char) (as : List TrajPt) : Prop := ∃ ls, Lines text ls ∧ Poses atof ls as

end Spec

theorem getlines_lines (text acc : List Char) (ha : '\n' ∉ acc) : Spec.Lines (acc.reverse ++ text) (getlines '\n' acc text) := by
  induction text generalizing acc with
  | nil =>
    simp only [getlines, List.append_nil]
    by_cases h : acc = []
    · subst h
      exact ⟨by simp, Or.inl (by simp)⟩
    · rw [if_neg h]
      exact ⟨by simpa using ha, Or.inr ⟨[], acc.reverse, by simp, by simpa using h, by simp⟩⟩
  | cons c cs ih =>
    simp only [getlines]
    by_cases h : c = '\n'
    · subst h
      rw [if_pos rfl]
      obtain ⟨h1, h2⟩ := ih [] (by simp)
      rw [List.reverse_nil, List.nil_append] at h2
      refine ⟨by simpa using ⟨ha, h1⟩, ?_⟩
      rcases h2 with h2 | ⟨init, last, e1, e2, e3⟩
      · left
        rw [List.map_cons, List.flatten_cons, ← h2]
        simp
      · right
        refine ⟨acc.reverse :: init, last, by rw [e1]; rfl, e2, ?_⟩
        rw [List.map_cons, List.flatten_cons]
        conv_lhs => rw [e3]
        simp
    · rw [if_neg h]
      have := ih (c :: acc) (by simp only [List.mem_cons, not_or]; exact ⟨fun e => h e.symm, ha⟩)
      simpa using this

theorem lines_unique {text : List Char} {ls : List (List Char)} (h : Spec.Lines text ls) : getlines '\n' [] text = ls := by
  have run : ∀ (l acc rest : List Char), '\n' ∉ l → getlines '\n' acc (l ++ rest) = getlines '\n' (l.reverse ++ acc) rest := by
    intro l
    induction l with
    | nil => intros; simp
    | cons c cs ih =>
      intro acc rest hl
      simp only [List.mem_cons, not_or] at hl
      rw [List.cons_append, getlines, if_neg (fun e => hl.1 e.symm), ih _ _ hl.2]
      simp
  have full : ∀ (ls : List (List Char)) (rest : List Char), (∀ l ∈ ls, '\n' ∉ l) → getlines '\n' [] ((ls.map fun l => l ++ ['\n']).flatten ++ rest) = ls ++ getlines '\n' [] rest := by
    intro ls
    induction ls with
    | nil => intros; simp
    | cons l ls ih =>
      intro rest hl
      rw [List.map_cons, List.flatten_cons, List.append_assoc, List.append_assoc, run l _ _ (hl l List.mem_cons_self)]
      simp only [List.append_nil, getlines, if_true, List.reverse_reverse, List.cons_append, List.nil_append]
      rw [ih _ fun l' h' => hl l' (List.mem_cons_of_mem _ h')]
  obtain ⟨h1, h2 | ⟨init, last, e1, e2, e3⟩⟩ := h
  · have := full ls [] h1
    rw [List.append_nil, ← h2] at this
    simpa [getlines] using this
  · subst e1
    rw [e3, full init last fun l hl => h1 l (List.mem_append_left _ hl)]
    have := run last [] [] (h1 last (by simp))
    rw [List.append_nil] at this
    rw [this]
    simp [getlines, e2]

theorem words_cons_space {l : List Char} {ws : List (List Char)} (h : Spec.Words l ws) : Spec.Words (' ' :: l) ws := by
  cases h with
  | nil s h => exact .nil _ (by simpa using h)
  | cons s w rest ws hs hw hw' hr h => exact .cons (' ' :: s) w rest ws (by simpa using hs) hw hw' hr h

theorem getlines_words (l acc : List Char) (ha : ' ' ∉ acc) : Spec.Words (acc.reverse ++ l) ((getlines ' ' acc l).filter fun w => w ≠ []) := by
  induction l generalizing acc with
  | nil =>
    simp only [getlines, List.append_nil]
    by_cases h : acc = []
    · subst h
      simpa using Spec.Words.nil [] (by simp)
    · rw [if_neg h]
      have := Spec.Words.cons [] acc.reverse [] [] (by simp) (by simpa using h) (by simpa using ha) (Or.inl rfl) (.nil [] (by simp))
      simpa [h] using this
  | cons c cs ih =>
    simp only [getlines]
    by_cases h : c = ' '
    · subst h
      rw [if_pos rfl]
      have h' := words_cons_space (ih [] (by simp))
      rw [List.reverse_nil, List.nil_append] at h'
      by_cases ha' : acc = []
      · subst ha'
        simpa using h'
      · have := Spec.Words.cons [] acc.reverse (' ' :: cs) _ (by simp) (by simpa using ha') (by simpa using ha) (Or.inr ⟨cs, rfl⟩) h'
        simpa [ha'] using this
    · rw [if_neg h]
      have := ih (c :: acc) (by simp only [List.mem_cons, not_or]; exact ⟨fun e => h e.symm, ha⟩)
      simpa using this

theorem words_unique {l : List Char} {ws : List (List Char)} (h : Spec.Words l ws) : (getlines ' ' [] l).filter (fun w => w ≠ []) = ws := by
  have sp : ∀ (s rest : List Char), (∀ c ∈ s, c = ' ') → (getlines ' ' [] (s ++ rest)).filter (fun w => w ≠ []) = (getlines ' ' [] rest).filter (fun w => w ≠ []) := by
    intro s
    induction s with
    | nil => intros; rfl
    | cons c cs ih =>
      intro rest hs
      rw [List.cons_append, getlines, if_pos (hs c List.mem_cons_self)]
      simpa using ih rest fun c' h' => hs c' (List.mem_cons_of_mem _ h')
  have run : ∀ (w acc rest : List Char), ' ' ∉ w → getlines ' ' acc (w ++ rest) = getlines ' ' (w.reverse ++ acc) rest := by
    intro l
    induction l with
    | nil => intros; simp
    | cons c cs ih =>
      intro acc rest hl
      simp only [List.mem_cons, not_or] at hl
      rw [List.cons_append, getlines, if_neg (fun e => hl.1 e.symm), ih _ _ hl.2]
      simp
  induction h with
  | nil s h =>
    have := sp s [] h
    rw [List.append_nil] at this
    rw [this]
    simp [getlines]
  | cons s w rest ws hs hw hw' hr h ih =>
    rw [List.append_assoc, sp _ _ hs, run w _ _ hw', List.append_nil]
    rcases hr with rfl | ⟨r, rfl⟩
    · have : ws = [] := by simpa [getlines] using ih.symm
      subst this
      simp [getlines, hw]
    · have hz : getlines ' ' [] (' ' :: r) = [] :: getlines ' ' [] r := by simp [getlines]
      rw [hz] at ih
      have e : getlines ' ' w.reverse (' ' :: r) = w :: getlines ' ' [] r := by simp [getlines]
      rw [e, List.filter_cons_of_pos (by simpa using hw), ← ih]
      simp

theorem readFields_eq (atof : List Char → ℝ) (fs : List (List Char)) (data : List ℝ) (hd : data.length ≤ 8) :
    readFields atof fs data = data ++ ((fs.filter fun w => w ≠ []).take (8 - data.length)).map atof := by
  induction fs generalizing data with
  | nil => simp [readFields]
  | cons f fs ih =>
    simp only [readFields]
    by_cases hf : f = []
    · rw [if_pos (Or.inl hf), ih data hd]
      simp [hf]
    · by_cases h8 : 8 ≤ data.length
      · rw [if_pos (Or.inr h8), ih data hd]
        have : 8 - data.length = 0 := by omega
        simp [this]
      · rw [if_neg (by tauto), ih _ (by simp; omega), List.filter_cons_of_pos (by simpa using hf)]
        have : 8 - data.length = (8 - (data ++ [atof f]).length) + 1 := by simp; omega
        rw [this, List.take_succ_cons]
        simp

/-- what one line adds -/
noncomputable def lineRows (atof : List Char → ℝ) (l : List Char) : List (List ℝ) :=
  if isComment l then [] else if 7 < (readFields atof (getlines ' ' [] l) []).length then [readFields atof (getlines ' ' [] l) []] else []

theorem readLines_eq (atof : List Char → ℝ) (ls : List (List Char)) (out : List (List ℝ)) : readLines atof ls out = out ++ ls.flatMap (lineRows atof) := by
  induction ls generalizing out with
  | nil => simp [readLines]
  | cons l ls ih =>
    simp only [readLines, List.flatMap_cons, lineRows]
    by_cases hc : isComment l
    · rw [if_pos hc, if_pos hc, ih]
      simp
    · rw [if_neg hc, if_neg hc]
      by_cases h7 : 7 < (readFields atof (getlines ' ' [] l) []).length
      · rw [if_pos h7, if_pos h7, ih]
        simp
      · rw [if_neg h7, if_neg h7, ih]
        simp

theorem lineRows_gives {atof : List Char → ℝ} {l : List Char} {a : TrajPt} (h : Spec.Gives atof l a) : (lineRows atof l).map rowPt = [a] := by
  obtain ⟨h0, w0, w1, w2, w3, w4, w5, w6, w7, more, hw, rfl⟩ := h
  have e := readFields_eq atof (getlines ' ' [] l) [] (by simp)
  rw [words_unique hw] at e
  have hc : ¬ isComment l = true := by simpa [isComment] using h0
  unfold lineRows
  rw [if_neg hc, e]
  simp [rowPt]

theorem lineRows_skip {atof : List Char → ℝ} {l : List Char} (h : ∀ a, ¬ Spec.Gives atof l a) : lineRows atof l = [] := by
  unfold lineRows
  by_cases hc : isComment l = true
  · rw [if_pos hc]
  · rw [if_neg hc]
    by_cases h7 : 7 < (readFields atof (getlines ' ' [] l) []).length
    · exfalso
      rw [readFields_eq _ _ _ (by simp)] at h7
      have hw := getlines_words l [] (by simp)
      rw [List.reverse_nil, List.nil_append] at hw
      generalize (getlines ' ' [] l).filter (fun w => w ≠ []) = ws at h7 hw
      have h8 : 8 ≤ ws.length := by simp at h7; omega
      match ws, h8, hw with
      | w0 :: w1 :: w2 :: w3 :: w4 :: w5 :: w6 :: w7 :: more, _, hw => exact h _ ⟨by simpa [isComment] using hc, w0, w1, w2, w3, w4, w5, w6, w7, more, hw, rfl⟩
    · rw [if_neg h7]

theorem poses_rows {atof : List Char → ℝ} {ls : List (List Char)} {as : List TrajPt} (h : Spec.Poses atof ls as) : (ls.flatMap (lineRows atof)).map rowPt = as := by
  induction h with
  | nil => rfl
  | gives l ls a as h hs ih => rw [List.flatMap_cons, List.map_append, ih, lineRows_gives h]; rfl
  | skip l ls as h hs ih => rw [List.flatMap_cons, List.map_append, ih, lineRows_skip h]; rfl

theorem exists_poses (atof : List Char → ℝ) (ls : List (List Char)) : ∃ as, Spec.Poses atof ls as := by
  induction ls with
  | nil => exact ⟨[], .nil⟩
  | cons l ls ih =>
    obtain ⟨as, h⟩ := ih
    by_cases hl : ∃ a, Spec.Gives atof l a
    · obtain ⟨a, ha⟩ := hl
      exact ⟨a :: as, .gives l ls a as ha h⟩
    · exact ⟨as, .skip l ls as (fun a ha => hl ⟨a, ha⟩) h⟩

/-- **C147 (file).** Every text has exactly one list of poses, and the spline of the simulation is built from exactly these, in order; without any the program ends. -/
theorem C147_file (atof : List Char → ℝ) (n : ℕ) (text : List Char) :
    ∃ as, Spec.FilePoses atof text as ∧ (∀ bs, Spec.FilePoses atof text bs → bs = as) ∧ simSpline atof n text = if as = [] then none else feedTrajectory n as := by
  have hl := getlines_lines text [] (by simp)
  rw [List.reverse_nil, List.nil_append] at hl
  obtain ⟨as, has⟩ := exists_poses atof (getlines '\n' [] text)
  have e := poses_rows has
  refine ⟨as, ⟨_, hl, has⟩, ?_, ?_⟩
  · rintro bs ⟨ls, h1, h2⟩
    rw [← lines_unique h1] at h2
    rw [← e, ← poses_rows h2]
  · unfold simSpline loadTraj
    simp only [readLines_eq, List.nil_append]
    by_cases h : (getlines '\n' [] text).flatMap (lineRows atof) = []
    · have : as = [] := by rw [← e, h]; rfl
      rw [if_pos h, if_pos this]; rfl
    · rw [if_neg h, if_neg (by rw [← e]; simpa using h), Option.bind_some, e]

/-- the line of a pose, its numbers written with `fmt` and separated by spaces -/
def Spec.lineOf (fmt : ℝ → List Char) (a : TrajPt) : List Char :=
  fmt a.t ++ (' ' :: (fmt (a.p 0) ++ (' ' :: (fmt (a.p 1) ++ (' ' :: (fmt (a.p 2) ++ (' ' :: (fmt a.q.x ++ (' ' :: (fmt a.q.y ++ (' ' :: (fmt a.q.z ++ (' ' :: fmt a.q.w)))))))))))))

theorem words_step {w rest : List Char} {ws : List (List Char)} (hw : w ≠ []) (hw' : ' ' ∉ w) (h : Spec.Words rest ws) : Spec.Words (w ++ ' ' :: rest) (w :: ws) := by
  have := Spec.Words.cons [] w (' ' :: rest) ws (by simp) hw hw' (Or.inr ⟨rest, rfl⟩) (words_cons_space h)
  simpa using this

theorem words_last {w : List Char} (hw : w ≠ []) (hw' : ' ' ∉ w) : Spec.Words w [w] := by
  have := Spec.Words.cons [] w [] [] (by simp) hw hw' (Or.inl rfl) (.nil [] (by simp))
  simpa using this

/-- the numbers of a pose -/
def Spec.nums (a : TrajPt) : List ℝ := [a.t, a.p 0, a.p 1, a.p 2, a.q.x, a.q.y, a.q.z, a.q.w]

/-- **C147 (written trajectory).** A trajectory written one pose per line, its numbers in any notation that can be read back and has no space, line feed or leading `#`, after any comment lines, is the trajectory the simulation follows. -/
theorem C147_written (atof : List Char → ℝ) (fmt : ℝ → List Char) (comments : List (List Char)) (hc : ∀ c ∈ comments, '\n' ∉ c) (as : List TrajPt) (h0 : as ≠ [])
    (hn : ∀ a ∈ as, ∀ x ∈ Spec.nums a, atof (fmt x) = x ∧ fmt x ≠ [] ∧ ' ' ∉ fmt x ∧ '\n' ∉ fmt x ∧ (fmt x).head? ≠ some '#') (n : ℕ) :
    simSpline atof n (((comments.map fun c => '#' :: c) ++ as.map (Spec.lineOf fmt)).map fun l => l ++ ['\n']).flatten = feedTrajectory n as := by
  have hA : Spec.Poses atof (as.map (Spec.lineOf fmt)) as := by
    clear h0
    induction as with
    | nil => exact .nil
    | cons a as ih =>
      have ha := hn a List.mem_cons_self
      simp only [Spec.nums, List.mem_cons, List.not_mem_nil, or_false, forall_eq_or_imp, forall_eq] at ha
      obtain ⟨a0, a1, a2, a3, a4, a5, a6, a7⟩ := ha
      refine .gives _ _ a _ ⟨?_, _, _, _, _, _, _, _, _, [], words_step a0.2.1 a0.2.2.1 (words_step a1.2.1 a1.2.2.1 (words_step a2.2.1 a2.2.2.1 (words_step a3.2.1 a3.2.2.1
        (words_step a4.2.1 a4.2.2.1 (words_step a5.2.1 a5.2.2.1 (words_step a6.2.1 a6.2.2.1 (words_last a7.2.1 a7.2.2.1))))))), ?_⟩ (ih fun a' h' => hn a' (List.mem_cons_of_mem _ h'))
      · unfold Spec.lineOf
        obtain ⟨c, cs, e⟩ := List.exists_cons_of_ne_nil a0.2.1
        have := a0.2.2.2.2
        rw [e] at this ⊢
        simpa using this
      · rw [a0.1, a1.1, a2.1, a3.1, a4.1, a5.1, a6.1, a7.1]
        have : a.p = ![a.p 0, a.p 1, a.p 2] := by funext i; fin_cases i <;> rfl
        rw [← this]
  have hP : Spec.Poses atof ((comments.map fun c => '#' :: c) ++ as.map (Spec.lineOf fmt)) as := by
    clear hc
    induction comments with
    | nil => exact hA
    | cons c cs ih => exact .skip _ _ _ (fun a ha => ha.1 rfl) ih
  have hL : Spec.Lines (((comments.map fun c => '#' :: c) ++ as.map (Spec.lineOf fmt)).map fun l => l ++ ['\n']).flatten ((comments.map fun c => '#' :: c) ++ as.map (Spec.lineOf fmt)) := by
    refine ⟨fun l hl => ?_, Or.inl rfl⟩
    rcases List.mem_append.1 hl with hl | hl
    · obtain ⟨c, h, rfl⟩ := List.mem_map.1 hl
      simpa using hc c h
    · obtain ⟨a, ha, rfl⟩ := List.mem_map.1 hl
      have ha := hn a ha
      simp only [Spec.nums, List.mem_cons, List.not_mem_nil, or_false, forall_eq_or_imp, forall_eq] at ha
      obtain ⟨a0, a1, a2, a3, a4, a5, a6, a7⟩ := ha
      simp [Spec.lineOf, a0.2.2.2.1, a1.2.2.2.1, a2.2.2.2.1, a3.2.2.2.1, a4.2.2.2.1, a5.2.2.2.1, a6.2.2.2.1, a7.2.2.2.1]
  obtain ⟨bs, h1, h2, h3⟩ := C147_file atof n (((comments.map fun c => '#' :: c) ++ as.map (Spec.lineOf fmt)).map fun l => l ++ ['\n']).flatten
  obtain rfl := h2 as ⟨_, hL, hP⟩
  rw [h3, if_neg h0]

/-- numbers that are read back -/
example : ∃ (atof : List Char → ℝ) (fmt : ℝ → List Char), ∀ a ∈ ([⟨0, ![0, 0, 1], ⟨0, 0, 0, 1⟩⟩, ⟨1, ![0, 1, 1], ⟨0, 0, 0, 1⟩⟩] : List TrajPt), ∀ x ∈ Spec.nums a,
    atof (fmt x) = x ∧ fmt x ≠ [] ∧ ' ' ∉ fmt x ∧ '\n' ∉ fmt x ∧ (fmt x).head? ≠ some '#' := by
  refine ⟨fun s => if s = ['1'] then 1 else 0, fun x => if x = 1 then ['1'] else ['0'], fun a ha x hx => ?_⟩
  have : x = 0 ∨ x = 1 := by
    simp only [List.mem_cons, List.not_mem_nil, or_false] at ha
    rcases ha with rfl | rfl <;> simp [Spec.nums] at hx <;> tauto
  rcases this with rfl | rfl <;> simp

/-- **C147 (indented comment).** Only a `#` at the very start makes a comment: a line of eight words that starts with a space and a `#` gives a pose. -/
theorem C147_indented_comment (atof : List Char → ℝ) : ∃ a, Spec.FilePoses atof " # t x y z q q q q\n".toList [a] :=
  ⟨_, [" # t x y z q q q q".toList], ⟨by decide, Or.inl rfl⟩, .gives _ _ _ _ ⟨by decide, "#".toList, "t".toList, "x".toList, "y".toList, "z".toList, "q".toList, "q".toList, "q".toList, ["q".toList],
    words_cons_space (words_step (w := "#".toList) (by decide) (by decide) (words_step (w := "t".toList) (by decide) (by decide) (words_step (w := "x".toList) (by decide) (by decide)
      (words_step (w := "y".toList) (by decide) (by decide) (words_step (w := "z".toList) (by decide) (by decide) (words_step (w := "q".toList) (by decide) (by decide) (words_step (w := "q".toList) (by decide) (by decide)
      (words_step (w := "q".toList) (by decide) (by decide) (words_last (w := "q".toList) (by decide) (by decide)))))))))), rfl⟩ .nil⟩

/-- a file with a comment, an incomplete line and a pose -/
example : Spec.Lines "# c\n1 2 3\n0 1 2 3 0 0 0 1".toList ["# c".toList, "1 2 3".toList, "0 1 2 3 0 0 0 1".toList] :=
  ⟨by decide, Or.inr ⟨["# c".toList, "1 2 3".toList], "0 1 2 3 0 0 0 1".toList, rfl, by decide, rfl⟩⟩

end Verif.Sim
