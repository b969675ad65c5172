import Verif.Util.Print
import Mathlib.Tactic.Common

/-!
# C146: what is printed is what the chosen verbosity asks for
-/

set_option autoImplicit false

namespace Verif.Print

namespace Spec

/-- the levels in the order of the documentation, with their names -/
def levels : List (Level × String) := [(.all, "ALL"), (.debug, "DEBUG"), (.info, "INFO"), (.warning, "WARNING"), (.error, "ERROR"), (.silent, "SILENT")]

/-- `a` comes before `b` in the documentation -/
def Before (a b : Level) : Prop := ∃ x y z : List (Level × String), ∃ s t, levels = x ++ (a, s) :: y ++ (b, t) :: z

/-- the call asks for the level `l` -/
def Asks (l : Level) : Call → Prop
  | .setName s => (l, s) ∈ levels
  | .setLevel l' => l' = l
  | .msg _ _ _ _ => False

/-- the level in force after the calls: the one asked for last, `INFO` if none was -/
def InForce (cs : List Call) (l : Level) : Prop :=
  (l = .info ∧ ∀ c ∈ cs, ∀ l', ¬ Asks l' c) ∨ ∃ a c b, cs = a ++ c :: b ∧ Asks l c ∧ ∀ c' ∈ b, ∀ l', ¬ Asks l' c'

/-- all names asked for are those of levels -/
def Valid (cs : List Call) : Prop := ∀ s, Call.setName s ∈ cs → ∃ l, (l, s) ∈ levels

/-- `b` is the name of the file without its directories, cut to its last thirty characters -/
def Short (file b : List Char) : Prop :=
  ∃ dir name, file = dir ++ name ∧ (dir = [] ∨ ∃ d c, dir = d ++ [c] ∧ (c = '/' ∨ c = '\\')) ∧ '/' ∉ name ∧ '\\' ∉ name ∧ ∃ front, name = front ++ b ∧ b.length ≤ 30 ∧ (front ≠ [] → b.length = 30)

end Spec

theorem before_iff (a b : Level) : Spec.Before a b ↔ a.val < b.val := by
  constructor
  · rintro ⟨x, y, z, s, t, h⟩
    have hn : ∀ (i : ℕ) (p : Level × String), Spec.levels[i]? = some p → p.1.val = i := by
      intro i p hp
      match i, hp with
      | 0, hp => simp [Spec.levels] at hp; subst hp; rfl
      | 1, hp => simp [Spec.levels] at hp; subst hp; rfl
      | 2, hp => simp [Spec.levels] at hp; subst hp; rfl
      | 3, hp => simp [Spec.levels] at hp; subst hp; rfl
      | 4, hp => simp [Spec.levels] at hp; subst hp; rfl
      | 5, hp => simp [Spec.levels] at hp; subst hp; rfl
      | n + 6, hp => simp [Spec.levels] at hp
    have h1 := hn x.length (a, s) (by rw [h]; simp)
    have h2 := hn (x.length + (y.length + 1)) (b, t) (by
      rw [h, List.append_assoc, List.getElem?_append_right (by omega)]
      simp)
    simp only at h1 h2
    omega
  · intro h
    cases a <;> cases b <;> simp [Level.val] at h
    · exact ⟨[], [], [(.info, "INFO"), (.warning, "WARNING"), (.error, "ERROR"), (.silent, "SILENT")], _, _, rfl⟩
    · exact ⟨[], [(.debug, "DEBUG")], [(.warning, "WARNING"), (.error, "ERROR"), (.silent, "SILENT")], _, _, rfl⟩
    · exact ⟨[], [(.debug, "DEBUG"), (.info, "INFO")], [(.error, "ERROR"), (.silent, "SILENT")], _, _, rfl⟩
    · exact ⟨[], [(.debug, "DEBUG"), (.info, "INFO"), (.warning, "WARNING")], [(.silent, "SILENT")], _, _, rfl⟩
    · exact ⟨[], [(.debug, "DEBUG"), (.info, "INFO"), (.warning, "WARNING"), (.error, "ERROR")], [], _, _, rfl⟩
    · exact ⟨[(.all, "ALL")], [], [(.warning, "WARNING"), (.error, "ERROR"), (.silent, "SILENT")], _, _, rfl⟩
    · exact ⟨[(.all, "ALL")], [(.info, "INFO")], [(.error, "ERROR"), (.silent, "SILENT")], _, _, rfl⟩
    · exact ⟨[(.all, "ALL")], [(.info, "INFO"), (.warning, "WARNING")], [(.silent, "SILENT")], _, _, rfl⟩
    · exact ⟨[(.all, "ALL")], [(.info, "INFO"), (.warning, "WARNING"), (.error, "ERROR")], [], _, _, rfl⟩
    · exact ⟨[(.all, "ALL"), (.debug, "DEBUG")], [], [(.error, "ERROR"), (.silent, "SILENT")], _, _, rfl⟩
    · exact ⟨[(.all, "ALL"), (.debug, "DEBUG")], [(.warning, "WARNING")], [(.silent, "SILENT")], _, _, rfl⟩
    · exact ⟨[(.all, "ALL"), (.debug, "DEBUG")], [(.warning, "WARNING"), (.error, "ERROR")], [], _, _, rfl⟩
    · exact ⟨[(.all, "ALL"), (.debug, "DEBUG"), (.info, "INFO")], [], [(.silent, "SILENT")], _, _, rfl⟩
    · exact ⟨[(.all, "ALL"), (.debug, "DEBUG"), (.info, "INFO")], [(.error, "ERROR")], [], _, _, rfl⟩
    · exact ⟨[(.all, "ALL"), (.debug, "DEBUG"), (.info, "INFO"), (.warning, "WARNING")], [], [], _, _, rfl⟩

theorem ofName_iff (s : String) (l : Level) : ofName s = some l ↔ (l, s) ∈ Spec.levels := by
  unfold ofName Spec.levels
  constructor
  · intro h
    split_ifs at h <;> simp_all
  · intro h
    simp only [List.mem_cons, Prod.mk.injEq, List.not_mem_nil, or_false] at h
    rcases h with ⟨rfl, rfl⟩ | ⟨rfl, rfl⟩ | ⟨rfl, rfl⟩ | ⟨rfl, rfl⟩ | ⟨rfl, rfl⟩ | ⟨rfl, rfl⟩ <;> simp

theorem ofName_none (s : String) : ofName s = none ↔ ¬ ∃ l, (l, s) ∈ Spec.levels := by
  constructor
  · rintro h ⟨l, hl⟩
    rw [← ofName_iff, h] at hl
    cases hl
  · intro h
    cases hs : ofName s with
    | none => rfl
    | some l => exact absurd ⟨l, (ofName_iff s l).1 hs⟩ h

theorem calls_append (cur : Level) (as bs : List Call) :
    calls cur (as ++ bs) = match calls cur as with
      | (o, none) => (o, none)
      | (o, some l) => (o ++ (calls l bs).1, (calls l bs).2) := by
  induction as generalizing cur with
  | nil => simp [calls]
  | cons c cs ih =>
    simp only [List.cons_append, calls]
    rcases hc : call cur c with ⟨o, _ | l⟩
    · rfl
    · simp only [ih l]
      rcases calls l cs with ⟨o', _ | l'⟩ <;> simp

theorem valid_alive (cs : List Call) (h : Spec.Valid cs) (cur : Level) : ∃ l, (calls cur cs).2 = some l := by
  induction cs generalizing cur with
  | nil => exact ⟨cur, rfl⟩
  | cons c cs ih =>
    have h' : Spec.Valid cs := fun s hs => h s (List.mem_cons_of_mem _ hs)
    have : ∃ o l, call cur c = (o, some l) := by
      cases c with
      | setName s =>
        obtain ⟨l, hl⟩ := h s List.mem_cons_self
        exact ⟨confirm l, l, by simp only [call, (ofName_iff s l).2 hl]⟩
      | setLevel l => exact ⟨_, l, rfl⟩
      | msg l f n t => exact ⟨_, cur, rfl⟩
    obtain ⟨o, l, hc⟩ := this
    simp only [calls, hc]
    exact ih h' l

theorem dead_of_invalid (cs : List Call) (cur : Level) (s : String) (hs : Call.setName s ∈ cs) (hn : ¬ ∃ l, (l, s) ∈ Spec.levels) : (calls cur cs).2 = none := by
  obtain ⟨a, b, rfl⟩ := List.append_of_mem hs
  rw [calls_append]
  rcases calls cur a with ⟨o, _ | l⟩
  · rfl
  · simp only [calls, call, (ofName_none s).2 hn]

theorem asks_call {l : Level} {c : Call} (h : Spec.Asks l c) (cur : Level) : (call cur c).2 = some l := by
  cases c with
  | setName s => simp only [Spec.Asks] at h; simp only [call, (ofName_iff s l).2 h]
  | setLevel l' => simp only [Spec.Asks] at h; simp only [call, h]
  | msg => exact h.elim

theorem keeps_level (cs : List Call) (h : ∀ c ∈ cs, ∀ l', ¬ Spec.Asks l' c) (cur l : Level) (hl : (calls cur cs).2 = some l) : l = cur := by
  induction cs generalizing cur with
  | nil => simpa [calls] using hl.symm
  | cons c cs ih =>
    cases c with
    | setName s =>
      have h0 := h _ List.mem_cons_self
      have : ofName s = none := (ofName_none s).2 fun ⟨l, hl⟩ => h0 l hl
      simp [calls, call, this] at hl
    | setLevel l' => exact absurd rfl (h _ List.mem_cons_self l')
    | msg l' f n t =>
      simp only [calls, call] at hl
      exact ih (fun c hc => h c (List.mem_cons_of_mem _ hc)) cur hl

theorem inForce_unique (cs : List Call) (l l' : Level) (hl : (program cs).2 = some l) (h : Spec.InForce cs l') : l = l' := by
  rcases h with ⟨rfl, h⟩ | ⟨a, c, b, rfl, hc, hb⟩
  · exact keeps_level cs h _ l hl
  · unfold program at hl
    rw [calls_append] at hl
    rcases ha : calls .info a with ⟨o, _ | m⟩
    · simp [ha] at hl
    · rw [ha] at hl
      simp only [calls] at hl
      have := asks_call hc m
      rcases hcm : call m c with ⟨o', _ | m'⟩
      · simp [hcm] at this
      · rw [hcm] at this hl
        simp only [Option.some.injEq] at this
        subst this
        exact keeps_level b hb _ l hl

theorem findLast_spec (p : List Char) : Spec.Short p (cut (baseName p)) := by
  have key : ∃ dir, p = dir ++ baseName p ∧ (dir = [] ∨ ∃ d c, dir = d ++ [c] ∧ (c = '/' ∨ c = '\\')) ∧ '/' ∉ baseName p ∧ '\\' ∉ baseName p := by
    induction p with
    | nil => exact ⟨[], by simp [baseName], Or.inl rfl, by simp [baseName], by simp [baseName]⟩
    | cons c cs ih =>
      obtain ⟨dir, h1, h2, h3, h4⟩ := ih
      have e : findLast (c :: cs) = match findLast cs with
        | some i => some (i + 1)
        | none => if c = '/' ∨ c = '\\' then some 0 else none := rfl
      unfold baseName at *
      rw [e]
      rcases hf : findLast cs with _ | i
      · rw [hf] at h1 h3 h4
        simp only [Option.elim_none, List.drop_zero] at h3 h4
        by_cases hc : c = '/' ∨ c = '\\'
        · refine ⟨[c], by simp [hc], Or.inr ⟨[], c, rfl, hc⟩, by simpa [hc] using h3, by simpa [hc] using h4⟩
        · refine ⟨[], by simp [hc], Or.inl rfl, ?_, ?_⟩ <;> simp only [hc, if_false, Option.elim_none, List.drop_zero, List.mem_cons, not_or]
          · exact ⟨fun h => hc (Or.inl h.symm), h3⟩
          · exact ⟨fun h => hc (Or.inr h.symm), h4⟩
      · rw [hf] at h1 h3 h4
        simp only [Option.elim_some, List.drop_succ_cons] at *
        refine ⟨c :: dir, by rw [List.cons_append, ← h1], ?_, h3, h4⟩
        rcases h2 with rfl | ⟨d, c', rfl, hc'⟩
        · exfalso
          have : cs.length = (cs.drop (i + 1)).length := by simpa using congrArg List.length h1
          simp only [List.length_drop] at this
          have : cs = [] := List.length_eq_zero_iff.1 (by omega)
          subst this
          simp [findLast] at hf
        · exact Or.inr ⟨c :: d, c', rfl, hc'⟩
  obtain ⟨dir, h1, h2, h3, h4⟩ := key
  refine ⟨dir, baseName p, h1, h2, h3, h4, ?_⟩
  unfold cut
  by_cases h : (baseName p).length > 30
  · rw [if_pos h]
    refine ⟨(baseName p).take ((baseName p).length - 30), (List.take_append_drop _ _).symm, ?_, fun _ => ?_⟩ <;> rw [List.length_drop] <;> omega
  · rw [if_neg h]
    exact ⟨[], rfl, by omega, fun h => absurd rfl h⟩

/-- **C146 (messages).** In a program that has asked only for levels that exist, a message of a level before the one in force in the documented order writes nothing. Any other message writes its text, and if the level in force is one of the
two most verbose, before it the name of the source file, without directories and cut to its last thirty characters, and the line. What was written before stays, the level stays in force and the program goes on. -/
theorem C146_messages (cs : List Call) (hv : Spec.Valid cs) (cur : Level) (hc : Spec.InForce cs cur) (l : Level) (file line text : List Char) :
    ∃ o b, Spec.Short file b ∧ program (cs ++ [.msg l file line text]) = ((program cs).1 ++ o, some cur) ∧ (Spec.Before l cur → o = []) ∧
      (¬ Spec.Before l cur → (cur = .all ∨ cur = .debug → o = b ++ [':'] ++ line ++ [' '] ++ text) ∧ (¬ (cur = .all ∨ cur = .debug) → o = text)) := by
  obtain ⟨l', hl'⟩ := valid_alive cs hv .info
  obtain rfl := inForce_unique cs l' cur hl' hc
  refine ⟨debugPrint l' l file line text, cut (baseName file), findLast_spec file, ?_, ?_, ?_⟩
  · unfold program
    rw [calls_append]
    rcases hp : calls .info cs with ⟨o, _ | m⟩
    · simp [hp] at hl'
    · rw [hp] at hl'
      simp only [Option.some.injEq] at hl'
      subst hl'
      simp [calls, call]
  · intro h
    rw [before_iff] at h
    simp [debugPrint, h]
  · intro h
    rw [before_iff] at h
    unfold debugPrint
    rw [if_neg h]
    refine ⟨fun hd => ?_, fun hd => ?_⟩
    · rw [if_pos (by rcases hd with rfl | rfl <;> decide)]
      simp
    · rw [if_neg (by cases l' <;> simp_all [Level.val])]
      simp

/-- **C146 (silence).** With the level `SILENT` in force nothing that the macros can print is printed; messages of errors are printed at every other level. -/
theorem C146_silent (l : Level) (h : l ≠ .silent) : Spec.Before l .silent ∧ ¬ Spec.Before .error l := by
  rw [before_iff, before_iff]
  cases l <;> simp_all [Level.val]

theorem exists_inForce (cs : List Call) : ∃ l, Spec.InForce cs l := by
  by_cases h : ∃ c ∈ cs, ∃ l, Spec.Asks l c
  · have : ∃ a c b l, cs = a ++ c :: b ∧ Spec.Asks l c ∧ ∀ c' ∈ b, ∀ l', ¬ Spec.Asks l' c' := by
      induction cs with
      | nil => obtain ⟨c, hc, -⟩ := h; cases hc
      | cons c cs ih =>
        by_cases h' : ∃ c ∈ cs, ∃ l, Spec.Asks l c
        · obtain ⟨a, c', b, l, rfl, h1, h2⟩ := ih h'
          exact ⟨c :: a, c', b, l, rfl, h1, h2⟩
        · obtain ⟨c', hc', l, hl⟩ := h
          rcases List.mem_cons.1 hc' with rfl | hm
          · exact ⟨[], c', cs, l, rfl, hl, fun c'' h'' l' hl' => h' ⟨c'', h'', l', hl'⟩⟩
          · exact absurd ⟨c', hm, l, hl⟩ h'
    obtain ⟨a, c, b, l, h1, h2, h3⟩ := this
    exact ⟨l, Or.inr ⟨a, c, b, h1, h2, h3⟩⟩
  · exact ⟨.info, Or.inl ⟨rfl, fun c hc l hl => h ⟨c, hc, l, hl⟩⟩⟩

theorem confirm_name {l : Level} {s : String} (hs : (l, s) ∈ Spec.levels) : confirm l = "Setting printing level to: ".toList ++ s.toList ++ ['\n'] := by
  have hn : s = l.name := by
    simp only [Spec.levels, List.mem_cons, Prod.mk.injEq, List.not_mem_nil, or_false] at hs
    rcases hs with ⟨rfl, rfl⟩ | ⟨rfl, rfl⟩ | ⟨rfl, rfl⟩ | ⟨rfl, rfl⟩ | ⟨rfl, rfl⟩ | ⟨rfl, rfl⟩ <;> rfl
  rw [hn]
  rfl

/-- **C146 (settings).** A program ends at the first name that is not that of a level, after naming it, and at no other call; a valid request is confirmed, whatever the level in force, and is in force afterwards. -/
theorem C146_settings (cs : List Call) (hv : Spec.Valid cs) :
    (∃ l, Spec.InForce cs l ∧ (program cs).2 = some l) ∧
    (∀ l s, (l, s) ∈ Spec.levels → program (cs ++ [.setName s]) = ((program cs).1 ++ ("Setting printing level to: ".toList ++ s.toList ++ ['\n']), some l) ∧
      program (cs ++ [.setLevel l]) = program (cs ++ [.setName s])) ∧
    (∀ s, (¬ ∃ l, (l, s) ∈ Spec.levels) → ∀ after, program (cs ++ .setName s :: after) = ((program cs).1 ++ ("Invalid print level requested: ".toList ++ s.toList ++ ['\n'] ++
      "Valid levels are: ALL, DEBUG, INFO, WARNING, ERROR, SILENT".toList ++ ['\n']), none)) := by
  obtain ⟨l0, hl0⟩ := valid_alive cs hv .info
  have step : ∀ bs, program (cs ++ bs) = ((program cs).1 ++ (calls l0 bs).1, (calls l0 bs).2) := by
    intro bs
    unfold program
    rw [calls_append]
    rcases hp : calls .info cs with ⟨o, _ | m⟩
    · simp [hp] at hl0
    · rw [hp] at hl0
      simp only [Option.some.injEq] at hl0
      rw [hl0]
  refine ⟨?_, ?_, ?_⟩
  · obtain ⟨l, hl⟩ := exists_inForce cs
    obtain rfl := inForce_unique cs l0 l hl0 hl
    exact ⟨l0, hl, hl0⟩
  · intro l s hs
    have e1 : calls l0 [.setName s] = (confirm l, some l) := by simp only [calls, call, (ofName_iff s l).2 hs, List.append_nil]
    have e2 : calls l0 [.setLevel l] = (confirm l, some l) := by simp only [calls, call, List.append_nil]
    rw [step, step, e1, e2, confirm_name hs]
    exact ⟨rfl, rfl⟩
  · intro s hs after
    have e1 : calls l0 (.setName s :: after) = (complain s, none) := by simp only [calls, call, (ofName_none s).2 hs]
    rw [step, e1]
    rfl

/-- a program that asks for warnings only: an information is not printed, an error is -/
example : Spec.Valid [.setName "WARNING"] ∧ Spec.InForce [.setName "WARNING"] .warning ∧ Spec.Before .info .warning ∧ ¬ Spec.Before .error .warning := by
  refine ⟨fun s hs => ?_, Or.inr ⟨[], _, [], rfl, by simp [Spec.Asks, Spec.levels], by simp⟩, by rw [before_iff]; decide, by rw [before_iff]; decide⟩
  simp only [List.mem_singleton, Call.setName.injEq] at hs
  subst hs
  exact ⟨.warning, by simp [Spec.levels]⟩

/-- the name of a file in a directory -/
example : Spec.Short "/ws/src/State.cpp".toList "State.cpp".toList :=
  ⟨"/ws/src/".toList, "State.cpp".toList, rfl, Or.inr ⟨"/ws/src".toList, '/', rfl, Or.inl rfl⟩, by decide, by decide, [], rfl, by decide, fun h => absurd rfl h⟩

end Verif.Print
