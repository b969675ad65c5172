import Mathlib.Data.List.Basic

/-!
# The printer: ov_core/src/utils/print.h and print.cpp (not on Android)
-/

set_option autoImplicit false

namespace Verif.Print

/-- `Printer::PrintLevel`, print.h:55 -/
inductive Level | all | debug | info | warning | error | silent
  deriving DecidableEq

/-- the value of the enumerator, print.h:55 -/
def Level.val : Level → ℕ
  | .all => 0 | .debug => 1 | .info => 2 | .warning => 3 | .error => 4 | .silent => 5

/-- the name written by `setPrintLevel(PrintLevel)`, print.cpp:59-84. Values that are no enumerator are not modelled. -/
def Level.name : Level → String
  | .all => "ALL" | .debug => "DEBUG" | .info => "INFO" | .warning => "WARNING" | .error => "ERROR" | .silent => "SILENT"

/-- the chain of comparisons of `setPrintLevel(const std::string &)`, print.cpp:37-53; `none`: `std::exit` -/
def ofName (s : String) : Option Level :=
  if s = "ALL" then some .all
  else if s = "DEBUG" then some .debug
  else if s = "INFO" then some .info
  else if s = "WARNING" then some .warning
  else if s = "ERROR" then some .error
  else if s = "SILENT" then some .silent
  else none

/-- `path.find_last_of("/\\")`, `none` is `npos`; print.cpp:143 -/
def findLast : List Char → Option ℕ
  | [] => none
  | c :: cs => match findLast cs with
    | some i => some (i + 1)
    | none => if c = '/' ∨ c = '\\' then some 0 else none

/-- `path.substr(path.find_last_of("/\\") + 1)`, print.cpp:143; `npos + 1` is `0` -/
def baseName (p : List Char) : List Char := p.drop ((findLast p).elim 0 (· + 1))

/-- the name as printed, at most `MAX_FILE_PATH_LEGTH` characters; print.cpp:144-148, print.h:84 -/
def cut (b : List Char) : List Char := if b.length > 30 then b.drop (b.length - 30) else b

/-- what a program asks of the printer: `setPrintLevel` with a name or a level, or a message, `text` being what `vprintf` makes of its format and arguments, `file` and `line` the place of the macro, print.h:99-103 -/
inductive Call
  | setName (s : String)
  | setLevel (l : Level)
  | msg (l : Level) (file line text : List Char)

/-- `setPrintLevel(PrintLevel)`: the message on the standard output, print.cpp:56-85 -/
def confirm (l : Level) : List Char := "Setting printing level to: ".toList ++ l.name.toList ++ ['\n']

/-- print.cpp:50-52 -/
def complain (s : String) : List Char :=
  "Invalid print level requested: ".toList ++ s.toList ++ ['\n'] ++ "Valid levels are: ALL, DEBUG, INFO, WARNING, ERROR, SILENT".toList ++ ['\n']

/-- `Printer::debugPrint`, print.cpp:87-157: what is written at the current level `cur` -/
def debugPrint (cur l : Level) (file line text : List Char) : List Char :=
  if l.val < cur.val then []
  else (if cur.val ≤ Level.debug.val then cut (baseName file) ++ ([':'] ++ line ++ [' ']) else []) ++ text

/-- one call: what is written, and the level afterwards, `none` once the program has ended -/
def call (cur : Level) : Call → List Char × Option Level
  | .setName s => match ofName s with
    | some l => (confirm l, some l)
    | none => (complain s, none)
  | .setLevel l => (confirm l, some l)
  | .msg l f n t => (debugPrint cur l f n t, some cur)

/-- the calls of a program, in order: all that is written, and the level at the end, `none` if the program was ended -/
def calls (cur : Level) : List Call → List Char × Option Level
  | [] => ([], some cur)
  | c :: cs => match call cur c with
    | (o, none) => (o, none)
    | (o, some l) => (o ++ (calls l cs).1, (calls l cs).2)

/-- a program: the level at first is `INFO`, print.cpp:34 -/
def program (cs : List Call) : List Char × Option Level := calls .info cs

end Verif.Print
