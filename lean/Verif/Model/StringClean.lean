import Mathlib.Data.List.Basic

/-!
# Cleaning of texts

Source: `/repo/fortuna/hallucination/utils/string.py`.

A text is a list of characters. Upper and lower case are two functions on characters (so that no character becomes two, as `ß` does). Spaces are the ASCII ones.
-/

set_option linter.unusedSectionVars false

namespace Verif.StringClean

/-- `\s` and what `strip` removes: space, tab, newline, vertical tab, form feed, carriage return, and the four separators. -/
def isSpace (c : Char) : Bool := [' ', '\t', '\n', '\x0b', '\x0c', '\r', '\x1c', '\x1d', '\x1e', '\x1f'].contains c

/-- `[?.,%!"]`. -/
def isPunct (c : Char) : Bool := ['?', '.', ',', '%', '!', '"'].contains c

/-- `re.sub(r'\s([?.,%!"](?:\s|$))', r"\1", text)`, string.py L17: matches from left to right that do not overlap. -/
def dropSpaces : List Char → List Char
  | s :: p :: q :: rest => if isSpace s && isPunct p && isSpace q then p :: q :: dropSpaces rest else s :: dropSpaces (p :: q :: rest)
  | [s, p] => if isSpace s && isPunct p then [p] else [s, p]
  | l => l

/-- `text.split(m)` for one character. -/
def split (m : Char) : List Char → List (List Char)
  | [] => [[]]
  | c :: l =>
    if c = m then [] :: split m l
    else match split m l with
      | [] => [[c]]
      | s :: r => (c :: s) :: r

/-- `sep.join(parts)`. -/
def join (sep : List Char) : List (List Char) → List Char
  | [] => []
  | [s] => s
  | s :: r => s ++ sep ++ join sep r

/-- `s.strip()`. -/
def strip (s : List Char) : List Char := ((s.dropWhile isSpace).reverse.dropWhile isSpace).reverse

/-- `s.capitalize()`. -/
def capitalize (up low : Char → Char) : List Char → List Char
  | [] => []
  | c :: l => up c :: l.map low

/-- `". ".join(map(lambda s: s.strip().capitalize(), text.split(".")))` for the mark `m`, string.py L19-21. -/
def sentences (up low : Char → Char) (m : Char) (t : List Char) : List Char :=
  join [m, ' '] ((split m t).map fun s => capitalize up low (strip s))

/-- `text.replace(" ' ", "'")`, string.py L23. -/
def closeQuotes : List Char → List Char
  | a :: b :: c :: rest => if a = ' ' ∧ b = '\'' ∧ c = ' ' then '\'' :: closeQuotes rest else a :: closeQuotes (b :: c :: rest)
  | l => l

/-- `string_cleaner`, string.py L4-24. -/
def clean (up low : Char → Char) (t : List Char) : List Char :=
  let t := dropSpaces t
  let t := sentences up low '.' t
  let t := sentences up low '?' t
  let t := sentences up low '!' t
  let t := join [' ', '\'', ' '] ((split '\'' t).map strip)
  closeQuotes t

end Verif.StringClean
