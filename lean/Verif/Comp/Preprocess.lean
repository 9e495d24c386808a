import Mathlib.Data.List.Basic
import Mathlib.Data.List.Infix

/-!
# Model of the preprocessing of source text in `/repo/src/compilers/sppl_to_python.py`

Texts are lists of characters.  `os.linesep` is a newline, as it is on Linux.
-/

namespace Sppl

/-- `str.isspace` of a character, which `strip` and `\s` of `re` use (the ASCII characters; the other spaces of Unicode are left out). -/
def pyWs (c : Char) : Bool := c == ' ' || c == '\n' || c == '\t' || c == '\r' || c == '\x0b' || c == '\x0c' || c == '\x1c' || c == '\x1d' || c == '\x1e' || c == '\x1f'

/-- `.` of `re`. -/
def pyDot (c : Char) : Bool := c != '\n'

/-- `str.split(os.linesep)`. -/
def splitLines : List Char → List (List Char)
  | [] => [[]]
  | c :: s =>
    if c = '\n' then [] :: splitLines s
    else match splitLines s with
      | [] => [[c]]
      | l :: ls => (c :: l) :: ls

/-- `os.linesep.join`. -/
def joinLines : List (List Char) → List Char
  | [] => []
  | [l] => l
  | l :: ls => l ++ '\n' :: joinLines ls

/-- `str.replace('~=', '=')`: sppl_to_python.py 351. -/
def replaceTilde : List Char → List Char
  | [] => []
  | '~' :: '=' :: s => '=' :: replaceTilde s
  | c :: s => c :: replaceTilde s

/-- The parts of the regular expression: fixed text, or a greedy repetition of a class of characters (`*`, or `+` if `plus`).  All repetitions are recorded, whether or not they are in
a group. -/
inductive RePart
  | lit (l : List Char)
  | many (p : Char → Bool) (plus : Bool)

/-- The ways to take characters of a class from the text, in the order in which `re` tries them: the longest first. -/
def runs (p : Char → Bool) : List Char → List (List Char × List Char)
  | [] => [([], [])]
  | c :: s => if p c then (runs p s).map (fun q => (c :: q.1, q.2)) ++ [([], c :: s)] else [([], c :: s)]

/-- `re.match`: backtracking; the texts of the repetitions and what follows the match. -/
def reMatch : List RePart → List Char → Option (List (List Char) × List Char)
  | [], s => some ([], s)
  | .lit l :: r, s => if l.isPrefixOf s then reMatch r (s.drop l.length) else none
  | .many p plus :: r, s => ((runs p s).filter (fun q => !plus || !q.1.isEmpty)).findSome? (fun q => (reMatch r q.2).map (fun m => (q.1 :: m.1, m.2)))

/-- The regular expression of sppl_to_python.py 353, after `^`. -/
def switchRe : List RePart := [.many pyWs false, .lit ['s', 'w', 'i', 't', 'c', 'h'], .many pyWs false, .lit ['('], .many pyDot true, .lit [')'], .many pyWs false,
  .lit ['c', 'a', 's', 'e', 's'], .many pyWs false, .lit ['('], .many pyDot true, .many pyWs false, .lit ['i', 'n'], .many pyWs true, .many pyDot true, .many pyWs false,
  .lit [')'], .many pyWs false, .lit [':']]

/-- The replacement of sppl_to_python.py 354; the groups are the repetitions 0, 2, 5 and 8. -/
def switchOut (m : List (List Char)) : List Char :=
  m.getD 0 [] ++ ['f', 'o', 'r', ' '] ++ m.getD 5 [] ++ [' ', 'i', 'n', ' ', 's', 'w', 'i', 't', 'c', 'h', '('] ++ m.getD 2 [] ++ [',', ' '] ++ m.getD 8 [] ++ [')', ':']

/-- `re.sub` with `re.MULTILINE`: sppl_to_python.py 352-355.  `bol` tells whether `^` matches here; `skip` is the number of characters that remain of the last match. -/
def subSwitch : Bool → ℕ → List Char → List Char
  | _, _, [] => []
  | _, skip + 1, c :: s => subSwitch (c == '\n') skip s
  | true, 0, c :: s =>
    match reMatch switchRe (c :: s) with
    | some m => switchOut m.1 ++ subSwitch (c == '\n') (s.length - m.2.length) s
    | none => c :: subSwitch (c == '\n') 0 s
  | false, 0, c :: s => c :: subSwitch (c == '\n') 0 s

/-- sppl_to_python.py 348-356 `preprocess`. -/
def preprocess (source : List Char) : List Char :=
  let lines := splitLines source
  let s1 := joinLines (lines.filter (fun l => !l.all pyWs))
  let s2 := replaceTilde s1
  subSwitch true 0 s2

end Sppl
