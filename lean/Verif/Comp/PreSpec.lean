import Verif.Comp.Preprocess

/-!
# What the preprocessing of source text is meant to do

A source text is a list of lines; the meaning of `~=` and of `switch (..) cases (.. in ..):` is given line by line, without search.
-/

namespace Sppl

/-- Spaces within a line. -/
def Blank (w : List Char) : Prop := ∀ c ∈ w, pyWs c = true ∧ c ≠ '\n'

/-- Text within a line. -/
def InLine (s : List Char) : Prop := '\n' ∉ s

/-- Characters of identifiers. -/
def idChar (c : Char) : Bool := c.isAlphanum || c == '_'

/-- The first token of the text is the word `k`. -/
def FirstWord (k s : List Char) : Prop := ∃ r, s = k ++ r ∧ ∀ c ∈ r.head?, idChar c = false

/-- What may follow the colon of a header: spaces, a comment or a statement, without a closing parenthesis and without `in` before a space or at the end. -/
structure RestOK (s : List Char) : Prop where
  line : InLine s
  paren : ')' ∉ s
  noIn : ∀ a b, s = a ++ 'i' :: 'n' :: b → ∃ c r, b = c :: r ∧ pyWs c = false

/-- The header of a `switch`: `switch (subj) cases (var in vals): rest`, with spaces. -/
structure SwitchHead where
  ind : List Char
  w1 : List Char
  subj : List Char
  w2 : List Char
  w3 : List Char
  var : List Char
  w4 : List Char
  w5 : List Char
  vals : List Char
  w6 : List Char
  w7 : List Char
  rest : List Char

/-- What the user writes. -/
def SwitchHead.src (h : SwitchHead) : List Char :=
  h.ind ++ "switch".toList ++ h.w1 ++ "(".toList ++ h.subj ++ ")".toList ++ h.w2 ++ "cases".toList ++ h.w3 ++ "(".toList ++ h.var ++ h.w4 ++ "in".toList ++ h.w5 ++ h.vals ++ h.w6 ++
    ")".toList ++ h.w7 ++ ":".toList ++ h.rest

/-- What it stands for: the loop `for var in switch(subj, vals):`. -/
def SwitchHead.out (h : SwitchHead) : List Char :=
  h.ind ++ "for ".toList ++ h.var ++ h.w4 ++ " in switch(".toList ++ h.subj ++ ", ".toList ++ h.vals ++ h.w6 ++ "):".toList ++ h.rest

/-- Headers that are read correctly: the parts are not empty and stay on the line, the values do not contain `in` before a space (not even in a string), `) cases` does not occur
again, and `~=` does not occur. -/
structure SwitchHead.OK (h : SwitchHead) : Prop where
  ind : Blank h.ind
  w1 : Blank h.w1
  w2 : Blank h.w2
  w3 : Blank h.w3
  w4 : Blank h.w4
  w5 : Blank h.w5
  w6 : Blank h.w6
  w7 : Blank h.w7
  rest : RestOK h.rest
  subj : h.subj ≠ [] ∧ InLine h.subj
  var : h.var ≠ [] ∧ InLine h.var
  sep : h.w5 ≠ []
  vals : InLine h.vals ∧ ∃ c r, h.vals = c :: r ∧ pyWs c = false
  noIn : ∀ a c b, pyWs c = true → h.vals ++ h.w6 ≠ a ++ 'i' :: 'n' :: c :: b
  noCases : ∀ a w b, (∀ c ∈ w, pyWs c = true) → h.var ++ h.w4 ++ "in".toList ++ h.w5 ++ h.vals ++ h.w6 ≠ a ++ ')' :: (w ++ "cases".toList ++ b)
  noTilde : ¬ ['~', '='] <:+: h.src

/-- Lines of the language. -/
inductive SrcLine
  | blank (w : List Char)
  | head (h : SwitchHead)
  | sample (lhs rhs : List Char)
  | other (s : List Char)

/-- What the user writes. -/
def SrcLine.src : SrcLine → List Char
  | .blank w => w
  | .head h => h.src
  | .sample a b => a ++ "~=".toList ++ b
  | .other s => s

/-- The line of Python that it stands for; blank lines stand for none. -/
def SrcLine.out : SrcLine → Option (List Char)
  | .blank _ => none
  | .head h => some h.out
  | .sample a b => some (a ++ "=".toList ++ b)
  | .other s => some s

/-- A line that is no header: it is not blank, and its first token is neither `switch` nor one of `in` and `)`, with which no statement begins. -/
structure PlainLine (s : List Char) : Prop where
  line : InLine s
  start : ∃ w c r, s = w ++ c :: r ∧ (∀ d ∈ w, pyWs d = true) ∧ pyWs c = false ∧ c ≠ ')' ∧ ¬ FirstWord "switch".toList (c :: r) ∧ ¬ FirstWord "in".toList (c :: r)

/-- Lines that are read correctly: other than as the operator, `~=` does not occur, in strings and comments neither. -/
def SrcLine.OK : SrcLine → Prop
  | .blank w => Blank w
  | .head h => h.OK
  | .sample a b => ¬ ['~', '='] <:+: a ∧ ¬ ['~', '='] <:+: b ∧ PlainLine (a ++ "=".toList ++ b)
  | .other s => ¬ ['~', '='] <:+: s ∧ PlainLine s

end Sppl
