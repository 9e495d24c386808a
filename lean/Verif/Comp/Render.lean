import Verif.Comp.Model

/-!
# Model of `/repo/src/compilers/spe_to_sppl.py`: the source of a program for an SPE

The code writes text.  Here it writes what Python's parser makes of that text.  Errors are the exceptions of the code, or `.value` where Python cannot parse the
text.  `fwidth`, the number of decimals, is left out: numbers are written exactly.
-/

namespace Sppl
open Classical

/-! ## Names -/

/-- The keywords of Python. -/
def pyKeywords : List String := ["False", "None", "True", "and", "as", "assert", "async", "await", "break", "class", "continue", "def", "del", "elif", "else", "except",
  "finally", "for", "from", "global", "if", "import", "in", "is", "lambda", "nonlocal", "not", "or", "pass", "raise", "return", "try", "while", "with", "yield"]

/-- The texts that Python reads as a name.  (Names with other letters than those of ASCII are left out.) -/
def isName (s : String) : Bool :=
  match s.toList with
  | [] => false
  | x :: xs => (x.isAlpha || x == '_') && xs.all (fun y => y.isAlphanum || y == '_') && !pyKeywords.contains s

/-! ## The text of transforms -/

/-- A product as it is written: the first factor, and the others with `*` (`false`) or `/` (`true`) before them. -/
abbrev Term := PE × List (Bool × PE)

/-- Python reads `a*b/c` from the left. -/
def Term.read (t : Term) : PE := t.2.foldl (fun a f => .bin (.other (if f.1 = true then "/" else "*")) a f.2) t.1

/-- Python reads `a + b + c` from the left; an empty text is a syntax error. -/
def readTerms : List Term → Res PE
  | [] => .error .value
  | t :: ts => .ok (ts.foldl (fun a u => .bin (.other "+") a u.read) t.read)

/-- A text in parentheses is one factor. -/
def inParens (ts : List Term) : Res PE := readTerms ts

/-- transforms.py 683-695: one term of a `Poly`, with the text of the subexpression.  Here `2(X)` is the call of a number: it raises `TypeError`. -/
noncomputable def polyTerm (ss : List Term) (i : ℕ) (a : ℝ) : Res (List Term) :=
  if a = 0 then .ok []
  else if i = 0 then .ok [(.lit (.num a), [])]
  else if i = 1 then
    if a = 1 then .ok ss
    else do
      let p ← inParens ss
      .ok [(.host p.names (fun _ => .error .type), [])]
  else do
    let p ← inParens ss
    if a = 1 then .ok [(.bin (.other "**") p (.lit (.int i)), [])]
    else .ok [(.lit (.num a), [(false, .bin (.other "**") p (.lit (.int i)))])]

/-- transforms.py 694-695: the terms of a `Poly`, from the `i`th. -/
noncomputable def polyTerms (ss : List Term) : ℕ → List ℝ → Res (List Term)
  | _, [] => .ok []
  | i, a :: as => do
    let t ← polyTerm ss i a
    let ts ← polyTerms ss (i + 1) as
    .ok (t ++ ts)

/-- transforms.py 623-624: `(1/...)`, without parentheses around the denominator, so that only its first factor is divided by. -/
def oneOver : List Term → Res (List Term)
  | [] => .error .value
  | t :: ts => do
    let p ← readTerms ((.lit (.num 1), (true, t.1) :: t.2) :: ts)
    .ok [(p, [])]

/-- `str(transform)` (of an identifier that is no name, like `A[0]` or a keyword, `.value`: `A[0]` is not read as a variable): transforms.py 391-392, 436-437, 477-480, 518-523 (`log(X; 3)` is no Python), 567-568 (`|X|` is no Python), 623-624, 681-695, 751-756 (the name
`Indicator` is not defined: what is inside the brackets is left out).  Numbers are written as one literal, which is not so for rational numbers (`1/2`). -/
noncomputable def Tr.text : Tr → Res (List Term)
  | .id s => if isName s = true then .ok [(.name s, [])] else .error .value
  | .radical t n => do
    let ss ← t.text
    let p ← inParens ss
    .ok [(.bin (.other "**") p (.lit (.coll [.int 1, .int n])), [])]
  | .exp t b => do
    let ss ← t.text
    let p ← inParens ss
    if b = Real.exp 1 then .ok [(.call "exp" [p], [])] else .ok [(.bin (.other "**") (.lit (.num b)) p, [])]
  | .log t b => do
    let ss ← t.text
    let p ← inParens ss
    if b = Real.exp 1 then .ok [(.call "ln" [p], [])]
    else if b = 2 then .ok [(.call "log2" [p], [])]
    else .error .value
  | .abs _ => .error .value
  | .recip t => do
    let ss ← t.text
    oneOver ss
  | .poly t cs => do
    let ss ← t.text
    polyTerms ss 0 cs
  | .pw ts es ds => .ok [(.host ("Indicator" :: (Tr.pw ts es ds).symbols.toList) (fun _ => .error .key), [])]

/-- The expression that Python reads from the text of a transform. -/
noncomputable def Tr.source (t : Tr) : Res PE := do
  let ts ← t.text
  readTerms ts

/-! ## The text of SPEs -/

/-- The strings whose text between quotes is read as the string itself.  (With others, Python fails or reads another string.) -/
def plainKey (s : String) : Bool := s.toList.all (fun x => x ≠ '\'' && x ≠ '\\' && x ≠ '\n')

/-- A dictionary, as the list of its items. -/
def dictObj (l : List (String × ℝ)) : Obj := .coll (l.map (fun p => .coll [.str p.1, .num p.2]))

/-- spe_to_sppl.py 23-43 `render_sppl_choice`.  (`.value` for symbols that are no names, also for `A[0]`, which Python reads as an element of an array.) -/
def renderChoice (X : String) (l : List (String × ℝ)) : Res Stmt :=
  if (isName X && l.all (fun p => plainKey p.1)) = true then .ok (.assign (.name X) (.call "choice" [.lit (dictObj l)])) else .error .value

/-- spe_to_sppl.py 56-60: the keyword arguments of the distribution.  (Its positional arguments are not written.) -/
def keywords (d : Dist) : List Obj := d.kwds.map (fun p => .coll [.str p.1, .num p.2])

/-- spe_to_sppl.py 65-67 with transforms.py 985-998 `EventInterval.__str__`: the text of `symbol << support`.  (`oo` stands for infinity in `X < oo`.) -/
noncomputable def supportText (X : String) (i : Ivl EReal) : PE :=
  if i.a = ⊥ then
    if i.b = ⊤ then .host [X] (fun ρ => match ρ X with
      | some (.tr t) => do
        let e ← if i.ro = true then t.ltNum ⊤ else t.leNum ⊤
        .ok (.ev e)
      | _ => .error .type)
    else .cmp (.name X) [if i.ro = true then .lt else .le] [.lit (.num i.b.toReal)]
  else if i.b = ⊤ then .cmp (.lit (.num i.a.toReal)) [if i.lo = true then .lt else .le] [.name X]
  else .cmp (.cmp (.lit (.num i.a.toReal)) [if i.lo = true then .lt else .le] [.name X]) [if i.ro = true then .lt else .le] [.lit (.num i.b.toReal)]

/-- spe_to_sppl.py 70-73: the derived variables of a leaf. -/
noncomputable def renderEnv : Env → Res (List Stmt)
  | [] => .ok []
  | p :: env => do
    let e ← p.2.source
    let r ← renderEnv env
    if isName p.1 = true then .ok (.assign (.name p.1) e :: r) else .error .value

/-- spe_to_sppl.py 83 `branch_var`. -/
def branchVar (n : ℕ) : String := s!"branch_var_{n}"

/-- spe_to_sppl.py 90-92: the test of a branch. -/
def branchTest (n i : ℕ) : PE := .cmp (.name (branchVar n)) [.eq] [.lit (.str (toString i))]

/-- spe_to_sppl.py 88-97: `if`, `elif`, ...; Python cannot parse an empty body. -/
def renderElifs (n : ℕ) : ℕ → List (List Stmt) → Res (List Stmt)
  | _, [] => .ok []
  | i, b :: bs => do
    let r ← renderElifs n (i + 1) bs
    if b = [] then .error .value else .ok [.ifs (branchTest n i) b r]

mutual
/-- spe_to_sppl.py 44-98 `render_sppl_helper`; the second argument is `state.branches`, without the names. -/
noncomputable def Spe.render : Spe → List (List ℝ) → Res (List Stmt × List (List ℝ))
  | .nominal X dist, bs => do
    let s ← renderChoice X (dist.map (fun p => (p.1, (p.2 : ℝ))))
    .ok ([s], bs)
  | .real _ X d supp cond env, bs => do
    let r ← renderEnv env.tail
    if isName X = true then .ok (.assign (.name X) (.call d.name ((keywords d).map PE.lit)) :: ((if cond = true then [.condition (supportText X supp)] else []) ++ r), bs)
    else .error .value
  | .prod cs, bs => do
    let r ← Spe.renderL cs bs
    .ok (r.1.flatten, r.2)
  | .sum [] _, bs => .ok ([], bs)
  | .sum [s] _, bs => s.render bs
  | .sum (s :: t :: cs) ws, bs => do
    let r ← s.render (bs ++ [ws])
    let q ← Spe.renderL (t :: cs) r.2
    let e ← renderElifs bs.length 0 (r.1 :: q.1)
    .ok (e, q.2)
  | .atomic _ _ _, _ => .error .assertion
/-- The children in turn. -/
noncomputable def Spe.renderL : List Spe → List (List ℝ) → Res (List (List Stmt) × List (List ℝ))
  | [], bs => .ok ([], bs)
  | s :: ss, bs => do
    let r ← s.render bs
    let q ← Spe.renderL ss r.2
    .ok (r.1 :: q.1, q.2)
end

/-- spe_to_sppl.py 84-86: `'0'`, `'1'`, ... with the weights. -/
def branchDist (ws : List ℝ) : List (String × ℝ) := (List.range ws.length).zipWith (fun i w => (toString i, w)) ws

/-- spe_to_sppl.py 111-113: the branch variables, from the `n`th. -/
def renderBranches : ℕ → List (List ℝ) → Res (List Stmt)
  | _, [] => .ok []
  | n, ws :: wss => do
    let s ← renderChoice (branchVar n) (branchDist ws)
    let r ← renderBranches (n + 1) wss
    .ok (s :: r)

/-- spe_to_sppl.py 101-116 `render_sppl`, without the import. -/
noncomputable def renderSppl (s : Spe) : Res (List Stmt) := do
  let r ← s.render []
  let b ← renderBranches 0 r.2
  .ok (b ++ r.1)

end Sppl
