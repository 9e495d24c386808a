import Verif.Events.Ops

/-!
# Model of `/repo/src/dnf.py` and of `to_dnf` (transforms.py 808-812, 862-863, 1110-1112, 1160-1165)

Dictionaries are association lists in insertion order.
-/

namespace Sppl
open Classical

/-- `itertools.product(*lists)`: the last factor varies fastest (transforms.py 1164). -/
def cross {α : Type} : List (List α) → List (List α)
  | [] => [[]]
  | l :: ls => l.flatMap (fun x => (cross ls).map (fun xs => x :: xs))

mutual
/-- The `to_dnf_list` methods: transforms.py 862-863, 1110-1112, 1160-1165. -/
def Ev.toDnfList : Ev → List (List Ev)
  | .ivl t i => [[.ivl t i]]
  | .fin t v => [[.fin t v]]
  | .nom t v => [[.nom t v]]
  | .or es => (Ev.toDnfListL es).flatten
  | .and es => (cross (Ev.toDnfListL es)).map List.flatten
/-- `[event.to_dnf_list() for event in self.subexprs]`. -/
def Ev.toDnfListL : List Ev → List (List (List Ev))
  | [] => []
  | e :: es => e.toDnfList :: Ev.toDnfListL es
end

/-- `simplify_event` with a constructor (transforms.py 810); the constructors of compound events raise
`IndexError` on an empty list (`get_union`, sym_util.py 21-22). -/
def simplifyEvent (E : List Ev → Ev) : List Ev → Res Ev
  | [] => .error .index
  | [e] => .ok e
  | es => .ok (E es)

/-- transforms.py 808-812 `to_dnf`. -/
def Ev.toDnf (e : Ev) : Res Ev := do
  let events ← e.toDnfList.mapM (simplifyEvent .and)
  simplifyEvent .or events

/-! ## `dnf_factor` -/

/-- A Python dict from keys to events, in insertion order. -/
abbrev Clause (K : Type) := List (K × Ev)

variable {K : Type} [DecidableEq K]

/-- dnf.py 51-54: `events[key] = ev` or `events[key] &= ev`. -/
noncomputable def Clause.addAnd (c : Ctx) (k : K) (ev : Ev) : Clause K → Res (Clause K)
  | [] => .ok [(k, ev)]
  | (k', e) :: m =>
    if k' = k then do
      let g ← e.land c ev
      .ok ((k', g) :: m)
    else do
      let r ← Clause.addAnd c k ev m
      .ok ((k', e) :: r)

/-- `list(symbols)[0]` when there is exactly one symbol (dnf.py 37-39). -/
noncomputable def Ev.symbol1 (e : Ev) : Res String :=
  match e.symbols.toList with
  | [s] => .ok s
  | _ => .error .assertion

/-- dnf.py 35-41, a literal: its key. -/
noncomputable def factorLit (lookup : String → Option K) (e : Ev) : Res (K × Ev) := do
  let s ← e.symbol1
  match lookup s with
  | some k => .ok (k, e)
  | none => .error .key

/-- dnf.py 47-54: the loop over the literals of a conjunction. -/
noncomputable def factorLoop (c : Ctx) (lookup : String → Option K) (m : Clause K) (es : List Ev) :
    Res (Clause K) :=
  es.foldlM (fun m e => do
    let ke ← factorLit lookup e
    Clause.addAnd c ke.1 ke.2 m) m

/-- dnf.py 35-55 `dnf_factor` on a literal or a conjunction. -/
noncomputable def factorClause (c : Ctx) (lookup : String → Option K) : Ev → Res (Clause K)
  | .and es =>
    if es.all (fun e => e.basic?.isSome) then factorLoop c lookup [] es else .error .assertion
  | .or _ => .error .assertion
  | e => do
    let ke ← factorLit lookup e
    .ok [ke]

/-- dnf.py 14-64 `dnf_factor` with an explicit `lookup`. -/
noncomputable def dnfFactor (c : Ctx) (lookup : String → Option K) : Ev → Res (List (Clause K))
  | .or es =>
    if es.all (fun e => match e with | .or _ => false | _ => true) then es.mapM (factorClause c lookup)
    else .error .assertion
  | e => do
    let m ← factorClause c lookup e
    .ok [m]

/-- dnf.py 32-33: the default `lookup` maps each symbol of the event to itself. -/
noncomputable def selfLookup (e : Ev) (s : String) : Option String := if s ∈ e.symbols then some s else none

/-- `dnf_factor(event)` with the default `lookup`. -/
noncomputable def dnfFactor1 (c : Ctx) (e : Ev) : Res (List (Clause String)) := dnfFactor c (selfLookup e) e

/-! ## `dnf_normalize` -/

/-- A solved clause: `[(symbol, ev.solve()) for symbol, ev in clause.items()]` (dnf.py 75). -/
abbrev Sol := List (String × SSet EReal)

/-- dnf.py 75, 94: solve the events of a clause. -/
noncomputable def solveClause (c : Ctx) (n : ℕ) (m : Clause String) : Res Sol :=
  m.mapM (fun p => do
    let S ← p.2.solve c n
    .ok (p.1, S))

/-- Equality of solved clauses (lists of pairs, dnf.py 82). -/
noncomputable def Sol.eqPy : Sol → Sol → Bool
  | [], [] => true
  | (s, A) :: a, (t, B) :: b => decide (s = t) && A.eqPy B && Sol.eqPy a b
  | _, _ => false

/-- dnf.py 80-83: `[x for i, x in enumerate(l) if x not in l[:i]]`. -/
noncomputable def dedupSols (l : List Sol) : List Sol :=
  (l.zipIdx.filter (fun p => !(l.take p.2).any (fun x => Sol.eqPy x p.1))).map Prod.fst

/-- dnf.py 81: the conjunction of `symbol << S` over a solved clause. -/
noncomputable def solConj (c : Ctx) (s : Sol) : Res Ev := do
  let es ← s.mapM (fun p => (Tr.id p.1).inSet c p.2)
  reduceM (Ev.land c) es

/-- dnf.py 70-86, the part of `dnf_normalize` after the shortcut; `none` is `None`. -/
noncomputable def normalizeBody (c : Ctx) (n : ℕ) (e : Ev) : Res (Option Ev) := do
  let d ← e.toDnf
  let fs ← dnfFactor1 c d
  let sols ← fs.mapM (solveClause c n)
  let good := sols.filter (fun s => s.all (fun p => !p.2.isEmpty))
  if good = [] then .ok none
  else do
    let conjs ← (dedupSols good).mapM (solConj c)
    let disj ← reduceM (Ev.lor c) conjs
    let r ← disj.toDnf
    .ok (some r)

/-- dnf.py 67-69: `isinstance(event, EventBasic) and isinstance(event.subexpr, Id)`. -/
def Ev.isIdLit (e : Ev) : Bool :=
  match e.basic? with
  | some t => t.isId
  | none => false

/-- dnf.py 66-86 `dnf_normalize`. -/
noncomputable def dnfNormalize (c : Ctx) (n : ℕ) (e : Ev) : Res (Option Ev) :=
  if e.isIdLit then .ok (some e) else normalizeBody c n e

/-! ## `dnf_to_disjoint_union` -/

/-- dnf.py 99-101: the set of one clause, intersected with the set of the same symbol in another. -/
noncomputable def interWith (c : Ctx) (b : Sol) (s : String) (A : SSet EReal) : Res (SSet EReal) :=
  match b.lookup s with
  | some B => SSet.and c.σ A B
  | none => .ok A

/-- dnf.py 98-105: `any(x is EmptySet for x in intersections)`, evaluated lazily. -/
noncomputable def anyEmptyInter (c : Ctx) (b : Sol) : Sol → Res Bool
  | [] => .ok false
  | (s, A) :: a => do
    let x ← interWith c b s A
    if x.isEmpty then .ok true else anyEmptyInter c b a

/-- dnf.py 88-117 `dnf_non_disjoint_clauses`: for each clause the indexes of the earlier clauses that
overlap it.  (The test at line 112 compares a dictionary with `EmptySet` and is always false.) -/
noncomputable def nonDisjoint (c : Ctx) (sols : List Sol) : Res (List (List ℕ)) :=
  sols.zipIdx.mapM (fun p => ((sols.take p.2).zipIdx).filterMapM (fun q => do
    let d ← anyEmptyInter c p.1 q.1
    .ok (if d then none else some q.2)))

/-- The clauses `event.subexprs` of a disjunction. -/
def Ev.subexprs : Ev → List Ev
  | .or es => es
  | .and es => es
  | _ => []

/-- dnf.py 134-138: clause `i` and the negations of the earlier clauses that overlap it. -/
noncomputable def cascade (c : Ctx) (es : List Ev) (e : Ev) (js : List ℕ) : Res Ev :=
  js.foldlM (fun state j => do
    match es[j]? with
    | none => .error .index
    | some f =>
      let nf ← f.not c
      state.land c nf) e

/-- dnf.py 119-143 `dnf_to_disjoint_union`; the first argument bounds the depth of the recursion. -/
noncomputable def toDisjoint (c : Ctx) (n : ℕ) : ℕ → Ev → Res Ev
  | 0, _ => .error .recursion
  | d + 1, .or es => do
    let fs ← dnfFactor1 c (.or es)
    let sols ← fs.mapM (solveClause c n)
    let ov ← nonDisjoint c sols
    if ov.all (fun l => l.isEmpty) then .ok (.or es)
    else do
      let cl ← (es.zip ov).mapM (fun p => cascade c es p.1 p.2)
      let norm ← cl.mapM (dnfNormalize c n)
      let ss ← (norm.filterMap id).mapM (toDisjoint c n d)
      reduceM (Ev.lor c) ss
  | _ + 1, e => .ok e

end Sppl
