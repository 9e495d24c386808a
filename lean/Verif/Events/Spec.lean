import Verif.Events.Model
import Verif.Sets.Spec

/-!
# Specification: the value of an expression and the truth of an event at an assignment

`ω` assigns a string, a real number, or nothing (undefined) to every variable.  None of the operations of the model is used
here; only its data types are.
-/

namespace Sppl
open Classical

/-- Assignments: `none` is an undefined variable. -/
abbrev Asg := String → Option (Val ℝ)

/-- A real value seen as an element of the sets of the model. -/
def Val.lift : Val ℝ → Val EReal
  | .str s => .str s
  | .num x => .num (x : EReal)

/-- Value of the polynomial with coefficients `c0, c1, ...` at `x`. -/
def polyVal (cs : List ℝ) (x : ℝ) : ℝ := cs.foldr (fun c acc => c + x * acc) 0

/-- Apply a partial real function to an optional value (strings have no numeric image). -/
def onNum (f : ℝ → Option ℝ) : Option (Val ℝ) → Option (Val ℝ)
  | some (.num x) => (f x).map .num
  | _ => none

/-- Pointwise meaning of the unary transforms: `none` where the function is undefined. -/
noncomputable def radicalVal (n : ℕ) (x : ℝ) : Option ℝ := if 0 ≤ x then some (x ^ ((n : ℝ)⁻¹)) else none
/-- Meaning of `Exponential`. -/
noncomputable def expVal (b : ℝ) (x : ℝ) : Option ℝ := some (b ^ x)
/-- Meaning of `Logarithm`; not a real number at 0. -/
noncomputable def logVal (b : ℝ) (x : ℝ) : Option ℝ := if 0 < x then some (Real.logb b x) else none
/-- Meaning of `Reciprocal`. -/
noncomputable def recipVal (x : ℝ) : Option ℝ := if x = 0 then none else some x⁻¹

/-- The value of the first branch whose condition is true. -/
def pick : List (Option (Val ℝ)) → List Bool → Option (Val ℝ)
  | v :: vs, b :: bs => if b then v else pick vs bs
  | _, _ => none

mutual
/-- The value of an expression at an assignment. -/
noncomputable def Tr.eval (ω : Asg) : Tr → Option (Val ℝ)
  | .id s => ω s
  | .radical t n => onNum (radicalVal n) (t.eval ω)
  | .exp t b => onNum (expVal b) (t.eval ω)
  | .log t b => onNum (logVal b) (t.eval ω)
  | .abs t => onNum (fun x => some |x|) (t.eval ω)
  | .recip t => onNum recipVal (t.eval ω)
  | .poly t cs => onNum (fun x => some (polyVal cs x)) (t.eval ω)
  | .pw ts es _ => pick (Tr.evalL ω ts) (Ev.holdsL ω es)
/-- Values of a list of expressions. -/
noncomputable def Tr.evalL (ω : Asg) : List Tr → List (Option (Val ℝ))
  | [] => []
  | t :: ts => t.eval ω :: Tr.evalL ω ts
/-- Truth values of a list of events. -/
noncomputable def Ev.holdsL (ω : Asg) : List Ev → List Bool
  | [] => []
  | e :: es => e.holdsB ω :: Ev.holdsL ω es
/-- Truth of an event at an assignment. -/
noncomputable def Ev.holdsB (ω : Asg) : Ev → Bool
  | .ivl t i => decide (∃ x, t.eval ω = some (.num x) ∧ i.Mem (x : EReal))
  | .fin t v => decide (∃ x s, t.eval ω = some (.num x) ∧ v = some s ∧ (x : EReal) ∈ s)
  | .nom t v => decide (∃ x n, t.eval ω = some (.str x) ∧ v = some n ∧
      if n.b = some true then x ∉ n.vals else x ∈ n.vals)
  | .or es => (Ev.holdsL ω es).any id
  | .and es => (Ev.holdsL ω es).all id
end

/-- The event holds at the assignment. -/
def Ev.holds (ω : Asg) (e : Ev) : Prop := e.holdsB ω = true

theorem Ev.holdsL_eq (ω : Asg) (es : List Ev) :
    Ev.holdsL ω es = es.map (fun e => e.holdsB ω) := by
  induction es with
  | nil => simp [Ev.holdsL]
  | cons e es ih => simp [Ev.holdsL, ih]

theorem Tr.evalL_eq (ω : Asg) (ts : List Tr) :
    Tr.evalL ω ts = ts.map (fun t => t.eval ω) := by
  induction ts with
  | nil => simp [Tr.evalL]
  | cons t ts ih => simp [Tr.evalL, ih]

@[simp] theorem Ev.holds_or (ω : Asg) (es : List Ev) :
    (Ev.or es).holds ω ↔ ∃ e ∈ es, e.holds ω := by
  unfold Ev.holds; rw [Ev.holdsB, Ev.holdsL_eq]; simp

@[simp] theorem Ev.holds_and (ω : Asg) (es : List Ev) :
    (Ev.and es).holds ω ↔ ∀ e ∈ es, e.holds ω := by
  unfold Ev.holds; rw [Ev.holdsB, Ev.holdsL_eq]; simp

@[simp] theorem Ev.holds_ivl (ω : Asg) (t : Tr) (i : Ivl EReal) :
    (Ev.ivl t i).holds ω ↔ ∃ x, t.eval ω = some (.num x) ∧ i.Mem (x : EReal) := by
  unfold Ev.holds; rw [Ev.holdsB, decide_eq_true_eq]

@[simp] theorem Ev.holds_fin (ω : Asg) (t : Tr) (v : Option (Finset EReal)) :
    (Ev.fin t v).holds ω ↔ ∃ x s, t.eval ω = some (.num x) ∧ v = some s ∧ (x : EReal) ∈ s := by
  unfold Ev.holds; rw [Ev.holdsB, decide_eq_true_eq]

@[simp] theorem Ev.holds_nom (ω : Asg) (t : Tr) (v : Option Nom) :
    (Ev.nom t v).holds ω ↔ ∃ x n, t.eval ω = some (.str x) ∧ v = some n ∧
      if n.b = some true then x ∉ n.vals else x ∈ n.vals := by
  unfold Ev.holds; rw [Ev.holdsB, decide_eq_true_eq]

/-- Every branch whose condition is true is regular. -/
def activeRegular : List Prop → List Bool → Prop
  | p :: ps, b :: bs => (b = true → p) ∧ activeRegular ps bs
  | _, _ => True

mutual
/-- The assignment does not hit a singularity: no logarithm occurring in the expression (in a
piecewise expression: in a branch that is active, or in a condition) is evaluated at 0, where `sppl` uses
the value `-oo`. -/
def Tr.Regular (ω : Asg) : Tr → Prop
  | .id _ => True
  | .radical t _ => t.Regular ω
  | .exp t _ => t.Regular ω
  | .log t _ => t.Regular ω ∧ t.eval ω ≠ some (.num 0)
  | .abs t => t.Regular ω
  | .recip t => t.Regular ω
  | .poly t _ => t.Regular ω
  | .pw ts es _ => Ev.RegularL ω es ∧ activeRegular (Tr.regularL ω ts) (Ev.holdsL ω es)
/-- See `Tr.Regular`. -/
def Tr.regularL (ω : Asg) : List Tr → List Prop
  | [] => []
  | t :: ts => t.Regular ω :: Tr.regularL ω ts
/-- See `Tr.Regular`. -/
def Ev.Regular (ω : Asg) : Ev → Prop
  | .ivl t _ => t.Regular ω
  | .fin t _ => t.Regular ω
  | .nom t _ => t.Regular ω
  | .or es => Ev.RegularL ω es
  | .and es => Ev.RegularL ω es
/-- See `Tr.Regular`. -/
def Ev.RegularL (ω : Asg) : List Ev → Prop
  | [] => True
  | e :: es => e.Regular ω ∧ Ev.RegularL ω es
end

theorem Ev.regularL_iff (ω : Asg) (es : List Ev) :
    Ev.RegularL ω es ↔ ∀ e ∈ es, e.Regular ω := by
  induction es with
  | nil => simp [Ev.RegularL]
  | cons e es ih => simp [Ev.RegularL, ih]

theorem Tr.regularL_eq (ω : Asg) (ts : List Tr) :
    Tr.regularL ω ts = ts.map (fun t => t.Regular ω) := by
  induction ts with
  | nil => simp [Tr.regularL]
  | cons t ts ih => simp [Tr.regularL, ih]

/-- What is assumed of sympy's polynomial solver: when it answers, the answer is the exact solution
set, and the computed range contains every value of the polynomial. -/
structure Ctx.Correct (c : Ctx) : Prop where
  range : ∀ cs r, c.polyRange cs = .ok r → r.WF ∧ r.Disj ∧ (∀ s, Val.str s ∉ r.den) ∧
    ∀ x : ℝ, Val.num (polyVal cs x : EReal) ∈ r.den
  ineq : ∀ cs b strict r, c.polyIneq cs b strict = .ok r → r.WF ∧ r.Disj ∧ (∀ s, Val.str s ∉ r.den) ∧
    ∀ x : ℝ, Val.num (x : EReal) ∈ r.den ↔ if strict = true then polyVal cs x < b else polyVal cs x ≤ b
  eq : ∀ cs b r, c.polyEq cs b = .ok r → r.WF ∧ r.Disj ∧ (∀ s, Val.str s ∉ r.den) ∧
    ∀ x : ℝ, Val.num (x : EReal) ∈ r.den ↔ polyVal cs x = b

mutual
/-- Expressions a user can build: the constructors' assertions hold (transforms.py 404, 443, 486, 631,
703-709), with exponential bases above 1 and positive radical degrees.  `real = true` is for the variables
of real leaves, which never take string values. -/
inductive Tr.MadeG (real : Bool) (c : Ctx) : Tr → Prop
  | id (s) : Tr.MadeG real c (.id s)
  | radical {t n} : Tr.MadeG real c t → n ≠ 0 → Tr.MadeG real c (.radical t n)
  | exp {t b} : Tr.MadeG real c t → 1 < b → Tr.MadeG real c (.exp t b)
  | log {t b} : Tr.MadeG real c t → 1 < b → Tr.MadeG real c (.log t b)
  | abs {t} : Tr.MadeG real c t → Tr.MadeG real c (.abs t)
  | recip {t} : Tr.MadeG real c t → Tr.MadeG real c (.recip t)
  | poly {t cs} : Tr.MadeG real c t → 1 < cs.length → Tr.MadeG real c (.poly t cs)
  | pw {ts es ds n} : (∀ t ∈ ts, Tr.MadeG real c t) → (∀ e ∈ es, Ev.MadeG real c e) →
      mkPiecewise c n ts es = .ok (.pw ts es ds) → Tr.MadeG real c (.pw ts es ds)
/-- Events a user can build.  If the variables may be strings (`real = false`), string-valued events are
not on piecewise expressions, and complemented nominal sets (`~{'a'}`) only on plain variables (both
solve incorrectly, see `Props`). -/
inductive Ev.MadeG (real : Bool) (c : Ctx) : Ev → Prop
  | ivl {t i} : Tr.MadeG real c t → i.WF → Ev.MadeG real c (.ivl t i)
  | fin {t v} : Tr.MadeG real c t → (∀ s, v = some s → s.Nonempty) → Ev.MadeG real c (.fin t v)
  | nom {t v} : Tr.MadeG real c t → (real = false → ∀ ts es ds, t ≠ .pw ts es ds) →
      (∀ n, v = some n → n.WF ∧ (real = false → n.b = some true → t.isId = true)) →
      Ev.MadeG real c (.nom t v)
  | or {es} : es ≠ [] → (∀ e ∈ es, Ev.MadeG real c e) → Ev.MadeG real c (.or es)
  | and {es} : es ≠ [] → (∀ e ∈ es, Ev.MadeG real c e) → Ev.MadeG real c (.and es)
end

/-- Expressions a user can build, over variables of any kind. -/
abbrev Tr.Made (c : Ctx) (t : Tr) : Prop := t.MadeG false c
/-- Events a user can build, over variables of any kind. -/
abbrev Ev.Made (c : Ctx) (e : Ev) : Prop := e.MadeG false c

/-- A value is a number. -/
def Val.isNum : Val ℝ → Prop
  | .num _ => True
  | .str _ => False

/-- Events as accepted by the constructors: well-formed values, and compound events with at least one
part. -/
inductive Ev.Valid : Ev → Prop
  | ivl {t i} : i.WF → Ev.Valid (.ivl t i)
  | fin {t v} : (∀ s, v = some s → s.Nonempty) → Ev.Valid (.fin t v)
  | nom {t v} : (∀ n, v = some n → n.WF) → Ev.Valid (.nom t v)
  | or {es} : es ≠ [] → (∀ e ∈ es, Ev.Valid e) → Ev.Valid (.or es)
  | and {es} : es ≠ [] → (∀ e ∈ es, Ev.Valid e) → Ev.Valid (.and es)

mutual
/-- Every expression compared in the event is defined at the assignment, with a number for real events
and a string for nominal ones. -/
def Ev.Typed (ω : Asg) : Ev → Prop
  | .ivl t _ => ∃ x, t.eval ω = some (.num x)
  | .fin t _ => ∃ x, t.eval ω = some (.num x)
  | .nom t _ => ∃ x, t.eval ω = some (.str x)
  | .or es => Ev.TypedL ω es
  | .and es => Ev.TypedL ω es
/-- See `Ev.Typed`. -/
def Ev.TypedL (ω : Asg) : List Ev → Prop
  | [] => True
  | e :: es => e.Typed ω ∧ Ev.TypedL ω es
end

theorem Ev.typedL_iff (ω : Asg) (es : List Ev) : Ev.TypedL ω es ↔ ∀ e ∈ es, e.Typed ω := by
  induction es with
  | nil => simp [Ev.TypedL]
  | cons e es ih => simp [Ev.TypedL, ih]

end Sppl
