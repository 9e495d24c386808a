import Verif.Events.Model
import Verif.Events.Spec
import Mathlib.Algebra.Polynomial.Roots
import Mathlib.Data.Multiset.Sort

/-!
# The numerical polynomial solver (poly.py)

`solve_poly_inequality_numerically` (57-82), `solve_poly_equality_numerically` (128-131) and the infinite
cases (84-99, 134-145) with the `extended` flag.  `sympy.nroots` is a parameter: the theorems assume that it
returns the exact roots, each as often as its multiplicity, which is what `sympy.nroots` documents up to
the working precision.
-/

namespace Sppl
open Classical

/-- What `solve_poly_inequality_numerically` hands back: one of the sets of sppl, or the object
`sympy.EmptySet` (poly.py 64), which is not a set of sppl. -/
inductive NumAns where
  | set (s : SSet EReal)
  | sympyEmpty

/-- The outside services of the numerical solver: `nroots cs b` lists the real ones among
`sympy.nroots(expr - b)`, `nonconst cs` says whether `get_symbols(expr)` has one element (poly.py 26-29;
an expression that sympy reduces to a constant has no symbol). -/
structure NumSvc where
  nroots : List ℝ → ℝ → List ℝ
  nonconst : List ℝ → Bool

/-- `mk_intvl` (poly.py 66-67). -/
noncomputable def mkCell (strict : Bool) (a b : EReal) : Res (Ivl EReal) := mkIvl a b strict strict

/-- poly.py 68-71: the intervals around the sorted zeros `z0 :: zs`. -/
noncomputable def cells (strict : Bool) (z0 : ℝ) (zs : List ℝ) : Res (List (Ivl EReal)) := do
  let l ← mkCell strict ⊥ (z0 : EReal)
  let mids ← ((z0 :: zs).zip zs).mapM (fun p => mkCell strict (p.1 : EReal) (p.2 : EReal))
  let r ← mkCell strict (((z0 :: zs).getLast (by simp) : ℝ) : EReal) ⊤
  .ok ([l] ++ mids ++ [r])

/-- poly.py 73-77: the probe points, `intervals[1:-1]` being the inner intervals. -/
noncomputable def probes (z0 : ℝ) (zs : List ℝ) (intervals : List (Ivl EReal)) : List ℝ :=
  [z0 - 1 / 2] ++ (intervals.tail.dropLast.map (fun i => (i.a.toReal + i.b.toReal) / 2)) ++
    [(z0 :: zs).getLast (by simp) + 1 / 2]

/-- poly.py 79-81: the indices of the probe points where `poly` is negative. -/
noncomputable def negIdx (cs : List ℝ) (b : ℝ) (xs : List ℝ) : List ℕ :=
  xs.zipIdx.filterMap (fun q => if polyVal cs q.1 - b < 0 then some q.2 else none)

/-- `intervals[i]`. -/
def getIvl (l : List (Ivl EReal)) (i : ℕ) : Res (SSet EReal) :=
  match l[i]? with
  | some j => .ok (.pc (.ivl j))
  | none => .error .index

/-- poly.py 57-82 `solve_poly_inequality_numerically`. -/
noncomputable def solvePolyIneqNum (σ : Orders EReal) (v : NumSvc) (cs : List ℝ) (b : ℝ) (strict : Bool) :
    Res NumAns :=
  if v.nonconst cs = false then .error .assertion
  else match (v.nroots cs b).mergeSort (fun x y => decide (x ≤ y)) with
  | [] => .ok .sympyEmpty
  | z0 :: zs => do
    let intervals ← cells strict z0 zs
    let sel ← (negIdx cs b (probes z0 zs intervals)).mapM (getIvl intervals)
    let r ← makeUnion σ sel
    .ok (.set r)

/-- poly.py 128-131 `solve_poly_equality_numerically` (`FiniteReal()` raises AssertionError). -/
noncomputable def solvePolyEqNum (v : NumSvc) (cs : List ℝ) (b : ℝ) : Res (SSet EReal) :=
  if v.nroots cs b = [] then .error .assertion
  else .ok (.pc (.fin ((v.nroots cs b).map (fun x : ℝ => (x : EReal))).toFinset))

/-- poly.py 84-99 `solve_poly_inequality_inf` with the `extended` flag already defaulted. -/
noncomputable def solvePolyIneqInf (c : Ctx) (cs : List ℝ) (b : EReal) (strict ext : Bool) :
    Res (SSet EReal) :=
  if b < 0 then
    if strict || !ext then .ok .empty else .ok (polyEqInf c cs b)
  else if strict then
    if ext then SSet.or c.σ SSet.reals (polyEqInf c cs ⊥) else SSet.or c.σ SSet.reals .empty
  else if ext then extReals c else .ok SSet.reals

/-! ## Specification -/

/-- The polynomial with the given coefficients, as an object of Mathlib. -/
noncomputable def toPoly : List ℝ → Polynomial ℝ
  | [] => 0
  | c :: cs => Polynomial.C c + Polynomial.X * toPoly cs

/-- The services answer exactly: the roots with their multiplicities, in any order, and a polynomial is
constant exactly when its degree is zero. -/
structure NumSvc.Exact (v : NumSvc) : Prop where
  roots : ∀ cs b, (v.nroots cs b : Multiset ℝ) = (toPoly cs - Polynomial.C b).roots
  nonconst : ∀ cs, v.nonconst cs = true ↔ (toPoly cs).natDegree ≠ 0

end Sppl
