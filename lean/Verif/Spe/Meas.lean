import Verif.Events.SubstLemmas
import Mathlib.MeasureTheory.Constructions.BorelSpace.Real
import Mathlib.MeasureTheory.Function.SpecialFunctions.Basic
import Mathlib.Analysis.SpecialFunctions.Log.Base
import Mathlib.MeasureTheory.Constructions.BorelSpace.Order

/-!
# Measurable structure of values and assignments

A set of values is measurable iff its numbers form a Borel set; assignments carry the product
structure.
-/

namespace Sppl
open Classical MeasureTheory

/-- The numbers of a set of values, as a map from the reals. -/
def numVal (x : ℝ) : Option (Val ℝ) := some (.num x)

/-- A set of optional values is measurable iff the set of its numbers is. -/
instance : MeasurableSpace (Option (Val ℝ)) := MeasurableSpace.map numVal inferInstance

theorem measurableSet_ov {A : Set (Option (Val ℝ))} : MeasurableSet A ↔ MeasurableSet (numVal ⁻¹' A) := Iff.rfl

theorem measurable_numVal : Measurable numVal := fun _ hA => measurableSet_ov.1 hA

theorem measurable_ov {f : Option (Val ℝ) → Option (Val ℝ)} : Measurable f ↔ Measurable (f ∘ numVal) := by
  constructor
  · exact fun h => h.comp measurable_numVal
  · intro h A hA
    exact measurableSet_ov.2 (h hA)

/-- A partial measurable function with measurable domain. -/
theorem measurable_partial {f : ℝ → Option ℝ} {D : Set ℝ} (hD : MeasurableSet D) {g : ℝ → ℝ} (hg : Measurable g)
    (h1 : ∀ x ∈ D, f x = some (g x)) (h2 : ∀ x ∉ D, f x = none) : Measurable (onNum f) := by
  rw [measurable_ov]
  have : (onNum f ∘ numVal) = fun x => if x ∈ D then numVal (g x) else none := by
    funext x
    by_cases h : x ∈ D
    · simp [numVal, onNum, h, h1 x h]
    · simp [numVal, onNum, h, h2 x h]
  rw [this]
  exact Measurable.ite hD (measurable_numVal.comp hg) measurable_const

theorem measurable_polyVal (cs : List ℝ) : Measurable (polyVal cs) := by
  induction cs with
  | nil => exact measurable_const
  | cons c cs ih =>
    have : polyVal (c :: cs) = fun x => c + x * polyVal cs x := by funext x; simp [polyVal]
    rw [this]
    exact measurable_const.add (measurable_id.mul ih)

theorem measurable_radical (n : ℕ) : Measurable (onNum (radicalVal n)) := by
  refine measurable_partial (D := Set.Ici 0) measurableSet_Ici (g := fun x => x ^ ((n : ℝ)⁻¹)) (measurable_id.pow_const _) ?_ ?_
  · intro x hx; simp only [radicalVal, if_pos (Set.mem_Ici.1 hx)]
  · intro x hx; simp only [radicalVal, if_neg (fun h => hx (Set.mem_Ici.2 h))]

theorem measurable_exp (b : ℝ) : Measurable (onNum (expVal b)) :=
  measurable_partial (D := Set.univ) .univ (g := fun x => b ^ x) (measurable_const.pow measurable_id) (fun _ _ => rfl) (by simp)

theorem measurable_log (b : ℝ) : Measurable (onNum (logVal b)) := by
  refine measurable_partial (D := Set.Ioi 0) measurableSet_Ioi (g := fun x => Real.logb b x) ?_ ?_ ?_
  · exact Real.measurable_log.div_const _
  · intro x hx; simp only [logVal, if_pos (Set.mem_Ioi.1 hx)]
  · intro x hx; simp only [logVal, if_neg (fun h => hx (Set.mem_Ioi.2 h))]

theorem measurable_recip : Measurable (onNum recipVal) := by
  refine measurable_partial (D := {0}ᶜ) (measurableSet_singleton 0).compl (g := fun x => x⁻¹) measurable_inv ?_ ?_
  · intro x hx; exact if_neg hx
  · intro x hx; exact if_pos (not_not.1 hx)

theorem measurable_abs' : Measurable (onNum (fun x => some |x|)) :=
  measurable_partial (D := Set.univ) .univ (g := fun x => |x|) (by fun_prop) (fun _ _ => rfl) (by simp)

theorem measurable_poly (cs : List ℝ) : Measurable (onNum (fun x => some (polyVal cs x))) :=
  measurable_partial (D := Set.univ) .univ (g := polyVal cs) (measurable_polyVal cs) (fun _ _ => rfl) (by simp)

theorem Ivl.measurableSet (i : Ivl EReal) : MeasurableSet {x : ℝ | i.Mem (x : EReal)} := by
  have h1 : Measurable (fun x : ℝ => (x : EReal)) := measurable_coe_real_ereal
  have : {x : ℝ | i.Mem (x : EReal)} =
      (fun x : ℝ => (x : EReal)) ⁻¹' ({y | if i.lo = true then i.a < y else i.a ≤ y} ∩ {y | if i.ro = true then y < i.b else y ≤ i.b}) := by
    ext x; simp [Ivl.Mem]
  rw [this]
  refine h1 (MeasurableSet.inter ?_ ?_)
  · cases i.lo
    · exact measurableSet_Ici (a := i.a)
    · exact measurableSet_Ioi (a := i.a)
  · cases i.ro
    · exact measurableSet_Iic (a := i.b)
    · exact measurableSet_Iio (a := i.b)

theorem Finset.measurableSet_coe (s : Finset EReal) : MeasurableSet {x : ℝ | (x : EReal) ∈ s} :=
  measurable_coe_real_ereal (s.measurableSet)

/-- Sets of strings are measurable. -/
theorem measurableSet_strs (p : String → Prop) : MeasurableSet {v : Option (Val ℝ) | ∃ x, v = some (.str x) ∧ p x} := by
  rw [measurableSet_ov]
  have : numVal ⁻¹' {v : Option (Val ℝ) | ∃ x, v = some (.str x) ∧ p x} = ∅ := by ext; simp [numVal]
  rw [this]; exact .empty

theorem measurableSet_nums {B : Set ℝ} (hB : MeasurableSet B) : MeasurableSet {v : Option (Val ℝ) | ∃ x, v = some (.num x) ∧ x ∈ B} := by
  rw [measurableSet_ov]
  have : numVal ⁻¹' {v : Option (Val ℝ) | ∃ x, v = some (.num x) ∧ x ∈ B} = B := by ext; simp [numVal]
  rw [this]; exact hB

theorem measurable_pick : ∀ {ts : List (Asg → Option (Val ℝ))} {es : List (Asg → Bool)},
    (∀ t ∈ ts, Measurable t) → (∀ e ∈ es, MeasurableSet {ω | e ω = true}) →
    Measurable (fun ω => pick (ts.map (fun t => t ω)) (es.map (fun e => e ω))) := by
  intro ts
  induction ts with
  | nil => intro es _ _; simp only [List.map_nil, pick]; exact measurable_const
  | cons t ts ih =>
    intro es ht he
    cases es with
    | nil => simp only [List.map_nil, List.map_cons, pick]; exact measurable_const
    | cons e es =>
      simp only [List.map_cons, pick]
      exact Measurable.ite (he e (by simp)) (ht t (by simp)) (ih (fun x hx => ht x (by simp [hx])) (fun x hx => he x (by simp [hx])))

/-- Expressions and events are measurable. -/
theorem measurable_eval : (∀ t : Tr, Measurable (fun ω : Asg => t.eval ω)) ∧ ∀ e : Ev, MeasurableSet {ω : Asg | e.holds ω} := by
  apply sizeInd
  · intro t ihT ihE
    cases t with
    | id s => simp only [Tr.eval]; exact measurable_pi_apply s
    | radical t n => simp only [Tr.eval]; exact (measurable_radical n).comp (ihT t (by simp; omega))
    | exp t n => simp only [Tr.eval]; exact (measurable_exp n).comp (ihT t (by simp; omega))
    | log t n => simp only [Tr.eval]; exact (measurable_log n).comp (ihT t (by simp; omega))
    | abs t => simp only [Tr.eval]; exact measurable_abs'.comp (ihT t (by simp))
    | recip t => simp only [Tr.eval]; exact measurable_recip.comp (ihT t (by simp))
    | poly t n => simp only [Tr.eval]; exact (measurable_poly n).comp (ihT t (by simp; omega))
    | pw ts es ds =>
      simp only [Tr.eval, Tr.evalL_eq, Ev.holdsL_eq]
      have := measurable_pick (ts := ts.map (fun t ω => t.eval ω)) (es := es.map (fun e ω => e.holdsB ω)) ?_ ?_
      · simpa [Function.comp_def] using this
      · intro f hf
        obtain ⟨t, ht, rfl⟩ := List.mem_map.1 hf
        exact ihT t (Tr.sizeOf_pw_left ht)
      · intro f hf
        obtain ⟨e, he, rfl⟩ := List.mem_map.1 hf
        exact ihE e (Tr.sizeOf_pw_right he)
  · intro e ihT ihE
    cases e with
    | ivl t i =>
      have := ihT t (by simp; omega) (measurableSet_nums i.measurableSet)
      simpa [Set.preimage] using this
    | fin t v =>
      cases v with
      | none => simp
      | some s =>
        have := ihT t (by simp; omega) (measurableSet_nums (Finset.measurableSet_coe s))
        simpa [Set.preimage] using this
    | nom t v =>
      cases v with
      | none => simp
      | some n =>
        have := ihT t (by simp; omega) (measurableSet_strs (fun x => if n.b = some true then x ∉ n.vals else x ∈ n.vals))
        simpa [Set.preimage] using this
    | or es =>
      have : {ω : Asg | (Ev.or es).holds ω} = ⋃ e ∈ es, {ω | e.holds ω} := by ext; simp
      rw [this]
      exact MeasurableSet.biUnion (Set.Finite.countable (List.finite_toSet es)) (fun e he => ihE e (Ev.sizeOf_or he))
    | and es =>
      have : {ω : Asg | (Ev.and es).holds ω} = ⋂ e ∈ es, {ω | e.holds ω} := by ext; simp
      rw [this]
      exact MeasurableSet.biInter (Set.Finite.countable (List.finite_toSet es)) (fun e he => ihE e (Ev.sizeOf_and he))

theorem Ev.measurable (e : Ev) : MeasurableSet {ω : Asg | e.holds ω} := measurable_eval.2 e

theorem Env.measurable_extend (env : Env) : Measurable (fun ω : Asg => env.extend ω) := by
  have : ∀ (env : Env) (f : Asg → Asg), Measurable f →
      Measurable (fun ω => env.foldl (fun ω' p => fun s => if s = p.1 then p.2.eval ω' else ω' s) (f ω)) := by
    intro env
    induction env with
    | nil => intro f hf; exact hf
    | cons p env ih =>
      intro f hf
      simp only [List.foldl_cons]
      refine ih (fun ω s => if s = p.1 then p.2.eval (f ω) else f ω s) (measurable_pi_iff.2 (fun s => ?_))
      by_cases hs : s = p.1
      · simp only [hs, if_true]; exact (measurable_eval.1 p.2).comp hf
      · simp only [hs, if_false]; exact (measurable_pi_apply s).comp hf
  exact this env id measurable_id

end Sppl
