import Verif.Spe.TransformLemmas
import Verif.Spe.Props

set_option linter.all false

/-!
# C26: properties of `transform`
-/

namespace Sppl
open Classical MeasureTheory

/-- Equality of two measurable values is measurable. -/
theorem measurableSet_eq_val {α : Type} [MeasurableSpace α] {f g : α → Option (Val ℝ)} (hf : Measurable f) (hg : Measurable g) :
    MeasurableSet {x | f x = g x} := by
  let val : Option (Val ℝ) → ℝ := fun v => match v with | some (.num x) => x | _ => 0
  have hval : Measurable val := fun A hA => by
    show MeasurableSet (numVal ⁻¹' (val ⁻¹' A))
    have : numVal ⁻¹' (val ⁻¹' A) = A := by ext; simp [numVal, val]
    rw [this]; exact hA
  have hN : MeasurableSet {v : Option (Val ℝ) | ∃ x, v = some (.num x) ∧ x ∈ (Set.univ : Set ℝ)} := measurableSet_nums .univ
  have e : {x | f x = g x} = (f ⁻¹' {none} ∩ g ⁻¹' {none}) ∪ (⋃ q : String, f ⁻¹' {some (.str q)} ∩ g ⁻¹' {some (.str q)}) ∪
      (f ⁻¹' {v | ∃ x, v = some (.num x) ∧ x ∈ (Set.univ : Set ℝ)} ∩ g ⁻¹' {v | ∃ x, v = some (.num x) ∧ x ∈ (Set.univ : Set ℝ)} ∩
        {x | val (f x) = val (g x)}) := by
    ext x
    simp only [Set.mem_setOf_eq, Set.mem_union, Set.mem_inter_iff, Set.mem_preimage, Set.mem_singleton_iff, Set.mem_iUnion, Set.mem_univ, and_true]
    rcases hfx : f x with _ | a | a <;> rcases hgx : g x with _ | b | b <;> simp [val, eq_comm]
  rw [e]
  refine ((((hf (measurableSet_singleton _)).inter (hg (measurableSet_singleton _))).union
    (.iUnion fun q => (hf (measurableSet_singleton _)).inter (hg (measurableSet_singleton _)))).union
    (((hf hN).inter (hg hN)).inter (measurableSet_eq_fun (hval.comp hf) (hval.comp hg))))

section
variable {c : Ctx} {L : Lib} {μ : Dist → Measure ℝ} {Y : String} {t : Tr} {s s' : Spe}

/-- C26: the distribution after `transform(Y, t)` is that of the old assignments extended with the value of `t`; the result is well-formed, `Y` was new and
is now a variable.  Missing from the full claim: atomic leaves that get an expression that compares with strings, and expressions
that hit a singularity of a logarithm with positive probability. -/
theorem C26_transform_partial (ht : t.MadeG true c) (hs : s.WF c L μ) (hc : s.CanTransform μ t) (h : s.transform L Y t = .ok s') :
    s'.den μ = (s.den μ).map (withVar Y t) ∧ s'.WF c L μ ∧ s'.symbols = insert Y s.symbols ∧ Y ∉ s.symbols ∧ t.symbols ⊆ s.symbols :=
  have k := transform_ok ht hs hc h
  ⟨k.den, k.wf, k.syms, k.new, k.old⟩

/-- C26: the distribution of the other variables is unchanged: events about them (sets of assignments that do not depend on `Y`) keep their probability. -/
theorem C26_others_partial (ht : t.MadeG true c) (hs : s.WF c L μ) (hc : s.CanTransform μ t) (h : s.transform L Y t = .ok s') (A : Set Asg)
    (hA : MeasurableSet A) (hd : ∀ ω ω' : Asg, (∀ x, x ≠ Y → ω x = ω' x) → (ω ∈ A ↔ ω' ∈ A)) : s'.den μ A = s.den μ A := by
  rw [(transform_ok ht hs hc h).den, Measure.map_apply (measurable_withVar Y t) hA]
  congr 1
  ext ω
  exact hd _ _ (fun x hx => by simp [withVar, hx])

/-- C26: `Y` has the value of `t` with probability one. -/
theorem C26_value_partial (ht : t.MadeG true c) (hs : s.WF c L μ) (hc : s.CanTransform μ t) (h : s.transform L Y t = .ok s') :
    ∀ᵐ ω ∂(s'.den μ), ω Y = t.eval ω := by
  have k := transform_ok ht hs hc h
  have hok : t.SymOk := (Made.symOk c).1 t ht
  have hY : Y ∉ t.symbols := fun hh => k.new (k.old hh)
  have key : ∀ ω, withVar Y t ω Y = t.eval (withVar Y t ω) := by
    intro ω
    have : t.eval (withVar Y t ω) = t.eval ω := eval_congr.1 t hok (fun x hx => by
      have : x ≠ Y := fun hh => hY (hh ▸ hx)
      simp [withVar, this])
    rw [this]; simp [withVar]
  rw [k.den]
  exact (ae_map_iff (measurable_withVar Y t).aemeasurable (measurableSet_eq_val (measurable_pi_apply Y) (measurable_eval.1 t))).2 (Filter.Eventually.of_forall key)

/-- C26: what `prob` answers after `transform` is the probability, before it, that the event holds of the extended assignment. -/
theorem C26_prob_partial (hcc : c.Correct) {n : ℕ} (ht : t.MadeG true c) (hs : s.WF c L μ) (hc : s.CanTransform μ t) (h : s.transform L Y t = .ok s')
    {e : Ev} (he : Asks c μ s' e) {p : ℝ} (hp : s'.prob c L n e = .ok p) : p = (s.den μ).real {ω | e.holds (withVar Y t ω)} := by
  have k := transform_ok ht hs hc h
  rw [he.prob hcc k.wf hp, k.den, Measure.real, Measure.map_apply (measurable_withVar Y t) (measurable_eval.2 e)]
  rfl

/-- C26: a variable in scope cannot be defined again. -/
theorem C26_leaf_raises {k : Kind} {X : String} {d : Dist} {supp : Ivl EReal} {cond : Bool} {env : Env} (h : Y ∈ env.map Prod.fst) :
    (Spe.real k X d supp cond env).transform L Y t = .error .assertion ∧ ∀ v, (Spe.atomic X v env).transform L Y t = .error .assertion := by
  simp [Spe.transform, envTransform, h, bind, Except.bind]

/-- C26: variables with string values cannot be transformed (even by themselves, spe.py 988-989). -/
theorem C26_nominal_raises (X : String) (dist : List (String × ℚ)) : (Spe.nominal X dist).transform L Y t = .error .value := by
  simp [Spe.transform]

end

/-- A fair coin and a uniform variable. -/
noncomputable def coinX : Spe := .prod [coin "C", leafX "X"]

/-- The square of `X`. -/
noncomputable def sqX : Tr := .poly (.id "X") [0, 0, 1]

example : ∃ s', coinX.WF ctx0 (libOf muU) muU ∧ coinX.CanTransform muU sqX ∧ sqX.MadeG true ctx0 ∧ coinX.transform (libOf muU) "Y" sqX = .ok s' ∧
    s' = .prod [coin "C", .real .cont "X" d0 unitIvl false [("X", .id "X"), ("Y", sqX)]] := by
  refine ⟨_, ?_, ?_, .poly (.id _) (by simp), ?_, rfl⟩
  · refine .prod ?_ (by simp) ?_
    · intro s hs; simp at hs; rcases hs with rfl | rfl
      · exact coin_wf _ _ _ _
      · exact leafX_wf _ _
    · simp [Spe.symbolsL, Spe.symbols, coin, leafX]
  · refine .prod ?_
    intro s hs _; simp at hs; rcases hs with rfl | rfl
    · exact .nominal
    · exact .real (Filter.Eventually.of_forall fun x => by simp [sqX, Tr.Regular])
  · have h1 : sqX.symbols = {"X"} := by simp [sqX, Tr.symbols]
    have h2 : holders [coin "C", leafX "X"] {"X"} = [1] := by
      simp [holders, Spe.symbols, coin, leafX, List.zipIdx]
    have h3 : (leafX "X").transform (libOf muU) "Y" sqX = .ok (.real .cont "X" d0 unitIvl false [("X", .id "X"), ("Y", sqX)]) := by
      simp [leafX, Spe.transform, envTransform, h1, mkReal, bind, Except.bind]
    have h4 : (coin "C").transform (libOf muU) "Y" sqX = .error .value := by simp [coin, Spe.transform]
    have hd : areDisjoint (Spe.symbolsL [coin "C", .real .cont "X" d0 unitIvl false [("X", .id "X"), ("Y", sqX)]]) = true := by
      rw [areDisjoint_iff]; simp [Spe.symbolsL, Spe.symbols, coin]
    unfold coinX
    simp only [Spe.transform, h1, h2, Spe.transformL, h3, h4]
    rw [if_pos (by simp [Spe.symbols, Spe.symbolsL, coin, leafX])]
    unfold coin at hd
    simp [bind, Except.bind, mkProd, Spe.prodChildren, coin, leafX]
    simpa using hd

end Sppl
