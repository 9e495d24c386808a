import Verif.Serial.SpeLemmas
import Verif.Spe.Example

set_option linter.all false

/-!
# Properties of serialization
-/

namespace Sppl
open Classical MeasureTheory
open scoped ENNReal

section
variable {c : Ctx} {L : Lib} {μ : Dist → Measure ℝ} {H : Host} {r0 : Bool}

/-- C36: `eval(repr(t))` is `t` again, for every expression whose numbers survive.  (`n` bounds the depth of the recursion; every
sufficiently large bound gives the result.) -/
theorem C36_expression {t : Tr} (h : t.MadeG r0 c) (hp : t.Printable H) : ∃ n0, ∀ n, n0 ≤ n → (t.repr c H).eval c H n = .ok (.tr t) :=
  (repr_eval.1 t h hp).out

/-- C36: `eval(repr(e))` is `e` again, for every event whose numbers survive. -/
theorem C36_event {e : Ev} (h : e.MadeG r0 c) (hp : e.Printable H) : ∃ n0, ∀ n, n0 ≤ n → (e.repr c H).eval c H n = .ok (.ev e) :=
  (repr_eval.2 e h hp).out

/-- C36: an SPE whose parameters survive comes back structurally equal. -/
theorem C36_roundtrip {s : Spe} (hs : s.WF c L μ) (hp : s.Printable H) (hf : s.Flat) :
    ∃ n0, ∀ n, n0 ≤ n → fromDict c L H n (s.toDict c H) = .ok s :=
  (fromDict_flat s hs hp hf).out

/-- C36: if nested mixtures or products were built without the constructors, it comes back with the same distribution. -/
theorem C36_distribution {s : Spe} (hs : s.WF c L μ) (hp : s.Printable H) :
    ∃ s' : Spe, (∃ n0, ∀ n, n0 ≤ n → fromDict c L H n (s.toDict c H) = .ok s') ∧ s'.WF c L μ ∧ s'.den μ = s.den μ ∧ s'.symbols = s.symbols := by
  obtain ⟨s', h1, h2, h3, h4⟩ := fromDict_den (L := L) (μ := μ) s hs hp
  exact ⟨s', h4.out, h1, h2, h3⟩

/-- C36: the constructors `SumSPE` and `ProductSPE` keep SPEs flat, so `C36_roundtrip` applies to everything they build. -/
theorem C36_constructors_flat {cs : List Spe} (hcs : ∀ t ∈ cs, t.Flat) :
    (∀ ws s, mkSum cs ws = .ok s → s.Flat) ∧ (∀ s, mkProd cs = .ok s → s.Flat) :=
  ⟨fun _ _ h => mkSum_flat hcs h, fun _ h => mkProd_flat hcs h⟩
end

/-! ## Counterexamples -/

/-- C36 counterexample: the text of the set of all strings is `FiniteNominal(, b=True)`, which is not an expression; so an SPE
with such an event in a derived variable cannot be read back. -/
theorem C36_all_strings_raises (c : Ctx) (L : Lib) (H : Host) (n : ℕ) :
    fromDict c L H n ((Spe.atomic "X" 0 [("X", .id "X"), ("Y", .pw [.id "X"] [.nom (.id "X") (some ⟨∅, some true⟩)] [SSet.strings])]).toDict c H)
      = .error .value := by
  have hi : H.iter ∅ = [] := by
    have := H.iter_set ∅
    simpa using this
  have hid : ∀ s, ((Tr.id s).repr c H).eval c H n = .ok (.tr (.id s)) := by
    intro s
    rw [Tr.repr, Py.eval_call]
    simp [Args.eval, Py.eval, callPy, bindArgs]
  have hn : (nomRepr H (some ⟨∅, some true⟩)).eval c H n = .error .value := by
    simp [nomRepr, hi, joinArgs, Py.eval, Args.eval, bind, Except.bind]
  have he : ((Ev.nom (.id "X") (some ⟨∅, some true⟩)).repr c H).eval c H n = .error .value := by
    rw [Ev.repr, Py.eval_call]
    simp only [Args.eval, hid, hn]
    rfl
  have hp : ((Tr.pw [.id "X"] [.nom (.id "X") (some ⟨∅, some true⟩)] [SSet.strings]).repr c H).eval c H n = .error .value := by
    rw [Tr.repr, Py.eval_call]
    simp only [Args.eval, Py.eval, Tr.reprL, Ev.reprL, hid, he]
    rfl
  have hE : envFromDict c H n "X" (envToDict c H [("X", .id "X"), ("Y", .pw [.id "X"] [.nom (.id "X") (some ⟨∅, some true⟩)] [SSet.strings])]) = .error .value := by
    rw [envToDict, if_neg (by simp)]
    simp only [envFromDict, List.map_cons, List.map_nil, List.mapM_cons, evalEnvEntry, hid, hp]
    rfl
  rw [Spe.toDict, fromDict]
  simp only [Jso.get, jso_list]
  simp [List.lookup, Js.toStr, Js.toReal, hE, bind, Except.bind]

/-! ## Examples -/

/-- A host that prints the numbers 0 and 1 exactly. -/
noncomputable def host0 : Host where
  repr x := if x = 0 then "0" else if x = 1 then "1" else "?"
  eval s := if s = "0" then some 0 else if s = "1" then some 1 else none
  float x := x
  iter s := s.toList
  iter_set s := s.toList_toFinset
  stats _ := true

theorem host0_zero : host0.Keeps 0 := by simp [Host.Keeps, host0]
theorem host0_one : host0.Keeps 1 := by simp [Host.Keeps, host0]

/-- A value with a derived variable. -/
noncomputable def fixedW : Spe := .atomic "W" 1 [("W", .id "W"), ("V", .poly (.id "W") [1, 1])]

/-- A mixture of a uniform distribution with itself, times a coin, times a fixed value with a derived variable. -/
noncomputable def stored : Spe := .prod [.sum [leafX "X", leafX "X"] [1/2, 1/2], coin "C", fixedW]

theorem fixedW_wf (c : Ctx) (L : Lib) (μ : Dist → Measure ℝ) : fixedW.WF c L μ := by
  refine .atomic ⟨.step (env := [("W", .id "W")]) .base (by simp [Env.keys]) (by simp [Tr.symbols, Env.keys]) trivial, ?_⟩ ?_ ?_
  · intro p hp
    simp at hp
    rcases hp with rfl | rfl
    · exact .id _
    · exact .poly (.id _) (by simp)
  · intro p hp
    simp at hp
    rcases hp with rfl | rfl
    · exact .id _
    · exact .poly (.id _)
  · intro p hp
    simp at hp
    rcases hp with rfl | rfl <;> trivial

theorem stored_wf (c : Ctx) : stored.WF c (libOf muU) muU := by
  refine .prod ?_ (by simp) ?_
  · intro s hs
    simp at hs
    rcases hs with rfl | rfl | rfl
    · refine .sum (S := {"X"}) ?_ (by simp) (by simp) ?_ (by norm_num) ?_
      · intro s hs; simp at hs; subst hs; exact leafX_wf _ _
      · intro w hw; simp at hw; subst hw; norm_num
      · intro s hs; simp at hs; subst hs; simp [leafX, Spe.symbols]
    · exact coin_wf _ _ _ _
    · exact fixedW_wf _ _ _
  · simp [Spe.symbolsL, Spe.symbols, coin, leafX, fixedW]

theorem stored_printable : stored.Printable host0 := by
  refine .prod ?_
  intro s hs
  simp at hs
  rcases hs with rfl | rfl | rfl
  · refine .sum ?_
    intro s hs; simp at hs; subst hs
    refine .real rfl rfl host0_zero host0_one ?_
    intro p hp; simp at hp; subst hp; trivial
  · exact .nominal
  · refine .atomic rfl ?_
    intro p hp; simp at hp
    rcases hp with rfl | rfl
    · trivial
    · refine ⟨trivial, ?_⟩
      intro x hx; simp at hx; subst hx; exact host0_one

example : stored.WF ctx0 (libOf muU) muU ∧ stored.Printable host0 ∧ stored.Flat := by
  refine ⟨stored_wf _, stored_printable, .prod ?_ ?_⟩
  · intro s hs; simp at hs
    rcases hs with rfl | rfl | rfl
    · refine .sum ?_ ?_ <;> intro s hs <;> simp at hs <;> subst hs
      · exact .real
      · exact id
    · exact .nominal
    · exact .atomic
  · intro s hs; simp at hs
    rcases hs with rfl | rfl | rfl <;> exact id

example : (Ev.and [.ivl (.poly (.id "X") [1, 1]) ⟨0, 1, false, true⟩, .nom (.id "Y") (some ⟨{"a"}, some true⟩)]).Made ctx0 ∧
    (Ev.and [.ivl (.poly (.id "X") [1, 1]) ⟨0, 1, false, true⟩, .nom (.id "Y") (some ⟨{"a"}, some true⟩)]).Printable host0 := by
  constructor
  · refine .and (by simp) ?_
    intro e he; simp at he
    rcases he with rfl | rfl
    · exact .ivl (.poly (.id _) (by simp)) ⟨by simp, by simp, by simp⟩
    · exact .nom (.id _) (by simp) (by simp [Nom.WF, Tr.isId])
  · refine ⟨⟨⟨trivial, ?_⟩, host0_zero, host0_one⟩, ⟨trivial, ?_⟩, trivial⟩
    · intro x hx; simp at hx; subst hx; exact host0_one
    · exact ⟨"a", by simp⟩

end Sppl
