import Verif.Spe.AndProps
import Verif.Spe.DensityProps
import Verif.Spe.CondProps
import Verif.Spe.TransformProps

set_option linter.all false

/-!
# C24: what the operations return is built as the constructors demand

Every node of what `condition`, `constrain`, `transform` and `&` return has the shape that spe.py asserts on construction.
-/

namespace Sppl
open Classical MeasureTheory

variable {c : Ctx} {L : Lib} {μ : Dist → Measure ℝ}

/-- `x` is a node of `s`. -/
inductive Spe.Node : Spe → Spe → Prop
  | self {s} : Spe.Node s s
  | sum {cs ws k x} : k ∈ cs → Spe.Node k x → Spe.Node (.sum cs ws) x
  | prod {cs k x} : k ∈ cs → Spe.Node k x → Spe.Node (.prod cs) x

/-- At every node, mixtures have one nonnegative weight for each part, with sum one, and parts over the same variables; products have parts over different
variables. -/
def Spe.Sound (s : Spe) : Prop :=
  ∀ x, s.Node x → (∀ cs ws, x = .sum cs ws → cs ≠ [] ∧ cs.length = ws.length ∧ (∀ w ∈ ws, 0 ≤ w) ∧ ws.sum = 1 ∧ ∀ a ∈ cs, ∀ b ∈ cs, a.symbols = b.symbols) ∧
    ∀ cs, x = .prod cs → cs ≠ [] ∧ cs.Pairwise (fun a b => Disjoint a.symbols b.symbols)

theorem Spe.Node.wf {s x : Spe} (h : s.Node x) (hs : s.WF c L μ) : x.WF c L μ := by
  induction h with
  | self => exact hs
  | sum hk _ ih => cases hs with | sum h => exact ih (h _ hk)
  | prod hk _ ih => cases hs with | prod h => exact ih (h _ hk)

theorem Spe.WF.sound {s : Spe} (hs : s.WF c L μ) : s.Sound := by
  intro x hx
  have hw := hx.wf hs
  refine ⟨?_, ?_⟩
  · rintro cs ws rfl
    cases hw with
    | sum _ h1 h2 h3 h4 h5 => exact ⟨h1, h2, h3, h4, fun a ha b hb => (h5 a ha).trans (h5 b hb).symm⟩
  · rintro cs rfl
    cases hw with
    | prod _ h1 h2 =>
      rw [Spe.symbolsL_eq, List.pairwise_map] at h2
      exact ⟨h1, h2⟩

/-- **C24 (`constrain`).** All nodes of what `constrain` returns are sound, and it has no new variables. -/
theorem C24_constrain {s s' : Spe} {a : Point} (hL : ∀ d x, 0 ≤ L.pdf d x) (hs : s.WF c L μ) (ha : ∀ p ∈ a, p.1 ∈ s.symbols) (h : s.constrain L a = .ok s') :
    s'.Sound ∧ s'.symbols ⊆ s.symbols := by
  obtain ⟨h1, h2, -⟩ := C33_fixed hL hs ha h
  exact ⟨h1.sound, h2⟩

/-- **C24 (`transform`).** All nodes of what `transform` returns are sound, over the old variables and the new one.  Missing: see `C26_transform_partial`. -/
theorem C24_transform_partial {s s' : Spe} {t : Tr} {Y : String} (ht : t.MadeG true c) (hs : s.WF c L μ) (hc : s.CanTransform μ t) (h : s.transform L Y t = .ok s') :
    s'.Sound ∧ s'.symbols = insert Y s.symbols := by
  obtain ⟨-, h1, h2, -⟩ := C26_transform_partial ht hs hc h
  exact ⟨h1.sound, h2⟩

/-- **C24 (`condition`, node by node).** All nodes of what `condition` returns are sound, over the same variables.  Missing: see `C24_condition_partial`. -/
theorem C24_condition_nodes_partial {hash : Spe → ℤ} {E : String → Env} {n : ℕ} {s s' : Spe} {e : Ev} (hc : c.Correct) (H : CanCond c L μ E s e) (h : s.condition c L hash n e = .ok s') :
    s'.Sound ∧ s'.symbols = s.symbols := by
  obtain ⟨h1, h2, -⟩ := C24_condition_partial hc H h
  exact ⟨h1.sound, h2⟩

/-- **C24 (`&`).** All nodes of a conjunction of SPEs are sound, over the variables of all. -/
theorem C24_and {ss : List Spe} (h2 : 2 ≤ ss.length) (hwf : ∀ t ∈ ss, t.WF c L μ) {v : MixVal} (h : andChain (ss.map MixVal.spe) = .ok v) :
    ∃ r, v = .spe r ∧ r.Sound ∧ ∀ x, x ∈ r.symbols ↔ ∃ t ∈ ss, x ∈ t.symbols := by
  obtain ⟨r, h1, hw, -, h3, -⟩ := C45_product h2 hwf h
  exact ⟨r, h1, hw.sound, h3⟩

/-! ## Non-vacuity -/

/-- Two coins, before and after the first is known to show `a`; three coins joined. -/
example : (Spe.prod [sure "Y", coin "Z"]).Sound ∧ coins.condition ctx0 (libOf muU) (fun _ => 0) 7 (strEv "Y" "a") = .ok (.prod [sure "Y", coin "Z"]) :=
  have h := coins_cond (libOf muU) (fun _ => 0) 6
  ⟨(C24_condition_nodes_partial ctx0_correct coins_canCond h).1, h⟩

/-- Weights that do not sum to one are not sound, nor are products that share a variable. -/
example : ¬ (Spe.sum [coin "X", coin "X"] [1, 1]).Sound ∧ ¬ (Spe.prod [coin "X", coin "X"]).Sound := by
  constructor
  · intro h
    have := ((h _ .self).1 _ _ rfl).2.2.2.1
    norm_num at this
  · intro h
    have := ((h _ .self).2 _ rfl).2
    simp [coin, Spe.symbols] at this

end Sppl
