import Verif.Comp.GoesProps
import Verif.Comp.RenderTop

set_option linter.all false

/-!
# C60: a program with a loop of any length
-/

namespace Sppl
open Classical MeasureTheory
open scoped ENNReal ProbabilityTheory

/-- `n = k`; `A = array(n)`; `for i in range(0, n): A[i] ~= coin()`. -/
def coinLoop (k : ℕ) : List Stmt :=
  [.assign (.name "n") (.lit (.int k)), .assign (.name "A") (.call "array" [.name "n"]),
    .forr "i" (.lit (.int 0)) (.name "n") [.assign (.sub "A" (.name "i")) (.call "coin" [])]]

/-- The names in the compiled module. -/
def nsCoins (k : ℕ) : NS := (ns0.bind "n" (.int k)).bind "A" (idArray "A" k)

/-- `A[0]`, ..., `A[j - 1]`. -/
def coinNames (j : ℕ) : Finset String := (Finset.range j).image (fun i => s!"A[{i}]")

/-- After `j` rounds. -/
def coinScope (j : ℕ) : Scope := ⟨coinNames j, coinNames j, coinNames j, ∅, decide (2 ≤ j), ∅⟩

theorem elem_inj {i j : ℕ} (h : s!"A[{i}]" = s!"A[{j}]") : i = j := by
  refine toString_inj (String.toList_injective ?_)
  have := congrArg String.toList h
  simpa [String.toList_append] using this

theorem coins_good (k : ℕ) : GoodProgram ["coin"] pyHost0 ctx0 (nsCoins k) (coinLoop k) ⟨[(.name "n", .lit (.int k))], [("A", .array (.name "n"))], true⟩ := by
  refine .cons (.const (by simp) (by simp) (by simp [PE.names]) rfl rfl (by simp)) (.cons (.array (by simp [PE.names, PE.namesL]) rfl rfl)
    (.cons (.forr ?_ (.body (by simp) (by simp) (.cons (.sample (by simp) (by simp) (.elem (n := .name "n") (by simp [List.lookup])) (by simp [PE.NoEq, PE.NoEqL]) ?_) .nil))) .nil))
  · rintro ρ rfl; exact ⟨⟨0, by simp [PE.eval]⟩, k, by simp [PE.eval, NS.bind, nsCoins]⟩
  · rintro ρ' ⟨ρ, rfl, a, b, h1, h2, i, h3, h4, rfl⟩
    simp [PE.eval, NS.bind, nsCoins] at h1 h2
    subst h1 h2
    obtain ⟨j, rfl⟩ := Int.eq_ofNat_of_zero_le h3
    refine ⟨⟨s!"A[{j}]", ?_⟩, _, coin_eval _ (by simp [ns0, NS.bind, nsCoins])⟩
    have hk : j < k := by omega
    simp [Target.expr, PE.eval, NS.bind, nsCoins, idArray, hk, bind, Except.bind]
    rfl

theorem coins_names {k : ℕ} (q : Prog) (h1 : q.constants = [(.name "n", .lit (.int k))]) (h2 : q.vars = []) (h3 : q.arrays = [("A", .name "n")]) :
    q.names pyHost0 ctx0 ns0 = .ok (nsCoins k) := by
  obtain ⟨cs, vs, as, t⟩ := q
  subst h1 h2 h3
  simp [Prog.names, runConstants, runVariables, runArrays, PE.eval, NS.bind, bind, Except.bind, nsCoins]

theorem nsCoins_canonical (k : ℕ) : (nsCoins k).Canonical := C46_names (p := ⟨[(.name "n", .lit (.int k))], [], [("A", .name "n")], []⟩) (ρ₀ := ns0)
  (by intro x o h; cases h) (by simp [PE.eval, Obj.Closed]) (coins_names _ rfl rfl rfl)

theorem coins_round (k j : ℕ) : (PE.call "coin" []).eval pyHost0 ctx0 ((nsCoins k).bind "i" (.int (0 + (j : ℤ)))) = .ok (.dist (.one coinD)) ∧
    Target.var pyHost0 ctx0 ((nsCoins k).bind "i" (.int (0 + (j : ℤ)))) (.sub "A" (.name "i")) = some s!"A[{j}]" := by
  refine ⟨coin_eval _ (by simp [ns0, NS.bind, nsCoins]), ?_⟩
  simp [Target.var, PE.eval, NS.bind]
  rfl

theorem coins_range {k : ℕ} {a b : ℤ} (h1 : (PE.lit (.int 0)).eval pyHost0 ctx0 (nsCoins k) = .ok (.int a)) (h2 : (PE.name "n").eval pyHost0 ctx0 (nsCoins k) = .ok (.int b)) :
    a = 0 ∧ b = k := by
  simp [PE.eval, NS.bind, nsCoins] at h1 h2
  exact ⟨h1.symm, h2.symm⟩

theorem coins_safe (k : ℕ) : Stmt.SafeL pyHost0 ctx0 (libOf muU) muU (nsCoins k) (coinLoop k) start := by
  have hcoin : coinD.WF (libOf muU) muU := .nominal (by simp) (by simp)
  simp only [coinLoop, Stmt.SafeL, Stmt.Safe, and_true]
  refine ⟨?_, ?_, ?_⟩
  · rw [assignSafe_leaf rfl]
    exact ⟨by simp [PE.NoEq], by simp [PE.eval]⟩
  · rw [assignSafe_leaf rfl]
    refine ⟨by simp [PE.NoEq, PE.NoEqL], fun d h => ?_⟩
    simp [PE.eval, PE.evalL, NS.bind, nsCoins, ns0, pyHost0, bind, Except.bind] at h
  · intro a b h1 h2 j hj
    obtain ⟨rfl, rfl⟩ := coins_range h1 h2
    rw [assignSafe_leaf rfl, (coins_round k j).1]
    exact ⟨by simp [PE.NoEq, PE.NoEqL], by rintro d h; cases h; exact .one hcoin⟩

theorem coins_fit (k : ℕ) : Stmt.FitL pyHost0 ctx0 muU (nsCoins k) (coinLoop k) start := by
  simp only [coinLoop, Stmt.FitL, Stmt.Fit, and_true]
  refine ⟨?_, ?_, ?_⟩
  · simp [AssignFit, PE.eval]
  · simp [AssignFit, PE.eval, PE.evalL, NS.bind, nsCoins, ns0, pyHost0, bind, Except.bind]
  · intro a b h1 h2 j hj
    obtain ⟨rfl, rfl⟩ := coins_range h1 h2
    simp only [AssignFit, (coins_round k j).1]
    simp

theorem coins_goes (k : ℕ) : Stmt.GoesL pyHost0 ctx0 muU (nsCoins k) (coinLoop k) .start start (coinScope k) := by
  simp only [coinLoop, Stmt.GoesL, Stmt.Goes]
  refine ⟨.start, ?_, .start, ?_, coinScope k, ?_, rfl⟩
  · rw [assignGoes_leaf rfl rfl]; simp [PE.eval, Target.var]
  · simp [AssignGoes, LeafGoes]
  · intro a b h1 h2
    obtain ⟨rfl, rfl⟩ := coins_range h1 h2
    refine ⟨coinScope, by simp [coinScope, coinNames, Scope.start], by simpa using Scope.Less.refl _, fun j hj => ⟨coinScope (j + 1), ?_, rfl⟩⟩
    rw [assignGoes_leaf rfl rfl, (coins_round k j).1, (coins_round k j).2]
    refine ⟨?_, by norm_num [Source.Callable, coinD, Distr.Callable], ?_⟩
    · simp only [coinScope, coinNames, Finset.mem_image, Finset.mem_range, not_exists, not_and]
      intro i hi h
      exact absurd (elem_inj h) (by omega)
    · have hs : coinNames (j + 1) = insert s!"A[{j}]" (coinNames j) := by simp [coinNames, Finset.range_add_one]
      constructor <;> simp only [coinScope, Scope.add, hs, subset_rfl]
      · simp [Source.Every, Distr.NotDisc, coinD]
      · simp
      · intro h
        have : 0 < j := by have : 2 ≤ j + 1 := by simpa using h
                           omega
        simp [coinNames]
        omega
      · exact .inr trivial

/-- C60 non-vacuity: for every number of coins (at least one) the program compiles, runs and is interpreted; its model has that many variables. -/
example (k : ℕ) (hk : 0 < k) : ∃ N p cmd s, (∀ n, N ≤ n → compile ["coin"] n (coinLoop k) = .ok p) ∧ p.run pyHost0 ctx0 ns0 = .ok cmd ∧
    (∀ n, N ≤ n → cmd.interp { opts0 with n := n } none = .ok (some s)) ∧ s.symbols.card = k ∧ s.den muU = Stmt.semL pyHost0 ctx0 muU (nsCoins k) (coinLoop k) start := by
  obtain ⟨N, p, cmd, s, h1, h2, h3, h4, h5, -⟩ := C60_total_partial (o := opts0) (D := ["coin"]) (ρ₀ := ns0) ctx0_correct (.inl rfl) (coins_good k) (nsCoins_canonical k)
    coins_names (by simp [PE.IsConst, PE.eval]) (coins_safe k) (coins_fit k) (coins_goes k) (by simp [coinScope, coinNames]; omega)
  refine ⟨N, p, cmd, s, h1, h2, h3, ?_, h5⟩
  rw [h4]
  simp only [coinScope, coinNames]
  rw [Finset.card_image_of_injective _ (fun i j h => elem_inj h), Finset.card_range]

end Sppl
