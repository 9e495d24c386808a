import Verif.Interp.RunProps

set_option linter.all false

/-!
# C52: a program with conditions and branches on a derived variable
-/

namespace Sppl
open Classical MeasureTheory
open scoped ENNReal ProbabilityTheory

/-- `1 + 2*X`. -/
noncomputable def twoX : Tr := .poly (.id "X") [1, 2]

/-- `2**Z > 4`. -/
noncomputable def bigZ : Ev := .ivl (.exp (.id "Z") 2) ⟨((4 : ℝ) : EReal), ⊤, true, true⟩

/-- `Z < 5/2`. -/
noncomputable def lowZ : Ev := .ivl (.id "Z") ⟨⊥, ((5 / 2 : ℝ) : EReal), true, true⟩

/-- `X >> uniform(0, 1)`; `Z >> 1 + 2*X`; `condition(2**Z > 4)`; `if Z < 5/2: Y >> coin`, `else: Y >> {'z': 1}`. -/
noncomputable def prog2 : Cmd := .seq [.sample "X" (.one (.real .cont d0 unitIvl)), .transform "Z" twoX, .condition bigZ,
  .ifelse [lowZ] true [.sample "Y" (.one coinD), .sample "Y" (.one (.nominal [("z", 1)]))]]

/-- The SPE after the first two commands. -/
noncomputable def leafXZ : Spe := .real .cont "X" d0 unitIvl false [("X", .id "X"), ("Z", twoX)]

/-- The distribution after the first two commands. -/
theorem prog2_rep : Rep ctx0 (libOf muU) muU ((withIndep "X" ((Source.one (.real .cont d0 unitIvl)).law muU "X") start).map (withVar "Z" twoX)) leafXZ := by
  have d2 : (Source.one (.real .cont d0 unitIvl)).call (libOf muU) "X" = .ok (leafX "X") := by simp [Source.call, Distr.call, mkReal, leafX]; rfl
  have h1 : RepO ctx0 (libOf muU) muU _ (some (leafX "X")) := sample_ok (o := opts0) (X := "X") (μ := muU) (.one unifD_wf) start none (some (leafX "X")) rfl (by
    simp only [Cmd.interp, show opts0.L = libOf muU from rfl, d2, bind, Except.bind])
  have h2 : RepO ctx0 (libOf muU) muU _ (some leafXZ) := interp_ok (o := opts0) (μ := muU) ctx0_correct (simpOK_none _ _ _) (.transform "Z" twoX) _
    ⟨.poly (.id _) (by simp), Filter.Eventually.of_forall (fun ω => by simp [twoX, Tr.Regular])⟩ (some (leafX "X")) (some leafXZ) h1 (by
    simp [Cmd.interp, needSpe, Spe.transform, leafX, envTransform, twoX, Tr.symbols, bind, Except.bind, mkReal, leafXZ])
  exact h2

theorem leafXZ_extend (x : ℝ) : Env.extend [("X", .id "X"), ("Z", twoX)] (baseAsg "X" (.num x)) "X" = some (.num x) ∧
    Env.extend [("X", .id "X"), ("Z", twoX)] (baseAsg "X" (.num x)) "Z" = some (.num (1 + 2 * x)) := by
  refine ⟨by simp [Env.extend, Tr.eval, baseAsg], ?_⟩
  simp [Env.extend, twoX, Tr.eval, baseAsg, onNum, polyVal]
  try ring_nf

/-- `Z` is a number. -/
theorem leafXZ_num : ∀ᵐ ω ∂(leafXZ.den muU), ∃ z, ω "Z" = some (.num z) := by
  have := prog2_rep.wf.kind (K := fun _ => true) (μ := muU) (.real (Filter.Eventually.of_forall (fun x p hp => by
    obtain ⟨h1, h2⟩ := leafXZ_extend x
    simp only [List.mem_cons, List.not_mem_nil, or_false] at hp
    rcases hp with rfl | rfl
    · exact ⟨_, h1⟩
    · exact ⟨_, h2⟩)))
  filter_upwards [this] with ω hω
  exact hω "Z" (by simp [leafXZ, Spe.symbols])

/-- `2**Z > 4` has positive probability. -/
theorem bigZ_mass : leafXZ.den muU {ω | bigZ.holds ω} ≠ 0 := by
  have hset : MeasurableSet {ω | bigZ.holds ω} := Ev.measurable_set bigZ
  rw [leafXZ, Spe.den, Measure.map_apply (measurable_leafAsg _ _) hset]
  have hsub : Set.Ioc (1 / 2 : ℝ) 1 ⊆ (fun x : ℝ => Env.extend [("X", .id "X"), ("Z", twoX)] (baseAsg "X" (.num x))) ⁻¹' {ω | bigZ.holds ω} := by
    intro x hx
    simp only [Set.mem_preimage, Set.mem_setOf_eq, bigZ, Ev.holds_ivl]
    refine ⟨2 ^ (1 + 2 * x), by simp only [Tr.eval, (leafXZ_extend x).2, onNum]; rfl, ?_⟩
    simp only [Ivl.Mem, if_true]
    refine ⟨?_, EReal.coe_lt_top _⟩
    rw [EReal.coe_lt_coe_iff]
    have : (2 : ℝ) ^ (2 : ℝ) < 2 ^ (1 + 2 * x) := Real.rpow_lt_rpow_of_exponent_lt (by norm_num) (by linarith [hx.1])
    norm_num at this ⊢
    linarith
  refine (lt_of_lt_of_le ?_ (measure_mono hsub)).ne'
  simp only [realMeas, Bool.false_eq_true, if_false, muU, unif]
  have hI : Set.Ioc (1 / 2 : ℝ) 1 ∩ Set.Icc 0 1 = Set.Ioc (1 / 2) 1 := Set.inter_eq_left.2 (fun x hx => ⟨by linarith [hx.1], hx.2⟩)
  rw [Measure.restrict_apply measurableSet_Ioc, hI]
  norm_num

theorem bigZ_wf : (⟨((4 : ℝ) : EReal), ⊤, true, true⟩ : Ivl EReal).WF := ⟨EReal.coe_lt_top _, by simp, by simp⟩
theorem lowZ_wf : (⟨⊥, ((5 / 2 : ℝ) : EReal), true, true⟩ : Ivl EReal).WF := ⟨EReal.bot_lt_coe _, by simp, by simp⟩

theorem bigZ_fits {m : Measure Asg} (h : ∀ᵐ ω ∂m, ∃ z, ω "Z" = some (.num z)) : bigZ.Fits ctx0 m := by
  refine ⟨.ivl (.exp (.id _) (by norm_num)) bigZ_wf, by simp [bigZ, Ev.All, NomId], by simp [bigZ, Ev.All, NomSome], Filter.Eventually.of_forall (fun ω => by simp [bigZ, Ev.Regular, Tr.Regular]), ?_⟩
  filter_upwards [h] with ω hω
  obtain ⟨z, hz⟩ := hω
  exact ⟨2 ^ z, by simp [Tr.eval, hz, onNum, expVal]⟩

theorem lowZ_fits {m : Measure Asg} (h : ∀ᵐ ω ∂m, ∃ z, ω "Z" = some (.num z)) : lowZ.Fits ctx0 m := by
  refine ⟨.ivl (.id _) lowZ_wf, by simp [lowZ, Ev.All, NomId], by simp [lowZ, Ev.All, NomSome], Filter.Eventually.of_forall (fun ω => by simp [lowZ, Ev.Regular, Tr.Regular]), ?_⟩
  filter_upwards [h] with ω hω
  simpa [lowZ, Ev.Typed, Tr.eval] using hω

theorem prog2_safe : prog2.Safe ctx0 (libOf muU) muU start := by
  unfold prog2
  simp only [Cmd.Safe, Cmd.SafeS, Cmd.sem, Cmd.SafeB, condSets, firsts, List.map_cons, List.map_nil, List.cons_append, List.nil_append, if_true, and_true]
  rw [← prog2_rep.den]
  refine ⟨.one unifD_wf, ⟨.poly (.id _) (by simp), Filter.Eventually.of_forall (fun ω => by simp [twoX, Tr.Regular])⟩, bigZ_fits leafXZ_num, ?_, fun _ => .one coinD_wf,
    fun _ => .one (.nominal (by simp) (by simp))⟩
  intro e he
  simp only [List.mem_cons, List.not_mem_nil, or_false] at he
  subst he
  exact lowZ_fits ((ProbabilityTheory.cond_absolutelyContinuous).ae_le leafXZ_num)

/-- What is known after the first two commands. -/
noncomputable def scopeXZ : Scope := (Scope.start.add "X" (.one (.real .cont d0 unitIvl))).derive "Z" twoX

theorem scopeXZ_curv : scopeXZ.curv = {"Z", "X"} := by
  have : twoX.Curve := ⟨"X", .poly .id (by norm_num)⟩
  have hs : twoX.symbols = {"X"} := by simp [twoX, Tr.symbols]
  simp [scopeXZ, Scope.derive, Scope.add, Scope.start, Source.Every, Distr.NotDisc, Distr.Numeric, this, hs]

theorem bigZ_bent {Γ : Scope} (hZ : "Z" ∈ Γ.curv) : Γ.Bent bigZ := by
  have hlit : bigZ.ChainLit "Z" := .ivl (.exp .id (by norm_num)) bigZ_wf
  have hs : bigZ.symbols ⊆ Γ.curv := by simpa [bigZ, Ev.symbols, Tr.symbols] using hZ
  refine ⟨.curve hZ (fun x => .inl hZ) hlit (.inl ⟨fun _ => some (.num 3), ?_⟩), trivial, hs.trans Finset.subset_union_right, .inr ⟨.lit ⟨_, hlit⟩, hs⟩⟩
  rw [bigZ, Ev.holds_ivl]
  refine ⟨2 ^ (3 : ℝ), by simp [Tr.eval, onNum, expVal], ?_⟩
  simp only [Ivl.Mem, if_true]
  refine ⟨?_, EReal.coe_lt_top _⟩
  rw [EReal.coe_lt_coe_iff]
  norm_num

theorem prog2_runs : ∃ Δ : Scope, Δ.vars = {"Y", "Z", "X"} ∧ "Z" ∈ Δ.curv ∧ Runs ctx0 muU .start start prog2 Δ := by
  have hp := prog2_rep.wf.prob (μ := muU)
  have hv : scopeXZ.vars = {"Z", "X"} := by simp [scopeXZ, Scope.derive, Scope.add, Scope.start]
  refine ⟨⟨{"Y", "Z", "X"}, ∅, ∅, ∅, true, {"Z", "X"}⟩, rfl, by simp, ?_⟩
  refine .cons (.sample (by simp [Scope.start]) (by simp [Source.Callable, Distr.Callable])) (.cons (.transform (X := "X") (by simp [twoX, Tr.symbols]) (by simp [Scope.add, Scope.start])
    (by simp [Scope.add, Scope.start, Source.Every, Distr.Numeric]) (by simp [Scope.add, Scope.start])) ?_)
  simp only [Cmd.sem]
  rw [← prog2_rep.den]
  change Runs ctx0 muU scopeXZ _ _ _
  refine .cons (.condition (.inr ⟨ctx0_linear, bigZ_bent (by rw [scopeXZ_curv]; simp)⟩) bigZ_mass) (.cons (.ifelse (by simp) (.inr ⟨ctx0_linear, "Z", lowZ, rfl, by rw [scopeXZ_curv]; simp, .below⟩)
    (by simp [condSets]) ?_ rfl ?_) .nil)
  · exact Filter.Eventually.of_forall (fun ω => ⟨Set.univ, by simp [condSets], trivial⟩)
  · intro q hq _
    simp only [condSets, firsts, List.map_cons, List.map_nil, List.cons_append, List.nil_append, if_true, List.zip_cons_cons, List.zip_nil_right, List.mem_cons, List.not_mem_nil, or_false] at hq
    rcases hq with rfl | rfl
    · refine .less (.sample (by rw [hv]; simp) ?_) ?_
      · norm_num [Source.Callable, coinD, Distr.Callable]
      · constructor <;> simp [Scope.add, hv, scopeXZ_curv, Source.Every, Distr.NotDisc, Distr.Numeric, coinD] <;> decide
    · refine .less (.sample (by rw [hv]; simp) ?_) ?_
      · norm_num [Source.Callable, Distr.Callable]
      · constructor <;> simp [Scope.add, hv, scopeXZ_curv, Source.Every, Distr.NotDisc, Distr.Numeric] <;> decide

/-- C52: `prog2` meets the hypotheses, and `2**Z > 4` can be asked for at its end. -/
example : ∃ N s, (∀ n, N ≤ n → prog2.interp { opts0 with n := n } none = .ok (some s)) ∧ s.symbols = {"Y", "Z", "X"} ∧ s.den muU = prog2.sem muU start := by
  obtain ⟨Δ, h1, -, h2⟩ := prog2_runs
  obtain ⟨N, s, k1, k2, k3, -⟩ := C52_returns_partial (o := opts0) ctx0_correct (.inl rfl) prog2_safe h2 (by rw [h1]; simp)
  exact ⟨N, s, k1, k2.trans h1, k3⟩

/-- `X >> uniform(0, 1)`; `Z >> 1 + 2*X`. -/
noncomputable def prog3 : Cmd := .seq [.sample "X" (.one (.real .cont d0 unitIvl)), .transform "Z" twoX]

/-- C52: after `prog3`, `2**Z > 4` can be asked for. -/
example : ∃ N s, (∀ n, N ≤ n → prog3.interp { opts0 with n := n } none = .ok (some s)) ∧ (∀ n, N ≤ n → s.prob ctx0 (libOf muU) n bigZ = .ok ((leafXZ.den muU).real {ω | bigZ.holds ω})) ∧
    ∃ N s', (∀ n, N ≤ n → s.condition ctx0 (libOf muU) opts0.hash n bigZ = .ok s') ∧ s'.den muU = (leafXZ.den muU)[|{ω | bigZ.holds ω}] := by
  have hsem : prog3.sem muU start = leafXZ.den muU := by rw [prog2_rep.den]; simp [prog3, Cmd.sem, Cmd.semL]
  have hsafe : prog3.Safe ctx0 (libOf muU) muU start := by
    have := prog2_safe
    simp only [prog2, prog3, Cmd.Safe, Cmd.SafeS, and_true] at this ⊢
    exact ⟨this.1, this.2.1⟩
  have hruns : Runs ctx0 muU .start start prog3 scopeXZ :=
    .cons (.sample (by simp [Scope.start]) (by simp [Source.Callable, Distr.Callable])) (.cons (.transform (X := "X") (by simp [twoX, Tr.symbols]) (by simp [Scope.add, Scope.start])
      (by simp [Scope.add, Scope.start, Source.Every, Distr.Numeric]) (by simp [Scope.add, Scope.start])) .nil)
  obtain ⟨N, s, h1, h2, h3⟩ := C52_derived_partial (o := opts0) ctx0_correct (.inl rfl) hsafe hruns ctx0_linear (bigZ_bent (by rw [scopeXZ_curv]; simp)) (by rw [hsem]; exact bigZ_fits leafXZ_num)
  rw [hsem] at h2 h3
  exact ⟨N, s, h1, h2, h3 bigZ_mass⟩

end Sppl
