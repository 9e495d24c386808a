import Verif.Comp.GoesProps
import Verif.Interp.RunDerived

set_option linter.all false

/-!
# C60: a source with a condition on a derived variable
-/

namespace Sppl
open Classical MeasureTheory
open scoped ENNReal ProbabilityTheory

/-- The distributions of the examples; numbers times and plus expressions in the variables (transforms.py 91-96, 130-134). -/
noncomputable def pyHost3 : PyHost where
  call f _ := if f = "uniform" then .ok (.dist (.one (.real .cont d0 unitIvl))) else .error .key
  bin op l r := match op, l, r with
    | .other "*", .num x, .tr t => (t.mulNum x).map .tr
    | .other "+", .tr t, .num x => (t.addNum x).map .tr
    | _, _, _ => .error .type
  un _ _ := .error .type
  cmp _ _ _ := .error .type

/-- `2*X + 1`. -/
noncomputable def twoXE : PE := .bin (.other "+") (.bin (.other "*") (.lit (.num 2)) (.name "X")) (.lit (.num 1))

/-- `Z > 2`. -/
noncomputable def aboveZ : PE := .cmp (.name "Z") [.gt] [.lit (.num 2)]

/-- `X ~= uniform()`; `Z ~= 2*X + 1`; `condition(Z > 2)`. -/
noncomputable def source3 : List Stmt := [.assign (.name "X") (.call "uniform" []), .assign (.name "Z") twoXE, .condition aboveZ]

/-- The names in the compiled module. -/
def ns3 : NS := (ns0.bind "X" (.tr (.id "X"))).bind "Z" (.tr (.id "Z"))

/-- The event `Z > 2`. -/
noncomputable def aboveZev : Ev := .ivl (.id "Z") ⟨((2 : ℝ) : EReal), ⊤, true, true⟩

theorem uniform_eval3 : (PE.call "uniform" []).eval pyHost3 ctx0 ns3 = .ok (.dist (.one (.real .cont d0 unitIvl))) := by
  simp [PE.eval, PE.evalL, pyHost3, ns3, ns0, NS.bind, bind, Except.bind]

theorem twoXE_eval : twoXE.eval pyHost3 ctx0 ns3 = .ok (.tr twoX) := by
  simp [twoXE, PE.eval, ns3, NS.bind, evalBin, pyHost3, Tr.mulNum, Tr.addNum, polyify, mkPoly, bind, Except.bind, Except.map, twoX]

theorem aboveZ_rewrite : aboveZ.rewrite = aboveZ := by simp [aboveZ, PE.rewrite, rewriteCmp]

theorem aboveZ_eval : aboveZ.eval pyHost3 ctx0 ns3 = .ok (.ev aboveZev) := by
  have : ((2 : ℝ) : EReal) < ⊤ := EReal.coe_lt_top _
  simp [aboveZ, PE.eval, ns3, NS.bind, PE.evalChain, evalCmp, CmpOp.isOrder, Obj.num?, cmpOrder, cmpTr, bind, Except.bind, Tr.gtNum, mkIvl, this, Except.map, aboveZev]

theorem aboveZ_sat : aboveZ.sat pyHost3 ctx0 ns3 = {ω | aboveZev.holds ω} := by
  ext ω
  simp only [PE.sat, Set.mem_setOf_eq, aboveZ]
  rw [means_cmp (v := .tr (.id "Z")) (w := .num 2) (by simp [PE.eval, ns3, NS.bind]) (by simp [PE.eval]), aboveZev, Ev.holds_ivl]
  simp only [CmpOp.Holds, Obj.at, Ivl.Mem, if_true]
  constructor
  · rintro ⟨x, y, h1, h2, h3⟩
    simp at h2
    subst h2
    exact ⟨x, h1, by exact_mod_cast h3, EReal.coe_lt_top _⟩
  · rintro ⟨x, h1, h2, -⟩
    exact ⟨x, 2, h1, by simp, by exact_mod_cast h2⟩

theorem ns3_canonical : ns3.Canonical := C46_names (p := ⟨[], ["X", "Z"], [], []⟩) (ρ₀ := ns0) (H := pyHost3) (c := ctx0) (by intro x o h; cases h) (by simp) (by
  simp [Prog.names, runConstants, runVariables, runArrays, bind, Except.bind, ns3])

theorem aboveZ_wf : (⟨((2 : ℝ) : EReal), ⊤, true, true⟩ : Ivl EReal).WF := ⟨EReal.coe_lt_top _, by simp, by simp⟩

theorem aboveZ_fits {m : Measure Asg} (h : ∀ᵐ ω ∂m, ∃ z, ω "Z" = some (.num z)) : aboveZev.Fits ctx0 m := by
  refine ⟨.ivl (.id _) aboveZ_wf, by simp [aboveZev, Ev.All, NomId], by simp [aboveZev, Ev.All, NomSome], Filter.Eventually.of_forall (fun ω => by simp [aboveZev, Ev.Regular, Tr.Regular]), ?_⟩
  filter_upwards [h] with ω hω
  simpa [aboveZev, Ev.Typed, Tr.eval] using hω

theorem aboveZ_bent {Γ : Scope} (hZ : "Z" ∈ Γ.curv) : Γ.Bent aboveZev := by
  have hlit : aboveZev.ChainLit "Z" := .ivl .id aboveZ_wf
  have hs : aboveZev.symbols ⊆ Γ.curv := by simpa [aboveZev, Ev.symbols, Tr.symbols] using hZ
  refine ⟨.curve hZ (fun x => .inl hZ) hlit (.inl ⟨fun _ => some (.num 3), ?_⟩), trivial, hs.trans Finset.subset_union_right, .inr ⟨.lit ⟨_, hlit⟩, hs⟩⟩
  rw [aboveZev, Ev.holds_ivl]
  refine ⟨3, by simp [Tr.eval], ?_⟩
  simp only [Ivl.Mem, if_true]
  refine ⟨?_, EReal.coe_lt_top _⟩
  rw [EReal.coe_lt_coe_iff]
  norm_num

theorem aboveZ_mass : leafXZ.den muU {ω | aboveZev.holds ω} ≠ 0 := by
  intro h0
  refine bigZ_mass ?_
  refine measure_mono_null_ae ?_ h0
  filter_upwards [leafXZ_num] with ω hω h1
  obtain ⟨z, hz⟩ := hω
  change bigZ.holds ω at h1
  show aboveZev.holds ω
  rw [bigZ, Ev.holds_ivl] at h1
  obtain ⟨y, h2, h3⟩ := h1
  rw [aboveZev, Ev.holds_ivl]
  refine ⟨z, by simp [Tr.eval, hz], ?_⟩
  simp only [Ivl.Mem, if_true] at h3 ⊢
  refine ⟨?_, EReal.coe_lt_top _⟩
  simp [Tr.eval, hz, onNum, expVal] at h2
  subst h2
  have h4 : (4 : ℝ) < 2 ^ z := by exact_mod_cast h3.1
  rw [EReal.coe_lt_coe_iff]
  by_contra h5
  have : (2 : ℝ) ^ z ≤ 2 ^ (2 : ℝ) := Real.rpow_le_rpow_of_exponent_le (by norm_num) (not_lt.1 h5)
  norm_num at this
  linarith

theorem source3_good : GoodProgram ["uniform"] pyHost3 ctx0 ns3 source3 ⟨[], [("X", .scalar), ("Z", .scalar)], true⟩ := by
  have vX : (PE.name "X").IsVar pyHost3 ctx0 ns3 := ⟨"X", by simp [PE.eval, ns3, NS.bind]⟩
  have vZ : (PE.name "Z").IsVar pyHost3 ctx0 ns3 := ⟨"Z", by simp [PE.eval, ns3, NS.bind]⟩
  refine .cons (d1 := ⟨[], [("X", .scalar)], true⟩) (.sample (by simp) (by simp) (.fresh rfl rfl rfl) (by simp [PE.NoEq, PE.NoEqL]) ?_)
    (.cons (.transform (by simp [twoXE]) (by simp [twoXE]) (by simp [twoXE, PE.names]) ⟨"X", by simp [twoXE, PE.names], by simp [List.lookup]⟩ (.fresh rfl rfl (by simp [List.lookup]))
      (by simp [twoXE, PE.NoEq]) ?_) (.cons (.condition ?_) .nil))
  · rintro ρ rfl; exact ⟨vX, _, uniform_eval3⟩
  · rintro ρ rfl; exact ⟨vZ, _, twoXE_eval⟩
  · rintro ρ rfl; exact ⟨_, by rw [aboveZ_rewrite]; exact aboveZ_eval⟩

theorem sem3_X (m : Measure Asg) : Stmt.sem pyHost3 ctx0 muU ns3 (.assign (.name "X") (.call "uniform" [])) m = withIndep "X" ((Source.one (.real .cont d0 unitIvl)).law muU "X") m := by
  simp only [Stmt.sem]
  rw [assignSem_leaf rfl rfl, uniform_eval3]
  simp [Target.var]

theorem sem3_Z (m : Measure Asg) : Stmt.sem pyHost3 ctx0 muU ns3 (.assign (.name "Z") twoXE) m = m.map (withVar "Z" twoX) := by
  simp only [Stmt.sem]
  rw [assignSem_leaf rfl rfl, twoXE_eval]
  simp [Target.var]

/-- The distribution that the first two statements describe. -/
theorem sem3 : Stmt.sem pyHost3 ctx0 muU ns3 (.assign (.name "Z") twoXE) (Stmt.sem pyHost3 ctx0 muU ns3 (.assign (.name "X") (.call "uniform" [])) start) = leafXZ.den muU := by
  rw [sem3_X, sem3_Z, prog2_rep.den]

theorem source3_safe : Stmt.SafeL pyHost3 ctx0 (libOf muU) muU ns3 source3 start := by
  simp only [source3, Stmt.SafeL, Stmt.Safe, and_true]
  refine ⟨?_, ?_, .left (t := .id "Z") (by simp [PE.eval, ns3, NS.bind]) (by simp [PE.eval]), Filter.Eventually.of_forall fun ω => .cmp (by simp)⟩
  · rw [assignSafe_leaf rfl, uniform_eval3]
    exact ⟨by simp [PE.NoEq, PE.NoEqL], by rintro d h; cases h; exact .one unifD_wf⟩
  · rw [assignSafe_leaf rfl, twoXE_eval]
    exact ⟨by simp [twoXE, PE.NoEq], by rintro d h; cases h⟩

theorem source3_fit : Stmt.FitL pyHost3 ctx0 muU ns3 source3 start := by
  simp only [source3, Stmt.FitL, Stmt.Fit, and_true]
  rw [sem3]
  refine ⟨?_, ?_, ?_⟩
  · simp only [AssignFit, uniform_eval3]
    rintro t h; cases h
  · show AssignFit _ _ _ (.bin _ _ _) _
    simp only [AssignFit]
    intro t h
    have := twoXE_eval.symm.trans h
    cases this
    exact ⟨.poly (.id _) (by simp), Filter.Eventually.of_forall (fun ω => by simp [twoX, Tr.Regular])⟩
  · intro e he
    rw [aboveZ_rewrite, aboveZ_eval] at he
    cases he
    exact aboveZ_fits leafXZ_num

theorem source3_goes : Stmt.GoesL pyHost3 ctx0 muU ns3 source3 .start start scopeXZ := by
  have hX : Target.var pyHost3 ctx0 ns3 (.name "X") = some "X" := rfl
  have hZ : Target.var pyHost3 ctx0 ns3 (.name "Z") = some "Z" := rfl
  simp only [source3, Stmt.GoesL, Stmt.Goes]
  refine ⟨Scope.start.add "X" (.one (.real .cont d0 unitIvl)), ?_, scopeXZ, ?_, scopeXZ, ⟨?_, ?_, .refl _⟩, rfl⟩
  · rw [assignGoes_leaf rfl rfl, uniform_eval3, hX]
    exact ⟨by simp [Scope.start], by simp [Source.Callable, Distr.Callable], .refl _⟩
  · rw [assignGoes_leaf rfl rfl, twoXE_eval, hZ]
    exact ⟨⟨"X", by simp [twoX, Tr.symbols], by simp [Scope.add, Scope.start], by simp [Scope.add, Scope.start, Source.Every, Distr.Numeric]⟩, by simp [Scope.add, Scope.start], .refl _⟩
  · intro v hv
    rw [aboveZ_rewrite, aboveZ_eval] at hv
    cases hv
    exact .inr ⟨ctx0_linear, aboveZ_bent (by rw [scopeXZ_curv]; simp)⟩
  · rw [sem3, aboveZ_sat]
    exact aboveZ_mass

/-- C60 non-vacuity: `source3` meets the hypotheses, and `2**Z > 4` can be asked for at its end. -/
example : ∃ N p cmd s, (∀ n, N ≤ n → compile ["uniform"] n source3 = .ok p) ∧ p.run pyHost3 ctx0 ns0 = .ok cmd ∧
    (∀ n, N ≤ n → cmd.interp { opts0 with n := n } none = .ok (some s)) ∧ s.symbols = {"X", "Z"} ∧ s.den muU = Stmt.semL pyHost3 ctx0 muU ns3 source3 start ∧
    ∃ M, ∀ n, M ≤ n → s.prob ctx0 (libOf muU) n bigZ = .ok ((Stmt.semL pyHost3 ctx0 muU ns3 source3 start).real {ω | bigZ.holds ω}) := by
  have hv : scopeXZ.vars = {"X", "Z"} := by simp [scopeXZ, Scope.derive, Scope.add, Scope.start]; decide
  obtain ⟨N, p, cmd, s, h1, h2, h3, h4, h5, h6⟩ := C60_derived_partial (o := opts0) (D := ["uniform"]) (ρ₀ := ns0) ctx0_correct ctx0_linear (.inl rfl) source3_good ns3_canonical (by
    rintro ⟨cs, vs, as, t⟩ h1 h2 h3
    simp only [Decl.scalars, Decl.arrays] at h1 h2 h3
    subst h1 h2 h3
    simp [Prog.names, runConstants, runVariables, runArrays, bind, Except.bind, ns3]) (by simp) source3_safe source3_fit source3_goes (by rw [hv]; simp)
  refine ⟨N, p, cmd, s, h1, h2, h3, h4.trans hv, h5, (h6 bigZ (bigZ_bent (by rw [scopeXZ_curv]; simp)) (bigZ_fits ?_)).1⟩
  show ∀ᵐ ω ∂(Stmt.semL pyHost3 ctx0 muU ns3 source3 start), _
  simp only [source3, Stmt.semL]
  rw [sem3]
  simp only [Stmt.sem]
  exact (ProbabilityTheory.cond_absolutelyContinuous).ae_le leafXZ_num

end Sppl
