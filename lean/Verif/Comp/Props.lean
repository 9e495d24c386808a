import Verif.Comp.BlockLemmas
import Verif.Interp.Props

set_option linter.all false

/-!
# C40, C46: properties of the compiler
-/

namespace Sppl
open Classical MeasureTheory
open scoped ENNReal ProbabilityTheory

/-! ## C40 -/

/-- C40: the first branch of `unroll_if` whose test succeeds does what the nested `if` does, for any nesting of `elif` and `else`, whatever tests and statements do. -/
theorem C40_unroll_if {S : Type} (M : Machine S) (hyes : ∀ σ, M.test PE.yes σ = true) (t : PE) (b o : List Stmt) (σ : S) :
    M.first (unrollIf t b o) σ = M.exec (.ifs t b o) σ := by
  fun_induction unrollIf t b o with
  | case1 t b => simp only [Machine.first, Machine.exec, Machine.execL]
  | case2 t b t' b' o' ih => simp only [Machine.first, Machine.exec, Machine.execL] at ih ⊢; rw [ih]
  | case3 t b o h1 h2 => simp only [Machine.first, Machine.exec, hyes, if_true]

/-- C40: `unroll_ifexp` does what the assignment of the conditional expression does, for any nesting. -/
theorem C40_unroll_ifexp {S : Type} (M : Machine S) (target : Target)
    (hif : ∀ t a b σ, M.act (.assign target (.ifexp t a b)) σ = if M.test t σ = true then M.act (.assign target a) σ else M.act (.assign target b) σ)
    (t a b : PE) (σ : S) : M.exec (unrollIfExp target t a b) σ = M.act (.assign target (.ifexp t a b)) σ := by
  fun_induction unrollIfExp target t a b with
  | case1 t a t' a' b' ih => rw [hif, ← ih]; simp only [Machine.exec, Machine.execL]
  | case2 t a b hb => rw [hif]; simp only [Machine.exec, Machine.execL]

section
variable {H : PyHost} {c : Ctx} {ρ : NS}

/-- C40: a test, rewritten by the compiler and evaluated, is an event that holds for the assignments that the test describes.  Missing: `and`, `or`, `not` and chains of
comparisons, for which it fails (`C40_and_wrong`, `C40_not_wrong`, `C40_chain_wrong`). -/
theorem C40_test_partial {p : PE} (hp : p.Plain H c ρ) {o : Obj} (h : p.rewrite.eval H c ρ = .ok o) :
    ∃ e, o = .ev e ∧ e.Valid ∧ ∀ ω, p.TypedAt H c ρ ω → (e.holds ω ↔ p.Means H c ρ ω) := plain_ok hp h

/-- C40: `l == r` with an expression in the variables on the left. -/
theorem C40_eq {l r : PE} {t : Tr} {o : Obj} (hl : l.eval H c ρ = .ok (.tr t)) (h : (PE.cmp l [.eq] [r]).rewrite.eval H c ρ = .ok o) :
    ∃ e w, o = .ev e ∧ r.eval H c ρ = .ok w ∧ ∀ ω, e.holds ω ↔ ∃ v, t.eval ω = some v ∧ w.at ω = some v := by
  obtain ⟨e, w, h1, h2, -, h3, -⟩ := member_ok (op := .eq) (r := r) (by simp) hl (by
    intro S hS
    exfalso
    simp only [PE.rewrite, rewriteCmp, PE.eval, PE.evalL, hl, hS, bind, Except.bind, evalBin, evalShift, Obj.vals, Obj.num?] at h
    cases h) h
  exact ⟨e, w, h1, h2, fun ω => by simpa using h3 ω⟩

/-- C40: `l in r`, of a collection. -/
theorem C40_in {l r : PE} {t : Tr} {vs : List Obj} {o : Obj} (hl : l.eval H c ρ = .ok (.tr t)) (hr : r.eval H c ρ = .ok (.coll vs))
    (h : (PE.cmp l [.isIn] [r]).rewrite.eval H c ρ = .ok o) :
    ∃ e, o = .ev e ∧ ∀ ω, e.holds ω ↔ ∃ v, t.eval ω = some v ∧ ∃ w ∈ vs, w.at ω = some v := by
  obtain ⟨e, w, h1, h2, -, h3, -⟩ := member_ok (op := .isIn) (r := r) (by simp) hl (by rw [hr]; simp) h
  rw [hr] at h2; injection h2 with h2; subst h2
  exact ⟨e, h1, fun ω => by simpa [Obj.Has] using h3 ω⟩

/-! ## C46 -/

theorem runConstants_closed : ∀ (cs : List (Target × PE)) (ρ ρ' : NS), ρ.Closed →
    (∀ p ∈ cs, ∀ ρ : NS, ρ.Closed → ∀ o, p.2.eval H c ρ = .ok o → o.Closed) → runConstants H c cs ρ = .ok ρ' → ρ'.Closed := by
  intro cs
  induction cs with
  | nil => intro ρ ρ' h _ hr; simp only [runConstants] at hr; injection hr with hr; subst hr; exact h
  | cons p cs ih =>
    intro ρ ρ' h hc hr
    obtain ⟨target, e⟩ := p
    cases target with
    | sub x i => simp only [runConstants] at hr; cases hr
    | name x =>
      simp only [runConstants, bind, Except.bind] at hr
      split at hr; · cases hr
      rename_i v hv
      refine ih _ _ ?_ (fun p hp => hc p (by simp [hp])) hr
      intro y o hy
      unfold NS.bind at hy
      split at hy
      · injection hy with hy; subst hy; exact hc (.name x, e) (by simp) ρ h _ hv
      · exact h y o hy

theorem runVariables_canonical : ∀ (xs : List String) (ρ : NS), ρ.Canonical → (runVariables xs ρ).Canonical := by
  intro xs
  induction xs with
  | nil => intro ρ h; exact h
  | cons x xs ih =>
    intro ρ h
    refine ih _ ⟨fun y X hy => ?_, fun y vs i X hy hi => ?_⟩
    · unfold NS.bind at hy
      split at hy
      · subst_vars; injection hy with hy; injection hy with hy; injection hy with hy; exact hy.symm
      · exact h.name y X hy
    · unfold NS.bind at hy
      split at hy
      · injection hy with hy; cases hy
      · exact h.elem y vs i X hy hi

theorem runArrays_canonical : ∀ (xs : List (String × PE)) (ρ ρ' : NS), ρ.Canonical → runArrays H c xs ρ = .ok ρ' → ρ'.Canonical := by
  intro xs
  induction xs with
  | nil => intro ρ ρ' h hr; simp only [runArrays] at hr; injection hr with hr; subst hr; exact h
  | cons p xs ih =>
    intro ρ ρ' h hr
    obtain ⟨x, n⟩ := p
    simp only [runArrays, bind, Except.bind] at hr
    split at hr; · cases hr
    rename_i v hv
    split at hr
    · rename_i z
      refine ih _ _ ⟨fun y X hy => ?_, fun y vs i X hy hi => ?_⟩ hr
      · unfold NS.bind at hy
        split at hy
        · injection hy with hy; simp [idArray] at hy
        · exact h.name y X hy
      · unfold NS.bind at hy
        split at hy
        · subst_vars
          injection hy with hy
          simp only [idArray, Obj.coll.injEq] at hy
          subst hy
          rw [List.getElem?_map] at hi
          cases hk : (List.range z.toNat)[i]? with
          | none => simp [hk] at hi
          | some k =>
            rw [hk] at hi
            have : k = i := by
              have h2 := (List.getElem?_eq_some_iff.1 hk).2
              simpa using h2.symm
            subst this
            simp at hi
            exact hi.symm
        · exact h.elem y vs i X hy hi
    · cases hr

theorem closed_canonical {ρ : NS} (h : ρ.Closed) : ρ.Canonical :=
  ⟨fun x X hx => absurd rfl ((h x _ hx).1 (.id X)), fun x vs i X hx hi => absurd rfl ((h x _ hx).2 vs rfl _ (List.mem_of_getElem? hi) (.id X))⟩

/-- C46: in the compiled module, every variable stands for itself and the elements of an array `x` for the variables `x[0]`, `x[1]`, ..., if the constants do not contain
variables. -/
theorem C46_names {p : Prog} {ρ₀ ρ : NS} (h₀ : ρ₀.Closed) (hc : ∀ q ∈ p.constants, ∀ ρ : NS, ρ.Closed → ∀ o, q.2.eval H c ρ = .ok o → o.Closed)
    (h : p.names H c ρ₀ = .ok ρ) : ρ.Canonical := by
  simp only [Prog.names, bind, Except.bind] at h
  split at h; · cases h
  rename_i ρ' hρ'
  exact runArrays_canonical _ _ _ (runVariables_canonical _ _ (closed_canonical (runConstants_closed _ _ _ h₀ hc hρ'))) h

variable {D : List String} {n : ℕ} {L : Lib} {μ : Dist → Measure ℝ}

/-- C46: the command of the compiled module does to a distribution what the statements of the source do, one after the other.  Missing: programs that are not `Safe`
(see `C40_test_partial`, and `C46_constants_wrong`). -/
theorem C46_command_partial {source : List Stmt} {p : Prog} {ρ₀ ρ : NS} {cmd : Cmd} (hcomp : compile D n source = .ok p) (hrun : p.run H c ρ₀ = .ok cmd)
    (hnames : p.names H c ρ₀ = .ok ρ) (hρ : ρ.Canonical) (hconst : ∀ q ∈ p.constants, q.2.IsConst H c ρ) (m : Measure Asg) [IsFiniteMeasure m]
    (hsafe : Stmt.SafeL H c L μ ρ source m) : cmd.sem μ m = Stmt.semL H c μ ρ source m := by
  simp only [compile, bind, Except.bind] at hcomp
  split at hcomp; · cases hcomp
  rename_i r hr
  injection hcomp with hcomp; subst hcomp
  simp only [Prog.run, hnames, bind, Except.bind] at hrun
  split at hrun; · cases hrun
  rename_i as has
  exact ((module_ok (L := L) (visit_ok n ["global"]) hr).2.runs ρ hρ (fun _ => hconst)).one has hrun m hsafe

/-- C46: the SPE of a program: compiled, run and interpreted, a program is the distribution that its source describes. -/
theorem C46_program_partial {o : Opts} (hc : o.c.Correct) (hsimp : SimpOK o.c o.L μ o.simp) {source : List Stmt} {p : Prog} {ρ₀ ρ : NS} {cmd : Cmd} {s : Spe}
    (hcomp : compile D n source = .ok p) (hrun : p.run H o.c ρ₀ = .ok cmd) (hnames : p.names H o.c ρ₀ = .ok ρ) (hρ : ρ.Canonical)
    (hconst : ∀ q ∈ p.constants, q.2.IsConst H o.c ρ) (hsafe : Stmt.SafeL H o.c o.L μ ρ source start) (hcmd : cmd.Safe o.c o.L μ start)
    (h : cmd.interp o none = .ok (some s)) : s.den μ = Stmt.semL H o.c μ ρ source start ∧ s.WF o.c o.L μ := by
  have : IsProbabilityMeasure start := by unfold start; infer_instance
  obtain ⟨h1, h2⟩ := C30_program_partial hc hsimp hcmd h
  exact ⟨h1.trans (C46_command_partial hcomp hrun hnames hρ hconst start hsafe), h2⟩

end

end Sppl
