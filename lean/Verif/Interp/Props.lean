import Verif.Interp.Lemmas

set_option linter.all false

/-!
# C29–C31: properties of the interpreter of programs
-/

namespace Sppl
open Classical MeasureTheory
open scoped ENNReal ProbabilityTheory

section
variable {o : Opts} (hc : o.c.Correct) {μ : Dist → Measure ℝ}
include hc

/-- C30: a program that is run on nothing denotes what it stands for.  `hsimp` is discharged below, for `SPPL_NO_SIMPLIFY` and for the
simplification without hash collisions. -/
theorem C30_program_partial (hsimp : SimpOK o.c o.L μ o.simp) {p : Cmd} {s : Spe} (hp : p.Safe o.c o.L μ start) (h : p.interp o none = .ok (some s)) :
    s.den μ = p.sem μ start ∧ s.WF o.c o.L μ :=
  have k : Rep o.c o.L μ (p.sem μ start) s := interp_ok hc hsimp p start hp none (some s) rfl h
  ⟨k.den, k.wf⟩

/-- C30: the same on an SPE. -/
theorem C30_run_partial (hsimp : SimpOK o.c o.L μ o.simp) {p : Cmd} {s s' : Spe} (hs : Rep o.c o.L μ (s.den μ) s) (hp : p.Safe o.c o.L μ (s.den μ))
    (h : p.interp o (some s) = .ok (some s')) : Rep o.c o.L μ (p.sem μ (s.den μ)) s' := interp_ok hc hsimp p (s.den μ) hp (some s) (some s') hs h

/-- C30: what `prob` answers after a program. -/
theorem C30_prob_partial (hsimp : SimpOK o.c o.L μ o.simp) {p : Cmd} {s : Spe} (hp : p.Safe o.c o.L μ start) (h : p.interp o none = .ok (some s)) {e : Ev}
    (he : e.Fits o.c (p.sem μ start)) {n : ℕ} {q : ℝ} (hq : s.prob o.c o.L n e = .ok q) : q = (p.sem μ start).real {ω | e.holds ω} :=
  Usable.prob hc (interp_ok hc hsimp p start hp none (some s) rfl h : Rep o.c o.L μ (p.sem μ start) s) he.usable hq

/-- C29: `IfElse` gives the mixture, over the branches, of what each branch makes of the distribution conditioned on its condition and on the failure of
the earlier ones, with the probabilities of these; they add up to one. -/
theorem C29_ifelse_partial (hsimp : SimpOK o.c o.L μ o.simp) {conds : List Ev} {els : Bool} {cmds : List Cmd} {s : Spe} {s' : Option Spe} (hs : Rep o.c o.L μ (s.den μ) s)
    (hp : (Cmd.ifelse conds els cmds).Safe o.c o.L μ (s.den μ)) (h : (Cmd.ifelse conds els cmds).interp o (some s) = .ok s') :
    ∃ r, s' = some r ∧ r.den μ = branches (s.den μ) (firsts ∅ (condSets conds els)) (Cmd.semL μ cmds) ∧ r.WF o.c o.L μ ∧
      ((firsts ∅ (condSets conds els)).map (s.den μ).real).sum = 1 ∧ (condSets conds els).length = cmds.length := by
  have hm := hp
  simp only [Cmd.Safe] at hm
  simp only [Cmd.interp, needSpe, bind, Except.bind] at h
  split at h; · cases h
  rename_i es hes
  split at h; · cases h
  rename_i ds hds
  split at h; · cases h
  rename_i r hr
  cases h
  have h1 := normalized hc (ifEvents_ok hm.1 hes) (mapM_ok hds)
  obtain ⟨k1, k2, k3⟩ := ifBlock_ok hc hsimp hs h1 (branches_run (fun p _ => interp_ok hc hsimp p) hm.2) (lens o μ cmds) hr
  refine ⟨r, rfl, k1.den, k1.wf, k3, ?_⟩
  rw [firsts_length, semL_length] at k2
  exact k2

/-- C29 for one condition and an `else`. -/
theorem C29_if_then_else_partial (hsimp : SimpOK o.c o.L μ o.simp) {e : Ev} {p q : Cmd} {s : Spe} {s' : Option Spe} (hs : Rep o.c o.L μ (s.den μ) s)
    (hp : (Cmd.ifelse [e] true [p, q]).Safe o.c o.L μ (s.den μ)) (h : (Cmd.ifelse [e] true [p, q]).interp o (some s) = .ok s') :
    ∃ r, s' = some r ∧ ∀ A, r.den μ A = s.den μ {ω | e.holds ω} * p.sem μ ((s.den μ)[|{ω | e.holds ω}]) A +
      s.den μ {ω | ¬ e.holds ω} * q.sem μ ((s.den μ)[|{ω | ¬ e.holds ω}]) A := by
  obtain ⟨r, h1, h2, -⟩ := C29_ifelse_partial hc hsimp hs hp h
  refine ⟨r, h1, fun A => ?_⟩
  rw [h2]
  have e1 : ({ω | e.holds ω} \ ∅ : Set Asg) = {ω | e.holds ω} := by simp
  have e2 : (Set.univ \ (∅ ∪ {ω | e.holds ω}) : Set Asg) = {ω | ¬ e.holds ω} := by ext ω; simp
  simp only [branches, condSets, firsts, if_true, List.map_cons, List.map_nil, List.cons_append, List.nil_append, Cmd.semL, e1, e2, List.zipWith_cons_cons,
    List.zipWith_nil_left, List.sum_cons, List.sum_nil, add_zero, Measure.add_apply, Measure.smul_apply, smul_eq_mul]

/-- C30: `Switch` is the same with the cases `t << value`. -/
theorem C30_switch_partial (hsimp : SimpOK o.c o.L μ o.simp) {t : Tr} {vals : List SwVal} {cmds : List Cmd} {s : Spe} {s' : Option Spe} (hs : Rep o.c o.L μ (s.den μ) s)
    (hp : (Cmd.switch t vals cmds).Safe o.c o.L μ (s.den μ)) (h : (Cmd.switch t vals cmds).interp o (some s) = .ok s') :
    ∃ r, s' = some r ∧ r.den μ = branches (s.den μ) (firsts ∅ (caseSets t vals)) (Cmd.semL μ cmds) ∧ r.WF o.c o.L μ ∧
      ((firsts ∅ (caseSets t vals)).map (s.den μ).real).sum = 1 ∧ vals.length = cmds.length := by
  have hm := hp
  simp only [Cmd.Safe] at hm
  simp only [Cmd.interp, bind, Except.bind] at h
  split at h; · cases h
  rename_i es hes
  split at h; · cases h
  rename_i r hr
  cases h
  obtain ⟨k1, k2, k3⟩ := ifBlock_ok hc hsimp hs (plainEvents (switchEvents_ok hm.1 hes)) (branches_run (fun p _ => interp_ok hc hsimp p) hm.2) (lens o μ cmds) hr
  refine ⟨r, rfl, k1.den, k1.wf, k3, ?_⟩
  rw [firsts_length, semL_length, caseSets, List.length_map] at k2
  exact k2
end

/-- C30: `Skip` does nothing. -/
theorem C30_skip (o : Opts) (s : Option Spe) : Cmd.skip.interp o s = .ok s := by simp [Cmd.interp]

/-- C30: a sequence is the first part followed by the second, with the errors of either. -/
theorem C30_sequence (o : Opts) (ps qs : List Cmd) (s : Option Spe) :
    (Cmd.seq (ps ++ qs)).interp o s = (do
      let x ← (Cmd.seq ps).interp o s
      (Cmd.seq qs).interp o x) := by
  simp only [Cmd.interp, interpL_eq, List.map_append, List.foldlM_append]

/-- C30: a sequence of one command is that command. -/
theorem C30_sequence_one (o : Opts) (p : Cmd) (s : Option Spe) : (Cmd.seq [p]).interp o s = p.interp o s := by
  simp only [Cmd.interp, Cmd.interpL, List.foldlM_cons, List.foldlM_nil, bind, Except.bind, pure, Except.pure]
  cases p.interp o s <;> rfl

/-- C30: `For(n0, n1, f)` is the sequence of `f(n0)`, ..., `f(n1 - 1)` (of nothing if `n1 <= n0`). -/
theorem C30_for (o : Opts) (n0 n1 : ℤ) (f : ℤ → Cmd) (s : Option Spe) :
    (Cmd.forr n0 n1 f).interp o s = (Cmd.seq ((List.range (n1 - n0).toNat).map (fun k : ℕ => f (n0 + (k : ℤ))))).interp o s := by
  simp only [Cmd.interp, interpL_eq, intRange, List.map_map, List.foldlM_map, Function.comp_def]

section
variable {o : Opts} {μ : Dist → Measure ℝ} {X : String} {d : Source} {s : Spe} {s' : Option Spe}

/-- C31: `Sample` adds the variable `X`, that was not in scope; the new variables have the old distribution and `X` that of `d`, independently:
the probability of a set of assignments that do not depend on `X` and a set of assignments that depend on `X` only is the product. -/
theorem C31_sample (hs : Rep o.c o.L μ (s.den μ) s) (hd : d.WF o.L μ) (h : (Cmd.sample X d).interp o (some s) = .ok s') :
    ∃ r, s' = some r ∧ X ∉ s.symbols ∧ r.symbols = insert X s.symbols ∧ r.WF o.c o.L μ ∧
      ∀ A B : Set Asg, MeasurableSet A → MeasurableSet B → (∀ ω ω' : Asg, (∀ x, x ≠ X → ω x = ω' x) → (ω ∈ A ↔ ω' ∈ A)) →
        (∀ ω ω' : Asg, ω X = ω' X → (ω ∈ B ↔ ω' ∈ B)) → r.den μ (A ∩ B) = s.den μ A * d.law μ X B := by
  have k : RepO o.c o.L μ _ s' := sample_ok (o := o) (X := X) hd (s.den μ) (some s) s' hs h
  simp only [Cmd.interp, bind, Except.bind] at h
  split at h; · cases h
  rename_i leaf hleaf
  obtain ⟨k1, k2⟩ := source_ok (c := o.c) hd hleaf
  split at h; · cases h
  rename_i r hr
  cases h
  replace k : Rep o.c o.L μ _ r := k
  have hwf : ∀ t ∈ [s, leaf], t.WF o.c o.L μ := by
    intro t ht; simp at ht; rcases ht with rfl | rfl
    · exact hs.wf
    · exact k1.wf
  have hdis := mkProd_disj hwf hr
  obtain ⟨g1, g2, -⟩ := mkProd_ok hwf hr
  have p1 := k1.wf.prob
  have p2 := hs.wf.prob
  rw [k1.den] at p1
  refine ⟨r, rfl, ?_, ?_, g1, fun A B hA hB hA' hB' => ?_⟩
  · simpa [k2] using hdis
  · rw [g2]
    ext x
    simp [Spe.symbols, Spe.symbolsL, k2, or_comm]
  · rw [k.den, withIndep, Measure.map_apply (measurable_addVar X) (hA.inter hB)]
    have : addVar X ⁻¹' (A ∩ B) = A ×ˢ B := by
      ext p
      have e1 : addVar X p ∈ A ↔ p.1 ∈ A := hA' _ _ (fun x hx => by simp [addVar, hx])
      have e2 : addVar X p ∈ B ↔ p.2 ∈ B := hB' _ _ (by simp [addVar])
      simp only [Set.mem_preimage, Set.mem_inter_iff, Set.mem_prod, e1, e2]
    rw [this, Measure.prod_prod]

/-- C31: the first `Sample` of a program. -/
theorem C31_sample_first (hd : d.WF o.L μ) (h : (Cmd.sample X d).interp o none = .ok s') :
    ∃ r, s' = some r ∧ r.symbols = {X} ∧ r.WF o.c o.L μ ∧ r.den μ = d.law μ X := by
  simp only [Cmd.interp, bind, Except.bind] at h
  split at h; · cases h
  rename_i leaf hleaf
  cases h
  obtain ⟨k1, k2⟩ := source_ok (c := o.c) hd hleaf
  exact ⟨leaf, rfl, k2, k1.wf, k1.den⟩

/-- C31: a variable in scope cannot be sampled again. -/
theorem C31_in_scope (hs : s.WF o.c o.L μ) (hd : d.WF o.L μ) (hX : X ∈ s.symbols) : (Cmd.sample X d).interp o (some s) ≠ .ok s' := by
  intro h
  simp only [Cmd.interp, bind, Except.bind] at h
  split at h; · cases h
  rename_i leaf hleaf
  obtain ⟨k1, k2⟩ := source_ok (c := o.c) hd hleaf
  split at h; · cases h
  rename_i r hr
  have hwf : ∀ t ∈ [s, leaf], t.WF o.c o.L μ := by
    intro t ht; simp at ht; rcases ht with rfl | rfl
    · exact hs
    · exact k1.wf
  have hdis := mkProd_disj hwf hr
  simp [k2, hX] at hdis
end

/-! ## The simplification of mixtures -/

/-- With `SPPL_NO_SIMPLIFY` nothing is done. -/
theorem simpOK_none (c : Ctx) (L : Lib) (μ : Dist → Measure ℝ) : SimpOK c L μ .ok := by
  intro m s s' hs h; cases h; exact hs

/-- Leaves among the children of a mixture that have the same `hash` are equal. -/
def NoCollision (hash : Spe → ℤ) : Spe → Prop
  | .sum cs _ => ∀ s ∈ cs, ∀ t ∈ cs, s.isLeaf = true → t.isLeaf = true → hash s = hash t → s.eqPy t = true
  | _ => True

/-- The simplification that stops at a collision. -/
noncomputable def guarded (hash : Spe → ℤ) (s : Spe) : Res Spe := if NoCollision hash s then simplifySum hash s else .error .recursion

theorem simpOK_guarded (hash : Spe → ℤ) (c : Ctx) (L : Lib) (μ : Dist → Measure ℝ) : SimpOK c L μ (guarded hash) := by
  intro m s s' hs h
  unfold guarded at h
  split at h; swap; · cases h
  rename_i hn
  cases s with
  | sum cs ws =>
    have k (E) := simplifySum_ok (E := E) hs.wf (hs.ready E) hn h
    have k0 := k (fun _ => [])
    exact ⟨k0.1, fun E => (k E).2.2.2.2, Finset.subset_empty.1 (hs.atoms ▸ k0.2.2.1), by rw [k0.2.2.2.1, hs.den]⟩
  | _ => simp [simplifySum] at h

/-- C30: a program run with the simplification of the library, if no mixture made on the way has two different leaves of the same hash (then the run with
`guarded` succeeds). -/
theorem C30_simplified_partial {o : Opts} (hc : o.c.Correct) {μ : Dist → Measure ℝ} {p : Cmd} {s : Spe} (hp : p.Safe o.c o.L μ start)
    (hg : p.interp { o with simp := guarded o.hash } none = .ok (some s)) :
    p.interp { o with simp := simplifySum o.hash } none = .ok (some s) ∧ s.den μ = p.sem μ start ∧ s.WF o.c o.L μ := by
  refine ⟨?_, C30_program_partial (o := { o with simp := guarded o.hash }) hc (simpOK_guarded _ _ _ _) hp hg⟩
  refine interp_mono (o := { o with simp := guarded o.hash }) (simp' := simplifySum o.hash) (fun s s' h => ?_) p _ _ hg
  simp only [guarded] at h
  split at h
  · exact h
  · cases h

end Sppl
