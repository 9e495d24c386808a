import Verif.Interp.RunProps

set_option linter.all false

/-!
# C23, C52: a session of conditionings and queries

After a program, a user conditions on one event after the other and asks for probabilities in between.
-/

namespace Sppl
open Classical MeasureTheory
open scoped ENNReal ProbabilityTheory

/-- The user's loop `for e in es: s = s.condition(e)`. -/
noncomputable def condAll (c : Ctx) (L : Lib) (hash : Spe → ℤ) (n : ℕ) (es : List Ev) (s : Spe) : Res Spe := es.foldlM (fun s e => s.condition c L hash n e) s

section
variable {c : Ctx} {L : Lib} {hash : Spe → ℤ} {μ : Dist → Measure ℝ} {Γ : Scope}

theorem Usable.cond {m : Measure Asg} {e : Ev} (h : Usable c m e) (A : Set Asg) : Usable c (m[|A]) e :=
  ⟨h.made, h.nomId, ProbabilityTheory.cond_absolutelyContinuous.ae_le h.regular, ProbabilityTheory.cond_absolutelyContinuous.ae_le h.suits⟩

theorem measurable_events (es : List Ev) : MeasurableSet {ω : Asg | ∀ e ∈ es, e.holds ω} := by
  induction es with
  | nil => simp
  | cons e es ih =>
    have : {ω : Asg | ∀ f ∈ e :: es, f.holds ω} = {ω | e.holds ω} ∩ {ω | ∀ f ∈ es, f.holds ω} := by ext ω; simp
    rw [this]; exact (Ev.measurable e).inter ih

theorem State.condAll (hc : c.Correct) : ∀ (es : List Ev) {m : Measure Asg} {s : Spe}, State c L μ Γ m s → (∀ e ∈ es, Γ.Asks c e ∧ Usable c m e) → m {ω | ∀ e ∈ es, e.holds ω} ≠ 0 →
    ∃ N s', (∀ n, N ≤ n → condAll c L hash n es s = .ok s') ∧ State c L μ Γ (m[|{ω | ∀ e ∈ es, e.holds ω}]) s' := by
  intro es
  induction es with
  | nil =>
    intro m s hs _ _
    have hp : IsProbabilityMeasure m := by rw [← hs.rep.den]; exact hs.rep.wf.prob
    refine ⟨0, s, fun n _ => rfl, ?_⟩
    have : {ω : Asg | ∀ e ∈ ([] : List Ev), e.holds ω} = Set.univ := by simp
    rw [this, ProbabilityTheory.cond_univ]
    exact hs
  | cons e es ih =>
    intro m s hs he h0
    have hp : IsProbabilityMeasure m := by rw [← hs.rep.den]; exact hs.rep.wf.prob
    have hset : {ω : Asg | ∀ f ∈ e :: es, f.holds ω} = {ω | e.holds ω} ∩ {ω | ∀ f ∈ es, f.holds ω} := by ext ω; simp
    rw [hset] at h0 ⊢
    have mA : MeasurableSet {ω : Asg | e.holds ω} := Ev.measurable e
    have h1 : m {ω | e.holds ω} ≠ 0 := fun h => h0 (measure_mono_null Set.inter_subset_left h)
    obtain ⟨N1, s1, a1, a2⟩ := State.condition (hash := hash) hc hs (he e (by simp)).1 (he e (by simp)).2 h1
    have h2 : (m[|{ω | e.holds ω}]) {ω | ∀ f ∈ es, f.holds ω} ≠ 0 := by
      rw [ProbabilityTheory.cond_apply mA]
      exact mul_ne_zero (ENNReal.inv_ne_zero.2 (measure_ne_top _ _)) h0
    obtain ⟨N2, s2, b1, b2⟩ := ih a2 (fun f hf => ⟨(he f (by simp [hf])).1, (he f (by simp [hf])).2.cond _⟩) h2
    refine ⟨max N1 N2, s2, fun n hn => ?_, ?_⟩
    · have := b1 n (by omega)
      simp only [Sppl.condAll, List.foldlM_cons, a1 n (by omega), bind, Except.bind] at this ⊢
      exact this
    · rw [ProbabilityTheory.cond_cond_eq_cond_inter mA (measurable_events es)] at b2
      exact b2
end

section
variable {o : Opts} (hc : o.c.Correct) {μ : Dist → Measure ℝ}
include hc

/-- **C23, C52 (sessions).** After a program that runs by the rules of `Runs`, conditioning on any number of events in turn
returns, if all of them together have positive probability.  The model after that denotes the distribution of the program given all the
events, and `prob` returns the conditional probability of further events.  Partial as C52: the events are those of
`Scope.Asks`. -/
theorem C23_session_partial (hsimp : o.simp = .ok ∨ o.simp = simplifySum o.hash) {p : Cmd} {Δ : Scope} (hp : p.Safe o.c o.L μ start) (h : Runs o.c μ .start start p Δ) (hv : Δ.vars ≠ ∅) :
    ∃ N s, (∀ n, N ≤ n → p.interp { o with n := n } none = .ok (some s)) ∧
      ∀ es : List Ev, (∀ e ∈ es, Δ.Asks o.c e ∧ e.Fits o.c (p.sem μ start)) → p.sem μ start {ω | ∀ e ∈ es, e.holds ω} ≠ 0 →
        ∃ N s', (∀ n, N ≤ n → condAll o.c o.L o.hash n es s = .ok s') ∧ s'.den μ = (p.sem μ start)[|{ω | ∀ e ∈ es, e.holds ω}] ∧
          ∀ q : Ev, Δ.Asks o.c q → q.Fits o.c (p.sem μ start) → ∃ N, ∀ n, N ≤ n →
            s'.prob o.c o.L n q = .ok ((p.sem μ start).real {ω | q.holds ω ∧ ∀ e ∈ es, e.holds ω} / (p.sem μ start).real {ω | ∀ e ∈ es, e.holds ω}) := by
  obtain ⟨N, s', k1, k2⟩ := runs_state hc hsimp hp h
  cases s' with
  | none => exact (hv k2.2).elim
  | some s =>
    have k2 : State o.c o.L μ Δ (p.sem μ start) s := k2
    refine ⟨N, s, k1, fun es he h0 => ?_⟩
    obtain ⟨N', s', a1, a2⟩ := State.condAll (hash := o.hash) hc es k2 (fun e h => ⟨(he e h).1, (he e h).2.usable⟩) h0
    refine ⟨N', s', a1, a2.rep.den, fun q hq hf => ?_⟩
    obtain ⟨M, hM⟩ := State.asks hc a2 hq (hf.usable.cond _)
    refine ⟨M, fun n hn => ?_⟩
    rw [hM n hn]
    congr 1
    have hset : {ω : Asg | ∀ e ∈ es, e.holds ω} ∩ {ω | q.holds ω} = {ω | q.holds ω ∧ ∀ e ∈ es, e.holds ω} := by ext ω; simp [and_comm]
    rw [Measure.real, ProbabilityTheory.cond_apply (measurable_events es), hset, ENNReal.toReal_mul, ENNReal.toReal_inv, inv_mul_eq_div]
    rfl

/-- **C23 (the order of conditioning does not matter).** -/
theorem C23_order_partial (hsimp : o.simp = .ok ∨ o.simp = simplifySum o.hash) {p : Cmd} {Δ : Scope} (hp : p.Safe o.c o.L μ start) (h : Runs o.c μ .start start p Δ) (hv : Δ.vars ≠ ∅)
    {es fs : List Ev} (hef : es.Perm fs) (he : ∀ e ∈ es, Δ.Asks o.c e ∧ e.Fits o.c (p.sem μ start)) (h0 : p.sem μ start {ω | ∀ e ∈ es, e.holds ω} ≠ 0) :
    ∃ N s s' s'', (∀ n, N ≤ n → p.interp { o with n := n } none = .ok (some s) ∧ condAll o.c o.L o.hash n es s = .ok s' ∧ condAll o.c o.L o.hash n fs s = .ok s'') ∧ s'.den μ = s''.den μ := by
  obtain ⟨N, s, k1, k2⟩ := C23_session_partial hc hsimp hp h hv
  have hset : {ω : Asg | ∀ e ∈ fs, e.holds ω} = {ω | ∀ e ∈ es, e.holds ω} := by ext ω; simp [hef.mem_iff]
  obtain ⟨N1, s1, a1, a2, -⟩ := k2 es he h0
  obtain ⟨N2, s2, b1, b2, -⟩ := k2 fs (fun e h => he e (hef.mem_iff.2 h)) (by rw [hset]; exact h0)
  exact ⟨max N (max N1 N2), s, s1, s2, fun n hn => ⟨k1 n (by omega), a1 n (by omega), b1 n (by omega)⟩, by rw [a2, b2, hset]⟩
end

/-! ## Non-vacuity -/

/-- `X >> uniform(0, 1)`; `Y >> coin`. -/
noncomputable def progXY : Cmd := .seq [.sample "X" (.one (.real .cont d0 unitIvl)), .sample "Y" (.one coinD)]

theorem progXY_sem : progXY.sem muU start = unifCoin.den muU := by
  simp only [progXY, Cmd.sem, Cmd.semL]
  exact prog1_two

/-- `progXY`, and the events `(X < 1/2) | (Y == 'a')` and `Y == 'a'`. -/
example : ∃ Δ : Scope, Δ.vars ≠ ∅ ∧ progXY.Safe ctx0 (libOf muU) muU start ∧ Runs ctx0 muU .start start progXY Δ ∧
    (∀ e ∈ [unifCoinEv, strEv "Y" "a"], Δ.Asks ctx0 e ∧ e.Fits ctx0 (progXY.sem muU start)) ∧ progXY.sem muU start {ω | ∀ e ∈ [unifCoinEv, strEv "Y" "a"], e.holds ω} ≠ 0 := by
  have hG : Scope.Less ⟨{"X", "Y"}, {"X", "Y"}, {"X", "Y"}, ∅, true, ∅⟩ ((Scope.start.add "X" (.one (.real .cont d0 unitIvl))).add "Y" (.one coinD)) := by
    constructor <;> simp [Scope.add, Scope.start, Source.Every, Distr.NotDisc, coinD, Finset.pair_comm]
  have hX : Scope.Whole ⟨{"X", "Y"}, {"X", "Y"}, {"X", "Y"}, ∅, true, ∅⟩ "X" ((1 / 2 : ℝ) : EReal) := .inl (by simp)
  refine ⟨⟨{"X", "Y"}, {"X", "Y"}, {"X", "Y"}, ∅, true, ∅⟩, by simp, ?_, ?_, ?_, ?_⟩
  · simp only [progXY, Cmd.Safe, Cmd.SafeS]
    exact ⟨.one unifD_wf, .one coinD_wf, trivial⟩
  · refine .cons (.sample (by simp [Scope.start]) (by simp [Source.Callable, Distr.Callable])) (.cons (.less (.sample (by simp [Scope.start, Scope.add]) ?_) hG) .nil)
    norm_num [Source.Callable, coinD, Distr.Callable]
  · rw [progXY_sem]
    intro e he
    simp only [List.mem_cons, List.not_mem_nil, or_false] at he
    rcases he with rfl | rfl
    · refine ⟨.inl ⟨⟨unifCoinEv_simple _ hX, by simp [unifCoinEv, strEv, Ev.symbols, Ev.symbolsL, Tr.symbols]⟩, .inl rfl⟩, (unifCoinEv_simple (fun _ _ => True) trivial).made.1,
        by simp [unifCoinEv, strEv, NomId, Tr.isId], by simp [unifCoinEv, strEv, NomSome], Filter.Eventually.of_forall (Ev.Simple.made (c := ctx0) (unifCoinEv_simple (fun _ _ => True) trivial)).2, ?_⟩
      filter_upwards [unifCoin_kinds] with ω hω
      obtain ⟨⟨x, hx⟩, y, hy⟩ := hω
      exact ⟨⟨x, hx⟩, ⟨y, hy⟩, trivial⟩
    · refine ⟨.inl ⟨⟨.nom (by simp [Nom.WF]), by simp [strEv, Ev.symbols, Tr.symbols]⟩, .inl rfl⟩, strEv_made _ _ _, by simp [strEv, Ev.All, NomId, Tr.isId], by simp [strEv, Ev.All, NomSome],
        by filter_upwards with ω; simp [strEv, Ev.Regular, Tr.Regular], ?_⟩
      filter_upwards [unifCoin_kinds] with ω hω
      simpa [strEv, Ev.Typed, Tr.eval] using hω.2
  · rw [progXY_sem]
    refine (lt_of_lt_of_le (unifCoin_a (e := strEv "Y" "a") (fun ω h => h)) (measure_mono ?_)).ne'
    intro ω h e he
    simp only [List.mem_cons, List.not_mem_nil, or_false] at he
    rcases he with rfl | rfl
    · exact (Ev.holds_or ω _).2 ⟨strEv "Y" "a", by simp, h⟩
    · exact h

end Sppl
