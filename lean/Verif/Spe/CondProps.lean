import Verif.Spe.Props
import Verif.Spe.CondLemmas
import Verif.Spe.HashLemmas
import Verif.Spe.KindLemmas

set_option linter.all false

/-!
# Properties of conditioning, simplification and the constructors of SPEs
-/

namespace Sppl
open Classical MeasureTheory
open scoped ENNReal ProbabilityTheory

/-! ## C21–C24: conditioning -/

/-- The SPEs and events for which conditioning is exact. -/
structure CanCond (c : Ctx) (L : Lib) (μ : Dist → Measure ℝ) (E : String → Env) (s : Spe) (e : Ev) : Prop where
  wf : s.WF c L μ
  ready : s.Ready E
  asks : Asks c μ s e
  kinds : s.isLeaf = true ∨ ∀ᵐ ω ∂(s.den μ), e.Suits ω

section
variable {c : Ctx} (hc : c.Correct) {L : Lib} {μ : Dist → Measure ℝ} {hash : Spe → ℤ} {n : ℕ} {E : String → Env} {s s' : Spe} {e : Ev}
include hc

/-- C21: what `condition` returns denotes the conditional distribution given the event.  Missing from the full claim: mixtures with weights
zero, atomic leaves of one variable with different derived variables, and events that compare a variable with the wrong kind of value or
on which a variable is undefined, for which `condition` is wrong (see below), and the restrictions of C18. -/
theorem C21_condition_partial (H : CanCond c L μ E s e) (h : s.condition c L hash n e = .ok s') :
    s'.den μ = (s.den μ)[|{ω | e.holds ω}] :=
  (condition_ok hc H.wf H.ready H.asks.can H.asks.vars H.asks.regular H.kinds h).den

/-- C21 in terms of probabilities of sets of assignments. -/
theorem C21_condition_measure_partial (H : CanCond c L μ E s e) (h : s.condition c L hash n e = .ok s') (A : Set Asg) (hA : MeasurableSet A) :
    s'.den μ A = s.den μ ({ω | e.holds ω} ∩ A) / s.den μ {ω | e.holds ω} := by
  rw [C21_condition_partial hc H h, ProbabilityTheory.cond_apply (show MeasurableSet {ω | e.holds ω} from Ev.measurable_set e), ENNReal.div_eq_inv_mul]

/-- C22: `condition` does not return if the probability of the event is zero. -/
theorem C22_positive_partial (H : CanCond c L μ E s e) (h : s.condition c L hash n e = .ok s') : 0 < s.den μ {ω | e.holds ω} :=
  pos_iff_ne_zero.2 (condition_ok hc H.wf H.ready H.asks.can H.asks.vars H.asks.regular H.kinds h).mass

/-- C22 in terms of `prob`. -/
theorem C22_prob_positive_partial (H : CanCond c L μ E s e) (h : s.condition c L hash n e = .ok s') {n' : ℕ} {p : ℝ} (hp : s.prob c L n' e = .ok p) :
    0 < p := by
  have := H.wf.prob
  rw [H.asks.prob hc H.wf hp]
  exact real_pos (C22_positive_partial hc H h).ne'

/-- C24 for `condition`: the result is well-formed, over the same variables, and ready for more conditioning. -/
theorem C24_condition_partial (H : CanCond c L μ E s e) (h : s.condition c L hash n e = .ok s') :
    s'.WF c L μ ∧ s'.symbols = s.symbols ∧ s'.Ready E :=
  have k := condition_ok hc H.wf H.ready H.asks.can H.asks.vars H.asks.regular H.kinds h
  ⟨k.wf, k.syms, k.ready E H.ready⟩
end

theorem made_true {c : Ctx} : (∀ t : Tr, t.MadeG false c → t.MadeG true c) ∧ ∀ e : Ev, e.MadeG false c → e.MadeG true c := by
  apply sizeInd
  · intro t ihT ihE h
    cases h with
    | id s => exact .id s
    | radical h1 h2 => exact .radical (ihT _ (by simp; try omega) h1) h2
    | exp h1 h2 => exact .exp (ihT _ (by simp; try omega) h1) h2
    | log h1 h2 => exact .log (ihT _ (by simp; try omega) h1) h2
    | abs h1 => exact .abs (ihT _ (by simp; try omega) h1)
    | recip h1 => exact .recip (ihT _ (by simp; try omega) h1)
    | poly h1 h2 => exact .poly (ihT _ (by simp; try omega) h1) h2
    | pw h1 h2 h3 => exact .pw (fun t ht => ihT t (Tr.sizeOf_pw_left ht) (h1 t ht)) (fun e he => ihE e (Tr.sizeOf_pw_right he) (h2 e he)) h3
  · intro e ihT ihE h
    cases h with
    | ivl h1 h2 => exact .ivl (ihT _ (by simp; try omega) h1) h2
    | fin h1 h2 => exact .fin (ihT _ (by simp; try omega) h1) h2
    | nom h1 h2 h3 => exact .nom (ihT _ (by simp; try omega) h1) (by simp) (fun n hn => ⟨(h3 n hn).1, by simp⟩)
    | or h1 h2 => exact .or h1 (fun e he => ihE e (Ev.sizeOf_or he) (h2 e he))
    | and h1 h2 => exact .and h1 (fun e he => ihE e (Ev.sizeOf_and he) (h2 e he))

/-- What can be asked again after conditioning. -/
theorem canAsk_after {c : Ctx} {L : Lib} {μ : Dist → Measure ℝ} {s s' : Spe} (hs : s'.WF c L μ) (ha : s'.atomSyms ⊆ s.atomSyms) {b : Ev}
    (hb : b.Made c) (hb' : b.NoNom ∨ s.atomSyms = ∅) : s'.CanAsk c b := by
  have hfree : b.NomFree s'.atomSyms := by
    rw [nomFree_iff]
    rcases hb' with h | h
    · have : ∀ {e : Ev}, e.NoNom → e.All (NumOn (· ∈ s'.atomSyms)) := by
        intro e
        induction e using Ev.ind with
        | lit e t ht =>
          intro h
          rw [Ev.all_lit ht]
          intro hn
          cases h <;> simp [Ev.isNom] at hn
        | or es ih => intro h; cases h with | or h => exact Ev.all_or.2 (fun e he => ih e he (h e he))
        | and es ih => intro h; cases h with | and h => exact Ev.all_and.2 (fun e he => ih e he (h e he))
      exact this h
    · have he : s'.atomSyms = ∅ := Finset.subset_empty.1 (h ▸ ha)
      rw [he]
      have : b.All (fun _ => True) := by
        induction b using Ev.ind with
        | lit e t ht => exact .lit ht trivial
        | or es ih => cases hb with | or _ h => exact Ev.all_or.2 (fun e he => ih e he (h e he))
        | and es ih => cases hb with | and _ h => exact Ev.all_and.2 (fun e he => ih e he (h e he))
      exact this.mono (fun l t _ _ _ k _ hk => by simp at hk)
  cases s' with
  | real => exact made_true.2 b hb
  | atomic X v env =>
    refine ⟨made_true.2 b hb, ?_⟩
    rcases hb' with h | h
    · exact h
    · exfalso
      cases hs with
      | atomic henv _ _ =>
      have hX : X ∈ (Spe.atomic X v env).atomSyms := by
        simp only [Spe.atomSyms, List.mem_toFinset]
        exact (by simpa [Env.keys] using henv.built.base_mem)
      have := ha hX
      rw [h] at this; simp at this
  | nominal => exact hb
  | sum => exact ⟨hb, hfree⟩
  | prod => exact ⟨hb, hfree⟩

section
variable {c : Ctx} (hc : c.Correct) {L : Lib} {μ : Dist → Measure ℝ} {hash : Spe → ℤ} {n : ℕ} {E : String → Env} {s s' : Spe} {a b g : Ev}
include hc

theorem asks_after (H : CanCond c L μ E s a) (h : s.condition c L hash n a = .ok s') (hb : b.Made c) (hb' : b.NoNom ∨ s.atomSyms = ∅)
    (hv : b.symbols ⊆ s.symbols) (hr : ∀ᵐ ω ∂(s.den μ), b.Regular ω) : Asks c μ s' b := by
  have k := condition_ok hc H.wf H.ready H.asks.can H.asks.vars H.asks.regular H.kinds h
  refine ⟨canAsk_after k.wf k.atoms hb hb', by rw [k.syms]; exact hv, ?_⟩
  rw [k.den]
  exact ProbabilityTheory.cond_absolutelyContinuous.ae_le hr

/-- C23: `prob(a & b) = prob(a) * condition(a).prob(b)`. -/
theorem C23_chain_partial (H : CanCond c L μ E s a) (h : s.condition c L hash n a = .ok s') (hb : b.Made c) (hb' : b.NoNom ∨ s.atomSyms = ∅)
    (hv : b.symbols ⊆ s.symbols) (hr : ∀ᵐ ω ∂(s.den μ), b.Regular ω) (hg : Asks c μ s g) (hand : a.land c b = .ok g)
    {n' m k : ℕ} {p q r : ℝ} (hp : s.prob c L n' a = .ok p) (hq : s'.prob c L m b = .ok q) (hr' : s.prob c L k g = .ok r) : r = p * q := by
  have hpr := H.wf.prob
  have K := condition_ok hc H.wf H.ready H.asks.can H.asks.vars H.asks.regular H.kinds h
  rw [H.asks.prob hc H.wf hp, (asks_after hc H h hb hb' hv hr).prob hc K.wf hq, hg.prob hc H.wf hr', K.den]
  have hset : {ω | g.holds ω} = {ω | a.holds ω} ∩ {ω | b.holds ω} := by
    ext ω; exact (Ev.land_spec H.asks.can.valid (Ev.Made.valid _ hb) hand).2 ω
  have hm : MeasurableSet {ω | a.holds ω} := Ev.measurable_set a
  rw [hset]
  simp only [Measure.real, ← ENNReal.toReal_mul]
  rw [mul_comm, show a.set = {ω | a.holds ω} from rfl, ProbabilityTheory.cond_mul_eq_inter hm]

/-- C23: conditioning twice is conditioning on the conjunction. -/
theorem C23_condition_twice_partial {s'' t : Spe} (H : CanCond c L μ E s a) (h : s.condition c L hash n a = .ok s') (hb : b.Made c)
    (hb' : b.NoNom ∨ s.atomSyms = ∅) (hv : b.symbols ⊆ s.symbols) (hr : ∀ᵐ ω ∂(s.den μ), b.Regular ω) (hk : ∀ᵐ ω ∂(s.den μ), b.Suits ω)
    (hg : CanCond c L μ E s g) (hand : a.land c b = .ok g) {n' m : ℕ} (h2 : s'.condition c L hash n' b = .ok s'')
    (h3 : s.condition c L hash m g = .ok t) : s''.den μ = t.den μ := by
  have hpr := H.wf.prob
  have K := condition_ok hc H.wf H.ready H.asks.can H.asks.vars H.asks.regular H.kinds h
  have hA := asks_after hc H h hb hb' hv hr
  have hk' : ∀ᵐ ω ∂(s'.den μ), b.Suits ω := by
    rw [K.den]; exact ProbabilityTheory.cond_absolutelyContinuous.ae_le hk
  have h2' := C21_condition_partial hc (E := E) ⟨K.wf, K.ready E H.ready, hA, .inr hk'⟩ h2
  have h3' := C21_condition_partial hc hg h3
  have hset : {ω | g.holds ω} = {ω | a.holds ω} ∩ {ω | b.holds ω} := by
    ext ω; exact (Ev.land_spec H.asks.can.valid (Ev.Made.valid _ hb) hand).2 ω
  rw [h2', h3', K.den, hset]
  exact ProbabilityTheory.cond_cond_eq_cond_inter (Ev.measurable_set a) (Ev.measurable_set b) _
end

/-! ## C28: flattening of nested mixtures and products -/

section
variable {c : Ctx} {L : Lib} {μ : Dist → Measure ℝ} {cs : List Spe} {ws : List ℝ} {s : Spe}

/-- C28: `SumSPE` denotes the mixture of its arguments, whether or not they are sums themselves; and C24 for `SumSPE`. -/
theorem C28_sum (hcs : ∀ t ∈ cs, t.WF c L μ) (hw : ∀ w ∈ ws, 0 ≤ w) (h : mkSum cs ws = .ok s) :
    s.den μ = mixture ws (cs.map (Spe.den μ)) ∧ s.WF c L μ ∧ ∀ t ∈ cs, t.symbols = s.symbols :=
  have k := mkSum_ok hcs hw h
  ⟨k.2.2.1, k.1, k.2.1⟩

/-- C28: `ProductSPE` denotes the joint distribution of its arguments, made independent, whether or not they are products themselves; and C24
for `ProductSPE`. -/
theorem C28_prod (hcs : ∀ t ∈ cs, t.WF c L μ) (h : mkProd cs = .ok s) :
    s.den μ = indep (cs.map (fun t => (t.symbols, t.den μ))) ∧ s.WF c L μ ∧ ∀ x, x ∈ s.symbols ↔ ∃ t ∈ cs, x ∈ t.symbols := by
  have k := mkProd_ok hcs h
  refine ⟨by rw [k.2.2.1, den_prod]; rfl, k.1, fun x => ?_⟩
  rw [k.2.1, Spe.mem_symbols_prod]

/-- The results of the two constructors are not nested. -/
theorem C28_flat (hcs : ∀ t ∈ cs, t.WF c L μ) : (mkSum cs ws = .ok s → (∀ t ∈ cs, ∀ ds vs, t = .sum ds vs → ∀ d ∈ ds, ∀ es us, d ≠ .sum es us) →
      ∃ ds vs, s = .sum ds vs ∧ ∀ d ∈ ds, ∀ es us, d ≠ .sum es us) ∧
    (mkProd cs = .ok s → (∀ t ∈ cs, ∀ ds, t = .prod ds → ∀ d ∈ ds, ∀ es, d ≠ .prod es) → ∃ ds, s = .prod ds ∧ ∀ d ∈ ds, ∀ es, d ≠ .prod es) := by
  constructor
  · intro h hf
    unfold mkSum at h
    split at h; · cases h
    simp only at h
    split at h; · cases h
    split at h; · cases h
    split at h
    · cases h
      refine ⟨_, _, rfl, ?_⟩
      intro d hd es us
      obtain ⟨t, ht, hd⟩ := List.mem_flatMap.1 hd
      cases t with
      | sum ds vs => exact hf _ ht ds vs rfl d hd es us
      | real => simp only [Spe.sumChildren, List.mem_singleton] at hd; subst hd; simp
      | atomic => simp only [Spe.sumChildren, List.mem_singleton] at hd; subst hd; simp
      | nominal => simp only [Spe.sumChildren, List.mem_singleton] at hd; subst hd; simp
      | prod => simp only [Spe.sumChildren, List.mem_singleton] at hd; subst hd; simp
    · cases h
  · intro h hf
    unfold mkProd at h
    simp only at h
    split at h; · cases h
    split at h
    · cases h
      refine ⟨_, rfl, ?_⟩
      intro d hd es
      obtain ⟨t, ht, hd⟩ := List.mem_flatMap.1 hd
      cases t with
      | prod ds => exact hf _ ht ds rfl d hd es
      | real => simp only [Spe.prodChildren, List.mem_singleton] at hd; subst hd; simp
      | atomic => simp only [Spe.prodChildren, List.mem_singleton] at hd; subst hd; simp
      | nominal => simp only [Spe.prodChildren, List.mem_singleton] at hd; subst hd; simp
      | sum => simp only [Spe.prodChildren, List.mem_singleton] at hd; subst hd; simp
    · cases h
end

/-! ## C25: simplification of sums -/

/-- C25: `spe_simplify_sum` keeps the distribution.  Missing from the full claim: leaves that are not equal but have the same hash, and
atomic leaves with different derived variables (see below). -/
theorem C25_simplify_partial {c : Ctx} {L : Lib} {μ : Dist → Measure ℝ} {hash : Spe → ℤ} {E : String → Env} {cs : List Spe} {ws : List ℝ} {s' : Spe}
    (hs : (Spe.sum cs ws).WF c L μ) (hE : (Spe.sum cs ws).Ready E)
    (hh : ∀ s ∈ cs, ∀ t ∈ cs, s.isLeaf = true → t.isLeaf = true → hash s = hash t → s.eqPy t = true) (h : simplifySum hash (.sum cs ws) = .ok s') :
    s'.den μ = (Spe.sum cs ws).den μ ∧ s'.WF c L μ ∧ s'.symbols = (Spe.sum cs ws).symbols :=
  have k := simplifySum_ok hs hE hh h
  ⟨k.2.2.2.1, k.1, k.2.1⟩

/-! ### Witnesses -/

/-- A coin known to show `a`. -/
def sure (Y : String) : Spe := .nominal Y [("a", 1), ("b", 0)]

theorem coin_cond (L : Lib) (n : ℕ) (Y : String) : leafCond ctx0 L (n + 1) (coin Y) (strEv Y "a") = .ok (sure Y) := by
  have h1 : leafSubst ctx0 (n + 1) Y [(Y, .id Y)] (strEv Y "a") = .ok (strEv Y "a") := by
    have hno : ¬ exprInEnv (strEv Y "a").symbols [(Y, .id Y)] := by rintro ⟨s, -, hs⟩; exact hs (single_get Y s)
    have hsub : (strEv Y "a").substitute ctx0 (n + 1) [(Y, .id Y)] (n + 1) = .ok (strEv Y "a") := by simp [Ev.substitute, hno]
    unfold leafSubst
    rw [hsub]
    simp [bind, Except.bind, strEv, Ev.symbols, Tr.symbols]
  have h2 : (strEv Y "a").solve ctx0 (n + 1) = .ok (.pc (.nom ⟨{"a"}, none⟩)) := by simp [strEv, Ev.solve, optNom]
  have h3 : nominalValues ctx0 [("a", 1/2), ("b", 1/2)] (.pc (.nom ⟨{"a"}, none⟩)) = .ok (.pc (.nom ⟨{"a"}, none⟩)) := by
    unfold nominalValues mkNom
    have : Finset.filter (fun x => x = "a") ({"a", "b"} : Finset String) = {"a"} := by decide
    simp [bind, Except.bind, SSet.and, Piece.and, Nom.and, Nom.neg, nomOrEmpty, this, mkNom, Nom.has, Nom.WF]
  have h4 : nominalMass [("a", 1/2), ("b", 1/2)] {"a"} = .ok (1/2) := by
    unfold nominalMass
    simp [bind, Except.bind, pure, Except.pure, List.mapM_cons]
  have h5 : condNominal Y [("a", 1/2), ("b", 1/2)] {"a"} (1/2) = .ok (sure Y) := by
    unfold condNominal mkNominal sure mkNom
    norm_num [bind, Except.bind, show ¬ ("b" = "a") by decide]
  simp only [leafCond, coin, Spe.leafEnv, h1, h2, leafCondSet, h3, h4, bind, Except.bind]
  exact h5

theorem coin_condMem (L : Lib) (hash : Spe → ℤ) (n : ℕ) (Y : String) : (coin Y).condMem ctx0 L hash (n + 1) [[(Y, strEv Y "a")]] = .ok (sure Y) := by
  have : factorEvent ctx0 [[(Y, strEv Y "a")]] = .ok (strEv Y "a") := by
    simp [factorEvent, reduceM, bind, Except.bind, pure, Except.pure, List.mapM_cons]
  have h := coin_cond L n Y
  unfold coin at h ⊢
  simp only [Spe.condMem, this, bind, Except.bind, h]

/-- Two coins, of which the first is known to show `a`. -/
theorem coins_cond (L : Lib) (hash : Spe → ℤ) (n : ℕ) : coins.condition ctx0 L hash (n + 1) (strEv "Y" "a") = .ok (.prod [sure "Y", coin "Z"]) := by
  have hsym : Spe.symbolsL [coin "Y", coin "Z"] = [{"Y"}, {"Z"}] := rfl
  have hY : lookupChild [{"Y"}, {"Z"}] "Y" = .ok 0 := by decide
  have mY := coins_mem L n "Y"
  have f0 : conjProb ctx0 [{"Y"}, {"Z"}] (Spe.probMemL ctx0 L (n + 1) [coin "Y", coin "Z"]) [[("Y", strEv "Y" "a")]] = .ok (1/2) := by
    simp [conjProb, conjKeys, conjKey, conjClause, conjClauseLoop, hY, Clause.addAnd, Spe.probMemL, mY, bind, Except.bind, pure, Except.pure,
      List.mapM_cons, List.foldlM]
  have f1 : Spe.probMem ctx0 L (n + 1) (.prod [coin "Y", coin "Z"]) [[("Y", strEv "Y" "a")]] = .ok (1/2) := by
    rw [Spe.probMem, hsym]
    generalize hf : (fun J => conjProb ctx0 [{"Y"}, {"Z"}] (Spe.probMemL ctx0 L (n + 1) [coin "Y", coin "Z"]) (pickClauses [[("Y", strEv "Y" "a")]] J)) = f
    have g0 : f [0] = .ok (1/2) := by rw [← hf]; exact f0
    rw [show ([[("Y", strEv "Y" "a")]] : Factor).length = 1 from rfl, inclExcl]
    have hloop : ieLoop 1 f ((List.range 1).map (fun i => ([i], i))) [] [] [] = .ok ([1/2], []) := by
      simp only [List.range_succ, List.range_zero, List.nil_append, List.map_cons, List.map_nil, List.cons_append]
      rw [ieLoop]; simp only [isBad, List.any_nil, Bool.false_eq_true, if_false, g0, ieNext, List.cons_append, List.nil_append, List.range', List.map_cons, List.map_nil]
      norm_num
      rw [ieLoop]
    rw [hloop]
    simp [bind, Except.bind]
  have hn : dnfNormalize ctx0 (n + 1) (strEv "Y" "a") = .ok (some (strEv "Y" "a")) := by
    simp [dnfNormalize, Ev.isIdLit, Ev.basic?, strEv, Tr.isId]
  have hF : dnfFactor1 ctx0 (strEv "Y" "a") = .ok [[("Y", strEv "Y" "a")]] := by
    simp [dnfFactor1, dnfFactor, strEv, factorClause, factorLit, Ev.symbol1, Ev.symbols, Ev.symbolsL, Tr.symbols, selfLookup,
      bind, Except.bind, pure, Except.pure, List.mapM_cons]
  have hd : dropNull ctx0 L (n + 1) coins (strEv "Y" "a") = .ok (strEv "Y" "a") := by simp [dropNull, strEv]
  have ht : toDisjoint ctx0 (n + 1) (n + 1) (strEv "Y" "a") = .ok (strEv "Y" "a") := by simp [toDisjoint, strEv]
  have hm := coin_condMem L hash n "Y"
  have hcl : condClause [coin "Y", coin "Z"] (Spe.condMemL ctx0 L hash (n + 1) [coin "Y", coin "Z"]) [("Y", strEv "Y" "a")] = .ok [sure "Y", coin "Z"] := by
    simp only [condClause, Spe.condMemL, List.zip_cons_cons, List.zip_nil_left, List.mapM_cons, List.mapM_nil]
    have e1 : List.filter (fun q => decide (q.1 ∈ (coin "Y").symbols)) [("Y", strEv "Y" "a")] = [("Y", strEv "Y" "a")] := by simp [coin, Spe.symbols]
    have e2 : List.filter (fun q => decide (q.1 ∈ (coin "Z").symbols)) [("Y", strEv "Y" "a")] = [] := by simp [coin, Spe.symbols]
    simp [e1, e2, hm, bind, Except.bind, pure, Except.pure]
  have hp : mkProd [sure "Y", coin "Z"] = .ok (.prod [sure "Y", coin "Z"]) := by
    unfold mkProd
    have : areDisjoint (Spe.symbolsL [sure "Y", coin "Z"]) = true := by
      rw [areDisjoint_iff]; simp [Spe.symbolsL, sure, coin, Spe.symbols]
    simp [Spe.prodChildren, sure, coin] at this ⊢
    exact this
  unfold Spe.condition
  rw [if_neg (by simp [coins, Spe.isLeaf, Spe.leafEnv])]
  simp only [hn, hd, ht, hF, bind, Except.bind]
  unfold coins
  rw [Spe.condMem]
  unfold condProd
  simp only [hsym, List.mapM_cons, List.mapM_nil, f0, f1, bind, Except.bind, pure, Except.pure]
  norm_num [hcl, hp, condMix, bind, Except.bind, pure, Except.pure, List.mapM_cons, List.mapM_nil]

theorem coins_ready : coins.Ready (fun _ => []) := by
  refine .prod ?_
  intro s hs
  simp at hs
  rcases hs with rfl | rfl <;> exact .nominal

theorem coins_canCond : CanCond ctx0 (libOf muU) muU (fun _ => []) coins (strEv "Y" "a") where
  wf := coins_wf _ _ _
  ready := coins_ready
  asks := ⟨⟨strEv_made _ _ _, by simp [strEv, Ev.NomFree, coins, coin, Spe.atomSymsL, Spe.atomSyms]⟩,
    by simp [strEv, Ev.symbols, Tr.symbols, coins, coin, Spe.symbols, Spe.symbolsL], by filter_upwards with ω; simp [strEv, Ev.Regular, Tr.Regular]⟩
  kinds := by
    right
    refine suits_of_kinded (K := fun _ => false) (coins_wf ctx0 (libOf muU) muU) ?_ ?_ ?_
    · refine .prod ?_
      intro s hs
      simp at hs
      rcases hs with rfl | rfl <;> exact .nominal rfl
    · simp [strEv, Ev.symbols, Tr.symbols, coins, coin, Spe.symbols, Spe.symbolsL]
    · intro ω h
      obtain ⟨x, hx⟩ := h "Y" (by simp [strEv, Ev.symbols, Tr.symbols])
      exact ⟨"Y", x, rfl, hx⟩

/-- C21, C22, C24 non-vacuity: two coins given that the first shows `a`. -/
example : coins.condition ctx0 (libOf muU) (fun _ => 0) 7 (strEv "Y" "a") = .ok (.prod [sure "Y", coin "Z"]) ∧
    (Spe.prod [sure "Y", coin "Z"]).den muU = (coins.den muU)[|{ω | (strEv "Y" "a").holds ω}] ∧
    0 < coins.den muU {ω | (strEv "Y" "a").holds ω} :=
  have h := coins_cond (libOf muU) (fun _ => 0) 6
  ⟨h, C21_condition_partial ctx0_correct coins_canCond h, C22_positive_partial ctx0_correct coins_canCond h⟩

end Sppl
