import Verif.Interp.Props
import Verif.Spe.PartialLemmas
import Verif.Spe.TotalProps
import Verif.Spe.TotSimpLemmas

set_option linter.all false

/-!
# Lemmas: when the interpreter returns
-/

namespace Sppl
open Classical MeasureTheory
open scoped ENNReal ProbabilityTheory

/-- A block of branches returns if the probabilities of the branches are computed and add up to one, and for those that are not zero conditioning and the
command of the branch return, and the results have the same variables. -/
theorem ifBlock_total {P Q : Spe → Prop} {c : Ctx} {L : Lib} {μ : Dist → Measure ℝ} {o : Opts} {s : Spe} {S : Finset String} {events : List (Option Ev)} {rs : List Run} {ps : List ℝ}
    (hlen : events.length = rs.length) (hp : List.Forall₂ (fun e p => optProb o s e = .ok p) events ps) (hsum : ps.sum = 1)
    (hr : ∀ i (h1 : i < events.length) (h2 : i < rs.length) (h3 : i < ps.length), ps[i] ≠ 0 →
      ∃ s' t, optCond o s events[i] = .ok s' ∧ rs[i] (some s') = .ok (some t) ∧ t.WF c L μ ∧ t.symbols = S ∧ P t)
    (hsimp : ∀ ts ws t, (∀ t ∈ ts, t.WF c L μ ∧ t.symbols = S ∧ P t) → (∀ w ∈ ws, w ≠ 0 ∧ w ∈ ps) → mkSum ts ws = .ok t → ∃ t', o.simp t = .ok t' ∧ Q t')
    (hone : ∀ t, t.WF c L μ → t.symbols = S → P t → Q t) :
    ∃ t, ifBlock o s events rs = .ok t ∧ Q t := by
  have hps := mapM_of_forall₂ hp
  have hpl := hp.length_eq
  unfold ifBlock
  rw [if_neg (by simpa using hlen)]
  simp only [hps, bind, Except.bind]
  set good := ((events.zip rs).zip ps).filter (fun q => q.2 ≠ 0) with hgood
  have hg : ∀ q ∈ good, ∃ s' t, optCond o s q.1.1 = .ok s' ∧ q.1.2 (some s') = .ok (some t) ∧ t.WF c L μ ∧ t.symbols = S ∧ P t := by
    intro q hq
    rw [hgood, List.mem_filter] at hq
    obtain ⟨h1, h2⟩ := hq
    obtain ⟨i, hi, rfl⟩ := List.getElem_of_mem h1
    simp only [List.length_zip] at hi
    have := hr i (by omega) (by omega) (by omega) (by simpa using h2)
    simpa using this
  have hsum' : (good.map Prod.snd).sum = 1 := by
    rw [← hsum, hgood]
    have : ∀ (l : List (Option Ev × Run)) (ps : List ℝ), l.length = ps.length → (((l.zip ps).filter (fun q => q.2 ≠ 0)).map Prod.snd).sum = ps.sum := by
      intro l
      induction l with
      | nil => intro ps h; cases ps <;> simp_all
      | cons a l ih =>
        intro ps h
        cases ps with
        | nil => simp at h
        | cons p ps =>
          have := ih ps (by simpa using h)
          by_cases h0 : p = 0
          · simpa [List.filter_cons, h0] using this
          · simpa [List.filter_cons, h0] using this
    exact this _ _ (by simp; omega)
  rw [if_neg (by
    intro h0
    rw [h0] at hsum'
    simp at hsum')]
  choose! f g hfg using hg
  have h1 : good.mapM (fun q => optCond o s q.1.1) = .ok (good.map f) := by
    refine mapM_of_forall₂ ?_
    rw [List.forall₂_map_right_iff, List.forall₂_same]
    exact fun q hq => (hfg q hq).1
  have h2 : (good.zip (good.map f)).mapM (fun q => runSome q.1.1.2 q.2) = .ok (good.map g) := by
    have : good.zip (good.map f) = good.map (fun q => (q, f q)) := by
      clear_value good
      clear hfg hsum' hgood h1
      induction good with
      | nil => rfl
      | cons q l ih => simp [ih]
    rw [this]
    refine mapM_of_forall₂ ?_
    rw [List.forall₂_map_left_iff, List.forall₂_map_right_iff, List.forall₂_same]
    intro q hq
    simp [runSome, (hfg q hq).2.1, bind, Except.bind]
  rw [h1]
  simp only
  rw [if_neg (by simpa using hsum'), h2]
  simp only
  have hts : ∀ t ∈ good.map g, t.WF c L μ ∧ t.symbols = S ∧ P t := by
    intro t ht
    obtain ⟨q, hq, rfl⟩ := List.mem_map.1 ht
    exact (hfg q hq).2.2
  have hws : ∀ w ∈ good.map Prod.snd, w ≠ 0 ∧ w ∈ ps := by
    intro w hw
    obtain ⟨q, hq, rfl⟩ := List.mem_map.1 hw
    rw [hgood, List.mem_filter] at hq
    exact ⟨by simpa using hq.2, (List.of_mem_zip hq.1).2⟩
  have gen : ∃ t, (do
      let s ← mkSum (good.map g) (good.map Prod.snd)
      o.simp s) = .ok t ∧ Q t := by
    obtain ⟨t, ht⟩ := mkSum_total (c := c) (L := L) (μ := μ) (cs := good.map g) (ws := good.map Prod.snd) (fun t ht => (hts t ht).1) (by simp) hsum'
      (fun s hs t ht => by rw [(hts s hs).2.1, (hts t ht).2.1])
    obtain ⟨t', ht', hq⟩ := hsimp _ _ t hts hws ht
    exact ⟨t', by simp only [ht, bind, Except.bind, ht'], hq⟩
  unfold mergeBranches
  split
  · rename_i u hu
    obtain ⟨h3, h4, h5⟩ := hts u (by rw [hu]; simp)
    exact ⟨_, rfl, hone u h3 h4 h5⟩
  · exact gen

/-- `Sample` of a new variable returns. -/
theorem sample_total {o : Opts} {μ : Dist → Measure ℝ} {Y : String} {d : Source} {leaf s : Spe} (hd : d.WF o.L μ) (hcall : d.call o.L Y = .ok leaf) (hs : s.WF o.c o.L μ) (hE : ∀ E, s.Ready E) (hY : Y ∉ s.symbols) :
    ∃ t, (Cmd.sample Y d).interp o (some s) = .ok (some t) ∧ t.WF o.c o.L μ ∧ t.symbols = insert Y s.symbols ∧ (∀ E, t.Ready E) ∧ ∃ ds, t = .prod ds := by
  obtain ⟨k1, k2⟩ := source_ok (c := o.c) hd hcall
  have hwf : ∀ t ∈ [s, leaf], t.WF o.c o.L μ := by
    intro t ht; simp at ht; rcases ht with rfl | rfl
    · exact hs
    · exact k1.wf
  obtain ⟨t, ht⟩ := mkProd_total hwf (by simp) (by simpa [k2] using hY)
  obtain ⟨g1, g2, -, -, g3, -, g4⟩ := mkProd_ok hwf ht
  refine ⟨t, by simp [Cmd.interp, hcall, ht, bind, Except.bind], g1, ?_, fun E => g4 E ?_, g3⟩
  · rw [g2]
    ext x
    simp [Spe.symbols, Spe.symbolsL, k2, or_comm]
  · intro t ht
    simp at ht; rcases ht with rfl | rfl
    · exact hE E
    · exact k1.ready E

/-- Mixtures of products are simplified, and have no leaves that could collide. -/
theorem guarded_total {c : Ctx} {L : Lib} {μ : Dist → Measure ℝ} {hash : Spe → ℤ} {ts : List Spe} {ws : List ℝ} {t : Spe} (hts : ∀ t ∈ ts, t.WF c L μ ∧ (∀ E, t.Ready E) ∧ ∃ ds, t = .prod ds)
    (hw : ∀ w ∈ ws, 0 < w) (h : mkSum ts ws = .ok t) : ∃ t', guarded hash t = .ok t' ∧ t'.symbols = t.symbols := by
  obtain ⟨m1, m2, -, -, m3, -, -, m4⟩ := mkSum_ok (fun t ht => (hts t ht).1) (fun w hw' => (hw w hw').le) h
  have hr := m4 (fun _ => []) (fun t ht => (hts t ht).2.1 _) hw
  have e := mkSum_prods (fun t ht => (hts t ht).2.2) h
  subst e
  have hn : NoCollision hash (.sum ts ws) := by
    intro s hs _ _ hl
    obtain ⟨ds, rfl⟩ := (hts s hs).2.2
    simp [Spe.isLeaf, Spe.leafEnv] at hl
  obtain ⟨t', ht'⟩ := simplifySum_total (hash := hash) m1 hr m3 (fun t ht => (hts t ht).2.2)
  exact ⟨t', by simp [guarded, hn, ht'], (simplifySum_ok m1 hr hn ht').2.1⟩

end Sppl
