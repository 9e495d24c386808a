import Verif.Spe.Hashable
import Verif.Interp.CaseLemmas

set_option linter.all false

/-!
# The interpreter (helper lemmas)
-/

namespace Sppl
open Classical MeasureTheory
open scoped ENNReal ProbabilityTheory

variable {o : Opts} {μ : Dist → Measure ℝ}

/-- The state of the interpreter represents the distribution `m`. -/
def RepO (c : Ctx) (L : Lib) (μ : Dist → Measure ℝ) (m : Measure Asg) : Option Spe → Prop
  | none => m = start
  | some s => Rep c L μ m s

/-- The run of a command maps representations of `m` to representations of `f m`. -/
def RunOK (c : Ctx) (L : Lib) (μ : Dist → Measure ℝ) (r : Run) (f : Measure Asg → Measure Asg) (m : Measure Asg) : Prop :=
  ∀ s s', RepO c L μ m s → r s = .ok s' → RepO c L μ (f m) s'

/-- One branch: the event, the run, its probability; the set of assignments, and what the branch does. -/
structure BranchOK (o : Opts) (μ : Dist → Measure ℝ) (m : Measure Asg) (q : (Option Ev × Run) × ℝ) (b : Set Asg × (Measure Asg → Measure Asg)) : Prop where
  meas : NullMeasurableSet b.1 m
  none : q.1.1 = none → m b.1 = 0
  some : ∀ e, q.1.1 = some e → Stands o.c m e b.1
  p : q.2 = m.real b.1
  run : m b.1 ≠ 0 → RunOK o.c o.L μ q.1.2 b.2 (m[|b.1])

theorem cond_ae {m : Measure Asg} {A B : Set Asg} (h : ∀ᵐ ω ∂m, ω ∈ A ↔ ω ∈ B) : m[|A] = m[|B] := by
  have h' : A =ᵐ[m] B := by filter_upwards [h] with ω hω; exact propext hω
  unfold ProbabilityTheory.cond
  rw [measure_congr h', Measure.restrict_congr_set h']

theorem goods_ok (hc : o.c.Correct) {m : Measure Asg} [IsFiniteMeasure m] {s : Spe} (hs : Rep o.c o.L μ m s) :
    ∀ {all : List ((Option Ev × Run) × ℝ)} {sems : List (Set Asg × (Measure Asg → Measure Asg))}, List.Forall₂ (BranchOK o μ m) all sems →
    ∀ {ts : List Spe}, List.Forall₂ (fun q t => ∃ s', optCond o s q.1.1 = .ok s' ∧ runSome q.1.2 s' = .ok t) (all.filter (fun q => q.2 ≠ 0)) ts →
    mixture ((all.filter (fun q => q.2 ≠ 0)).map Prod.snd) (ts.map (Spe.den μ)) = (sems.map (fun b => m b.1 • b.2 (m[|b.1]))).sum ∧
      (∀ t ∈ ts, Rep o.c o.L μ (t.den μ) t) ∧ ∀ q ∈ all, 0 ≤ q.2
  | [], [], _, ts, h => by
    cases h; simp [mixture]
  | q :: all, b :: sems, .cons hq hall, ts, h => by
    by_cases h0 : q.2 = 0
    · have hb : m b.1 = 0 := by
        rw [hq.p] at h0
        exact (measureReal_eq_zero_iff).1 h0
      simp only [List.filter_cons, h0, ne_eq, not_true_eq_false, decide_false] at h ⊢
      obtain ⟨h1, h2, h3⟩ := goods_ok hc hs hall h
      refine ⟨by simpa [hb] using h1, h2, ?_⟩
      intro q' hq'
      rcases List.mem_cons.1 hq' with rfl | hq'
      · exact h0.ge
      · exact h3 q' hq'
    · have hb : m b.1 ≠ 0 := by
        intro hb; rw [hq.p] at h0; exact h0 (by simp [Measure.real, hb])
      simp only [List.filter_cons, h0, ne_eq, not_false_eq_true, decide_true, if_true] at h ⊢
      cases h with
      | @cons _ t _ ts hqt h =>
      obtain ⟨h1, h2, h3⟩ := goods_ok hc hs hall h
      obtain ⟨s', k1, k2⟩ := hqt
      have key : Rep o.c o.L μ (b.2 (m[|b.1])) t := by
        cases he : q.1.1 with
        | none => rw [he] at k1; cases k1
        | some e =>
          rw [he] at k1
          obtain ⟨u, a⟩ := hq.some e he
          have := (u.condition hc hs (keyed_ok k1)).1
          rw [cond_ae (A := {ω | e.holds ω}) a] at this
          simp only [runSome, bind, Except.bind] at k2
          split at k2; · cases k2
          rename_i x hx
          cases x with
          | none => cases k2
          | some t' =>
            cases k2
            exact hq.run hb (some s') (some t) this hx
      refine ⟨?_, ?_, ?_⟩
      · simp only [List.map_cons, mixture_cons, List.sum_cons, h1, key.den]
        congr 2
        rw [hq.p, Measure.real, ENNReal.ofReal_toReal (measure_ne_top _ _)]
      · intro t' ht'
        rcases List.mem_cons.1 ht' with rfl | ht'
        · exact ⟨key.wf, key.ready, key.atoms, rfl⟩
        · exact h2 t' ht'
      · intro q' hq'
        rcases List.mem_cons.1 hq' with rfl | hq'
        · rw [hq.p]; exact measureReal_nonneg
        · exact h3 q' hq'

theorem goods_sum {m : Measure Asg} {all : List ((Option Ev × Run) × ℝ)} {sems : List (Set Asg × (Measure Asg → Measure Asg))} (h : List.Forall₂ (BranchOK o μ m) all sems) :
    (sems.map (fun b => m.real b.1)).sum = ((all.filter (fun q => q.2 ≠ 0)).map Prod.snd).sum := by
  induction h with
  | nil => rfl
  | @cons q b all sems hq _ ih =>
    by_cases h0 : q.2 = 0
    · have : m.real b.1 = 0 := by rw [← hq.p, h0]
      simp [List.filter_cons, h0, this, ih]
    · simp only [List.filter_cons, h0, ne_eq, not_false_eq_true, decide_true, if_true, List.map_cons, List.sum_cons, ← hq.p]
      rw [ih]

theorem forall₂_zip {α β γ : Type} {P : α → β → Prop} {Q : α × β → γ → Prop} {as : List α} {bs : List β} {cs : List γ} (h1 : List.Forall₂ P as bs)
    (h2 : List.Forall₂ Q (as.zip bs) cs) : List.Forall₂ (fun a c => ∃ b, P a b ∧ Q (a, b) c) as cs := by
  induction h1 generalizing cs with
  | nil => simp at h2; subst h2; exact .nil
  | cons h _ ih =>
    simp only [List.zip_cons_cons] at h2
    cases h2 with
    | cons h3 h4 => exact .cons ⟨_, h, h3⟩ (ih h4)

theorem merge_ok (hsimp : SimpOK o.c o.L μ o.simp) {ws : List ℝ} {ts : List Spe} {t : Spe} (hts : ∀ t ∈ ts, Rep o.c o.L μ (t.den μ) t) (hw : ∀ w ∈ ws, 0 < w)
    (hsum : ws.sum = 1) (hl : ts.length = ws.length) (h : mergeBranches o ws ts = .ok t) : Rep o.c o.L μ (mixture ws (ts.map (Spe.den μ))) t := by
  have gen : (∃ s, mkSum ts ws = .ok s ∧ o.simp s = .ok t) → Rep o.c o.L μ (mixture ws (ts.map (Spe.den μ))) t := by
    rintro ⟨s, h1, h2⟩
    obtain ⟨k1, k2, k3, k4, -, -, -, k5⟩ := mkSum_ok (c := o.c) (L := o.L) (μ := μ) (fun t ht => (hts t ht).wf) (fun w hw' => (hw w hw').le) h1
    refine hsimp _ s t ⟨k1, fun E => k5 E (fun t ht => (hts t ht).ready E) hw, ?_, k3⟩ h2
    refine Finset.subset_empty.1 (k4.trans ?_)
    rw [atomSymsL_empty.2 (fun t ht => (hts t ht).atoms)]
  unfold mergeBranches at h
  split at h
  · rename_i s
    cases h
    cases ws with
    | nil => simp at hl
    | cons w ws =>
      cases ws with
      | cons => simp at hl
      | nil =>
        have : w = 1 := by simpa using hsum
        subst this
        have := hts t (by simp)
        simpa [mixture] using this
  · apply gen
    simp only [bind, Except.bind] at h
    split at h; · cases h
    rename_i s hs
    exact ⟨s, hs, h⟩

theorem ifBlock_ok (hc : o.c.Correct) (hsimp : SimpOK o.c o.L μ o.simp) {m : Measure Asg} {s t : Spe} (hs : Rep o.c o.L μ m s) {events : List (Option Ev)} {rs : List Run}
    {Es : List (Set Asg)} {fs : List (Measure Asg → Measure Asg)}
    (hev : List.Forall₂ (fun d E => (d = none → m E = 0) ∧ ∀ e, d = some e → Stands o.c m e E) events Es)
    (hrun : List.Forall₂ (fun r bf => m bf.1 ≠ 0 → RunOK o.c o.L μ r bf.2 (m[|bf.1])) (rs.take Es.length) (Es.zip fs)) (hlen : rs.length = fs.length)
    (h : ifBlock o s events rs = .ok t) : Rep o.c o.L μ (branches m Es fs) t ∧ Es.length = fs.length ∧ (Es.map m.real).sum = 1 := by
  have := hs.wf.prob
  rw [hs.den] at this
  unfold ifBlock at h
  split at h; · cases h
  rename_i hl
  push Not at hl
  simp only [bind, Except.bind] at h
  split at h; · cases h
  rename_i ps hps
  split at h; · cases h
  rename_i hne
  split at h; · cases h
  rename_i ss hss
  split at h; · cases h
  rename_i hsum
  push Not at hsum
  split at h; · cases h
  rename_i ts hts
  have hEl : Es.length = fs.length := by rw [← hev.length_eq, hl, hlen]
  replace hps := mapM_ok hps
  replace hss := mapM_ok hss
  replace hts := mapM_ok hts
  have hF := forall₂_zip hss hts
  have hall : List.Forall₂ (BranchOK o μ m) ((events.zip rs).zip ps) (Es.zip fs) := by
    have : ∀ {events : List (Option Ev)} {rs : List Run} {ps : List ℝ} {Es : List (Set Asg)} {fs : List (Measure Asg → Measure Asg)},
        List.Forall₂ (fun d E => (d = none → m E = 0) ∧ ∀ e, d = some e → Stands o.c m e E) events Es →
        List.Forall₂ (fun r bf => m bf.1 ≠ 0 → RunOK o.c o.L μ r bf.2 (m[|bf.1])) rs (Es.zip fs) → Es.length = fs.length →
        List.Forall₂ (fun d p => optProb o s d = .ok p) events ps → List.Forall₂ (BranchOK o μ m) ((events.zip rs).zip ps) (Es.zip fs) := by
      intro events rs ps Es fs h1
      induction h1 generalizing rs ps fs with
      | nil => intro h2 _ _; simp at h2 ⊢
      | @cons d E events Es hd h1 ih =>
        intro h2 h3 h4
        cases fs with
        | nil => simp at h3
        | cons f fs =>
          simp only [List.zip_cons_cons] at h2
          cases h2 with
          | @cons r _ rs _ hr h2 =>
          cases h4 with
          | @cons _ p _ ps hp h4 =>
          refine .cons ?_ (ih h2 (by simpa using h3) h4)
          cases d with
          | none =>
            have h0 := hd.1 rfl
            cases hp
            exact ⟨NullMeasurableSet.of_null h0, fun _ => h0, by simp, by simp [Measure.real, h0], hr⟩
          | some e =>
            have hst := hd.2 e rfl
            have hpe := hst.usable.prob hc hs (keyed_ok hp)
            have hae : ({ω | e.holds ω} : Set Asg) =ᵐ[m] E := by filter_upwards [hst.ae] with ω hω; exact propext hω
            refine ⟨(Ev.measurable_set e).nullMeasurableSet.congr hae, by simp, fun e' h' => by cases h'; exact hst, ?_, hr⟩
            rw [hpe]; exact measureReal_congr hae
    refine this hev ?_ hEl hps
    rwa [hEl, ← hlen, List.take_length] at hrun
  obtain ⟨g1, g2, g3⟩ := goods_ok hc hs hall hF
  have hpos : ∀ w ∈ (((events.zip rs).zip ps).filter (fun q => q.2 ≠ 0)).map Prod.snd, 0 < w := by
    intro w hw
    obtain ⟨q, hq, rfl⟩ := List.mem_map.1 hw
    simp only [List.mem_filter, decide_eq_true_eq] at hq
    exact lt_of_le_of_ne (g3 q hq.1) (Ne.symm hq.2)
  have := merge_ok hsimp g2 hpos hsum (by rw [List.length_map]; exact hF.length_eq.symm) h
  rw [g1] at this
  refine ⟨?_, hEl, ?_⟩
  · rw [branches]
    convert this using 1
    rw [← List.map_uncurry_zip_eq_zipWith]
    rfl
  · rw [← hsum, ← goods_sum hall]
    have : (Es.zip fs).map (fun b => m.real b.1) = ((Es.zip fs).map Prod.fst).map m.real := by rw [List.map_map]; rfl
    rw [this, List.map_fst_zip hEl.le]

/-! ## Commands -/

theorem source_ok {c : Ctx} {L : Lib} {X : String} {d : Source} {s : Spe} (hd : d.WF L μ) (h : d.call L X = .ok s) : Rep c L μ (d.law μ X) s ∧ s.symbols = {X} := by
  cases hd with
  | one hd =>
    obtain ⟨k1, k2, k3, k4, k5⟩ := call_ok (c := c) hd h
    exact ⟨⟨k1, k5, k4, k3⟩, k2⟩
  | @mix m hd hw =>
    simp only [Source.call, DMix.call, bind, Except.bind] at h
    split at h; · cases h
    rename_i ss hss
    replace hss := mapM_ok hss
    have k : ∀ t ∈ ss, t.WF c L μ ∧ t.symbols = {X} ∧ t.atomSyms = ∅ ∧ ∀ E, t.Ready E := by
      intro t ht
      obtain ⟨d, hd', hdt⟩ := forall₂_mem_right hss ht
      obtain ⟨k1, k2, k3, k4, k5⟩ := call_ok (c := c) (hd d hd') hdt
      exact ⟨k1, k2, k4, k5⟩
    have e : ss.map (Spe.den μ) = m.distributions.map (Distr.law μ X) := by
      have : ∀ {ds : List Distr} {ss : List Spe}, (∀ d ∈ ds, d.WF L μ) → List.Forall₂ (fun d s => d.call L X = .ok s) ds ss → ss.map (Spe.den μ) = ds.map (Distr.law μ X) := by
        intro ds ss hds hf
        induction hf with
        | nil => rfl
        | cons h1 _ ih => simp only [List.map_cons]; rw [ih (fun d hd => hds d (by simp [hd])), (call_ok (c := c) (hds _ (by simp)) h1).2.2.1]
      exact this hd hss
    obtain ⟨k1, k2, k3, k4, -, k6, -, k5⟩ := mkSum_ok (c := c) (L := L) (μ := μ) (fun t ht => (k t ht).1) (fun w hw' => (hw w hw').le) h
    refine ⟨⟨k1, fun E => k5 E (fun t ht => (k t ht).2.2.2 E) hw, ?_, by rw [k3, e]; rfl⟩, ?_⟩
    · refine Finset.subset_empty.1 (k4.trans ?_)
      rw [atomSymsL_empty.2 (fun t ht => (k t ht).2.2.1)]
    · obtain ⟨t, ht⟩ := List.exists_mem_of_ne_nil _ k6
      rw [← k2 t ht, (k t ht).2.1]

theorem sample_ok {X : String} {d : Source} (hd : d.WF o.L μ) (m : Measure Asg) : RunOK o.c o.L μ (Cmd.interp o (.sample X d)) (withIndep X (d.law μ X)) m := by
  intro s s' hs h
  simp only [Cmd.interp, bind, Except.bind] at h
  split at h; · cases h
  rename_i leaf hleaf
  obtain ⟨k1, k2⟩ := source_ok (c := o.c) hd hleaf
  have p1 := k1.wf.prob
  have sc := k1.wf.none
  rw [k2] at sc
  rw [k1.den] at p1 sc
  cases s with
  | none =>
    cases h
    have hm : m = start := hs
    subst hm
    show Rep _ _ _ _ _
    rw [withIndep_start sc]; exact k1
  | some s =>
    simp only at h
    split at h; · cases h
    rename_i r hr
    cases h
    replace hs : Rep o.c o.L μ m s := hs
    have hwf : ∀ t ∈ [s, leaf], t.WF o.c o.L μ := by
      intro t ht; simp at ht; rcases ht with rfl | rfl
      · exact hs.wf
      · exact k1.wf
    have hdis := mkProd_disj hwf hr
    obtain ⟨g1, g2, g3, g4, -, -, g5⟩ := mkProd_ok hwf hr
    have p2 := hs.wf.prob
    have sc2 := hs.wf.none
    rw [hs.den] at p2 sc2
    refine ⟨g1, fun E => g5 E ?_, ?_, ?_⟩
    · intro t ht; simp at ht; rcases ht with rfl | rfl
      · exact hs.ready E
      · exact k1.ready E
    · refine Finset.subset_empty.1 (g4.trans ?_)
      simp [Spe.atomSymsL, hs.atoms, k1.atoms]
    · rw [g3, den_prod]
      simp only [groups, List.map_cons, List.map_nil, hs.den, k1.den, k2]
      refine indep_two ?_ sc2 sc
      simpa [k2] using hdis

theorem seq_ok {ps : List Cmd} (h : ∀ p ∈ ps, ∀ m, p.Safe o.c o.L μ m → RunOK o.c o.L μ (p.interp o) (p.sem μ) m) : ∀ m, Cmd.SafeS o.c o.L μ ps m →
    RunOK o.c o.L μ (fun s => (Cmd.interpL o ps).foldlM (fun s r => r s) s) (fun m => (Cmd.semL μ ps).foldl (fun m f => f m) m) m := by
  induction ps with
  | nil => intro m _ s s' hs h; simp [Cmd.interpL, pure, Except.pure] at h; subst h; simpa [Cmd.semL] using hs
  | cons p ps ih =>
    intro m hm s s' hs h'
    simp only [Cmd.SafeS] at hm
    simp only [Cmd.interpL, List.foldlM_cons, bind, Except.bind] at h'
    split at h'; · cases h'
    rename_i x hx
    simp only [Cmd.semL, List.foldl_cons]
    exact ih (fun p hp => h p (by simp [hp])) _ hm.2 x s' (h p (by simp) m hm.1 s x hs hx) h'

theorem for_ok {n0 : ℤ} {f : ℤ → Cmd} (hf : ∀ i m, (f i).Safe o.c o.L μ m → RunOK o.c o.L μ ((f i).interp o) ((f i).sem μ) m) : ∀ (n : ℕ) m,
    (∀ k : ℕ, k < n → (f (n0 + (k : ℤ))).Safe o.c o.L μ ((List.range k).foldl (fun m (k : ℕ) => (f (n0 + (k : ℤ))).sem μ m) m)) →
    RunOK o.c o.L μ (fun s => ((List.range n).map (fun k : ℕ => n0 + (k : ℤ))).foldlM (fun s i => (f i).interp o s) s)
      (fun m => (List.range n).foldl (fun m (k : ℕ) => (f (n0 + (k : ℤ))).sem μ m) m) m := by
  intro n
  induction n with
  | zero => intro m _ s s' hs h; simp [pure, Except.pure] at h; subst h; simpa using hs
  | succ n ih =>
    intro m hm s s' hs h
    simp only [List.range_succ, List.map_append, List.foldlM_append, List.map_cons, List.map_nil, bind, Except.bind] at h
    split at h; · cases h
    rename_i x hx
    simp only [List.foldlM_cons, List.foldlM_nil, bind, Except.bind, pure, Except.pure] at h
    split at h; · cases h
    rename_i y hy
    cases h
    simp only [List.range_succ, List.foldl_append, List.foldl_cons, List.foldl_nil]
    exact hf _ _ (hm n (by omega)) x _ (ih m (fun k hk => hm k (by omega)) s x hs hx) hy

theorem branches_run {cmds : List Cmd} (h : ∀ p ∈ cmds, ∀ m, p.Safe o.c o.L μ m → RunOK o.c o.L μ (p.interp o) (p.sem μ) m) {m : Measure Asg} {Es : List (Set Asg)}
    (hm : Cmd.SafeB o.c o.L μ cmds Es m) :
    List.Forall₂ (fun r bf => m bf.1 ≠ 0 → RunOK o.c o.L μ r bf.2 (m[|bf.1])) ((Cmd.interpL o cmds).take Es.length) (Es.zip (Cmd.semL μ cmds)) := by
  induction cmds generalizing Es with
  | nil => simp [Cmd.interpL, Cmd.semL]
  | cons p ps ih =>
    cases Es with
    | nil => simp
    | cons E Es =>
      simp only [Cmd.SafeB] at hm
      simp only [Cmd.interpL, Cmd.semL, List.length_cons, List.take_succ_cons, List.zip_cons_cons]
      exact .cons (fun h0 => h p (by simp) _ (hm.1 h0)) (ih (fun p hp => h p (by simp [hp])) hm.2)

theorem lens (o : Opts) (μ : Dist → Measure ℝ) (cmds : List Cmd) : (Cmd.interpL o cmds).length = (Cmd.semL μ cmds).length := by
  induction cmds with
  | nil => rfl
  | cons p ps ih => simp [Cmd.interpL, Cmd.semL, ih]

theorem transform_run {Y : String} {t : Tr} {m : Measure Asg} (ht : t.MadeG true o.c) (hr : ∀ᵐ ω ∂m, t.Regular ω) :
    RunOK o.c o.L μ (Cmd.interp o (.transform Y t)) (fun m => m.map (withVar Y t)) m := by
  intro s s' hs h
  cases s with
  | none => cases h
  | some s =>
    replace hs : Rep o.c o.L μ m s := hs
    simp only [Cmd.interp, needSpe, bind, Except.bind] at h
    split at h; · cases h
    rename_i r hr'
    cases h
    have k := transform_ok ht hs.wf (canTransform ht hs.wf (hs.ready (fun _ => [])) hs.atoms (by rw [hs.den]; exact hr)) hr'
    exact ⟨k.wf, fun E => (k.plain E hs.atoms (hs.ready E)).2, (k.plain (fun _ => []) hs.atoms (hs.ready _)).1, by rw [k.den, hs.den]⟩

theorem condition_run (hc : o.c.Correct) {e : Ev} {m : Measure Asg} (he : e.Fits o.c m) : RunOK o.c o.L μ (Cmd.interp o (.condition e)) (fun m => m[|{ω | e.holds ω}]) m := by
  intro s s' hs h
  cases s with
  | none => cases h
  | some s =>
    replace hs : Rep o.c o.L μ m s := hs
    simp only [Cmd.interp, needSpe, bind, Except.bind] at h
    split at h; · cases h
    rename_i r hr'
    cases h
    exact (he.usable.condition hc hs hr').1

theorem normalized (hc : o.c.Correct) {m : Measure Asg} {es : List Ev} {ds : List (Option Ev)} {Es : List (Set Asg)} (h1 : List.Forall₂ (Stands o.c m) es Es)
    (h2 : List.Forall₂ (fun e d => dnfNormalize o.c o.n e = .ok d) es ds) :
    List.Forall₂ (fun d E => (d = none → m E = 0) ∧ ∀ e, d = some e → Stands o.c m e E) ds Es := by
  induction h1 generalizing ds with
  | nil => cases h2; exact .nil
  | cons h _ ih =>
    cases h2 with
    | cons h3 h4 =>
    refine .cons ⟨fun hd => ?_, fun e' he' => ?_⟩ (ih h4)
    · have := (h.usable.normalize hc h3).1 hd
      refine measure_eq_zero_iff_ae_notMem.2 ?_
      filter_upwards [this, h.ae] with ω w1 w2
      rw [← w2]; exact w1
    · obtain ⟨u, w⟩ := (h.usable.normalize hc h3).2 e' he'
      exact ⟨u, by filter_upwards [w, h.ae] with ω w1 w2; rw [w1, w2]⟩

theorem plainEvents {c : Ctx} {m : Measure Asg} {es : List Ev} {Es : List (Set Asg)} (h1 : List.Forall₂ (Stands c m) es Es) :
    List.Forall₂ (fun d E => (d = none → m E = 0) ∧ ∀ e, d = some e → Stands c m e E) (es.map some) Es := by
  induction h1 with
  | nil => exact .nil
  | cons h _ ih => exact .cons ⟨by simp, fun e he => by cases he; exact h⟩ ih

theorem interp_ok (hc : o.c.Correct) (hsimp : SimpOK o.c o.L μ o.simp) (p : Cmd) : ∀ m, p.Safe o.c o.L μ m → RunOK o.c o.L μ (p.interp o) (p.sem μ) m := by
  refine Cmd.rec (motive_1 := fun p => ∀ m, p.Safe o.c o.L μ m → RunOK o.c o.L μ (p.interp o) (p.sem μ) m)
    (motive_2 := fun ps => ∀ p ∈ ps, ∀ m, p.Safe o.c o.L μ m → RunOK o.c o.L μ (p.interp o) (p.sem μ) m) ?_ ?_ ?_ ?_ ?_ ?_ ?_ ?_ ?_ ?_ ?_ p
  · intro m _ s s' hs h
    simp only [Cmd.interp] at h; cases h
    simpa only [Cmd.sem] using hs
  · intro X d m hm
    simp only [Cmd.Safe] at hm
    simpa only [Cmd.sem] using sample_ok hm m
  · intro Y t m hm
    simp only [Cmd.Safe] at hm
    have := transform_run (o := o) (μ := μ) (Y := Y) hm.1 hm.2
    intro s s' hs h
    simpa only [Cmd.sem] using this s s' hs h
  · intro e m hm
    simp only [Cmd.Safe] at hm
    have := condition_run (o := o) (μ := μ) hc hm
    intro s s' hs h
    simpa only [Cmd.sem] using this s s' hs h
  · intro a m hm; simp only [Cmd.Safe] at hm
  · intro conds els cmds ih m hm s s' hs h
    simp only [Cmd.Safe] at hm
    cases s with
    | none => simp only [Cmd.interp, needSpe] at h; cases h
    | some s =>
      replace hs : Rep o.c o.L μ m s := hs
      simp only [Cmd.interp, needSpe, bind, Except.bind] at h
      split at h; · cases h
      rename_i es hes
      split at h; · cases h
      rename_i ds hds
      split at h; · cases h
      rename_i r hr
      cases h
      have h1 := normalized hc (ifEvents_ok hm.1 hes) (mapM_ok hds)
      have := (ifBlock_ok hc hsimp hs h1 (branches_run ih hm.2) (lens o μ cmds) hr).1
      simpa only [Cmd.sem, RepO] using this
  · intro n0 n1 f ih m hm s s' hs h
    simp only [Cmd.Safe] at hm
    simp only [Cmd.interp, intRange] at h
    have := for_ok ih _ m hm s s' hs h
    simpa only [Cmd.sem] using this
  · intro t vals cmds ih m hm s s' hs h
    simp only [Cmd.Safe] at hm
    simp only [Cmd.interp, bind, Except.bind] at h
    split at h; · cases h
    rename_i es hes
    cases s with
    | none => cases h
    | some s =>
      replace hs : Rep o.c o.L μ m s := hs
      simp only at h
      split at h; · cases h
      rename_i r hr
      cases h
      have := (ifBlock_ok hc hsimp hs (plainEvents (switchEvents_ok hm.1 hes)) (branches_run ih hm.2) (lens o μ cmds) hr).1
      simpa only [Cmd.sem, RepO] using this
  · intro cmds ih m hm s s' hs h
    simp only [Cmd.Safe] at hm
    simp only [Cmd.interp] at h
    have := seq_ok ih m hm s s' hs h
    simpa only [Cmd.sem] using this
  · intro p hp; simp at hp
  · intro p ps ih1 ih2 q hq
    rcases List.mem_cons.1 hq with rfl | hq
    · exact ih1
    · exact ih2 q hq

/-! ## Sizes -/

theorem firsts_length (A : Set Asg) (Es : List (Set Asg)) : (firsts A Es).length = Es.length := by
  induction Es generalizing A with
  | nil => rfl
  | cons E Es ih => simp [firsts, ih]

theorem semL_length (μ : Dist → Measure ℝ) (cmds : List Cmd) : (Cmd.semL μ cmds).length = cmds.length := by
  induction cmds with
  | nil => rfl
  | cons E Es ih => simp [Cmd.semL, ih]

theorem interpL_eq (o : Opts) (cmds : List Cmd) : Cmd.interpL o cmds = cmds.map (Cmd.interp o) := by
  induction cmds with
  | nil => rfl
  | cons E Es ih => simp [Cmd.interpL, ih]

/-! ## Another simplification -/

theorem mapM_mono {α β : Type} {f g : α → Res β} {as : List α} {bs : List β} (h : ∀ a ∈ as, ∀ b, f a = .ok b → g a = .ok b) (h' : as.mapM f = .ok bs) : as.mapM g = .ok bs := by
  induction as generalizing bs with
  | nil => simpa using h'
  | cons a as ih =>
    simp only [List.mapM_cons, bind, Except.bind, pure, Except.pure] at h' ⊢
    split at h'; · cases h'
    rename_i b hb
    split at h'; · cases h'
    rename_i bs' hbs
    cases h'
    rw [h a (by simp) b hb]
    simp only
    rw [ih (fun a ha => h a (by simp [ha])) hbs]

theorem foldlM_mono {α β : Type} {f g : α → β → Res α} {bs : List β} {a a' : α} (h : ∀ b ∈ bs, ∀ a a', f a b = .ok a' → g a b = .ok a') (h' : bs.foldlM f a = .ok a') :
    bs.foldlM g a = .ok a' := by
  induction bs generalizing a with
  | nil => simpa using h'
  | cons b bs ih =>
    simp only [List.foldlM_cons, bind, Except.bind] at h' ⊢
    split at h'; · cases h'
    rename_i x hx
    rw [h b (by simp) a x hx]
    exact ih (fun b hb => h b (by simp [hb])) h'

theorem zip_runs (f : Cmd → Run) (events : List (Option Ev)) (cmds : List Cmd) (ps : List ℝ) :
    ((events.zip (cmds.map f)).zip ps).filter (fun q => q.2 ≠ 0) =
      (((events.zip cmds).zip ps).filter (fun q => q.2 ≠ 0)).map (fun q => ((q.1.1, f q.1.2), q.2)) := by
  induction events generalizing cmds ps with
  | nil => simp
  | cons e events ih =>
    cases cmds with
    | nil => simp
    | cons c cmds =>
      cases ps with
      | nil => simp
      | cons p ps =>
        simp only [List.map_cons, List.zip_cons_cons, List.filter_cons, ih]
        by_cases h : p = 0 <;> simp [h]

theorem ifBlock_mono {simp' : Spe → Res Spe} (hS : ∀ s s', o.simp s = .ok s' → simp' s = .ok s') {f g : Cmd → Run} {cmds : List Cmd}
    (hr : ∀ p ∈ cmds, ∀ s s', f p s = .ok s' → g p s = .ok s') {s t : Spe} {events : List (Option Ev)}
    (h : ifBlock o s events (cmds.map f) = .ok t) : ifBlock { o with simp := simp' } s events (cmds.map g) = .ok t := by
  have hopt : optProb { o with simp := simp' } s = optProb o s := by funext d; cases d <;> rfl
  have hcond : optCond { o with simp := simp' } s = optCond o s := by funext d; cases d <;> rfl
  unfold ifBlock at h ⊢
  rw [hopt, hcond]
  simp only [List.length_map] at h ⊢
  split at h; · cases h
  rename_i hl
  rw [if_neg hl]
  simp only [bind, Except.bind] at h ⊢
  split at h; · cases h
  rename_i ps hps
  simp only [zip_runs, List.map_eq_nil_iff, List.map_map, List.mapM_map, List.zip_map_left, Function.comp_def] at h ⊢
  split at h; · cases h
  rename_i hne
  split at h; · cases h
  rename_i ss hss
  split at h; · cases h
  rename_i hsum
  split at h; · cases h
  rename_i ts hts
  rw [if_neg hne, if_neg hsum]
  have : List.mapM (fun q => runSome (g q.1.1.2) q.2) ((((events.zip cmds).zip ps).filter (fun q => q.2 ≠ 0)).zip ss) = .ok ts := by
    refine mapM_mono ?_ hts
    intro a ha b hb
    have hm : a.1.1.2 ∈ cmds := by
      have h1 := (List.of_mem_zip ha).1
      have h2 := (List.mem_filter.1 h1).1
      exact (List.of_mem_zip (List.of_mem_zip h2).1).2
    simp only [runSome, bind, Except.bind, Prod.map, id] at hb ⊢
    split at hb; · cases hb
    rename_i x hx
    rw [hr _ hm _ _ hx]
    exact hb
  simp only [Prod.map, id] at this ⊢
  rw [this]
  simp only
  unfold mergeBranches at h ⊢
  split at h
  · exact h
  · simp only [bind, Except.bind] at h ⊢
    split at h; · cases h
    exact hS _ _ h

/-- If the result of a program does not meet an error, it is the same with any simplification that does as much. -/
theorem interp_mono {simp' : Spe → Res Spe} (hS : ∀ s s', o.simp s = .ok s' → simp' s = .ok s') (p : Cmd) : ∀ s s', p.interp o s = .ok s' →
    p.interp { o with simp := simp' } s = .ok s' := by
  refine Cmd.rec (motive_1 := fun p => ∀ s s', p.interp o s = .ok s' → p.interp { o with simp := simp' } s = .ok s')
    (motive_2 := fun ps => ∀ p ∈ ps, ∀ s s', p.interp o s = .ok s' → p.interp { o with simp := simp' } s = .ok s') ?_ ?_ ?_ ?_ ?_ ?_ ?_ ?_ ?_ ?_ ?_ p
  · intro s s' h; simpa only [Cmd.interp] using h
  · intro X d s s' h; simpa only [Cmd.interp] using h
  · intro X d s s' h; simpa only [Cmd.interp] using h
  · intro X s s' h; simpa only [Cmd.interp] using h
  · intro X s s' h; simpa only [Cmd.interp] using h
  · intro conds els cmds ih s s' h
    cases s with
    | none => simp only [Cmd.interp, needSpe] at h; cases h
    | some s =>
      simp only [Cmd.interp, needSpe, bind, Except.bind, interpL_eq] at h ⊢
      split at h; · cases h
      rename_i es hes
      split at h; · cases h
      rename_i ds hds
      split at h; · cases h
      rename_i r hr
      rw [ifBlock_mono hS ih hr]
      exact h
  · intro n0 n1 f ih s s' h
    simp only [Cmd.interp] at h ⊢
    exact foldlM_mono (fun i _ s s' h => ih i s s' h) h
  · intro t vals cmds ih s s' h
    simp only [Cmd.interp, bind, Except.bind, interpL_eq] at h ⊢
    split at h; · cases h
    rename_i es hes
    cases s with
    | none => cases h
    | some s =>
      simp only at h ⊢
      split at h; · cases h
      rename_i r hr
      rw [ifBlock_mono hS ih hr]
      exact h
  · intro cmds ih s s' h
    simp only [Cmd.interp, interpL_eq, List.foldlM_map] at h ⊢
    exact foldlM_mono (fun p hp s s' h => ih p hp s s' h) h
  · intro p hp; simp at hp
  · intro p ps ih1 ih2 q hq
    rcases List.mem_cons.1 hq with rfl | hq
    · exact ih1
    · exact ih2 q hq

end Sppl
