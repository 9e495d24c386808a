import Verif.Comp.RenderActs
import Verif.Sample.LawLeaf
import Verif.Spe.SimpLemmas

set_option linter.all false

/-!
# Lemmas on `render_sppl`: the average over the branch variables
-/

namespace Sppl
open Classical MeasureTheory
open scoped ENNReal ProbabilityTheory

/-- The average over independent choices of branches. -/
noncomputable def avg : List (List ℝ) → (List ℕ → Measure Asg) → Measure Asg
  | [], F => F []
  | ws :: W, F => ∑ i ∈ Finset.range ws.length, ENNReal.ofReal (ws.getD i 0) • avg W (fun l => F (i :: l))

/-- Weights that sum to one. -/
def Weights (W : List (List ℝ)) : Prop := ∀ ws ∈ W, (∀ w ∈ ws, 0 ≤ w) ∧ ws.sum = 1

theorem sum_bind {n : ℕ} {a : ℕ → ℝ≥0∞} {m : ℕ → Measure Asg} {κ : Asg → Measure Asg} (hκ : Measurable κ) :
    (∑ i ∈ Finset.range n, a i • m i).bind κ = ∑ i ∈ Finset.range n, a i • (m i).bind κ := by
  induction n with
  | zero => simp [Measure.bind_zero_left]
  | succ n ih => rw [Finset.sum_range_succ, bind_add_left hκ, ih, Finset.sum_range_succ, Measure.bind_smul]

theorem avg_congr {W : List (List ℝ)} : ∀ {F G : List ℕ → Measure Asg}, (∀ l, Index l W → F l = G l) → avg W F = avg W G := by
  induction W with
  | nil => intro F G h; exact h [] .nil
  | cons ws W ih =>
    intro F G h
    simp only [avg]
    refine Finset.sum_congr rfl (fun i hi => ?_)
    rw [ih (fun l hl => h (i :: l) (.cons (by simpa using hi) hl))]

theorem avg_append {W V : List (List ℝ)} : ∀ {F : List ℕ → Measure Asg}, avg (W ++ V) F = avg W (fun l => avg V (fun l' => F (l ++ l'))) := by
  induction W with
  | nil => intro F; rfl
  | cons ws W ih =>
    intro F
    simp only [List.cons_append, avg]
    refine Finset.sum_congr rfl (fun i hi => ?_)
    rw [ih]

theorem avg_bind {W : List (List ℝ)} {κ : Asg → Measure Asg} (hκ : Measurable κ) : ∀ {F : List ℕ → Measure Asg}, (avg W F).bind κ = avg W (fun l => (F l).bind κ) := by
  induction W with
  | nil => intro F; rfl
  | cons ws W ih =>
    intro F
    simp only [avg]
    rw [sum_bind hκ]
    refine Finset.sum_congr rfl (fun i hi => ?_)
    rw [ih]

theorem avg_map {W : List (List ℝ)} {f : Asg → Asg} (hf : Measurable f) {F : List ℕ → Measure Asg} : (avg W F).map f = avg W (fun l => (F l).map f) := by
  have := avg_bind (W := W) (F := F) (κ := fun x => Measure.dirac (f x)) (Measure.measurable_dirac.comp hf)
  simpa only [Measure.bind_dirac_eq_map _ hf] using this

theorem sum_weights {ws : List ℝ} (h0 : ∀ w ∈ ws, 0 ≤ w) (h1 : ws.sum = 1) : ∑ i ∈ Finset.range ws.length, ENNReal.ofReal (ws.getD i 0) = 1 := by
  have : ∀ ws : List ℝ, (∀ w ∈ ws, 0 ≤ w) → ∑ i ∈ Finset.range ws.length, ENNReal.ofReal (ws.getD i 0) = ENNReal.ofReal ws.sum := by
    intro ws
    induction ws with
    | nil => intro _; simp
    | cons w ws ih =>
      intro h
      rw [List.length_cons, Finset.sum_range_succ', List.sum_cons, ENNReal.ofReal_add (h w (by simp)) (List.sum_nonneg (fun x hx => h x (by simp [hx]))), ← ih (fun x hx => h x (by simp [hx])), add_comm]
      simp
  rw [this ws h0, h1, ENNReal.ofReal_one]

theorem avg_const {W : List (List ℝ)} (hW : Weights W) (m : Measure Asg) : avg W (fun _ => m) = m := by
  induction W with
  | nil => rfl
  | cons ws W ih =>
    simp only [avg]
    rw [ih (fun x hx => hW x (by simp [hx])), ← Finset.sum_smul, sum_weights (hW ws (by simp)).1 (hW ws (by simp)).2, one_smul]

theorem avg_finite {W : List (List ℝ)} : ∀ {F : List ℕ → Measure Asg}, (∀ l, Index l W → IsFiniteMeasure (F l)) → IsFiniteMeasure (avg W F) := by
  induction W with
  | nil => intro F h; exact h [] .nil
  | cons ws W ih =>
    intro F h
    simp only [avg]
    have : ∀ n ≤ ws.length, IsFiniteMeasure (∑ i ∈ Finset.range n, ENNReal.ofReal (ws.getD i 0) • avg W (fun l => F (i :: l))) := by
      intro n
      induction n with
      | zero => intro _; simp; infer_instance
      | succ n ihn =>
        intro hn
        rw [Finset.sum_range_succ]
        have h1 := ihn (by omega)
        have h2 := ih (F := fun l => F (n :: l)) (fun l hl => h (n :: l) (.cons (by omega) hl))
        have h3 : IsFiniteMeasure (ENNReal.ofReal (ws.getD n 0) • avg W (fun l => F (n :: l))) := Measure.smul_finite _ ENNReal.ofReal_ne_top
        infer_instance
    exact this _ le_rfl

theorem avg_merge {W V : List (List ℝ)} {S : Finset String} {g h : List ℕ → Measure Asg} (hg : ∀ l, Index l W → IsProbabilityMeasure (g l)) (hh : ∀ l, Index l V → IsProbabilityMeasure (h l)) :
    avg (W ++ V) (fun l => ((g (l.take W.length)).prod (h (l.drop W.length))).map (mergeAsg S)) = ((avg W g).prod (avg V h)).map (mergeAsg S) := by
  have fh : IsFiniteMeasure (avg V h) := avg_finite (fun l hl => by have := hh l hl; infer_instance)
  rw [avg_append, map_prod_bind (measurable_mergeAsg S), avg_bind (measurable_map_right (measurable_mergeAsg S))]
  refine avg_congr (fun l hl => ?_)
  have := hg l hl
  rw [← map_prod_bind (measurable_mergeAsg S)]
  have hsw : Measurable (fun p : Asg × Asg => mergeAsg S (p.2, p.1)) := (measurable_mergeAsg S).comp measurable_swap
  have sw : ∀ m' : Measure Asg, IsFiniteMeasure m' → ((g l).prod m').map (mergeAsg S) = m'.bind (fun y => (g l).map (fun x => mergeAsg S (x, y))) := by
    intro m' _
    rw [← map_prod_bind hsw, ← Measure.prod_swap, Measure.map_map (measurable_mergeAsg S) measurable_swap]
    rfl
  rw [sw _ fh, avg_bind (measurable_map_right hsw)]
  refine avg_congr (fun l' hl' => ?_)
  have := hh l' hl'
  rw [← sw _ inferInstance]
  have e : W.length = l.length := hl.length_eq.symm
  simp [e]

section
variable {D : List String} {H : PyHost} {c : Ctx} {L : Lib} {μ : Dist → Measure ℝ}

theorem avg_indep {cs : List Spe} {k : ℕ} (h : ActsAll D H c L μ cs k) (ih : ∀ s ∈ cs, avg s.wss (s.given μ) = s.den μ) :
    avg (Spe.wssL cs) (fun l => indep ((Spe.symbolsL cs).zip (Spe.givenL μ cs l))) = indep ((Spe.symbolsL cs).zip (Spe.denL μ cs)) := by
  induction h with
  | nil => rfl
  | @cons s ss k h1 h2 ihh =>
    simp only [Spe.wssL, Spe.symbolsL, Spe.givenL, Spe.denL, List.zip_cons_cons, indep]
    have hh : ∀ l, Index l (Spe.wssL ss) → IsProbabilityMeasure (indep ((Spe.symbolsL ss).zip (Spe.givenL μ ss l))) := by
      intro l hl
      refine indep_prob (fun q hq => ?_)
      have hq2 := (List.of_mem_zip (a := q.1) (b := q.2) hq).2
      obtain ⟨i, hi, e⟩ := List.mem_iff_getElem.1 hq2
      have := givenL_prob h2 l hl i (by rw [← givenL_length (μ := μ) ss l]; exact hi)
      have e2 : (Spe.givenL μ ss l).getD i 0 = q.2 := by simp [hi, e]
      rw [e2] at this
      exact this
    rw [← ihh (fun t ht => ih t (by simp [ht])), ← ih s (by simp)]
    exact avg_merge h1.prob hh

theorem avg_getD {cs : List Spe} (hW : Weights (Spe.wssL cs)) (ih : ∀ s ∈ cs, avg s.wss (s.given μ) = s.den μ) : ∀ i, i < cs.length →
    avg (Spe.wssL cs) (fun l => (Spe.givenL μ cs l).getD i 0) = (Spe.denL μ cs).getD i 0 := by
  induction cs with
  | nil => intro i hi; simp at hi
  | cons s ss ihs =>
    intro i hi
    have hW1 : Weights s.wss := fun x hx => hW x (by simp [Spe.wssL, hx])
    have hW2 : Weights (Spe.wssL ss) := fun x hx => hW x (by simp [Spe.wssL, hx])
    simp only [Spe.wssL]
    rw [avg_append]
    cases i with
    | zero =>
      show _ = s.den μ
      rw [← ih s (by simp)]
      refine avg_congr (fun l hl => ?_)
      have e : s.wss.length = l.length := hl.length_eq.symm
      simp only [Spe.givenL, e, List.take_left', List.getD_cons_zero]
      exact avg_const hW2 _
    | succ i =>
      show _ = (Spe.denL μ ss).getD i 0
      rw [← ihs hW2 (fun t ht => ih t (by simp [ht])) i (by simpa using hi)]
      rw [← avg_const hW1 (avg (Spe.wssL ss) fun l => (Spe.givenL μ ss l).getD i 0)]
      refine avg_congr (fun l hl => ?_)
      have e : s.wss.length = l.length := hl.length_eq.symm
      simp only [Spe.givenL, e, List.drop_left', List.getD_cons_succ]

/-- On the average over the branches the SPE has its distribution. -/
theorem avg_spe (s : Spe) : s.WF c L μ → s.CanRender D H c L μ → (∀ n, branchVar n ∉ s.symbols) → avg s.wss (s.given μ) = s.den μ := by
  have hl : ∀ cs : List Spe, (∀ s ∈ cs, ∀ k, Acts c L μ k s.wss s.symbols (s.cmds D H c k) (s.given μ)) → ∀ k, ActsAll D H c L μ cs k := by
    intro cs
    induction cs with
    | nil => intro _ k; exact .nil
    | cons s ss ih => intro h k; exact .cons (h s (by simp) k) (ih (fun t ht => h t (by simp [ht])) _)
  refine Spe.ind (Q := fun s => s.WF c L μ → s.CanRender D H c L μ → (∀ n, branchVar n ∉ s.symbols) → avg s.wss (s.given μ) = s.den μ) ?_ ?_ ?_ ?_ ?_ s
  · intro kk X d supp cond env hw hc _
    simp only [Spe.wss, avg, Spe.given]
  · intro X v env hw hc _; cases hc
  · intro X dist hw hc _
    simp only [Spe.wss, avg, Spe.given]
  · intro cs ws ih hw hc hb
    have hwss := wss_rat (D := D) (H := H) _ hw hc
    cases hw with
    | @sum _ _ S hws hne hlen hw0 hw1 hS =>
    cases hc with
    | sum hcs hq =>
    have hSy : (Spe.sum cs ws).symbols = S := by
      cases cs with
      | nil => exact absurd rfl hne
      | cons s ss => simp [Spe.symbols, Spe.symbolsL, hS s (by simp)]
    rw [hSy] at hb
    have hch : ∀ s ∈ cs, avg s.wss (s.given μ) = s.den μ := fun s hs => ih s hs (hws s hs) (hcs s hs) (by rw [hS s hs]; exact hb)
    match cs, hne, hch, hlen, hS, hwss with
    | [s], _, hch, hlen, hS, _ =>
      have hg : (Spe.sum [s] ws).given μ = s.given μ := by funext l; rw [Spe.given]
      match ws, hlen, hw1 with
      | [w], _, hw1 =>
        have hw : w = 1 := by simpa using hw1
        rw [hg]
        simp only [Spe.wss]
        rw [hch s (by simp)]
        simp [Spe.den, Spe.denL, mixture, hw]
    | s :: t :: cs, _, hch, hlen, hS, hwss =>
      have hW : (Spe.sum (s :: t :: cs) ws).wss = ws :: Spe.wssL (s :: t :: cs) := by simp [Spe.wss, Spe.wssL]
      have hG : ∀ i l, (Spe.sum (s :: t :: cs) ws).given μ (i :: l) = (Spe.givenL μ (s :: t :: cs) l).getD i 0 := by intro i l; rw [Spe.given]; rfl
      rw [hW] at hwss ⊢
      have hWt : Weights (Spe.wssL (s :: t :: cs)) := fun x hx => ⟨(hwss x (by simp [hx])).2.1, (hwss x (by simp [hx])).2.2⟩
      simp only [avg, hG]
      show _ = mixture ws (Spe.denL μ (s :: t :: cs))
      rw [mixture_range _ _ (by rw [Spe.denL_eq, List.length_map, hlen])]
      refine Finset.sum_congr rfl (fun i hi => ?_)
      rw [avg_getD hWt hch i (by rw [hlen]; simpa using hi)]
  · intro cs ih hw hc hb
    cases hw with
    | prod hws hne hdj =>
    cases hc with
    | prod hcs =>
    have hb2 : ∀ s ∈ cs, ∀ n, branchVar n ∉ s.symbols := by
      intro s hs n h
      refine hb n ?_
      simp only [Spe.symbols]
      exact mem_foldr_union.2 ⟨_, by rw [Spe.symbolsL_eq]; exact List.mem_map.2 ⟨s, hs, rfl⟩, h⟩
    have := avg_indep (hl cs (fun s hs k => acts_spe s k (hws s hs) (hcs s hs) (hb2 s hs)) 0) (fun s hs => ih s hs (hws s hs) (hcs s hs) (hb2 s hs))
    simpa only [Spe.wss, Spe.den, Spe.given] using this

/-! ## The branch variables -/

/-- The assignment with the branch variables. -/
def mark : ℕ → List ℕ → Asg → Asg
  | _, [], ω => ω
  | k, i :: l, ω => mark (k + 1) l (addVar (branchVar k) (ω, baseAsg (branchVar k) (.str (toString i))))

theorem mark_other {b : String} : ∀ {k : ℕ} {l : List ℕ} {ω : Asg}, (∀ j, k ≤ j → b ≠ branchVar j) → mark k l ω b = ω b := by
  intro k l
  induction l generalizing k with
  | nil => intro ω _; rfl
  | cons i l ih =>
    intro ω h
    simp only [mark]
    rw [ih (fun j hj => h j (by omega))]
    simp [addVar, h k le_rfl]

theorem mark_det {k : ℕ} {l : List ℕ} {ω : Asg} : Det k l (mark k l ω) := by
  induction l generalizing k ω with
  | nil => trivial
  | cons i l ih =>
    refine ⟨?_, ih⟩
    simp only [mark]
    rw [mark_other (fun j hj h => by have := branchVar_inj h; omega)]
    simp [addVar, baseAsg]

theorem branch_law {ws : List ℝ} (h : ∀ w ∈ ws, ∃ q : ℚ, w = (q : ℝ)) (b : String) :
    (Source.one (.nominal (branchTable ws))).law μ b = ∑ i ∈ Finset.range ws.length, ENNReal.ofReal (ws.getD i 0) • Measure.dirac (baseAsg b (.str (toString i))) := by
  have h1 : (branchTable ws).map (fun p => (p.2 : ℝ)) = ws := by
    unfold branchTable
    rw [List.map_zipWith]
    refine List.ext_getElem (by simp) (fun i h1 h2 => ?_)
    simp [ratOf_ok (h _ (List.getElem_mem h2))]
  have h2 : (branchTable ws).map (fun p => Measure.dirac (baseAsg b (.str p.1))) = (List.range ws.length).map (fun i => Measure.dirac (baseAsg b (.str (toString i)))) := by
    have := congrArg (List.map (fun x => Measure.dirac (baseAsg b (.str x)))) (branchTable_fst ws)
    simpa [Function.comp_def] using this
  show mixture ((branchTable ws).map (fun p => (p.2 : ℝ))) ((branchTable ws).map (fun p => Measure.dirac (baseAsg b (.str p.1)))) = _
  rw [h1, h2, mixture_range _ _ (by simp)]
  refine Finset.sum_congr rfl (fun i hi => ?_)
  have hi : i < ws.length := by simpa using hi
  congr 1
  simp [hi]

theorem branch_finite {ws : List ℝ} (h : ∀ w ∈ ws, ∃ q : ℚ, w = (q : ℝ)) (b : String) : IsFiniteMeasure ((Source.one (.nominal (branchTable ws))).law μ b) := by
  show IsFiniteMeasure (mixture ((branchTable ws).map (fun p => (p.2 : ℝ))) ((branchTable ws).map (fun p => Measure.dirac (baseAsg b (.str p.1)))))
  refine mixture_finite (fun m hm => ?_)
  obtain ⟨p, -, rfl⟩ := List.mem_map.1 hm
  infer_instance

theorem branches_sum {W : List (List ℝ)} (h : ∀ ws ∈ W, ∀ w ∈ ws, ∃ q : ℚ, w = (q : ℝ)) : ∀ (k n : ℕ) (a : ℕ → ℝ≥0∞) (m : ℕ → Measure Asg),
    semS μ (branchCmds k W) (∑ i ∈ Finset.range n, a i • m i) = ∑ i ∈ Finset.range n, a i • semS μ (branchCmds k W) (m i) := by
  induction W with
  | nil => intro k n a m; rfl
  | cons ws W ih =>
    intro k n a m
    have hf := branch_finite (μ := μ) (h ws (by simp)) (branchVar k)
    simp only [branchCmds, semS, Cmd.sem, withIndep]
    rw [map_prod_bind (measurable_addVar _), sum_bind (measurable_map_right (measurable_addVar _)), ih (fun x hx => h x (by simp [hx]))]
    refine Finset.sum_congr rfl (fun i hi => ?_)
    rw [map_prod_bind (measurable_addVar _)]

/-- What the commands of the branch variables do. -/
theorem branches_sem {W : List (List ℝ)} (h : ∀ ws ∈ W, ∀ w ∈ ws, ∃ q : ℚ, w = (q : ℝ)) : ∀ (k : ℕ) (ω : Asg),
    semS μ (branchCmds k W) (Measure.dirac ω) = avg W (fun l => Measure.dirac (mark k l ω)) := by
  induction W with
  | nil => intro k ω; rfl
  | cons ws W ih =>
    intro k ω
    have hf := branch_finite (μ := μ) (h ws (by simp)) (branchVar k)
    simp only [branchCmds, semS, Cmd.sem, withIndep]
    rw [map_prod_bind (measurable_addVar _), Measure.dirac_bind (measurable_map_right (measurable_addVar _))]
    have hm : Measurable (fun y => addVar (branchVar k) (ω, y)) := (measurable_addVar _).comp measurable_prodMk_left
    have hd : Measurable (fun y => Measure.dirac (addVar (branchVar k) (ω, y))) := Measure.measurable_dirac.comp hm
    rw [← Measure.bind_dirac_eq_map _ hm, branch_law (h ws (by simp)), sum_bind hd, branches_sum (fun x hx => h x (by simp [hx]))]
    simp only [avg]
    refine Finset.sum_congr rfl (fun i hi => ?_)
    rw [Measure.dirac_bind hd, ih (fun x hx => h x (by simp [hx]))]
    rfl

theorem branches_safe {W : List (List ℝ)} (h : ∀ ws ∈ W, (∀ w ∈ ws, ∃ q : ℚ, w = (q : ℝ)) ∧ (∀ w ∈ ws, 0 ≤ w)) : ∀ (k : ℕ) (m : Measure Asg), Cmd.SafeS c L μ (branchCmds k W) m := by
  induction W with
  | nil => intro k m; trivial
  | cons ws W ih =>
    intro k m
    refine ⟨?_, ih (fun x hx => h x (by simp [hx])) _ _⟩
    refine .one (.nominal (branchTable_nodup ws) (fun p hp => ?_))
    unfold branchTable at hp
    obtain ⟨i, hi, e⟩ := List.mem_iff_getElem.1 hp
    rw [List.getElem_zipWith] at e
    rw [← e]
    have hi' : i < ws.length := by simpa using hi
    have h1 := (h ws (by simp)).1 _ (List.getElem_mem hi')
    have h2 := (h ws (by simp)).2 _ (List.getElem_mem hi')
    rw [← ratOf_ok h1] at h2
    exact_mod_cast h2

theorem avg_ae {W : List (List ℝ)} {p : Asg → Prop} : ∀ {F : List ℕ → Measure Asg}, (∀ l, Index l W → ∀ᵐ ω ∂(F l), p ω) → ∀ᵐ ω ∂(avg W F), p ω := by
  induction W with
  | nil => intro F h; exact h [] .nil
  | cons ws W ih =>
    intro F h
    simp only [avg]
    have : ∀ n ≤ ws.length, ∀ᵐ ω ∂(∑ i ∈ Finset.range n, ENNReal.ofReal (ws.getD i 0) • avg W (fun l => F (i :: l))), p ω := by
      intro n
      induction n with
      | zero => intro _; simp
      | succ n ihn =>
        intro hn
        rw [Finset.sum_range_succ, ae_add_measure_iff]
        exact ⟨ihn (by omega), Measure.ae_smul_measure (ih (F := fun l => F (n :: l)) (fun l hl => h (n :: l) (.cons (by omega) hl))) _⟩
    exact this _ le_rfl

theorem avg_univ {W : List (List ℝ)} (hW : Weights W) : ∀ {F : List ℕ → Measure Asg}, (∀ l, Index l W → IsProbabilityMeasure (F l)) → IsProbabilityMeasure (avg W F) := by
  induction W with
  | nil => intro F h; exact h [] .nil
  | cons ws W ih =>
    intro F h
    constructor
    simp only [avg]
    rw [Measure.finset_sum_apply]
    have : ∀ i ∈ Finset.range ws.length, (ENNReal.ofReal (ws.getD i 0) • avg W (fun l => F (i :: l))) Set.univ = ENNReal.ofReal (ws.getD i 0) := by
      intro i hi
      have := ih (fun x hx => hW x (by simp [hx])) (F := fun l => F (i :: l)) (fun l hl => h (i :: l) (.cons (by simpa using hi) hl))
      simp
    rw [Finset.sum_congr rfl this, sum_weights (hW ws (by simp)).1 (hW ws (by simp)).2]

theorem measurable_keep (S : Finset String) : Measurable (keep S) := by
  rw [measurable_pi_iff]
  intro x
  by_cases h : x ∈ S
  · simpa [keep, h] using measurable_pi_apply x
  · simp [keep, h]

/-- The commands of the source of an SPE. -/
theorem render_sem {s : Spe} (hw : s.WF c L μ) (hc : s.CanRender D H c L μ) (hb : ∀ n, branchVar n ∉ s.symbols) :
    (Cmd.seq (branchCmds 0 s.wss ++ s.cmds D H c 0)).Safe c L μ start ∧ ((Cmd.seq (branchCmds 0 s.wss ++ s.cmds D H c 0)).sem μ start).map (keep s.symbols) = s.den μ := by
  have hr := wss_rat _ hw hc
  have hW : Weights s.wss := fun x hx => (hr x hx).2
  obtain ⟨p1, κ, m1, e1, s1⟩ := acts_spe (D := D) (H := H) (c := c) (L := L) (μ := μ) s 0 hw hc hb
  have hm : semS μ (branchCmds 0 s.wss) start = avg s.wss (fun l => Measure.dirac (mark 0 l (fun _ => none))) := branches_sem (fun ws hws => (hr ws hws).1) 0 _
  have hp : IsProbabilityMeasure (avg s.wss (fun l => Measure.dirac (mark 0 l (fun _ => none)))) := avg_univ hW (fun l _ => inferInstance)
  have hv : ∀ᵐ ω ∂(avg s.wss (fun l => Measure.dirac (mark 0 l (fun _ => none)))), Valid 0 s.wss ω := by
    refine avg_ae (fun l hl => ?_)
    rw [ae_dirac_iff (measurable_valid 0 s.wss)]
    exact det_valid hl mark_det
  obtain ⟨a1, a2⟩ := s1 _ hp hv
  have hk := measurable_keep s.symbols
  refine ⟨?_, ?_⟩
  · rw [Cmd.Safe, safeS_append, hm]
    exact ⟨branches_safe (fun ws hws => ⟨(hr ws hws).1, (hr ws hws).2.1⟩) 0 _, a1⟩
  · rw [sem_seq, semS_append, hm, a2, avg_bind m1, avg_map hk]
    have h1 : ∀ l, Index l s.wss → ((Measure.dirac (mark 0 l (fun _ => none))).bind κ).map (keep s.symbols) = (s.given μ l).map (keep s.symbols) := by
      intro l hl
      rw [Measure.dirac_bind m1, e1 l _ hl mark_det, Measure.map_map hk (measurable_merge_left _ _)]
      congr 1
      funext η x
      simp only [Function.comp, keep, mergeAsg]
      split <;> rfl
    rw [avg_congr h1, ← avg_map hk, avg_spe s hw hc hb]
    have h2 : (s.den μ).map (keep s.symbols) = (s.den μ).map id := by
      refine Measure.map_congr ?_
      filter_upwards [hw.none] with ω hω
      funext x
      simp only [keep, id]
      split
      · rfl
      · rename_i hx; exact (hω x hx).symm
    rw [h2, Measure.map_id]

end

end Sppl
