import Verif.Comp.RenderLeaf

set_option linter.all false

/-!
# Lemmas on `render_sppl`: what the commands of an SPE mean
-/

namespace Sppl
open Classical MeasureTheory
open scoped ENNReal ProbabilityTheory

section
variable {D : List String} {H : PyHost} {c : Ctx} {L : Lib} {μ : Dist → Measure ℝ}

theorem branchEv_holds {n i : ℕ} {ω : Asg} : (branchEv n i).holds ω ↔ ω (branchVar n) = some (.str (toString i)) := by
  simp [branchEv, Tr.eval]

theorem branchEv_fits {n i : ℕ} {m : Measure Asg} (h : ∀ᵐ ω ∂m, ∃ x, ω (branchVar n) = some (.str x)) : (branchEv n i).Fits c m :=
  ⟨.nom (.id _) (by simp) (by simp [Nom.WF]), by simp [branchEv, Ev.All, NomId, Tr.isId], by simp [branchEv, Ev.All, NomSome],
    Filter.Eventually.of_forall (fun ω => by simp [branchEv, Ev.Regular, Tr.Regular]), by
      filter_upwards [h] with ω hω
      simpa [branchEv, Ev.Typed, Tr.eval] using hω⟩

/-- All children, with the branch variables in turn. -/
inductive ActsAll (D : List String) (H : PyHost) (c : Ctx) (L : Lib) (μ : Dist → Measure ℝ) : List Spe → ℕ → Prop
  | nil {k} : ActsAll D H c L μ [] k
  | cons {s ss k} : Acts c L μ k s.wss s.symbols (s.cmds D H c k) (s.given μ) → ActsAll D H c L μ ss (k + s.wss.length) → ActsAll D H c L μ (s :: ss) k

theorem acts_prod {cs : List Spe} {k : ℕ} (h : ActsAll D H c L μ cs k) (hd : (Spe.symbolsL cs).Pairwise Disjoint) (hb : ∀ S ∈ Spe.symbolsL cs, ∀ n, branchVar n ∉ S) :
    Acts c L μ k (Spe.wssL cs) ((Spe.symbolsL cs).foldr (· ∪ ·) ∅) (Spe.cmdsL D H c k cs).flatten (fun l => indep ((Spe.symbolsL cs).zip (Spe.givenL μ cs l))) := by
  induction h with
  | nil => simpa [Spe.wssL, Spe.symbolsL, Spe.cmdsL, Spe.givenL] using acts_nil
  | @cons s ss k h1 h2 ih =>
    simp only [Spe.symbolsL, List.pairwise_cons, List.mem_cons, forall_eq_or_imp] at hd hb
    have hdj : Disjoint s.symbols ((Spe.symbolsL ss).foldr (· ∪ ·) ∅) := by
      rw [Finset.disjoint_left]
      intro x hx hx'
      obtain ⟨S, hS, hxS⟩ := mem_foldr_union.1 hx'
      exact Finset.disjoint_left.1 (hd.1 S hS) hx hxS
    have := acts_append hb.1 hdj h1 (ih hd.2 hb.2)
    simpa only [Spe.wssL, Spe.symbolsL, Spe.cmdsL, Spe.givenL, List.foldr_cons, List.flatten_cons, List.zip_cons_cons, indep] using this

/-- The branches, from the `i`th. -/
theorem arms_sem {n : ℕ} {S : Finset String} {cs : List Spe} {k : ℕ} (h : ActsAll D H c L μ cs k) (hS : ∀ s ∈ cs, s.symbols = S) : ∀ i : ℕ,
    ∃ κ : Asg → Measure Asg, Measurable κ ∧ (∀ (j : ℕ) l ω, j < cs.length → Index l (Spe.wssL cs) → Det k l ω → ω (branchVar n) = some (.str (toString (i + j))) →
        κ ω = ((Spe.givenL μ cs l).getD j 0).map (fun η => mergeAsg S (η, ω))) ∧
      ∀ m : Measure Asg, IsProbabilityMeasure m → (∀ᵐ ω ∂m, Valid k (Spe.wssL cs) ω) → ∀ seen : Set Asg, MeasurableSet seen →
        Cmd.SafeB c L μ ((Spe.cmdsL D H c k cs).map block) (firsts seen ((List.range' i cs.length).map (fun j => {ω | (branchEv n j).holds ω}))) m ∧
        branches m (firsts seen ((List.range' i cs.length).map (fun j => {ω | (branchEv n j).holds ω}))) (Cmd.semL μ ((Spe.cmdsL D H c k cs).map block)) = (m.restrict seenᶜ).bind κ := by
  induction h with
  | nil =>
    intro i
    refine ⟨fun _ => 0, _root_.measurable_const, fun j l ω hj => by simp at hj, ?_⟩
    intro m _ _ seen _
    simp [Spe.cmdsL, Cmd.SafeB, branches, firsts, Cmd.semL]
  | @cons s ss k h1 h2 ih =>
    intro i
    obtain ⟨p1, κ1, m1, e1, s1⟩ := h1
    obtain ⟨κ2, m2, e2, s2⟩ := ih (fun t ht => hS t (by simp [ht])) (i + 1)
    have hs := hS s (by simp)
    have hE : MeasurableSet {ω : Asg | (branchEv n i).holds ω} := Ev.measurable _
    refine ⟨fun ω => if (branchEv n i).holds ω then κ1 ω else κ2 ω, Measurable.ite hE m1 m2, ?_, ?_⟩
    · intro j l ω hj hl hdet hω
      simp only [Spe.wssL] at hl
      obtain ⟨i1, i2⟩ := index_append hl
      obtain ⟨d1, d2⟩ := det_take hl hdet
      simp only [branchEv_holds, Spe.givenL]
      cases j with
      | zero =>
        rw [if_pos (by simpa using hω), e1 _ _ i1 d1, hs]
        rfl
      | succ j =>
        rw [if_neg, e2 j _ ω (by simpa using hj) i2 d2 (by rw [hω]; congr 3; omega)]
        · rfl
        · rw [hω]
          intro h
          simp only [Option.some.injEq, Val.str.injEq] at h
          have := toString_inj h
          omega
    · intro m hm hv seen hseen
      have hv1 : ∀ᵐ ω ∂m, Valid k s.wss ω := by filter_upwards [hv] with ω h using (valid_append.1 h).1
      have hv2 : ∀ᵐ ω ∂m, Valid (k + s.wss.length) (Spe.wssL ss) ω := by filter_upwards [hv] with ω h using (valid_append.1 h).2
      set E : Set Asg := {ω | (branchEv n i).holds ω} with hEdef
      obtain ⟨a1, a2⟩ := s2 m hm hv2 (seen ∪ E) (hseen.union hE)
      have hsub : m (E \ seen) ≠ 0 → Cmd.SafeS c L μ (s.cmds D H c k) (m[|E \ seen]) ∧ semS μ (s.cmds D H c k) (m[|E \ seen]) = (m[|E \ seen]).bind κ1 := by
        intro h0
        exact s1 _ (ProbabilityTheory.cond_isProbabilityMeasure h0) ((ProbabilityTheory.cond_absolutelyContinuous).ae_le hv1)
      simp only [List.length_cons, List.range'_succ, List.map_cons, firsts, Spe.cmdsL, Cmd.SafeB, Cmd.semL]
      refine ⟨⟨fun h0 => (safe_block _ _).2 (hsub h0).1, a1⟩, ?_⟩
      have hbr : ∀ (A : Set Asg) (As : List (Set Asg)) (f : Measure Asg → Measure Asg) (fs : List (Measure Asg → Measure Asg)), branches m (A :: As) (f :: fs) = m A • f (m[|A]) + branches m As fs := by
        intro A As f fs; simp [branches]
      rw [hbr, a2]
      have hf : m (E \ seen) • (block (s.cmds D H c k)).sem μ (m[|E \ seen]) = (m.restrict (E \ seen)).bind κ1 := by
        by_cases h0 : m (E \ seen) = 0
        · rw [h0, zero_smul, Measure.restrict_eq_zero.2 h0, Measure.bind_zero_left]
        · rw [sem_block, (hsub h0).2, cond_bind]
      rw [hf]
      have hκ : Measurable (fun ω => if (branchEv n i).holds ω then κ1 ω else κ2 ω) := Measurable.ite hE m1 m2
      have hsplit : m.restrict seenᶜ = m.restrict (E \ seen) + m.restrict (seen ∪ E)ᶜ := by
        rw [← Measure.restrict_inter_add_diff seenᶜ hE]
        congr 2
        · ext ω; simp [and_comm]
        · ext ω; simp
      rw [hsplit, bind_add_left hκ]
      congr 1
      · refine Measure.bind_congr_right ?_
        filter_upwards [ae_restrict_mem (hE.diff hseen)] with ω hω
        have h : (branchEv n i).holds ω := hω.1
        rw [if_pos h]
      · refine Measure.bind_congr_right ?_
        filter_upwards [ae_restrict_mem (hseen.union hE).compl] with ω hω
        rw [if_neg]
        intro h
        exact hω (.inr h)

theorem givenL_length (cs : List Spe) (l : List ℕ) : (Spe.givenL μ cs l).length = cs.length := by
  induction cs generalizing l with
  | nil => rfl
  | cons s ss ih => simp [Spe.givenL, ih]

theorem givenL_prob {cs : List Spe} {k : ℕ} (h : ActsAll D H c L μ cs k) : ∀ l, Index l (Spe.wssL cs) → ∀ i, i < cs.length → IsProbabilityMeasure ((Spe.givenL μ cs l).getD i 0) := by
  induction h with
  | nil => intro l _ i hi; simp at hi
  | @cons s ss k h1 h2 ih =>
    intro l hl i hi
    simp only [Spe.wssL] at hl
    obtain ⟨i1, i2⟩ := index_append hl
    cases i with
    | zero => exact h1.prob _ i1
    | succ i => exact ih _ i2 i (by simpa using hi)

theorem acts_sum {s t : Spe} {cs : List Spe} {ws : List ℝ} {S : Finset String} {k : ℕ} (h : ActsAll D H c L μ (s :: t :: cs) (k + 1)) (hS : ∀ r ∈ s :: t :: cs, r.symbols = S)
    (hlen : (s :: t :: cs).length = ws.length) :
    Acts c L μ k (Spe.sum (s :: t :: cs) ws).wss S ((Spe.sum (s :: t :: cs) ws).cmds D H c k) ((Spe.sum (s :: t :: cs) ws).given μ) := by
  obtain ⟨κ, m1, e1, s1⟩ := arms_sem (n := k) h hS 0
  have hW : (Spe.sum (s :: t :: cs) ws).wss = ws :: Spe.wssL (s :: t :: cs) := by simp [Spe.wss, Spe.wssL]
  have hG : ∀ i l, (Spe.sum (s :: t :: cs) ws).given μ (i :: l) = (Spe.givenL μ (s :: t :: cs) l).getD i 0 := by intro i l; rw [Spe.given]; rfl
  have hC : (Spe.sum (s :: t :: cs) ws).cmds D H c k = [.ifelse ((List.range' 0 (s :: t :: cs).length).map (branchEv k)) false ((Spe.cmdsL D H c (k + 1) (s :: t :: cs)).map block)] := by
    simp [Spe.cmds, Spe.cmdsL, List.range_eq_range']
  refine ⟨?_, κ, m1, ?_, ?_⟩
  · intro l hl
    rw [hW] at hl
    cases hl with
    | @cons i _ l _ hi hl =>
    rw [hG]
    exact givenL_prob h l hl i (by rw [hlen]; exact hi)
  · intro l ω hl hdet
    rw [hW] at hl
    cases hl with
    | @cons i _ l _ hi hl =>
    rw [hG]
    exact e1 i l ω (by rw [hlen]; exact hi) hl hdet.2 (by simpa using hdet.1)
  · intro m hm hv
    rw [hW] at hv
    have hv1 : ∀ᵐ ω ∂m, Valid (k + 1) (Spe.wssL (s :: t :: cs)) ω := by filter_upwards [hv] with ω h using h.2
    have hv2 : ∀ᵐ ω ∂m, ∃ x, ω (branchVar k) = some (.str x) := by
      filter_upwards [hv] with ω h
      obtain ⟨i, -, e⟩ := h.1
      exact ⟨_, e⟩
    obtain ⟨a1, a2⟩ := s1 m hm hv1 ∅ .empty
    rw [hC]
    have hcs : condSets ((List.range' 0 (s :: t :: cs).length).map (branchEv k)) false = (List.range' 0 (s :: t :: cs).length).map (fun j => {ω | (branchEv k j).holds ω}) := by
      simp [condSets]
    simp only [Cmd.SafeS, semS, Cmd.Safe, Cmd.sem, and_true]
    rw [hcs]
    refine ⟨⟨?_, a1⟩, ?_⟩
    · intro e he
      obtain ⟨j, -, rfl⟩ := List.mem_map.1 he
      exact branchEv_fits hv2
    · rw [a2]; simp

/-- The commands of an SPE do what it says. -/
theorem acts_spe (s : Spe) : ∀ k, s.WF c L μ → s.CanRender D H c L μ → (∀ n, branchVar n ∉ s.symbols) → Acts c L μ k s.wss s.symbols (s.cmds D H c k) (s.given μ) := by
  have hl : ∀ cs : List Spe, (∀ s ∈ cs, ∀ k, Acts c L μ k s.wss s.symbols (s.cmds D H c k) (s.given μ)) → ∀ k, ActsAll D H c L μ cs k := by
    intro cs
    induction cs with
    | nil => intro _ k; exact .nil
    | cons s ss ih => intro h k; exact .cons (h s (by simp) k) (ih (fun t ht => h t (by simp [ht])) _)
  refine Spe.ind (Q := fun s => ∀ k, s.WF c L μ → s.CanRender D H c L μ → (∀ n, branchVar n ∉ s.symbols) → Acts c L μ k s.wss s.symbols (s.cmds D H c k) (s.given μ)) ?_ ?_ ?_ ?_ ?_ s
  · intro kk X d supp cond env k hw hc _
    have := acts_real (n := k) hw hc
    have hg : (Spe.real kk X d supp cond env).given μ = fun _ => (Spe.real kk X d supp cond env).den μ := by funext l; rw [Spe.given]
    rw [hg]
    simpa only [Spe.wss, Spe.cmds] using this
  · intro X v env k hw hc _; cases hc
  · intro X dist k hw hc _
    have := acts_nominal (n := k) hw
    have hg : (Spe.nominal X dist).given μ = fun _ => (Spe.nominal X dist).den μ := by funext l; rw [Spe.given]
    rw [hg]
    simpa only [Spe.wss, Spe.cmds] using this
  · intro cs ws ih k hw hc hb
    cases hw with
    | @sum _ _ S hws hne hlen hw0 hw1 hS =>
    cases hc with
    | sum hcs hq =>
    have hSy : (Spe.sum cs ws).symbols = S := by
      cases cs with
      | nil => exact absurd rfl hne
      | cons s ss => simp [Spe.symbols, Spe.symbolsL, hS s (by simp)]
    rw [hSy] at hb ⊢
    have hch : ∀ s ∈ cs, ∀ k, Acts c L μ k s.wss s.symbols (s.cmds D H c k) (s.given μ) := fun s hs k => ih s hs k (hws s hs) (hcs s hs) (by rw [hS s hs]; exact hb)
    match cs, hne, hch, hlen, hS with
    | [s], _, hch, hlen, hS =>
      have hg : (Spe.sum [s] ws).given μ = s.given μ := by funext l; rw [Spe.given]
      rw [hg]
      have := hch s (by simp) k
      rw [hS s (by simp)] at this
      simpa only [Spe.wss, Spe.cmds] using this
    | s :: t :: cs, _, hch, hlen, hS => exact acts_sum (hl _ hch _) hS hlen
  · intro cs ih k hw hc hb
    cases hw with
    | prod hws hne hdj =>
    cases hc with
    | prod hcs =>
    have hb' : ∀ S ∈ Spe.symbolsL cs, ∀ n, branchVar n ∉ S := by
      intro S hS n h
      exact hb n (by simp only [Spe.symbols]; exact mem_foldr_union.2 ⟨S, hS, h⟩)
    have hb2 : ∀ s ∈ cs, ∀ n, branchVar n ∉ s.symbols := fun s hs => hb' _ (by rw [Spe.symbolsL_eq]; exact List.mem_map.2 ⟨s, hs, rfl⟩)
    have := acts_prod (hl cs (fun s hs k => ih s hs k (hws s hs) (hcs s hs) (hb2 s hs)) k) hdj hb'
    have hg : (Spe.prod cs).given μ = fun l => indep ((Spe.symbolsL cs).zip (Spe.givenL μ cs l)) := by funext l; rw [Spe.given]
    rw [hg]
    simpa only [Spe.wss, Spe.cmds, Spe.symbols] using this

end

end Sppl
