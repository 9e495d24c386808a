import Verif.Spe.MixLemmas

set_option linter.all false

/-!
# Constructors of sums and products (helper lemmas)
-/

namespace Sppl
open Classical MeasureTheory
open scoped ENNReal ProbabilityTheory

theorem mixture_eq (ws : List ℝ) (ms : List (Measure Asg)) : mixture ws ms = mixG ws ms := rfl

/-! ## `are_identical`, `are_disjoint` -/

theorem foldl_inter_sub {l : List (Finset String)} : ∀ {a : Finset String}, l.foldl (· ∩ ·) a ⊆ a ∧ ∀ s ∈ l, l.foldl (· ∩ ·) a ⊆ s := by
  induction l with
  | nil => intro a; simp
  | cons b l ih =>
    intro a
    obtain ⟨h1, h2⟩ := ih (a := a ∩ b)
    rw [List.foldl_cons]
    refine ⟨h1.trans Finset.inter_subset_left, fun s hs => ?_⟩
    rcases List.mem_cons.1 hs with rfl | hs
    · exact h1.trans Finset.inter_subset_right
    · exact h2 s hs

theorem areIdentical_iff {l : List (Finset String)} : areIdentical l = true ↔ ∀ s ∈ l, ∀ t ∈ l, s = t := by
  cases l with
  | nil => simp [areIdentical]
  | cons a l =>
    unfold areIdentical
    rw [List.all_eq_true]
    constructor
    · intro h
      have key : ∀ s ∈ a :: l, s = l.foldl (· ∩ ·) a := by
        intro s hs
        have := h s hs
        rw [beq_iff_eq] at this
        symm
        refine Finset.eq_of_subset_of_card_le ?_ (by rw [this])
        rcases List.mem_cons.1 hs with rfl | hs
        · exact foldl_inter_sub.1
        · exact foldl_inter_sub.2 s hs
      intro s hs t ht
      rw [key s hs, key t ht]
    · intro h s hs
      have hall : ∀ s ∈ l, s = a := fun s hs => h s (by simp [hs]) a (by simp)
      have : l.foldl (· ∩ ·) a = a := by
        clear hs h
        induction l with
        | nil => rfl
        | cons b l ih =>
          rw [List.foldl_cons, hall b (by simp), Finset.inter_self]
          exact ih (fun s hs => hall s (by simp [hs]))
      rw [this, beq_iff_eq, h s hs a (by simp)]

theorem card_union_le {l : List (Finset String)} : (l.foldr (· ∪ ·) ∅).card ≤ (l.map Finset.card).sum := by
  induction l with
  | nil => simp
  | cons a l ih =>
    rw [List.foldr_cons, List.map_cons, List.sum_cons]
    exact (Finset.card_union_le _ _).trans (by omega)

theorem areDisjoint_iff {l : List (Finset String)} : areDisjoint l = true ↔ l.Pairwise Disjoint := by
  unfold areDisjoint
  rw [beq_iff_eq]
  induction l with
  | nil => simp
  | cons a l ih =>
    rw [List.foldr_cons, List.map_cons, List.sum_cons, List.pairwise_cons]
    have h1 := Finset.card_union_add_card_inter a (l.foldr (· ∪ ·) ∅)
    have h2 := card_union_le (l := l)
    have h3 : (∀ b ∈ l, Disjoint a b) ↔ (a ∩ l.foldr (· ∪ ·) ∅).card = 0 := by
      rw [Finset.card_eq_zero, ← Finset.disjoint_iff_inter_eq_empty]
      constructor
      · intro h
        rw [Finset.disjoint_right]
        intro s hs
        obtain ⟨b, hb, hsb⟩ := mem_foldr_union.1 hs
        exact Finset.disjoint_right.1 (h b hb) hsb
      · intro h b hb
        rw [Finset.disjoint_right] at h ⊢
        intro s hs
        exact h (mem_foldr_union.2 ⟨b, hb, hs⟩)
    rw [h3, ← ih]
    omega

/-! ## Sums -/

theorem mixG_append {α : Type} [MeasurableSpace α] : ∀ {ws ws' : List ℝ} {ms ms' : List (Measure α)}, ws.length = ms.length →
    mixG (ws ++ ws') (ms ++ ms') = mixG ws ms + mixG ws' ms'
  | [], ws', [], ms', _ => by simp
  | w :: ws, ws', m :: ms, ms', h => by
    rw [List.cons_append, List.cons_append, mixG_cons, mixG_cons, mixG_append (by simpa using h), add_assoc]

theorem mixG_scale {α : Type} [MeasurableSpace α] {w : ℝ} (hw : 0 ≤ w) : ∀ (ws : List ℝ) (ms : List (Measure α)),
    mixG (ws.map (fun w' => w * w')) ms = ENNReal.ofReal w • mixG ws ms
  | [], _ => by simp
  | _ :: _, [] => by simp
  | w' :: ws, m :: ms => by
    rw [List.map_cons, mixG_cons, mixG_cons, mixG_scale hw, smul_add, ENNReal.ofReal_mul hw, smul_smul]

/-- What the arguments of `SumSPE` contribute. -/
theorem sumChildren_ok {c : Ctx} {L : Lib} {μ : Dist → Measure ℝ} {s : Spe} (hs : s.WF c L μ) {w : ℝ} (hw : 0 ≤ w) :
    (∀ t ∈ s.sumChildren, t.WF c L μ ∧ t.symbols = s.symbols ∧ t.atomSyms ⊆ s.atomSyms) ∧ s.sumChildren ≠ [] ∧
      (s.sumWeights w).length = s.sumChildren.length ∧ (∀ v ∈ s.sumWeights w, 0 ≤ v) ∧ (s.sumWeights w).sum = w ∧
      mixG (s.sumWeights w) (s.sumChildren.map (Spe.den μ)) = ENNReal.ofReal w • s.den μ ∧
      ∀ E, s.Ready E → (∀ t ∈ s.sumChildren, t.Ready E) ∧ (0 < w → ∀ v ∈ s.sumWeights w, 0 < v) := by
  cases s with
  | sum cs ws =>
    cases hs with
    | @sum _ _ S h1 h2 h3 h4 h5 h6 =>
    have hsym : (Spe.sum cs ws).symbols = S := Spe.symbols_sum h2 h6
    simp only [Spe.sumChildren, Spe.sumWeights]
    refine ⟨fun t ht => ⟨h1 t ht, by rw [hsym, h6 t ht], ?_⟩, h2, by simp [h3], ?_, ?_, ?_, ?_⟩
    · intro x hx
      simp only [Spe.atomSyms]
      exact Spe.mem_atomSymsL.2 ⟨t, ht, hx⟩
    · intro v hv
      obtain ⟨w', hw', rfl⟩ := List.mem_map.1 hv
      exact mul_nonneg hw (h4 w' hw')
    · rw [List.sum_map_mul_left]; simp [h5]
    · rw [mixG_scale hw]; simp only [Spe.den, Spe.denL_eq]; rfl
    · intro E hE
      cases hE with
      | sum hE1 hE2 =>
      refine ⟨hE1, fun hw v hv => ?_⟩
      obtain ⟨w', hw', rfl⟩ := List.mem_map.1 hv
      exact mul_pos hw (hE2 w' hw')
  | _ =>
    simp only [Spe.sumChildren, Spe.sumWeights]
    refine ⟨?_, by simp, by simp, by simpa using hw, by simp, by simp [mixG], ?_⟩
    · intro t ht; rw [List.mem_singleton] at ht; subst ht; exact ⟨hs, rfl, fun _ h => h⟩
    · intro E hE
      refine ⟨?_, ?_⟩
      · intro t ht; rw [List.mem_singleton] at ht; subst ht; exact hE
      · intro hw v hv; rw [List.mem_singleton] at hv; subst hv; exact hw

theorem sum_flat {c : Ctx} {L : Lib} {μ : Dist → Measure ℝ} : ∀ {cs : List Spe} {ws : List ℝ}, (∀ s ∈ cs, s.WF c L μ) → (∀ w ∈ ws, 0 ≤ w) → cs.length = ws.length →
    ((cs.zip ws).flatMap (fun p => p.1.sumWeights p.2)).length = (cs.flatMap Spe.sumChildren).length ∧
      ((cs.zip ws).flatMap (fun p => p.1.sumWeights p.2)).sum = ws.sum ∧
      mixG ((cs.zip ws).flatMap (fun p => p.1.sumWeights p.2)) ((cs.flatMap Spe.sumChildren).map (Spe.den μ)) = mixG ws (cs.map (Spe.den μ))
  | [], [], _, _, _ => by simp
  | s :: cs, w :: ws, h1, h2, h3 => by
    obtain ⟨i1, i2, i3⟩ := sum_flat (cs := cs) (ws := ws) (fun s hs => h1 s (by simp [hs])) (fun w hw => h2 w (by simp [hw])) (by simpa using h3)
    obtain ⟨-, -, g1, -, g2, g3, -⟩ := sumChildren_ok (h1 s (by simp)) (h2 w (by simp))
    simp only [List.zip_cons_cons, List.flatMap_cons, List.length_append, List.sum_append, List.map_append, List.map_cons, List.sum_cons]
    refine ⟨by rw [g1, i1], by rw [g2, i2], ?_⟩
    rw [mixG_append (by simpa using g1), g3, i3, mixG_cons]

theorem mem_flat_weights {cs : List Spe} {ws : List ℝ} {v : ℝ} (hv : v ∈ (cs.zip ws).flatMap (fun p => p.1.sumWeights p.2)) :
    ∃ s ∈ cs, ∃ w ∈ ws, v ∈ s.sumWeights w := by
  obtain ⟨p, hp, hv⟩ := List.mem_flatMap.1 hv
  obtain ⟨s, w⟩ := p
  exact ⟨s, (List.of_mem_zip hp).1, w, (List.of_mem_zip hp).2, hv⟩

/-- `SumSPE.__init__`: the result is well-formed and denotes the mixture of the arguments. -/
theorem mkSum_ok {c : Ctx} {L : Lib} {μ : Dist → Measure ℝ} {cs : List Spe} {ws : List ℝ} {s : Spe} (hcs : ∀ t ∈ cs, t.WF c L μ) (hw : ∀ w ∈ ws, 0 ≤ w)
    (h : mkSum cs ws = .ok s) :
    s.WF c L μ ∧ (∀ t ∈ cs, t.symbols = s.symbols) ∧ s.den μ = mixture ws (cs.map (Spe.den μ)) ∧ s.atomSyms ⊆ Spe.atomSymsL cs ∧ ws.sum = 1 ∧ cs ≠ [] ∧
      (∃ cs' ws', s = .sum cs' ws') ∧ ∀ E, (∀ t ∈ cs, t.Ready E) → (∀ w ∈ ws, 0 < w) → s.Ready E := by
  unfold mkSum at h
  split at h; · cases h
  rename_i hlen
  push Not at hlen
  simp only at h
  split at h; · cases h
  rename_i hsum
  push Not at hsum
  split at h; · cases h
  rename_i hne
  split at h; swap; · cases h
  rename_i hid
  cases h
  obtain ⟨f1, f2, f3⟩ := sum_flat (μ := μ) hcs hw hlen
  rw [areIdentical_iff, Spe.symbolsL_eq] at hid
  have hch : ∀ t ∈ cs.flatMap Spe.sumChildren, ∃ u ∈ cs, t ∈ u.sumChildren := fun t ht => by simpa using ht
  obtain ⟨t0, ht0⟩ := List.exists_mem_of_ne_nil _ hne
  have hsame : ∀ t ∈ cs.flatMap Spe.sumChildren, t.symbols = t0.symbols := fun t ht =>
    hid _ (List.mem_map.2 ⟨t, ht, rfl⟩) _ (List.mem_map.2 ⟨t0, ht0, rfl⟩)
  have hsym : (Spe.sum (cs.flatMap Spe.sumChildren) ((cs.zip ws).flatMap (fun p => p.1.sumWeights p.2))).symbols = t0.symbols := Spe.symbols_sum hne hsame
  refine ⟨.sum (S := t0.symbols) ?_ hne f1.symm ?_ ?_ hsame, ?_, ?_, ?_, hsum, ?_, ⟨_, _, rfl⟩, ?_⟩
  · intro t ht
    obtain ⟨u, hu, htu⟩ := hch t ht
    exact ((sumChildren_ok (hcs u hu) (le_refl (0:ℝ))).1 t htu).1
  · intro v hv
    obtain ⟨t, ht, w, hw', hv⟩ := mem_flat_weights hv
    exact (sumChildren_ok (hcs t ht) (hw w hw')).2.2.2.1 v hv
  · rw [f2, hsum]
  · intro t ht
    have g := sumChildren_ok (hcs t ht) (le_refl (0:ℝ))
    obtain ⟨u, hu⟩ := List.exists_mem_of_ne_nil _ g.2.1
    rw [hsym, ← (g.1 u hu).2.1, hsame u (List.mem_flatMap.2 ⟨t, ht, hu⟩)]
  · simp only [Spe.den, Spe.denL_eq]; exact f3
  · intro x hx
    simp only [Spe.atomSyms] at hx
    obtain ⟨t, ht, hx⟩ := Spe.mem_atomSymsL.1 hx
    obtain ⟨u, hu, htu⟩ := hch t ht
    exact Spe.mem_atomSymsL.2 ⟨u, hu, ((sumChildren_ok (hcs u hu) (le_refl (0:ℝ))).1 t htu).2.2 hx⟩
  · rintro rfl; simp at hne
  · intro E hE hpos
    refine .sum ?_ ?_
    · intro t ht
      obtain ⟨u, hu, htu⟩ := hch t ht
      exact ((sumChildren_ok (hcs u hu) (le_refl (0:ℝ))).2.2.2.2.2.2 E (hE u hu)).1 t htu
    · intro v hv
      obtain ⟨t, ht, w, hw', hv⟩ := mem_flat_weights hv
      exact ((sumChildren_ok (hcs t ht) (hw w hw')).2.2.2.2.2.2 E (hE t ht)).2 (hpos w hw') v hv

/-! ## Products -/

/-- The groups of variables of the children. -/
noncomputable def groups (μ : Dist → Measure ℝ) (cs : List Spe) : List (Finset String × Measure Asg) := cs.map (fun s => (s.symbols, s.den μ))

theorem den_prod (μ : Dist → Measure ℝ) (cs : List Spe) : (Spe.prod cs).den μ = indep (groups μ cs) := by
  simp only [Spe.den, Spe.symbolsL_eq, Spe.denL_eq, groups, List.zip_map', List.map_map]

theorem symsOf_groups (μ : Dist → Measure ℝ) (cs : List Spe) : symsOf (groups μ cs) = (Spe.prod cs).symbols := by
  simp only [symsOf, groups, Spe.symbols, Spe.symbolsL_eq, List.map_map]; rfl

theorem groups_prob {c : Ctx} {L : Lib} {μ : Dist → Measure ℝ} {cs : List Spe} (h : ∀ s ∈ cs, s.WF c L μ) : ∀ q ∈ groups μ cs, IsProbabilityMeasure q.2 := by
  intro q hq
  obtain ⟨s, hs, rfl⟩ := List.mem_map.1 hq
  exact (h s hs).prob

theorem prodChildren_ok {c : Ctx} {L : Lib} {μ : Dist → Measure ℝ} {s : Spe} (hs : s.WF c L μ) :
    (∀ t ∈ s.prodChildren, t.WF c L μ ∧ t.symbols ⊆ s.symbols ∧ t.atomSyms ⊆ s.atomSyms) ∧ s.prodChildren ≠ [] ∧
      (∀ x, x ∈ s.symbols ↔ ∃ t ∈ s.prodChildren, x ∈ t.symbols) ∧ symsOf (groups μ s.prodChildren) = s.symbols ∧
      (∀ l, (∀ q ∈ l, IsProbabilityMeasure q.2) → indep ((s.symbols, s.den μ) :: l) = indep (groups μ s.prodChildren ++ l)) ∧
      ∀ E, s.Ready E → ∀ t ∈ s.prodChildren, t.Ready E := by
  cases s with
  | prod cs =>
    cases hs with
    | prod h1 h2 h3 =>
    simp only [Spe.prodChildren]
    refine ⟨fun t ht => ⟨h1 t ht, ?_, ?_⟩, h2, fun x => Spe.mem_symbols_prod, symsOf_groups μ cs, ?_, ?_⟩
    · intro x hx; exact Spe.mem_symbols_prod.2 ⟨t, ht, hx⟩
    · intro x hx
      simp only [Spe.atomSyms]
      exact Spe.mem_atomSymsL.2 ⟨t, ht, hx⟩
    · intro l hl
      rw [indep_append _ _ (groups_prob h1) hl, indep_cons, den_prod, symsOf_groups]
    · intro E hE
      cases hE with
      | prod hE => exact hE
  | _ =>
    simp only [Spe.prodChildren]
    refine ⟨?_, by simp, by simp, by simp [symsOf, groups], ?_, ?_⟩
    · intro t ht; rw [List.mem_singleton] at ht; subst ht; exact ⟨hs, fun _ h => h, fun _ h => h⟩
    · intro l hl; rfl
    · intro E hE t ht; rw [List.mem_singleton] at ht; subst ht; exact hE

theorem prod_flat {c : Ctx} {L : Lib} {μ : Dist → Measure ℝ} : ∀ {cs : List Spe}, (∀ s ∈ cs, s.WF c L μ) →
    indep (groups μ (cs.flatMap Spe.prodChildren)) = indep (groups μ cs)
  | [], _ => rfl
  | s :: cs, h => by
    have h' : ∀ s ∈ cs, s.WF c L μ := fun t ht => h t (by simp [ht])
    have ih := prod_flat h'
    have g := prodChildren_ok (h s (by simp))
    have e : groups μ ((s :: cs).flatMap Spe.prodChildren) = groups μ s.prodChildren ++ groups μ (cs.flatMap Spe.prodChildren) := by simp [groups]
    have hp : ∀ q ∈ groups μ (cs.flatMap Spe.prodChildren), IsProbabilityMeasure q.2 := groups_prob (c := c) (L := L) (by
      intro t ht
      obtain ⟨u, hu, htu⟩ := List.mem_flatMap.1 ht
      exact ((prodChildren_ok (h' u hu)).1 t htu).1)
    rw [e, ← g.2.2.2.2.1 _ hp]
    show indep ((s.symbols, s.den μ) :: _) = indep ((s.symbols, s.den μ) :: groups μ cs)
    rw [indep_cons, indep_cons, ih]

/-- `ProductSPE.__init__`: the result is well-formed and denotes the product of the arguments. -/
theorem mkProd_ok {c : Ctx} {L : Lib} {μ : Dist → Measure ℝ} {cs : List Spe} {s : Spe} (hcs : ∀ t ∈ cs, t.WF c L μ) (h : mkProd cs = .ok s) :
    s.WF c L μ ∧ s.symbols = (Spe.prod cs).symbols ∧ s.den μ = (Spe.prod cs).den μ ∧ s.atomSyms ⊆ Spe.atomSymsL cs ∧
      (∃ cs', s = .prod cs') ∧ cs ≠ [] ∧ ∀ E, (∀ t ∈ cs, t.Ready E) → s.Ready E := by
  unfold mkProd at h
  simp only at h
  split at h; · cases h
  rename_i hne
  split at h; swap; · cases h
  rename_i hd
  cases h
  have hch : ∀ t ∈ cs.flatMap Spe.prodChildren, ∃ u ∈ cs, t ∈ u.prodChildren := fun t ht => by simpa using ht
  refine ⟨.prod ?_ hne (areDisjoint_iff.1 hd), ?_, ?_, ?_, ⟨_, rfl⟩, ?_, ?_⟩
  · intro t ht
    obtain ⟨u, hu, htu⟩ := hch t ht
    exact ((prodChildren_ok (hcs u hu)).1 t htu).1
  · ext x
    rw [Spe.mem_symbols_prod, Spe.mem_symbols_prod]
    constructor
    · rintro ⟨t, ht, hx⟩
      obtain ⟨u, hu, htu⟩ := hch t ht
      exact ⟨u, hu, ((prodChildren_ok (hcs u hu)).1 t htu).2.1 hx⟩
    · rintro ⟨u, hu, hx⟩
      obtain ⟨t, ht, hx⟩ := ((prodChildren_ok (hcs u hu)).2.2.1 x).1 hx
      exact ⟨t, List.mem_flatMap.2 ⟨u, hu, ht⟩, hx⟩
  · rw [den_prod, den_prod, prod_flat hcs]
  · intro x hx
    simp only [Spe.atomSyms] at hx
    obtain ⟨t, ht, hx⟩ := Spe.mem_atomSymsL.1 hx
    obtain ⟨u, hu, htu⟩ := hch t ht
    exact Spe.mem_atomSymsL.2 ⟨u, hu, ((prodChildren_ok (hcs u hu)).1 t htu).2.2 hx⟩
  · rintro rfl; simp at hne
  · intro E hE
    refine .prod ?_
    intro t ht
    obtain ⟨u, hu, htu⟩ := hch t ht
    exact (prodChildren_ok (hcs u hu)).2.2.2.2.2 E (hE u hu) t htu

end Sppl
