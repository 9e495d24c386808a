import Verif.Spe.SimpLemmas

set_option linter.all false

/-!
# Merging leaves by hash (helper lemmas)
-/

namespace Sppl
open Classical MeasureTheory
open scoped ENNReal

variable {c : Ctx} {L : Lib} {μ : Dist → Measure ℝ} {hash : Spe → ℤ}

theorem mem_block {hs : List ℤ} {h : ℤ} {i : ℕ} : i ∈ (hs.zipIdx.filter (fun p => decide (p.1 = h))).map Prod.snd ↔ hs[i]? = some h := by
  rw [List.mem_map]
  constructor
  · rintro ⟨⟨a, j⟩, hp, rfl⟩
    obtain ⟨h1, h2⟩ := List.mem_filter.1 hp
    rw [List.mem_zipIdx_iff_getElem?] at h1
    simp only [decide_eq_true_eq] at h2
    subst h2; exact h1
  · intro hi
    exact ⟨(h, i), List.mem_filter.2 ⟨List.mem_zipIdx_iff_getElem?.2 hi, by simp⟩, rfl⟩

theorem mem_firsts {hs : List ℤ} {h : ℤ} : h ∈ (hs.zipIdx.filter (fun p => !decide (p.1 ∈ hs.take p.2))).map Prod.fst ↔ h ∈ hs := by
  rw [List.mem_map]
  constructor
  · rintro ⟨⟨a, j⟩, hp, rfl⟩
    have h1 := (List.mem_filter.1 hp).1
    rw [List.mem_zipIdx_iff_getElem?] at h1
    exact List.mem_of_getElem? h1
  · intro hh
    obtain ⟨i, hi, hmin⟩ : ∃ i, hs[i]? = some h ∧ ∀ j < i, hs[j]? ≠ some h := by
      have : ∃ i, hs[i]? = some h := List.mem_iff_getElem?.1 hh
      exact ⟨Nat.find this, Nat.find_spec this, fun j hj => Nat.find_min this hj⟩
    refine ⟨(h, i), List.mem_filter.2 ⟨List.mem_zipIdx_iff_getElem?.2 hi, ?_⟩, rfl⟩
    simp only [Bool.not_eq_true', decide_eq_false_iff_not]
    intro hm
    obtain ⟨j, hj⟩ := List.mem_iff_getElem?.1 hm
    have hji : j < i := by
      by_contra hlt
      rw [List.getElem?_take, if_neg hlt] at hj; cases hj
    rw [List.getElem?_take, if_pos hji] at hj
    exact hmin j hji hj

theorem firsts_nodup (hs : List ℤ) : ((hs.zipIdx.filter (fun p => !decide (p.1 ∈ hs.take p.2))).map Prod.fst).Nodup := by
  rw [List.Nodup, List.pairwise_map, List.pairwise_filter]
  rw [List.pairwise_iff_getElem]
  intro i j hi hj hij
  simp only [List.getElem_zipIdx, Bool.not_eq_true', decide_eq_false_iff_not, Nat.zero_add]
  intro _ h2 he
  refine h2 ?_
  rw [← he]
  have hi' : i < hs.length := by simpa using hi
  refine List.mem_iff_getElem?.2 ⟨i, ?_⟩
  rw [List.getElem?_take, if_pos hij, List.getElem?_eq_getElem hi']

theorem partitionBlocks_mem {hs : List ℤ} {b : List ℕ} (hb : b ∈ partitionBlocks hs) : ∃ h, h ∈ hs ∧ ∀ i, i ∈ b ↔ hs[i]? = some h := by
  unfold partitionBlocks at hb
  obtain ⟨h, hh, rfl⟩ := List.mem_map.1 hb
  exact ⟨h, mem_firsts.1 hh, fun i => mem_block⟩

theorem partitionBlocks_ne {hs : List ℤ} {b : List ℕ} (hb : b ∈ partitionBlocks hs) : b ≠ [] := by
  obtain ⟨h, hh, hm⟩ := partitionBlocks_mem hb
  obtain ⟨i, hi⟩ := List.mem_iff_getElem?.1 hh
  intro h0
  have := (hm i).2 hi
  simp [h0] at this

/-- The blocks are a partition of the indexes. -/
theorem partitionBlocks_perm (hs : List ℤ) : (partitionBlocks hs).flatten.Perm (List.range hs.length) := by
  refine (List.perm_ext_iff_of_nodup ?_ List.nodup_range).2 ?_
  · rw [List.nodup_flatten]
    refine ⟨?_, ?_⟩
    · intro b hb
      unfold partitionBlocks at hb
      obtain ⟨h, hh, rfl⟩ := List.mem_map.1 hb
      have : (hs.zipIdx.map Prod.snd).Nodup := by rw [List.zipIdx_map_snd]; exact List.nodup_range'
      exact this.sublist (List.Sublist.map _ List.filter_sublist)
    · unfold partitionBlocks
      rw [List.pairwise_map]
      refine (firsts_nodup hs).imp ?_
      intro h h' hne i hi hi'
      rw [mem_block] at hi hi'
      rw [hi] at hi'; exact hne (by simpa using hi')
  · intro i
    rw [List.mem_flatten, List.mem_range]
    constructor
    · rintro ⟨b, hb, hi⟩
      obtain ⟨h, -, hm⟩ := partitionBlocks_mem hb
      have := (hm i).1 hi
      exact (List.getElem?_eq_some_iff.1 this).1
    · intro hi
      refine ⟨_, List.mem_map.2 ⟨hs[i], mem_firsts.2 (List.getElem_mem hi), rfl⟩, ?_⟩
      exact mem_block.2 (List.getElem?_eq_getElem hi)

theorem mixG_list {α β : Type} [MeasurableSpace β] (f : α → ℝ) (g : α → Measure β) (l : List α) :
    mixG (l.map f) (l.map g) = (l.map (fun a => ENNReal.ofReal (f a) • g a)).sum := by
  induction l with
  | nil => simp
  | cons a l ih => rw [List.map_cons, List.map_cons, mixG_cons, ih]; simp

theorem smul_block {β : Type} [MeasurableSpace β] {m : Measure β} {f : ℕ → ℝ} {g : ℕ → Measure β} : ∀ (b : List ℕ), (∀ i ∈ b, 0 ≤ f i) → (∀ i ∈ b, g i = m) →
    (b.map (fun i => ENNReal.ofReal (f i) • g i)).sum = ENNReal.ofReal (b.map f).sum • m
  | [], _, _ => by simp
  | i :: b, h1, h2 => by
    rw [List.map_cons, List.map_cons, List.sum_cons, List.sum_cons, smul_block b (fun i hi => h1 i (by simp [hi])) (fun i hi => h2 i (by simp [hi])),
      ENNReal.ofReal_add (h1 i (by simp)) (List.sum_nonneg (by
        intro x hx; obtain ⟨j, hj, rfl⟩ := List.mem_map.1 hx; exact h1 j (by simp [hj]))), add_smul, h2 i (by simp)]

/-- Merging leaves of equal hash. -/
theorem simplifySumLeaf_ok {E : String → Env} {cs : List Spe} {ws : List ℝ} {s' : Spe} (hs : (Spe.sum cs ws).WF c L μ) (hE : (Spe.sum cs ws).Ready E)
    (hh : ∀ s ∈ cs, ∀ t ∈ cs, hash s = hash t → s.eqPy t = true) (h : simplifySumLeaf hash cs ws = .ok s') :
    s'.WF c L μ ∧ s'.symbols = (Spe.sum cs ws).symbols ∧ s'.atomSyms ⊆ (Spe.sum cs ws).atomSyms ∧ s'.den μ = (Spe.sum cs ws).den μ ∧ s'.Ready E := by
  have hwf := hs
  have hE' := hE
  cases hs with
  | @sum _ _ S h1 hne hl hw hsum hS =>
  cases hE with
  | sum e1 e2 =>
  have hsym : (Spe.sum cs ws).symbols = S := Spe.symbols_sum hne hS
  have heq : ∀ s ∈ cs, ∀ t ∈ cs, hash s = hash t → s.den μ = t.den μ ∧ s.symbols = t.symbols := fun s hs t ht he =>
    eqPy_ok (h1 s hs) (h1 t ht) (e1 s hs) (e1 t ht) (hh s hs t ht he)
  unfold simplifySumLeaf at h
  split at h
  swap; · cases h
  simp only at h
  split at h
  · cases h
  split at h
  · cases h
    exact ⟨hwf, rfl, fun _ h => h, rfl, hE'⟩
  rename_i hlen
  have hlen' : (cs.map hash).length = cs.length := by simp
  set P := partitionBlocks (cs.map hash) with hP
  -- every block is a set of indexes of leaves with the same distribution
  have hidx : ∀ b ∈ P, ∀ i ∈ b, i < cs.length := by
    intro b hb i hi
    have : i ∈ P.flatten := List.mem_flatten.2 ⟨b, hb, hi⟩
    have := (partitionBlocks_perm (cs.map hash)).mem_iff.1 this
    simpa using this
  have hsame : ∀ b ∈ P, ∀ i ∈ b, ∀ j ∈ b, (cs[i]!).den μ = (cs[j]!).den μ := by
    intro b hb i hi j hj
    obtain ⟨h0, -, hm⟩ := partitionBlocks_mem hb
    have hi' := hidx b hb i hi
    have hj' := hidx b hb j hj
    have k1 := (hm i).1 hi
    have k2 := (hm j).1 hj
    rw [List.getElem?_map, List.getElem?_eq_getElem hi'] at k1
    rw [List.getElem?_map, List.getElem?_eq_getElem hj'] at k2
    simp only [Option.map_some, Option.some.injEq] at k1 k2
    rw [getElem!_pos cs i hi', getElem!_pos cs j hj']
    exact (heq _ (List.getElem_mem _) _ (List.getElem_mem _) (k1.trans k2.symm)).1
  have hden : (Spe.sum cs ws).den μ = (P.map (fun b => (b.map (fun i => ENNReal.ofReal (ws[i]!) • (cs[i]!).den μ)).sum)).sum := by
    have e1 : (Spe.sum cs ws).den μ = ((List.range cs.length).map (fun i => ENNReal.ofReal (ws[i]!) • (cs[i]!).den μ)).sum := by
      have a1 : (List.range cs.length).map (fun i => ws[i]!) = ws := by
        refine List.ext_getElem (by simp [hl]) ?_
        intro i hi hi'
        rw [List.getElem_map, List.getElem_range, getElem!_pos ws i hi']
      have a2 : (List.range cs.length).map (fun i => (cs[i]!).den μ) = cs.map (Spe.den μ) := by
        refine List.ext_getElem (by simp) ?_
        intro i hi hi'
        have : i < cs.length := by simpa using hi'
        rw [List.getElem_map, List.getElem_map, List.getElem_range, getElem!_pos cs i this]
      have a3 := mixG_list (fun i => ws[i]!) (fun i => (cs[i]!).den μ) (List.range cs.length)
      rw [a1, a2] at a3
      rw [← a3]
      simp only [Spe.den, Spe.denL_eq]; rfl
    rw [e1, ← hlen', ← ((partitionBlocks_perm (cs.map hash)).map _).sum_eq, List.map_flatten, List.sum_flatten, List.map_map]
    rfl
  split at h
  · -- one block
    rename_i hone
    cases h
    obtain ⟨s0, cs', rfl⟩ := List.exists_cons_of_ne_nil hne
    have hmem : s0 ∈ s0 :: cs' := by simp
    obtain ⟨b, hb⟩ := List.length_eq_one_iff.1 hone
    have hbP : b ∈ P := by rw [hb]; simp
    have h0b : ∀ i, i < (s0 :: cs').length → i ∈ b := by
      intro i hi
      have := (partitionBlocks_perm ((s0 :: cs').map hash)).mem_iff.2 (List.mem_range.2 (by simpa using hi))
      rw [← hP, hb] at this
      simpa using this
    show Spe.WF c L μ s0 ∧ _
    have hall : ∀ i ∈ b, ((s0 :: cs')[i]!).den μ = s0.den μ := fun i hi => hsame b hbP i hi 0 (h0b 0 (by simp))
    refine ⟨h1 _ hmem, by rw [hsym]; exact hS _ hmem, ?_, ?_, e1 _ hmem⟩
    · intro x hx; exact Spe.mem_atomSymsL.2 ⟨s0, hmem, hx⟩
    · show s0.den μ = _
      have hsumden : (Spe.sum (s0 :: cs') ws).den μ = mixG ws ((s0 :: cs').map (Spe.den μ)) := by simp only [Spe.den, Spe.denL_eq]; rfl
      have hc : (s0 :: cs').map (Spe.den μ) = ws.map (fun _ => s0.den μ) := by
        refine List.ext_getElem (by simpa using hl) ?_
        intro i hi hi'
        have hi2 : i < (s0 :: cs').length := by simpa using hi
        have := hall i (h0b i hi2)
        rw [getElem!_pos (s0 :: cs') i hi2] at this
        rw [List.getElem_map, List.getElem_map]; exact this
      rw [hsumden, hc]
      have : ∀ {l : List ℝ}, (∀ w ∈ l, 0 ≤ w) → mixG l (l.map (fun _ => s0.den μ)) = ENNReal.ofReal l.sum • s0.den μ := by
        intro l hl
        induction l with
        | nil => simp
        | cons w l ih =>
          rw [List.map_cons, mixG_cons, ih (fun w hw => hl w (by simp [hw])), List.sum_cons, ENNReal.ofReal_add (hl w (by simp)) (List.sum_nonneg (fun w hw => hl w (by simp [hw]))), add_smul]
      rw [this hw, hsum]; simp
  · -- several blocks
    have hblk : ∀ b ∈ P, ∃ i ∈ b, b.head? = some i ∧ i < cs.length := by
      intro b hb
      obtain ⟨i, b', rfl⟩ := List.exists_cons_of_ne_nil (partitionBlocks_ne hb)
      exact ⟨i, by simp, rfl, hidx _ hb i (by simp)⟩
    have hC : P.filterMap (fun b => b.head?.bind (fun i => cs[i]?)) = P.map (fun b => cs[b.headD 0]!) := by
      have : ∀ {Q : List (List ℕ)}, (∀ b ∈ Q, b ∈ P) → Q.filterMap (fun b => b.head?.bind (fun i => cs[i]?)) = Q.map (fun b => cs[b.headD 0]!) := by
        intro Q hQ
        induction Q with
        | nil => rfl
        | cons b Q ih =>
          obtain ⟨i, hi, hhd, hlt⟩ := hblk b (hQ b (by simp))
          have e : b.headD 0 = i := by cases b with
            | nil => simp at hhd
            | cons j b => simpa using hhd
          rw [List.filterMap_cons_some (b := cs[i]) (by simp [hhd, hlt]), List.map_cons, ih (fun b hb => hQ b (by simp [hb])), e, getElem!_pos cs i hlt]
      exact this (fun _ h => h)
    have hW : P.map (fun b => (b.filterMap (fun i => ws[i]?)).sum) = P.map (fun b => (b.map (fun i => ws[i]!)).sum) := by
      refine List.map_congr_left (fun b hb => ?_)
      congr 1
      have : ∀ {l : List ℕ}, (∀ i ∈ l, i < cs.length) → l.filterMap (fun i => ws[i]?) = l.map (fun i => ws[i]!) := by
        intro l hl'
        induction l with
        | nil => rfl
        | cons i l ih =>
          have hi : i < ws.length := by rw [← hl]; exact hl' i (by simp)
          rw [List.filterMap_cons_some (b := ws[i]) (by simp [hi]), List.map_cons, ih (fun i hi => hl' i (by simp [hi])), getElem!_pos ws i hi]
      exact this (hidx b hb)
    rw [hC, hW] at h
    have hmemC : ∀ t ∈ P.map (fun b => cs[b.headD 0]!), t ∈ cs := by
      intro t ht
      obtain ⟨b, hb, rfl⟩ := List.mem_map.1 ht
      obtain ⟨i, hi, hhd, hlt⟩ := hblk b hb
      have e : b.headD 0 = i := by cases b with
        | nil => simp at hhd
        | cons j b => simpa using hhd
      rw [e, getElem!_pos cs i hlt]; exact List.getElem_mem _
    have hposi : ∀ b ∈ P, ∀ i ∈ b, 0 < ws[i]! := by
      intro b hb i hi
      have hlt : i < ws.length := by rw [← hl]; exact hidx b hb i hi
      rw [getElem!_pos ws i hlt]; exact e2 _ (List.getElem_mem _)
    have hposW : ∀ w ∈ P.map (fun b => (b.map (fun i => ws[i]!)).sum), 0 < w := by
      intro w hw'
      obtain ⟨b, hb, rfl⟩ := List.mem_map.1 hw'
      refine List.sum_pos _ ?_ (by simpa using partitionBlocks_ne hb)
      intro x hx
      obtain ⟨i, hi, rfl⟩ := List.mem_map.1 hx
      exact hposi b hb i hi
    obtain ⟨m1, m2, m3, m4, -, m5, -, m6⟩ := mkSum_ok (c := c) (L := L) (μ := μ) (fun t ht => h1 t (hmemC t ht)) (fun w hw => (hposW w hw).le) h
    refine ⟨m1, ?_, ?_, ?_, m6 E (fun t ht => e1 t (hmemC t ht)) hposW⟩
    · obtain ⟨t, ht⟩ := List.exists_mem_of_ne_nil _ m5
      rw [← m2 t ht, hsym]; exact hS t (hmemC t ht)
    · intro x hx
      obtain ⟨t, ht, hx'⟩ := Spe.mem_atomSymsL.1 (m4 hx)
      exact Spe.mem_atomSymsL.2 ⟨t, hmemC t ht, hx'⟩
    · rw [m3, mixture_eq, List.map_map, mixG_list, hden]
      congr 1
      refine List.map_congr_left (fun b hb => ?_)
      obtain ⟨i, hi, hhd, hlt⟩ := hblk b hb
      have e : b.headD 0 = i := by cases b with
        | nil => simp at hhd
        | cons j b => simpa using hhd
      rw [smul_block (m := (cs[b.headD 0]!).den μ) b (fun j hj => (hposi b hb j hj).le) (fun j hj => hsame b hb j hj _ (by rw [e]; exact hi))]
      rfl

/-- `spe_simplify_sum` on sums of leaves or of products. -/
theorem simplifySum_ok {E : String → Env} {cs : List Spe} {ws : List ℝ} {s' : Spe} (hs : (Spe.sum cs ws).WF c L μ) (hE : (Spe.sum cs ws).Ready E)
    (hh : ∀ s ∈ cs, ∀ t ∈ cs, s.isLeaf = true → t.isLeaf = true → hash s = hash t → s.eqPy t = true) (h : simplifySum hash (.sum cs ws) = .ok s') :
    s'.WF c L μ ∧ s'.symbols = (Spe.sum cs ws).symbols ∧ s'.atomSyms ⊆ (Spe.sum cs ws).atomSyms ∧ s'.den μ = (Spe.sum cs ws).den μ ∧ s'.Ready E := by
  cases cs with
  | nil => simp [simplifySum] at h
  | cons s cs =>
    unfold simplifySum at h
    simp only at h
    split at h
    · refine simplifySumLeaf_ok hs hE ?_ h
      have hall : (s :: cs).all Spe.isLeaf = true := by
        unfold simplifySumLeaf at h
        split at h
        · assumption
        · cases h
      rw [List.all_eq_true] at hall
      exact fun s hs t ht => hh s hs t ht (hall s hs) (hall t ht)
    · split at h
      · exact simplifySumProduct_ok hs hE h
      · cases h

end Sppl
