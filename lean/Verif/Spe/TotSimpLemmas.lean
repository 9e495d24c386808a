import Verif.Spe.ConstrainLemmas
import Verif.Spe.PartialLemmas

set_option linter.all false

/-!
# Simplification of sums of products never raises (helper lemmas)
-/

namespace Sppl
open Classical MeasureTheory
open scoped ENNReal ProbabilityTheory

variable {c : Ctx} {L : Lib} {μ : Dist → Measure ℝ} {E : String → Env}

theorem listToProd_total {cs : List Spe} (h : FactorsOK c L μ E cs) (hne : cs ≠ []) : ∃ s, listToProd cs = .ok s := by
  unfold listToProd
  split
  · exact ⟨_, rfl⟩
  · exact mkProd_total h.wf hne h.disj

theorem mem_rest {as : List Spe} (h : FactorsOK c L μ E as) (js : List ℕ) {x : String} :
    x ∈ (Spe.prod (keepIdx as js false)).symbols ↔ x ∈ (Spe.prod as).symbols ∧ x ∉ (Spe.prod (keepIdx as js true)).symbols := by
  have hp := keepIdx_perm as js
  have hd := (h.perm hp.symm).disj
  rw [List.map_append, List.pairwise_append] at hd
  simp only [Spe.mem_symbols_prod]
  constructor
  · rintro ⟨s, hs, hx⟩
    refine ⟨⟨s, hp.mem_iff.1 (by simp [hs]), hx⟩, ?_⟩
    rintro ⟨t, ht, hx'⟩
    exact Finset.disjoint_left.1 (hd.2.2 _ (List.mem_map.2 ⟨t, ht, rfl⟩) _ (List.mem_map.2 ⟨s, hs, rfl⟩)) hx' hx
  · rintro ⟨⟨s, hs, hx⟩, hn⟩
    rcases List.mem_append.1 (hp.mem_iff.2 hs) with h' | h'
    · exact absurd ⟨s, h', hx⟩ hn
    · exact ⟨s, h', hx⟩

theorem factors_ne {as : List Spe} {S : Finset String} (hS : (Spe.prod as).symbols = S) (hne : S.Nonempty) : as ≠ [] := by
  rintro rfl
  obtain ⟨x, hx⟩ := hne
  rw [← hS] at hx
  obtain ⟨s, hs, -⟩ := Spe.mem_symbols_prod.1 hx
  simp at hs

theorem simplifyStep_total {S A : Finset String} {st : List Spe × ℝ} {m : Measure Asg} {bs : List Spe} {wb : ℝ} (hst : StateOK c L μ E S A st m) (hSne : S.Nonempty)
    (hb : FactorsOK c L μ E bs) (hS : (Spe.prod bs).symbols = S) (hw : 0 < wb) : ∃ st', simplifyStep st bs wb = .ok st' ∧ st'.2 = st.2 + wb := by
  obtain ⟨as, wa⟩ := st
  obtain ⟨ha, hSa, hAa, hpa, hden⟩ := hst
  simp only at ha hSa hAa hpa hden
  have hpn := pnorm_ok (l := [wa, wb]) (by simp [hpa, hw]) (by simp)
  have pair : ∀ {as' bs' : List Spe}, FactorsOK c L μ E as' → FactorsOK c L μ E bs' → (Spe.prod as').symbols = (Spe.prod bs').symbols → (Spe.prod as').symbols.Nonempty →
      ∃ pa pb s, listToProd as' = .ok pa ∧ listToProd bs' = .ok pb ∧ mkSum [pa, pb] (pnorm [wa, wb]) = .ok s := by
    intro as' bs' fa fb he hn
    obtain ⟨pa, h1⟩ := listToProd_total fa (factors_ne rfl hn)
    obtain ⟨pb, h2⟩ := listToProd_total fb (factors_ne he.symm hn)
    obtain ⟨a1, a2, -⟩ := listToProd_ok fa.wf h1
    obtain ⟨b1, b2, -⟩ := listToProd_ok fb.wf h2
    obtain ⟨s, hs⟩ := mkSum_total (c := c) (L := L) (μ := μ) (cs := [pa, pb]) (ws := pnorm [wa, wb]) (by simp [a1, b1]) (by simp [pnorm]) hpn.2 (by
      simp only [List.mem_cons, List.not_mem_nil, or_false]
      rintro s (rfl | rfl) t (rfl | rfl) <;> simp [a2, b2, he])
    exact ⟨pa, pb, s, h1, h2, hs⟩
  unfold simplifyStep
  simp only [bind, Except.bind]
  by_cases h0 : (overlapPairs as bs).length = 0
  · rw [if_pos h0]
    obtain ⟨pa, pb, s, h1, h2, h3⟩ := pair ha hb (hSa.trans hS.symm) (by rw [hSa]; exact hSne)
    simp only [h1, h2, h3]
    exact ⟨_, rfl, rfl⟩
  · rw [if_neg h0]
    by_cases hf : (overlapPairs as bs).length = as.length
    · rw [if_pos hf]; exact ⟨_, rfl, rfl⟩
    · rw [if_neg hf]
      have hra := (ha.keep ((overlapPairs as bs).map Prod.fst)).2
      have hrb := (hb.keep ((overlapPairs as bs).map Prod.snd)).2
      have hcom := symbols_perm (common_perm ha hb)
      have hsym : (Spe.prod (keepIdx as ((overlapPairs as bs).map Prod.fst) false)).symbols = (Spe.prod (keepIdx bs ((overlapPairs as bs).map Prod.snd) false)).symbols := by
        ext x
        rw [mem_rest ha, mem_rest hb, hSa, hS, hcom]
      have hne : (Spe.prod (keepIdx as ((overlapPairs as bs).map Prod.fst) false)).symbols.Nonempty := by
        obtain ⟨hnd, hsub⟩ := overlap_nodup ha hb
        by_contra hcon
        rw [Finset.not_nonempty_iff_eq_empty] at hcon
        apply hf
        have hsub2 : List.range as.length ⊆ (overlapPairs as bs).map Prod.fst := by
          intro i hi
          by_contra hni
          have hi' := List.mem_range.1 hi
          have hmem : as[i] ∈ keepIdx as ((overlapPairs as bs).map Prod.fst) false := mem_keepIdx.2 ⟨i, by simp [hi'], by simpa using hni⟩
          obtain ⟨x, hx⟩ := (ha.wf as[i] (List.getElem_mem _)).symbols_ne
          have : x ∈ (∅ : Finset String) := by rw [← hcon]; exact Spe.mem_symbols_prod.2 ⟨_, hmem, hx⟩
          simp at this
        have h1 := (List.subperm_of_subset hnd hsub).length_le
        have h2 := (List.subperm_of_subset List.nodup_range hsub2).length_le
        simp at h1 h2
        omega
      obtain ⟨pa, pb, s, h1, h2, h3⟩ := pair hra hrb hsym hne
      simp only [h1, h2, h3]
      exact ⟨_, rfl, rfl⟩

theorem fold_total {S A : Finset String} (hSne : S.Nonempty) : ∀ {qs : List (List Spe × ℝ)} {st : List Spe × ℝ} {m : Measure Asg}, StateOK c L μ E S A st m →
    (∀ q ∈ qs, FactorsOK c L μ E q.1 ∧ (Spe.prod q.1).symbols = S ∧ Spe.atomSymsL q.1 ⊆ A ∧ 0 < q.2) →
    ∃ st', qs.foldlM (fun st q => simplifyStep st q.1 q.2) st = .ok st' ∧ st'.2 = st.2 + (qs.map Prod.snd).sum
  | [], st, m, hst, _ => ⟨st, rfl, by simp⟩
  | q :: qs, st, m, hst, hq => by
    obtain ⟨g1, g2, g3, g4⟩ := hq q (by simp)
    obtain ⟨st1, h1, h1'⟩ := simplifyStep_total hst hSne g1 g2 g4
    obtain ⟨st', h, h'⟩ := fold_total (qs := qs) hSne (simplifyStep_ok hst g1 g2 g3 g4 h1) (fun q hq' => hq q (by simp [hq']))
    refine ⟨st', by simp only [List.foldlM_cons, bind, Except.bind, h1]; exact h, ?_⟩
    rw [h', h1', List.map_cons, List.sum_cons, add_assoc]

theorem simplifySumProduct_total {cs : List Spe} {ws : List ℝ} (hs : (Spe.sum cs ws).WF c L μ) (hE : (Spe.sum cs ws).Ready E) (hsum1 : ws.sum = 1) : ∃ s, simplifySumProduct cs ws = .ok s := by
  have hSne := hs.symbols_ne
  unfold simplifySumProduct
  split
  · exact ⟨_, rfl⟩
  · rename_i css hcss
    have hcs := mapM_prod hcss
    cases hs with
    | @sum _ _ S h1 hne hl hw hsum hS =>
    cases hE with
    | sum e1 e2 =>
    have hsym : (Spe.sum cs ws).symbols = S := Spe.symbols_sum hne hS
    rw [hsym] at hSne
    have hq : ∀ ds ∈ css, FactorsOK c L μ E ds ∧ (Spe.prod ds).symbols = S ∧ Spe.atomSymsL ds ⊆ Spe.atomSymsL cs := by
      intro ds hds
      have hm : Spe.prod ds ∈ cs := by rw [hcs]; exact List.mem_map.2 ⟨ds, hds, rfl⟩
      have w := h1 _ hm
      have e := e1 _ hm
      cases w with
      | prod w1 _ w3 =>
      cases e with
      | prod e3 =>
      refine ⟨⟨w1, e3, by rw [← Spe.symbolsL_eq]; exact w3⟩, hS _ hm, ?_⟩
      intro x hx
      exact Spe.mem_atomSymsL.2 ⟨_, hm, by simpa [Spe.atomSyms] using hx⟩
    cases css with
    | nil => simp at hcs; exact absurd hcs hne
    | cons ds css =>
    cases ws with
    | nil => rw [hcs] at hl; simp at hl
    | cons w ws =>
    obtain ⟨q1, q2, q3⟩ := hq ds (by simp)
    have hst : StateOK c L μ E S (Spe.atomSymsL cs) (ds, w) (ENNReal.ofReal w • (Spe.prod ds).den μ) := ⟨q1, q2, q3, e2 w (by simp), rfl⟩
    have hlen : css.length = ws.length := by rw [hcs] at hl; simpa using hl
    have hqs : ∀ q ∈ css.zip ws, FactorsOK c L μ E q.1 ∧ (Spe.prod q.1).symbols = S ∧ Spe.atomSymsL q.1 ⊆ Spe.atomSymsL cs ∧ 0 < q.2 := by
      rintro ⟨ds', w'⟩ hz
      have hz' := List.of_mem_zip hz
      obtain ⟨g1, g2, g3⟩ := hq ds' (by simp [hz'.1])
      exact ⟨g1, g2, g3, e2 w' (by simp [hz'.2])⟩
    obtain ⟨r, hr, hr'⟩ := fold_total hSne hst hqs
    have f := fold_ok hst hqs hr
    have hr1 : r.2 = 1 := by
      rw [hr', List.map_snd_zip (by omega), ← hsum1]; simp
    obtain ⟨s, hs⟩ := listToProd_total f.fac (factors_ne f.syms hSne)
    simp only [simplifyProducts, hr, bind, Except.bind, if_pos hr1]
    exact ⟨s, hs⟩

theorem simplifySum_total {hash : Spe → ℤ} {ts : List Spe} {ws : List ℝ} (hs : (Spe.sum ts ws).WF c L μ) (hE : (Spe.sum ts ws).Ready E) (hsum1 : ws.sum = 1) (hp : ∀ t ∈ ts, ∃ ds, t = .prod ds) :
    ∃ s, simplifySum hash (.sum ts ws) = .ok s := by
  have h := simplifySumProduct_total hs hE hsum1
  cases ts with
  | nil => cases hs with | sum _ hne => exact absurd rfl hne
  | cons t ts =>
    obtain ⟨ds, rfl⟩ := hp t (by simp)
    unfold simplifySum
    simp only
    rw [if_neg (show ¬ (Spe.isLeaf (Spe.prod ds) = true) by simp [Spe.isLeaf, Spe.leafEnv])]
    exact h

end Sppl
