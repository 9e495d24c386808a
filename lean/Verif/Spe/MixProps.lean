import Verif.Spe.PartialLemmas
import Verif.Spe.Props
import Verif.Spe.TransformLemmas

set_option linter.all false

/-!
# C42: weighted mixtures
-/

namespace Sppl
open Classical MeasureTheory
open scoped ENNReal ProbabilityTheory

section
variable {c : Ctx} {L : Lib} {μ : Dist → Measure ℝ} {qs : List (ℝ × Spe)}

/-- C42: if `w1*s1 | w2*s2 | ...` is an SPE, it denotes the mixture with these weights, and they sum to one, are between zero and one, and the
scopes are the same. -/
theorem C42_mixture (hwf : ∀ q ∈ qs, q.2.WF c L μ) {s : Spe} (h : mixChain qs = .ok (.spe s)) :
    s.den μ = mixture (qs.map Prod.fst) (qs.map (fun q => q.2.den μ)) ∧ (qs.map Prod.fst).sum = 1 ∧ (∀ q ∈ qs, 0 < q.1 ∧ q.1 < 1) ∧
      (∀ q ∈ qs, q.2.symbols = s.symbols) ∧ s.WF c L μ := by
  obtain ⟨h1, h2, h3⟩ := mixChain_ok h
  have k := mkSum_ok (c := c) (L := L) (μ := μ) (by
    intro t ht
    obtain ⟨q, hq, rfl⟩ := List.mem_map.1 ht
    exact hwf q hq) (by
    intro w hw
    obtain ⟨q, hq, rfl⟩ := List.mem_map.1 hw
    exact (h1 q hq).1.le) h2
  refine ⟨by rw [k.2.2.1, List.map_map]; rfl, h3, h1, fun q hq => k.2.1 _ (List.mem_map.2 ⟨q, hq, rfl⟩), k.1⟩

/-- C42: and it is an SPE whenever the weights are between zero and one and sum to one, and the scopes are the same. -/
theorem C42_mixture_total (hwf : ∀ q ∈ qs, q.2.WF c L μ) (hw : ∀ q ∈ qs, 0 < q.1 ∧ q.1 < 1) (hs : (qs.map Prod.fst).sum = 1)
    (hsym : ∀ q ∈ qs, ∀ r ∈ qs, q.2.symbols = r.2.symbols) : ∃ s, mixChain qs = .ok (.spe s) := by
  have hne : qs ≠ [] := by rintro rfl; simp at hs
  obtain ⟨v, hv⟩ := mixChain_total hne hw hs.le hwf hsym
  cases v with
  | spe s => exact ⟨s, hv⟩
  | psum p =>
    obtain ⟨-, -, h, -⟩ := mixChain_ok hv
    exact absurd hs h.ne

/-- C42: totals above one, weights outside (0, 1) and different scopes are rejected. -/
theorem C42_rejects (hwf : ∀ q ∈ qs, q.2.WF c L μ) (hbad : 1 < (qs.map Prod.fst).sum ∨ (∃ q ∈ qs, ¬ (0 < q.1 ∧ q.1 < 1)) ∨
      ∃ q ∈ qs, ∃ r ∈ qs, q.2.symbols ≠ r.2.symbols) : ∃ err, mixChain qs = .error err := by
  cases h : mixChain qs with
  | error e => exact ⟨e, rfl⟩
  | ok v =>
    exfalso
    obtain ⟨h1, h2⟩ := mixChain_ok h
    cases v with
    | psum p =>
      obtain ⟨-, h3, h4⟩ := h2
      rcases hbad with hb | ⟨q, hq, hb⟩ | ⟨q, hq, r, hr, hb⟩
      · exact absurd hb (not_lt.2 h3.le)
      · exact hb (h1 q hq)
      · exact hb (h4 _ (List.mem_map.2 ⟨q, hq, rfl⟩) _ (List.mem_map.2 ⟨r, hr, rfl⟩))
    | spe s =>
      obtain ⟨-, k2, -, k4, -⟩ := C42_mixture hwf h
      rcases hbad with hb | ⟨q, hq, hb⟩ | ⟨q, hq, r, hr, hb⟩
      · exact absurd hb (not_lt.2 k2.le)
      · exact hb (h1 q hq)
      · exact hb ((k4 q hq).trans (k4 r hr).symm)

/-- C42: while the weights sum to less than one the result is not an SPE: `&` and `*` raise `TypeError`. -/
theorem C42_unfinished (hs : (qs.map Prod.fst).sum < 1) {v : MixVal} (h : mixChain qs = .ok v) :
    v = .psum ⟨qs.map Prod.snd, qs.map Prod.fst⟩ ∧ (∀ x, mixAnd v x = .error .type ∧ mixAnd x v = .error .type) ∧ ∀ w, mixMul w v = .error .type := by
  obtain ⟨h1, h2⟩ := mixChain_ok h
  cases v with
  | spe s => exact absurd h2.2 hs.ne
  | psum p =>
    obtain ⟨rfl, -⟩ := h2
    exact ⟨rfl, fun x => ⟨by cases x <;> rfl, by cases x <;> rfl⟩, fun w => rfl⟩

end

/-- C42 non-vacuity: two coins with weights 1/3 and 2/3. -/
example (c : Ctx) (L : Lib) (μ : Dist → Measure ℝ) : ∃ s, mixChain [(1/3, coin "Y"), (2/3, .nominal "Y" [("a", 1)])] = .ok (.spe s) := by
  refine C42_mixture_total (c := c) (L := L) (μ := μ) ?_ ?_ ?_ ?_
  · intro q hq
    simp at hq
    rcases hq with rfl | rfl
    · exact coin_wf _ _ _ _
    · exact .nominal (by simp) (by simp) (by simp)
  · intro q hq
    simp at hq
    rcases hq with rfl | rfl <;> norm_num
  · norm_num
  · intro q hq r hr
    simp at hq hr
    rcases hq with rfl | rfl <;> rcases hr with rfl | rfl <;> rfl

/-! ## Mixtures of distributions -/

theorem calls_ok {c : Ctx} {L : Lib} {μ : Dist → Measure ℝ} {X : String} {ds : List Distr} {ss : List Spe} (hd : ∀ d ∈ ds, d.WF L μ)
    (h : ds.mapM (Distr.call L X) = .ok ss) : (∀ s ∈ ss, s.WF c L μ ∧ s.symbols = {X}) ∧ ss.map (Spe.den μ) = ds.map (Distr.law μ X) := by
  replace h := mapM_ok h
  induction h with
  | nil => simp
  | cons h1 h2 ih =>
    have k := call_ok (c := c) (hd _ (by simp)) h1
    have ih := ih (fun d hd' => hd d (by simp [hd']))
    refine ⟨?_, by simp [k.2.2.1, ih.2]⟩
    intro s hs
    rcases List.mem_cons.1 hs with rfl | hs
    · exact ⟨k.1, k.2.1⟩
    · exact ih.1 s hs

/-- C42 for `X >> (w1*d1 | w2*d2 | ...)`: the mixture with these weights; accepted only if they sum to one. -/
theorem C42_distributions {c : Ctx} {L : Lib} {μ : Dist → Measure ℝ} {X : String} {qs : List (ℝ × Distr)} (hd : ∀ q ∈ qs, q.2.WF L μ) {m : DMix} {s : Spe}
    (hm : dChain qs = .ok m) (h : m.call L X = .ok s) :
    s.den μ = mixture (qs.map Prod.fst) (qs.map (fun q => q.2.law μ X)) ∧ (qs.map Prod.fst).sum = 1 ∧ (∀ q ∈ qs, 0 < q.1 ∧ q.1 < 1) ∧
      s.symbols = {X} ∧ s.WF c L μ := by
  obtain ⟨h1, rfl, h2⟩ := dChain_ok hm
  simp only [DMix.call, bind, Except.bind] at h
  split at h; · cases h
  rename_i ss hss
  have k := calls_ok (c := c) (by intro d hd'; obtain ⟨q, hq, rfl⟩ := List.mem_map.1 hd'; exact hd q hq) hss
  have g := mkSum_ok (c := c) (L := L) (μ := μ) (fun t ht => (k.1 t ht).1) (by
    intro w hw
    obtain ⟨q, hq, rfl⟩ := List.mem_map.1 hw
    exact (h1 q hq).1.le) h
  refine ⟨by rw [g.2.2.1, k.2, List.map_map]; rfl, g.2.2.2.2.1, h1, ?_, g.1⟩
  obtain ⟨t, ht⟩ := List.exists_mem_of_ne_nil _ g.2.2.2.2.2.1
  rw [← g.2.1 t ht, (k.1 t ht).2]

/-- C42 for distributions: totals above one and weights outside (0, 1) are rejected by `|` and `*`; totals below one when a variable is sampled. -/
theorem C42_distributions_rejects {qs : List (ℝ × Distr)} (hbad : 1 < (qs.map Prod.fst).sum ∨ (∃ q ∈ qs, ¬ (0 < q.1 ∧ q.1 < 1))) :
    ∃ err, dChain qs = .error err := by
  cases h : dChain qs with
  | error e => exact ⟨e, rfl⟩
  | ok v =>
    obtain ⟨h1, rfl, h2⟩ := dChain_ok h
    rcases hbad with hb | ⟨q, hq, hb⟩
    · exact absurd hb (not_lt.2 h2)
    · exact absurd (h1 q hq) hb

/-- C42 for distributions: weights between zero and one that sum to one are accepted. -/
theorem C42_distributions_total {L : Lib} {μ : Dist → Measure ℝ} {X : String} {qs : List (ℝ × Distr)} (hd : ∀ q ∈ qs, q.2.WF L μ)
    (hcall : ∀ q ∈ qs, ∃ s, q.2.call L X = .ok s) (hw : ∀ q ∈ qs, 0 < q.1 ∧ q.1 < 1) (hs : (qs.map Prod.fst).sum = 1) :
    ∃ m s, dChain qs = .ok m ∧ m.call L X = .ok s := by
  have hne : qs ≠ [] := by rintro rfl; simp at hs
  obtain ⟨m, hm⟩ := dChain_total hne hw hs.le
  obtain ⟨-, rfl, -⟩ := dChain_ok hm
  have : ∃ ss, (qs.map Prod.snd).mapM (Distr.call L X) = .ok ss := by
    clear hm hne hs hw
    induction qs with
    | nil => exact ⟨[], rfl⟩
    | cons q qs ih =>
      obtain ⟨s, hs⟩ := hcall q (by simp)
      obtain ⟨ss, hss⟩ := ih (fun r hr => hd r (by simp [hr])) (fun r hr => hcall r (by simp [hr]))
      exact ⟨s :: ss, by simp [List.mapM_cons, hs, hss, bind, Except.bind, pure, Except.pure]⟩
  obtain ⟨ss, hss⟩ := this
  have k := calls_ok (c := ctx0) (by intro d hd'; obtain ⟨q, hq, rfl⟩ := List.mem_map.1 hd'; exact hd q hq) hss
  obtain ⟨s, hs'⟩ := mkSum_total (c := ctx0) (L := L) (μ := μ) (cs := ss) (ws := qs.map Prod.fst) (fun t ht => (k.1 t ht).1)
    (by have := congrArg List.length k.2; simpa using this) hs (fun s hs t ht => ((k.1 s hs).2).trans (k.1 t ht).2.symm)
  exact ⟨_, s, hm, by simp only [DMix.call, hss, bind, Except.bind, hs']⟩

/-- C42 non-vacuity for distributions: a mixture of a uniform number and a string. -/
example : ∃ m s, dChain [(1/3, .nominal [("a", 1)]), (2/3, .real .cont d0 unitIvl)] = .ok m ∧ m.call (libOf muU) "X" = .ok s := by
  refine C42_distributions_total (μ := muU) ?_ ?_ ?_ ?_
  · intro q hq
    simp at hq
    rcases hq with rfl | rfl
    · exact .nominal (by simp) (by simp)
    · exact .real rfl (distOK_unif _) unitIvl_wf (by intro h; cases h) (by rw [unitIvl_reals]; simp [muU, unif])
  · intro q hq
    simp at hq
    rcases hq with rfl | rfl
    · exact ⟨_, by simp [Distr.call, mkNominal, mkNom, bind, Except.bind]; rfl⟩
    · exact ⟨_, by simp [Distr.call, mkReal]; rfl⟩
  · intro q hq
    simp at hq
    rcases hq with rfl | rfl <;> norm_num
  · norm_num

/-! ## `ExposedSumSPE` -/

theorem forall₂_imp_mem {α β : Type} {R S : α → β → Prop} : ∀ {l : List α} {l' : List β}, (∀ a ∈ l, ∀ b ∈ l', R a b → S a b) → List.Forall₂ R l l' → List.Forall₂ S l l'
  | [], _, _, .nil => .nil
  | a :: l, b :: l', h, .cons h1 h2 => .cons (h a (by simp) b (by simp) h1) (forall₂_imp_mem (fun x hx y hy => h x (by simp [hx]) y (by simp [hy])) h2)

/-- C42 for `ExposedSumSPE`: the mixture, with the weights of the leaf, of the children together with the name of the choice. -/
theorem C42_exposed {c : Ctx} (hc : c.Correct) {L : Lib} {μ : Dist → Measure ℝ} {n : ℕ} {children : String → Option Spe} {X : String}
    {dist : List (String × ℚ)} {s : Spe} (hX : (Spe.nominal X dist).WF c L μ) (hwf : ∀ x t, children x = some t → t.WF c L μ)
    (h : mkExposed c L n children X dist = .ok s) :
    ∃ cs : List Spe, List.Forall₂ (fun p t => children p.1 = some t) dist cs ∧
      s.den μ = mixture (dist.map (fun p => (p.2 : ℝ))) (List.zipWith (fun p t => indep [({X}, Measure.dirac (baseAsg X (.str p.1))), (t.symbols, t.den μ)]) dist cs) ∧
      s.WF c L μ ∧ ∀ t ∈ cs, X ∉ t.symbols := by
  simp only [mkExposed, bind, Except.bind] at h
  split at h; · cases h
  rename_i ws hws
  split at h; · cases h
  rename_i ts hts
  rw [List.mapM_map] at hws hts
  replace hws := mapM_ok hws
  replace hts := mapM_ok hts
  cases hX with
  | nominal hn h0 h1 =>
  have hw : ws = dist.map (fun p => (p.2 : ℝ)) := by
    have key : List.Forall₂ (fun (p : String × ℚ) (w : ℝ) => w = p.2) dist ws := by
      refine forall₂_imp_mem ?_ hws
      intro p hp w _ hw
      have ha : Asks c μ (.nominal X dist) (.nom (.id X) (some ⟨{p.1}, none⟩)) :=
        ⟨.nom (.id _) (by simp) (by simp [Nom.WF]), by simp [Ev.symbols, Tr.symbols, Spe.symbols], by filter_upwards with ω; simp [Ev.Regular, Tr.Regular]⟩
      have hw' : (Spe.nominal X dist).prob c L n (.nom (.id X) (some ⟨{p.1}, none⟩)) = .ok w := by
        rw [Spe.prob, if_pos (by simp [Spe.isLeaf, Spe.leafEnv])]; exact hw
      rw [ha.prob hc (.nominal hn h0 h1) hw', nominal_real (c := c) (L := L) h0 (Ev.measurable _)]
      have : ∀ q : String × ℚ, baseAsg X (.str q.1) ∈ {ω : Asg | (Ev.nom (.id X) (some ⟨{p.1}, none⟩)).holds ω} ↔ q.1 = p.1 := by
        intro q
        simp [Tr.eval, baseAsg]
      simp only [this]
      have hsum : ∀ {l : List (String × ℚ)}, (l.map Prod.fst).Nodup → p ∈ l → (l.map (fun q => if q.1 = p.1 then (q.2 : ℝ) else 0)).sum = p.2 := by
        intro l
        induction l with
        | nil => simp
        | cons q l ih =>
          intro hn hp
          simp only [List.map_cons, List.nodup_cons] at hn
          rcases List.mem_cons.1 hp with rfl | hp
          · simp only [List.map_cons, List.sum_cons, if_true]
            have : (l.map (fun q => if q.1 = p.1 then (q.2 : ℝ) else 0)).sum = 0 := by
              refine List.sum_eq_zero ?_
              intro x hx
              obtain ⟨q, hq, rfl⟩ := List.mem_map.1 hx
              rw [if_neg]
              intro he
              exact hn.1 (List.mem_map.2 ⟨q, hq, he⟩)
            rw [this, add_zero]
          · simp only [List.map_cons, List.sum_cons]
            rw [ih hn.2 hp, if_neg, zero_add]
            intro he
            exact hn.1 (List.mem_map.2 ⟨p, hp, he.symm⟩)
      exact hsum hn hp
    clear * - key
    induction key with
    | nil => rfl
    | cons h _ ih => simp [h, ih]
  have hcs : ∃ cs : List Spe, List.Forall₂ (fun p t => children p.1 = some t) dist cs ∧ (∀ t ∈ ts, t.WF c L μ) ∧ (∀ t ∈ cs, X ∉ t.symbols) ∧
      ts.map (Spe.den μ) = List.zipWith (fun p t => indep [({X}, Measure.dirac (baseAsg X (.str p.1))), (t.symbols, t.den μ)]) dist cs := by
    clear hws hw h hn h0 h1
    induction hts with
    | nil => exact ⟨[], .nil, by simp, by simp, rfl⟩
    | @cons p t dist ts h1 _ ih =>
      obtain ⟨cs, i1, i2, i3, i4⟩ := ih
      simp only [Function.comp, bind, Except.bind] at h1
      split at h1; · cases h1
      rename_i ch hch
      obtain ⟨rfl, -⟩ := mkNominal_ok hch
      split at h1; swap; · cases h1
      rename_i u hu
      have hnW : (Spe.nominal X [(p.1, 1)]).WF c L μ := .nominal (by simp) (by simp) (by simp)
      have hW : ∀ t ∈ [Spe.nominal X [(p.1, 1)], u], t.WF c L μ := by
        intro t ht
        simp at ht
        rcases ht with rfl | rfl
        · exact hnW
        · exact hwf _ _ hu
      have k := mkProd_ok hW h1
      have hdisj := mkProd_disj hW h1
      refine ⟨u :: cs, .cons hu i1, ?_, ?_, ?_⟩
      · intro s hs
        rcases List.mem_cons.1 hs with rfl | hs
        · exact k.1
        · exact i2 s hs
      · intro s hs
        rcases List.mem_cons.1 hs with rfl | hs
        · simpa [Spe.symbols] using hdisj
        · exact i3 s hs
      · simp only [List.map_cons, List.zipWith_cons_cons, i4]
        congr 1
        rw [k.2.2.1, den_prod]
        simp [groups, Spe.symbols, Spe.den, mixture]
  obtain ⟨cs, i1, i2, i3, i4⟩ := hcs
  have k := mkSum_ok i2 (by
    intro w hw'
    rw [hw] at hw'
    obtain ⟨q, hq, rfl⟩ := List.mem_map.1 hw'
    exact_mod_cast h0 q hq) h
  exact ⟨cs, i1, by rw [k.2.2.1, i4, hw], k.1, i3⟩

/-- C42 non-vacuity for `ExposedSumSPE`: a coin that chooses between two SPEs over `X`. -/
example : ∃ s, mkExposed ctx0 (libOf muU) 5 (fun x => if x = "a" then some (leafX "X") else some (.nominal "X" [("z", 1)])) "Y" [("a", 1/2), ("b", 1/2)] = .ok s := by
  obtain ⟨-, -, -, -, -, -, h1, h2, -⟩ := coin_facts
  rw [Spe.prob, if_pos (by simp [coin, Spe.isLeaf, Spe.leafEnv])] at h1 h2
  unfold coin strEv at h1 h2
  have n1 : mkNominal "Y" [("a", 1)] = .ok (.nominal "Y" [("a", 1)]) := by simp [mkNominal, mkNom, bind, Except.bind]
  have n2 : mkNominal "Y" [("b", 1)] = .ok (.nominal "Y" [("b", 1)]) := by simp [mkNominal, mkNom, bind, Except.bind]
  have p1 : mkProd [.nominal "Y" [("a", 1)], leafX "X"] = .ok (.prod [.nominal "Y" [("a", 1)], leafX "X"]) := by
    simp [mkProd, Spe.prodChildren, leafX, areDisjoint, Spe.symbolsL, Spe.symbols]
  have p2 : mkProd [.nominal "Y" [("b", 1)], .nominal "X" [("z", 1)]] = .ok (.prod [.nominal "Y" [("b", 1)], .nominal "X" [("z", 1)]]) := by
    simp [mkProd, Spe.prodChildren, areDisjoint, Spe.symbolsL, Spe.symbols]
  have h3 : mkSum [.prod [.nominal "Y" [("a", 1)], leafX "X"], .prod [.nominal "Y" [("b", 1)], .nominal "X" [("z", 1)]]] [1/2, 1/2] =
      .ok (.sum [.prod [.nominal "Y" [("a", 1)], leafX "X"], .prod [.nominal "Y" [("b", 1)], .nominal "X" [("z", 1)]]] [1/2, 1/2]) := by
    simp [mkSum, Spe.sumChildren, Spe.sumWeights, leafX, areIdentical, Spe.symbolsL, Spe.symbols]
    norm_num
  refine ⟨.sum [.prod [.nominal "Y" [("a", 1)], leafX "X"], .prod [.nominal "Y" [("b", 1)], .nominal "X" [("z", 1)]]] [1/2, 1/2], ?_⟩
  simp only [mkExposed, List.map_cons, List.map_nil, List.mapM_cons, List.mapM_nil, h1, h2, bind, Except.bind, pure, Except.pure, n1, n2]
  simp only [p1, p2, if_true, show ¬ ("b" = "a") by decide, if_false, h3]

end Sppl
