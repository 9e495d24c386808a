import Verif.Spe.TotLeafLemmas

set_option linter.all false

/-!
# Conditioning leaves never raises on events of positive probability (helper lemmas)
-/

namespace Sppl
open Classical MeasureTheory
open scoped ENNReal ProbabilityTheory

variable {c : Ctx} {L : Lib} {μ : Dist → Measure ℝ} {l : RLeaf}

/-- The ends of an interval are integers or infinite. -/
def IntEnds (i : Ivl EReal) : Prop := (i.a = ⊥ ∨ ∃ n : ℤ, i.a = ((n : ℝ) : EReal)) ∧ (i.b = ⊤ ∨ ∃ n : ℤ, i.b = ((n : ℝ) : EReal))

/-- The pieces that `flatten_values_contiguous` accepts, and from which leaves can be made. -/
def FlatOK (k : Kind) : Piece EReal → Prop
  | .ivl i => k = .disc → IntEnds i
  | .fin s => k = .disc ∧ ∀ x ∈ s, ∃ n : ℤ, x = ((n : ℝ) : EReal)
  | .nom _ => False

theorem flattenPiece_total {k : Kind} {p : Piece EReal} (hp : p.WF) (h : FlatOK k p) : ∃ is, flattenPiece k p = .ok is ∧ ∀ i ∈ is, k = .disc → IntEnds i := by
  cases p with
  | nom n => exact absurd h id
  | ivl i => exact ⟨[i], rfl, fun j hj => by rw [List.mem_singleton.1 hj]; exact h⟩
  | fin s =>
    obtain ⟨rfl, hi⟩ := h
    obtain ⟨bs, hbs, -, hm, hb, -⟩ := C43_partition (s := s) hp
    obtain ⟨is, his, -, hP⟩ := mapM_total (P := IntEnds) (l := bs) (f := blockRange) (fun b hb' => by
      have hint : ∀ x ∈ b, ∃ n : ℤ, x = ((n : ℝ) : EReal) := fun x hx => hi x ((hm x).2 ⟨b, hb', hx⟩)
      obtain ⟨i, hbi⟩ := blockRange_total (hb b hb').1 (hb b hb').2 hint
      obtain ⟨-, ⟨a, ha, -⟩, h2, -⟩ := blockRange_spec (hb b hb').2 (fun x hx => by
        obtain ⟨n, rfl⟩ := hint x hx
        exact ⟨EReal.coe_ne_bot _, EReal.coe_ne_top _⟩) hbi
      exact ⟨i, hbi, .inr ⟨a, ha⟩, .inr h2⟩)
    exact ⟨is, by simp only [flattenPiece, hbs, bind, Except.bind, his], fun i hi _ => hP i hi⟩

theorem flattenValues_total {k : Kind} {V : SSet EReal} (hw : V.WF) (hne : V ≠ .empty) (h : ∀ p ∈ V.valPieces, FlatOK k p) :
    ∃ is, flattenValues k V = .ok is ∧ ∀ i ∈ is, k = .disc → IntEnds i := by
  cases V with
  | empty => exact absurd rfl hne
  | pc p => exact flattenPiece_total hw (h p (by simp [SSet.valPieces]))
  | un u =>
    have hu : u.WF := hw
    obtain ⟨ls, hls, -, hP⟩ := mapM_total (P := fun is => ∀ i ∈ is, k = .disc → IntEnds i) (l := u.args) (f := flattenPiece k)
      (fun p hp => flattenPiece_total (hu.pieces p ((hu.mem_args p).1 hp)) (h p ((hu.mem_args p).1 hp)))
    refine ⟨ls.flatten, by simp only [flattenValues, hls, bind, Except.bind], fun i hi => ?_⟩
    obtain ⟨l, hl, hil⟩ := List.mem_flatten.1 hi
    exact hP l hl i hil

theorem intOrNegInf_total {x : EReal} (h : x = ⊥ ∨ ∃ n : ℤ, x = ((n : ℝ) : EReal)) : intOrNegInf x = .ok true := by
  unfold intOrNegInf
  rcases h with rfl | ⟨n, rfl⟩
  · simp
  · rw [if_neg (EReal.coe_ne_bot _), if_neg (EReal.coe_ne_top _), isInt_iff.2 ⟨n, rfl⟩]

theorem intOrPosInf_total {x : EReal} (h : x = ⊤ ∨ ∃ n : ℤ, x = ((n : ℝ) : EReal)) : intOrPosInf x = .ok true := by
  unfold intOrPosInf
  rcases h with rfl | ⟨n, rfl⟩
  · simp
  · rw [if_neg (EReal.coe_ne_top _), if_neg (EReal.coe_ne_bot _), isInt_iff.2 ⟨n, rfl⟩]

theorem mkReal_mass_total (h : RLeafOK L μ l) (hi : l.k = .disc → IntEnds l.supp) (X : String) (env : Env) : mkReal L l X env = .ok (.real l.k X l.d l.supp l.cond env) := by
  obtain ⟨z, hz⟩ := h.Z_ok_total
  suffices ∃ s, mkReal L l X env = .ok s by
    obtain ⟨s, hs⟩ := this
    rw [hs, (mkReal_ok hs).1]
  unfold mkReal
  cases hk : l.k with
  | cont =>
    simp only [bind, Except.bind, hz]
    split <;> exact ⟨_, rfl⟩
  | disc =>
    simp only [bind, Except.bind, hz, intOrNegInf_total (hi hk).1, intOrPosInf_total (hi hk).2, assertB, if_true]
    split <;> exact ⟨_, rfl⟩

theorem condIvls_total {X : String} {env : Env} (hl : RLeafOK L μ l) (hz : l.k = .disc → NotNeg μ l.d l.supp) (hE : EnvOK c X env)
    (hreg : ∀ᵐ x ∂(l.meas μ), EnvRegular X env x) {is : List (Ivl EReal)}
    (hw : ∀ i ∈ is, i.WF) (ha : ∀ i ∈ is, l.supp.a ≤ i.a) (hi : ∀ i ∈ is, l.k = .disc → IntEnds i) (hsub : ∀ i ∈ is, (μ l.d)[|i.reals] = (l.meas μ)[|i.reals])
    (hpos : ∃ i ∈ is, (l.meas μ) i.reals ≠ 0) : ∃ s', condIvls L l X env is = .ok s' := by
  have hP := hl.prob
  have hT : ∀ i ∈ is, l.k = .disc → TruncOn (μ l.d (Set.Iic 0) = 0) i := fun i hi hk => (hz hk).trunc (hw i hi) (ha i hi)
  obtain ⟨ps, hps, -⟩ := mapM_total (P := fun _ => True) (l := is) (f := l.probIvl L) (fun i hi => by
    obtain ⟨p, hp⟩ := hl.probIvl_total (hw i hi) (hT i hi)
    exact ⟨p, hp, trivial⟩)
  have hps' : ps = is.map (fun i => (l.meas μ).real i.reals) := mapM_map_eq hps (fun i hi p hp => hl.probIvl_ok (hw i hi) (hT i hi) hp)
  have hgood : (is.zip ps).filter (fun q => q.2 ≠ 0) =
      (is.filter (fun i => (l.meas μ).real i.reals ≠ 0)).map (fun i => (i, (l.meas μ).real i.reals)) := by
    have e : is.zip ps = is.map (fun i => (i, (l.meas μ).real i.reals)) := by
      rw [hps']; clear * -; induction is with
      | nil => rfl
      | cons i is ih => simp [ih]
    rw [e, List.filter_map]; rfl
  unfold condIvls
  simp only [hps, bind, Except.bind]
  rw [if_neg (by rintro rfl; simpa using hpos), hgood]
  set G := is.filter (fun i => (l.meas μ).real i.reals ≠ 0) with hG
  have hGis : ∀ i ∈ G, i ∈ is ∧ (l.meas μ) i.reals ≠ 0 := by
    intro i hi
    rw [hG, List.mem_filter] at hi
    exact ⟨hi.1, real_ne_zero.1 (by simpa using hi.2)⟩
  have hGne : G ≠ [] := by
    obtain ⟨i, hi, h0⟩ := hpos
    exact List.ne_nil_of_mem (List.mem_filter.2 ⟨hi, by simpa using real_ne_zero.2 h0⟩)
  rw [if_neg (by simpa using hGne)]
  have hcwf : ∀ i ∈ G, Spe.WF c L μ (.real l.k X l.d i true env) := by
    intro i hi'
    obtain ⟨h1, h2⟩ := hGis i hi'
    refine .real hl.dist hE (hw i h1) (fun hk => ⟨⟨(hz hk).sub (ha i h1), (hi i h1 hk).1⟩, (hi i h1 hk).2⟩) ?_ ?_
    · simp only [if_true]
      exact fun h0 => h2 (RLeafOK.ac l h0)
    · simp only [realMeas, if_true]
      rw [hsub i h1]
      exact ProbabilityTheory.cond_absolutelyContinuous.ae_le hreg
  have hch : (G.map (fun i => (i, (l.meas μ).real i.reals))).mapM (fun q => mkReal L ⟨l.k, l.d, q.1, true⟩ X env) =
      .ok (G.map (fun i => Spe.real l.k X l.d i true env)) := by
    rw [List.mapM_map]
    have : ∀ G' : List (Ivl EReal), (∀ i ∈ G', i ∈ G) → G'.mapM (fun i => mkReal L ⟨l.k, l.d, i, true⟩ X env) = .ok (G'.map (fun i => Spe.real l.k X l.d i true env)) := by
      intro G'
      induction G' with
      | nil => intro _; rfl
      | cons i G' ih =>
        intro h
        have h1 := mkReal_mass_total (hcwf i (h i (by simp))).rleaf.1 (hi i (hGis i (h i (by simp))).1) X env
        simp only [List.mapM_cons, bind, Except.bind, h1, ih (fun j hj => h j (by simp [hj]))]
        rfl
    exact this G (fun _ h => h)
  rw [hch]
  dsimp only
  split
  · exact ⟨_, rfl⟩
  · have hwpos := pnorm_ok (l := (G.map (fun i => (i, (l.meas μ).real i.reals))).map Prod.snd) (by
      intro x hx
      rw [List.map_map] at hx
      obtain ⟨i, hi, rfl⟩ := List.mem_map.1 hx
      exact real_pos (hGis i hi).2) (by simpa using hGne)
    refine mkSum_total (c := c) (L := L) (μ := μ) ?_ (by simp [pnorm]) hwpos.2 ?_
    · intro t ht
      obtain ⟨i, hi, rfl⟩ := List.mem_map.1 ht
      exact hcwf i hi
    · intro s hs t ht
      obtain ⟨i, hi, rfl⟩ := List.mem_map.1 hs
      obtain ⟨j, hj, rfl⟩ := List.mem_map.1 ht
      simp [Spe.symbols]

theorem condReal_total {X : String} {env : Env} (hwf : Spe.WF c L μ (.real l.k X l.d l.supp l.cond env)) {S V : SSet EReal} (hw : S.WF) (hd : S.Disj)
    (hV : SSet.and c.σ (.pc (.ivl l.supp)) S = .ok V) (hf : ∀ p ∈ V.valPieces, FlatOK l.k p) (hm : (l.meas μ) S.realSet ≠ 0) :
    ∃ s', condReal c L l X env S = .ok s' := by
  obtain ⟨hl, hE, hz, hreg⟩ := hwf.rleaf
  have hP := hl.prob
  have hPd := hl.dist.prob
  obtain ⟨w, hp⟩ := realLeaf_prob_total (c := c) hl hz hw hd hV
  have hw' := realLeaf_prob (c := c) hl hz hw hd hV hp
  have hw0 : w ≠ 0 := by rw [hw']; exact real_ne_zero.2 hm
  obtain ⟨v1, v2, v3, -, -, v6, v7⟩ := realLeaf_values hl hz hw hd hV
  unfold condReal
  simp only [hV, hp, bind, Except.bind]
  rw [if_neg hw0]
  split
  · exact ⟨_, rfl⟩
  have hmV : (l.meas μ) V.realSet ≠ 0 := by
    have : (l.meas μ) V.realSet = (l.meas μ) S.realSet := by
      refine measure_congr ?_
      filter_upwards [hl.ae_supp] with x h2
      have : x ∈ V.realSet ↔ x ∈ S.realSet := by
        show Val.num (x : EReal) ∈ V.den ↔ Val.num (x : EReal) ∈ S.den
        rw [v7 x]; exact ⟨fun h => h.2, fun h => ⟨h2, h⟩⟩
      exact propext this
    rwa [this]
  have hVne : V ≠ .empty := by rintro rfl; simp [SSet.realSet] at hmV
  obtain ⟨is, his, hint⟩ := flattenValues_total v1 hVne hf
  simp only [his]
  have hfin : ∀ x, Val.num x ∈ V.den → x ≠ ⊥ ∧ x ≠ ⊤ := by
    intro x hx
    have := (v6 _ hx).1
    rw [Piece.mem_den_ivl] at this
    exact Ivl.Mem.fin hl.wf this
  obtain ⟨f1, f2, f3⟩ := flattenValues_ok v1 v2 v3 hfin his
  have hok : ∀ᵐ x : ℝ ∂(μ l.d), IntOK l.k x := by
    cases hk : l.k with
    | cont => exact Filter.Eventually.of_forall (fun x h => by cases h)
    | disc =>
      have h0 := hl.dist
      rw [hk] at h0
      filter_upwards [h0.ae_int] with x hx _ using hx
  refine condIvls_total hl hz hE hreg (fun i hi => (f1 i hi).1) (fun i hi => (f1 i hi).2 l.supp (fun x hx => by
    have := (v6 _ hx).1
    rwa [Piece.mem_den_ivl] at this)) hint ?_ ?_
  · intro i hi
    have hm1 : MeasurableSet l.supp.reals := Ivl.measurableSet _
    have hm2 : MeasurableSet i.reals := Ivl.measurableSet _
    unfold RLeaf.meas realMeas
    split
    · rw [ProbabilityTheory.cond_cond_eq_cond_inter hm1 hm2]
      refine cond_congr hm2 (hm1.inter hm2) ?_
      filter_upwards [hok] with x hx
      constructor
      · intro hxi
        exact ⟨((v7 x).1 ((f2 x hx).1 ⟨i, hi, hxi⟩)).1, hxi⟩
      · exact fun h => h.2
    · rfl
  · by_contra hno
    push Not at hno
    refine hmV ?_
    have hnull : ∀ᵐ x : ℝ ∂(l.meas μ), ∀ i ∈ is, x ∉ i.reals := by
      have : ∀ l' : List (Ivl EReal), (∀ i ∈ l', i ∈ is) → ∀ᵐ x : ℝ ∂(l.meas μ), ∀ i ∈ l', x ∉ i.reals := by
        intro l'
        induction l' with
        | nil => intro _; simp
        | cons i l' ih =>
          intro hsub
          have h2 := ih (fun j hj => hsub j (by simp [hj]))
          have h0' : ∀ᵐ x : ℝ ∂(l.meas μ), x ∉ i.reals := by
            rw [ae_iff]; simpa using hno i (hsub i (by simp))
          filter_upwards [h2, h0'] with x hx hxi j hj
          rcases List.mem_cons.1 hj with rfl | hj
          · exact hxi
          · exact hx j hj
      exact this is (fun _ h => h)
    have : ∀ᵐ x : ℝ ∂(l.meas μ), x ∉ V.realSet := by
      filter_upwards [RLeafOK.ae hok, hnull] with x h1 h2 h3
      obtain ⟨i, hi, hx⟩ := (f2 x h1).2 h3
      exact h2 i hi hx
    rw [ae_iff] at this
    simpa using this

theorem condNominal_total {X : String} {dist : List (String × ℚ)} (hn : (dist.map Prod.fst).Nodup) (hd : dist ≠ []) {vals : Finset String} {p : ℚ}
    (hp : nominalMass dist vals = .ok p) (h0 : p ≠ 0) : ∃ s', condNominal X dist vals p = .ok s' := by
  unfold condNominal
  rw [if_neg h0]
  split
  · exact ⟨_, rfl⟩
  · have hne : (((dist.map (fun q => (q.1, if q.1 ∈ vals then q.2 / p else 0))).map Prod.fst).toFinset).Nonempty := by
      obtain ⟨q, hq⟩ := List.exists_mem_of_ne_nil _ hd
      exact ⟨q.1, by simpa using ⟨q.2, hq⟩⟩
    have hm := (nominalMass_ok hn hp).1
    unfold mkNominal mkNom
    simp only [bind, Except.bind]
    rw [if_pos (Or.inl hne)]
    dsimp only
    rw [if_pos]
    · exact ⟨_, rfl⟩
    · have e : ((dist.map (fun q => (q.1, if q.1 ∈ vals then q.2 / p else 0))).map Prod.snd).sum = (dist.map (fun q => if q.1 ∈ vals then q.2 else 0)).sum / p := by
        clear * -
        induction dist with
        | nil => simp
        | cons q dist ih =>
          simp only [List.map_cons, List.sum_cons, ih, add_div]
          congr 1
          split <;> simp
      rw [e, ← hm, div_self h0]

/-- A leaf can be conditioned on any comparison of its base variable that has positive probability. -/
theorem leafCond_total (hc : c.Correct) {s : Spe} {X : String} {env : Env} (hs : s.WF c L μ) (hl : s.leafEnv = some (X, env)) {l : Ev} (hv : l.Valid)
    (hk : l.basic? = some (.id X)) (ha : l.NomFree s.atomSyms) (he : LeafEvOK c s l) (hr : ∀ᵐ ω ∂(s.den μ), l.Regular ω)
    (hw : l.values.Within (s.Whole X)) (hm : (s.den μ) l.set ≠ 0) : ∃ s', ∀ n, leafCond c L n s l = .ok s' := by
  have hPr := hs.prob
  obtain ⟨p, hp⟩ := leafProb_total hs hl hv hk ha
  have hp0 : p ≠ 0 := by
    rw [leafProb_ok hc hs he hr (hp 0)]; exact real_ne_zero.2 hm
  have hp' : leafProbSet c L s l.values = .ok p := by
    have := hp 0
    simpa only [leafProb, hl, leafSubst_base (leafEnv_built hs hl) (symbols_lit hk) 0, solve_lit hk 0, bind, Except.bind] using this
  suffices h : ∃ s', leafCondSet c L s l.values = .ok s' by
    obtain ⟨s', hs'⟩ := h
    refine ⟨s', fun n => ?_⟩
    simp only [leafCond, hl, leafSubst_base (leafEnv_built hs hl) (symbols_lit hk) n, solve_lit hk n, bind, Except.bind, hs']
  have hvw := values_wf hv
  have hu := l.values_not_un
  cases s with
  | real k X' d supp cond env' =>
    simp only [Spe.leafEnv, Option.some.injEq, Prod.mk.injEq] at hl
    obtain ⟨rfl, rfl⟩ := hl
    obtain ⟨h1, -, h2, -⟩ := hs.rleaf
    obtain ⟨V, hV⟩ := pieces_and_total c.σ (s := .pc (.ivl supp)) (t := l.values) h1.wf hvw (by simp) hu
    obtain ⟨v1, v2, v3, -, -, v6, v7⟩ := realLeaf_values (l := ⟨k, d, supp, cond⟩) (c := c) h1 h2 hvw (values_disj l) hV
    have hpV : RLeaf.probValues L ⟨k, d, supp, cond⟩ V = .ok p := by
      simpa only [leafProbSet, hV, bind, Except.bind] using hp'
    have hm' : (RLeaf.meas μ ⟨k, d, supp, cond⟩) l.values.realSet ≠ 0 := by
      have hPl := h1.prob
      rw [← real_ne_zero, ← realLeaf_prob (c := c) h1 h2 hvw (values_disj l) hV hpV]
      exact hp0
    refine condReal_total (l := ⟨k, d, supp, cond⟩) hs hvw (values_disj l) hV ?_ hm'
    -- the pieces of the intersection
    obtain ⟨A, B, hAB, hb, ht, hR⟩ := within_ends hu hw
    have hint : k = .disc → ∀ a ∈ insert supp.a (insert supp.b A), a = ⊥ ∨ a = ⊤ ∨ ∃ n : ℤ, a = ((n : ℝ) : EReal) := by
      intro hkd a ha
      have hsup := h1.ints hkd
      rcases Finset.mem_insert.1 ha with rfl | ha
      · rcases hsup.1 with h | h
        · exact .inl h
        · exact .inr (.inr h)
      rcases Finset.mem_insert.1 ha with rfl | ha
      · rcases hsup.2 with h | h
        · exact .inr (.inl h)
        · exact .inr (.inr h)
      by_cases e1 : a = ⊥; · exact .inl e1
      by_cases e2 : a = ⊤; · exact .inr (.inl e2)
      rcases hR a ha e1 e2 with h | h
      · cases h with | real h => exact absurd rfl (h hkd)
      · exact .inr (.inr h)
    obtain ⟨hVE, hVu⟩ := SSet.and_ends (A := insert supp.a (insert supp.b A)) (B := B) (by simp [SSet.Ends, Piece.Ends]) (by
      cases hlv : l.values with
      | empty => trivial
      | un u => exact absurd hlv (hu u)
      | pc q =>
        rw [hlv] at hAB
        cases q with
        | nom n => exact hAB
        | fin s => exact fun x hx => by have := hAB hx; simp [this]
        | ivl i => exact ⟨by simp [hAB.1], by simp [hAB.2]⟩) (by simp) hu hV
    have hfin : ∀ x, Val.num x ∈ V.den → x ≠ ⊥ ∧ x ≠ ⊤ := by
      intro x hx
      have := (v6 _ hx).1
      rw [Piece.mem_den_ivl] at this
      exact Ivl.Mem.fin h1.wf this
    intro q hq
    cases V with
    | empty => simp [SSet.valPieces] at hq
    | un u => exact absurd rfl (hVu u)
    | pc q' =>
      simp only [SSet.valPieces, List.mem_singleton] at hq
      subst hq
      cases q with
      | nom n => cases hpV
      | fin s =>
        have hkd : k = .disc := by
          cases k with
          | disc => rfl
          | cont =>
            have : p = 0 := by
              simp only [RLeaf.probValues, RLeaf.probPiece, RLeaf.probFinite] at hpV
              cases hpV; rfl
            exact absurd this hp0
        refine ⟨hkd, fun x hx => ?_⟩
        have hx' := hfin x (by simpa using hx)
        rcases hint hkd x (hVE hx) with h | h | h
        · exact absurd h hx'.1
        · exact absurd h hx'.2
        · exact h
      | ivl i =>
        intro hkd
        have hlt : i.a < i.b := v1.1
        refine ⟨?_, ?_⟩
        · rcases hint hkd i.a hVE.1 with h | h | h
          · exact .inl h
          · exact absurd h (ne_top_of_lt hlt)
          · exact .inr h
        · rcases hint hkd i.b hVE.2 with h | h | h
          · exact absurd h (ne_bot_of_gt hlt)
          · exact .inl h
          · exact .inr h
  | atomic X' v env' =>
    simp only [leafProbSet, bind, Except.bind] at hp'
    split at hp'; · cases hp'
    rename_i b hb
    have : b = true := by
      cases b with
      | true => rfl
      | false => cases hp'; simp at hp0
    subst this
    exact ⟨.atomic X' v env', by simp only [leafCondSet, hb, bind, Except.bind, assertB, if_true]⟩
  | nominal X' dist =>
    cases hs with
    | nominal hn h0 h1 =>
    have hdn : dist ≠ [] := by rintro rfl; simp at h1
    obtain ⟨V, hV, hVu⟩ := nominalValues_total (c := c) (dist := dist) hdn hvw hu
    rcases nominalValues_ok hvw (values_disj l) hV with ⟨rfl, -⟩ | ⟨m, rfl, hne, hm'⟩ | ⟨u, rfl⟩
    · simp only [leafProbSet, hV, bind, Except.bind] at hp'
      cases hp'; exact absurd rfl hp0
    · obtain ⟨q, hq⟩ := nominalMass_total (dist := dist) (vals := m.vals) (fun x hx => ((hm' x).1 hx).1)
      have hq0 : q ≠ 0 := by
        simp only [leafProbSet, hV, bind, Except.bind, hq] at hp'
        rw [if_neg (by rintro rfl; simp at hne)] at hp'
        cases hp'
        exact_mod_cast hp0
      simp only [leafCondSet, hV, bind, Except.bind, hq]
      exact condNominal_total hn hdn hq hq0
    · exact absurd rfl (hVu u)
  | sum => simp [Spe.leafEnv] at hl
  | prod => simp [Spe.leafEnv] at hl

end Sppl
