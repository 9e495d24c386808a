import Verif.Spe.Info
import Verif.Spe.Hashable
import Verif.Spe.AskLemmas
import Mathlib.InformationTheory.KullbackLeibler.KLFun

set_option linter.all false

/-!
# C39: mutual information
-/

namespace Sppl
open Classical MeasureTheory

/-- The mutual information of the indicators of two sets of assignments: the sum over the four combinations of `p * log(p / (q * r))`. -/
noncomputable def mutualInformation (m : Measure Asg) (S T : Set Asg) : ℝ :=
  m.real (S ∩ T) * Real.log (m.real (S ∩ T) / (m.real S * m.real T)) +
  m.real (S ∩ Tᶜ) * Real.log (m.real (S ∩ Tᶜ) / (m.real S * m.real Tᶜ)) +
  m.real (Sᶜ ∩ T) * Real.log (m.real (Sᶜ ∩ T) / (m.real Sᶜ * m.real T)) +
  m.real (Sᶜ ∩ Tᶜ) * Real.log (m.real (Sᶜ ∩ Tᶜ) / (m.real Sᶜ * m.real Tᶜ))

theorem miTerm_eq {p a b : ℝ} (hp : 0 ≤ p) (ha : p ≤ a) (hb : p ≤ b) : miTerm p a b = ((p * Real.log (p / (a * b)) : ℝ) : EReal) := by
  unfold miTerm
  rcases hp.eq_or_lt with rfl | hp
  · simp
  · have ha' : 0 < a := hp.trans_le ha
    have hb' : 0 < b := hp.trans_le hb
    rw [if_neg hp.ne', ENNReal.log_ofReal_of_pos hp, ENNReal.log_ofReal_of_pos ha', ENNReal.log_ofReal_of_pos hb',
      Real.log_div hp.ne' (mul_pos ha' hb').ne', Real.log_mul ha'.ne' hb'.ne']
    norm_cast

/-- One summand is at least `p - q`, with equality iff `p = q`. -/
theorem kl_term {p q : ℝ} (hp : 0 ≤ p) (hq : 0 ≤ q) (h0 : q = 0 → p = 0) : p - q ≤ p * Real.log (p / q) ∧ (p * Real.log (p / q) = p - q ↔ p = q) := by
  rcases hq.eq_or_lt with rfl | hq
  · simp [h0 rfl]
  · have e : p * Real.log (p / q) - (p - q) = q * InformationTheory.klFun (p / q) := by
      rw [InformationTheory.klFun_apply]
      field_simp
      ring
    have hx : 0 ≤ p / q := div_nonneg hp hq.le
    have h1 := InformationTheory.klFun_nonneg hx
    have h2 := InformationTheory.klFun_eq_zero_iff hx
    refine ⟨by nlinarith [mul_nonneg hq.le h1], ?_⟩
    constructor
    · intro h
      have : q * InformationTheory.klFun (p / q) = 0 := by rw [← e, h]; ring
      rcases mul_eq_zero.1 this with h | h
      · exact absurd h hq.ne'
      · have := h2.1 h
        field_simp at this; exact this
    · rintro rfl
      rw [div_self hq.ne']; simp

theorem mi_nonneg {m : Measure Asg} [IsProbabilityMeasure m] {S T : Set Asg} (hS : MeasurableSet S) (hT : MeasurableSet T) :
    0 ≤ mutualInformation m S T ∧ (mutualInformation m S T = 0 ↔ m.real (S ∩ T) = m.real S * m.real T) := by
  have t (U V : Set Asg) := kl_term (p := m.real (U ∩ V)) (q := m.real U * m.real V) measureReal_nonneg (by positivity) (by
    intro h
    rcases mul_eq_zero.1 h with h | h
    · exact le_antisymm (h ▸ measureReal_mono Set.inter_subset_left) measureReal_nonneg
    · exact le_antisymm (h ▸ measureReal_mono Set.inter_subset_right) measureReal_nonneg)
  have hS' : m.real Sᶜ = 1 - m.real S := probReal_compl_eq_one_sub hS
  have hT' : m.real Tᶜ = 1 - m.real T := probReal_compl_eq_one_sub hT
  have e1 : m.real (S ∩ Tᶜ) = m.real S - m.real (S ∩ T) := by
    have := measureReal_inter_add_sdiff (μ := m) (s := S) hT; rw [Set.diff_eq] at this; linarith
  have e2 : m.real (Sᶜ ∩ T) = m.real T - m.real (S ∩ T) := by
    have := measureReal_inter_add_sdiff (μ := m) (s := T) hS
    rw [Set.diff_eq, Set.inter_comm T S, Set.inter_comm T Sᶜ] at this; linarith
  have e3 : m.real (Sᶜ ∩ Tᶜ) = 1 - m.real S - m.real T + m.real (S ∩ T) := by
    have := measureReal_inter_add_sdiff (μ := m) (s := Sᶜ) hT; rw [Set.diff_eq, e2, hS'] at this; linarith
  have t1 := t S T
  have t2 := t S Tᶜ
  have t3 := t Sᶜ T
  have t4 := t Sᶜ Tᶜ
  have tot : (m.real (S ∩ T) - m.real S * m.real T) + (m.real (S ∩ Tᶜ) - m.real S * m.real Tᶜ) + (m.real (Sᶜ ∩ T) - m.real Sᶜ * m.real T) +
      (m.real (Sᶜ ∩ Tᶜ) - m.real Sᶜ * m.real Tᶜ) = 0 := by
    rw [e1, e2, e3, hS', hT']; ring
  unfold mutualInformation
  refine ⟨by linarith [t1.1, t2.1, t3.1, t4.1], ?_, ?_⟩
  · intro h
    exact t1.2.1 (by linarith [t1.1, t2.1, t3.1, t4.1])
  · intro h
    have h1 := t1.2.2 h
    have h2 := t2.2.2 (by rw [e1, hT', h]; ring)
    have h3 := t3.2.2 (by rw [e2, hS', h]; ring)
    have h4 := t4.2.2 (by rw [e3, hS', hT', h]; ring)
    linarith

theorem mi_symm (m : Measure Asg) (S T : Set Asg) : mutualInformation m S T = mutualInformation m T S := by
  unfold mutualInformation
  rw [Set.inter_comm S T, Set.inter_comm S Tᶜ, Set.inter_comm Sᶜ T, Set.inter_comm Sᶜ Tᶜ, mul_comm (m.real S) (m.real T), mul_comm (m.real S) (m.real Tᶜ),
    mul_comm (m.real Sᶜ) (m.real T), mul_comm (m.real Sᶜ) (m.real Tᶜ)]
  ring

/-- What is assumed of an event: built by a user, compares strings with plain variables only and not with variables of atomic leaves, over variables of the SPE,
and almost surely not singular and of the right kind. -/
structure AsksTyped (c : Ctx) (μ : Dist → Measure ℝ) (s : Spe) (e : Ev) : Prop where
  proper : e.Proper c s.atomSyms
  vars : e.symbols ⊆ s.symbols
  regular : ∀ᵐ ω ∂(s.den μ), e.Regular ω
  typed : ∀ᵐ ω ∂(s.den μ), e.Typed ω

section
variable {c : Ctx} (hc : c.Correct) {L : Lib} {μ : Dist → Measure ℝ} {n : ℕ} {s : Spe} (hs : s.WF c L μ) {A B : Ev} (hA : AsksTyped c μ s A) (hB : AsksTyped c μ s B)
include hc hs hA hB

/-- C39: `mutual_information(A, B)` is the mutual information of the two indicator variables.  Missing from the full claim: the exclusions of C18. -/
theorem C39_mutual_information_partial {r : EReal} (h : s.mutualInfo c L n A B = .ok r) :
    r = (mutualInformation (s.den μ) {ω | A.holds ω} {ω | B.holds ω} : ℝ) := by
  have hpr := hs.prob
  unfold Spe.mutualInfo at h
  simp only [bind, Except.bind] at h
  split at h; · cases h
  rename_i a1 h1
  split at h; · cases h
  rename_i b1 h2
  split at h; · cases h
  rename_i a0 h3
  split at h; · cases h
  rename_i b0 h4
  split at h; · cases h
  rename_i AB h5
  split at h; · cases h
  rename_i p11 h6
  replace h6 := keyed_ok h6
  split at h; · cases h
  rename_i nB h7
  split at h; · cases h
  rename_i AnB h8
  split at h; · cases h
  rename_i p10 h9
  replace h9 := keyed_ok h9
  split at h; · cases h
  rename_i nA h10
  split at h; · cases h
  rename_i nAB h11
  split at h; · cases h
  rename_i p01 h12
  replace h12 := keyed_ok h12
  split at h; · cases h
  rename_i p00 h13
  cases h
  have vA := Ev.Made.valid _ hA.proper.made
  have vB := Ev.Made.valid _ hB.proper.made
  have ask {e : Ev} (h : e.Proper c s.atomSyms) (hv : e.symbols ⊆ s.symbols) (hr : ∀ᵐ ω ∂(s.den μ), e.Regular ω) := h.asks le_rfl hv hr
  have vnB := Ev.not_spec B vB h7
  have vnA := Ev.not_spec A vA h10
  have rnB : ∀ᵐ ω ∂(s.den μ), nB.Regular ω := by filter_upwards [hB.regular] with ω hω using Ev.not_regular vB h7 hω
  have rnA : ∀ᵐ ω ∂(s.den μ), nA.Regular ω := by filter_upwards [hA.regular] with ω hω using Ev.not_regular vA h10 hω
  have q1 := (ask hA.proper hA.vars hA.regular).prob hc hs h1
  have q2 := (ask hB.proper hB.vars hB.regular).prob hc hs h2
  have q11 := (ask (hA.proper.land hB.proper h5) (Ev.land_symbols h5 hA.vars hB.vars)
    (by filter_upwards [hA.regular, hB.regular] with ω x y using Ev.land_regular h5 x y)).prob hc hs h6
  have q10 := (ask (hA.proper.land (hB.proper.not h7) h8) (Ev.land_symbols h8 hA.vars ((Ev.not_symbols vB h7).trans hB.vars))
    (by filter_upwards [hA.regular, rnB] with ω x y using Ev.land_regular h8 x y)).prob hc hs h9
  have q01 := (ask ((hA.proper.not h10).land hB.proper h11) (Ev.land_symbols h11 ((Ev.not_symbols vA h10).trans hA.vars) hB.vars)
    (by filter_upwards [rnA, hB.regular] with ω x y using Ev.land_regular h11 x y)).prob hc hs h12
  set S := {ω | A.holds ω} with hS
  set T := {ω | B.holds ω} with hT
  have mS : MeasurableSet S := Ev.measurable A
  have mT : MeasurableSet T := Ev.measurable B
  have r11 : p11 = (s.den μ).real (S ∩ T) := by
    rw [q11]; exact congrArg _ (Set.ext (Ev.land_spec vA vB h5).2)
  have r10 : p10 = (s.den μ).real (S ∩ Tᶜ) := by
    rw [q10]
    refine measureReal_congr ?_
    filter_upwards [hB.typed] with ω hω
    refine propext (((Ev.land_spec vA vnB.1 h8).2 ω).trans ?_)
    rw [vnB.2 ω hω]; rfl
  have r01 : p01 = (s.den μ).real (Sᶜ ∩ T) := by
    rw [q01]
    refine measureReal_congr ?_
    filter_upwards [hA.typed] with ω hω
    refine propext (((Ev.land_spec vnA.1 vB h11).2 ω).trans ?_)
    rw [vnA.2 ω hω]; rfl
  have pd : ∀ {x y : ℝ}, pdiff 1 x = .ok y → y = 1 - x := by
    intro x y h
    unfold pdiff at h
    split at h
    · cases h; rfl
    · split at h
      · cases h; rename_i hh; rw [hh]; ring
      · cases h
  have hS' : a0 = (s.den μ).real Sᶜ := by rw [pd h3, q1, probReal_compl_eq_one_sub mS]
  have hT' : b0 = (s.den μ).real Tᶜ := by rw [pd h4, q2, probReal_compl_eq_one_sub mT]
  have r00 : p00 = (s.den μ).real (Sᶜ ∩ Tᶜ) := by
    have e1 := measureReal_inter_add_sdiff (μ := s.den μ) (s := S) mT
    have e3 := measureReal_inter_add_sdiff (μ := s.den μ) (s := Sᶜ) mT
    rw [Set.diff_eq] at e1 e3
    rw [probReal_compl_eq_one_sub mS] at e3
    rw [pd h13, r11, r10, r01]; linarith
  rw [r11, r10, r01, r00, hS', hT', q1, q2]
  have le (U V : Set Asg) : (s.den μ).real (U ∩ V) ≤ (s.den μ).real U := measureReal_mono Set.inter_subset_left
  have le' (U V : Set Asg) : (s.den μ).real (U ∩ V) ≤ (s.den μ).real V := measureReal_mono Set.inter_subset_right
  rw [miTerm_eq measureReal_nonneg (le S T) (le' S T), miTerm_eq measureReal_nonneg (le S Tᶜ) (le' S Tᶜ), miTerm_eq measureReal_nonneg (le Sᶜ T) (le' Sᶜ T),
    miTerm_eq measureReal_nonneg (le Sᶜ Tᶜ) (le' Sᶜ Tᶜ)]
  unfold mutualInformation
  norm_cast

/-- C39: never negative, never infinite. -/
theorem C39_nonneg_partial {r : EReal} (h : s.mutualInfo c L n A B = .ok r) : 0 ≤ r ∧ r ≠ ⊤ := by
  have := hs.prob
  rw [C39_mutual_information_partial hc hs hA hB h]
  exact ⟨by exact_mod_cast (mi_nonneg (Ev.measurable A) (Ev.measurable B)).1, EReal.coe_ne_top _⟩

/-- C39: zero exactly for independent events. -/
theorem C39_zero_iff_partial {r : EReal} (h : s.mutualInfo c L n A B = .ok r) :
    r = 0 ↔ (s.den μ).real {ω | A.holds ω ∧ B.holds ω} = (s.den μ).real {ω | A.holds ω} * (s.den μ).real {ω | B.holds ω} := by
  have := hs.prob
  rw [C39_mutual_information_partial hc hs hA hB h]
  have := (mi_nonneg (m := s.den μ) (Ev.measurable A) (Ev.measurable B)).2
  rw [show ((mutualInformation (s.den μ) {ω | A.holds ω} {ω | B.holds ω} : ℝ) : EReal) = 0 ↔ mutualInformation (s.den μ) {ω | A.holds ω} {ω | B.holds ω} = 0 by norm_cast]
  exact this

/-- C39: symmetric. -/
theorem C39_symm_partial {r r' : EReal} {n' : ℕ} (h : s.mutualInfo c L n A B = .ok r) (h' : s.mutualInfo c L n' B A = .ok r') : r = r' := by
  rw [C39_mutual_information_partial hc hs hA hB h, C39_mutual_information_partial hc hs hB hA h', mi_symm]
end

theorem coin_typed (Y x : String) : AsksTyped ctx0 muU (coin Y) (strEv Y x) where
  proper := ⟨strEv_made _ _ _, .lit rfl rfl, .lit rfl (by rintro ⟨k, -, hk⟩; simp [coin, Spe.atomSyms] at hk)⟩
  vars := by simp [strEv, Ev.symbols, Tr.symbols, coin, Spe.symbols]
  regular := Filter.Eventually.of_forall (fun ω => by simp [strEv, Ev.Regular, Tr.Regular])
  typed := by
    filter_upwards [(coin_wf ctx0 (libOf muU) muU Y).kind (K := fun _ => false) (.nominal rfl)] with ω hω
    obtain ⟨x, hx⟩ := hω Y (by simp [coin, Spe.symbols])
    exact ⟨x, by simpa [Tr.eval] using hx⟩

/-- C39 non-vacuity: the mutual information of `Y == 'a'` with itself is not zero. -/
example : (coin "Y").WF ctx0 (libOf muU) muU ∧ AsksTyped ctx0 muU (coin "Y") (strEv "Y" "a") ∧
    ∃ r, (coin "Y").mutualInfo ctx0 (libOf muU) 5 (strEv "Y" "a") (strEv "Y" "a") = .ok r ∧ r ≠ 0 := by
  refine ⟨coin_wf _ _ _ _, coin_typed _ _, ?_⟩
  obtain ⟨-, -, -, -, -, h1, h2, -, -, h3, -⟩ := coin_facts
  have l1 : (strEv "Y" "a").land ctx0 (strEv "Y" "a") = .ok (strEv "Y" "a") := by
    have f : Finset.filter (fun x => x = "a") ({"a"} : Finset String) = {"a"} := by decide
    simp [f, strEv, Ev.land, Ev.simplify, Ev.basic?, Ev.values, SSet.and, Piece.and, Nom.and, Nom.neg, Nom.has, mkNom, nomOrEmpty, bind, Except.bind, Ev.ofSet]
  have l2 : (strEv "Y" "a").land ctx0 (nomN "Y" "a") = .ok (.fin (.id "Y") none) := by
    simp [strEv, nomN, Ev.land, Ev.simplify, Ev.basic?, Ev.values, SSet.and, Piece.and, Nom.and, Nom.neg, Nom.has, mkNom, nomOrEmpty, bind, Except.bind, Ev.ofSet]
  have l3 : (nomN "Y" "a").land ctx0 (strEv "Y" "a") = .ok (.fin (.id "Y") none) := by
    simp [strEv, nomN, Ev.land, Ev.simplify, Ev.basic?, Ev.values, SSet.and, Piece.and, Nom.and, Nom.neg, Nom.has, mkNom, nomOrEmpty, bind, Except.bind, Ev.ofSet]
  have d : pdiff 1 (1/2) = .ok (1/2) := by norm_num [pdiff]
  have h : ∃ r, (coin "Y").mutualInfo ctx0 (libOf muU) 5 (strEv "Y" "a") (strEv "Y" "a") = .ok r := by
    have k : ∀ e : Ev, e.hashable = true → keyed ctx0 5 (coin "Y") e ((coin "Y").prob ctx0 (libOf muU) 5 e) = (coin "Y").prob ctx0 (libOf muU) 5 e :=
      fun e he => NoPiecewise.keyed_prob (fun X env h => by cases h; exact ⟨he, by simp [Tr.hashable]⟩)
    have k1 := k (strEv "Y" "a") rfl
    have k2 := k (.fin (.id "Y") none) rfl
    rw [h2] at k1
    rw [h3] at k2
    simp only [Spe.mutualInfo, k1, k2, bind, Except.bind, h2, d, l1, h1, l2, l3, h3, add_zero]
    exact ⟨_, rfl⟩
  obtain ⟨r, hr⟩ := h
  refine ⟨r, hr, fun h0 => ?_⟩
  have := (C39_zero_iff_partial ctx0_correct (coin_wf _ _ _ _) (coin_typed _ _) (coin_typed _ _) hr).1 h0
  have e : (1/2 : ℝ) = ((coin "Y").den muU).real {ω | (strEv "Y" "a").holds ω} := (coin_asks "Y" (by simp [Nom.WF])).prob ctx0_correct (coin_wf _ _ _ _) h2
  simp only [and_self, ← e] at this
  norm_num at this

end Sppl
