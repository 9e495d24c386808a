import Verif.Spe.DistSpec
import Verif.Spe.Props
import Verif.Comp.RenderLeaf

/-!
# Lemmas about the domains of distributions.py
-/

namespace Sppl
open Classical MeasureTheory
open scoped ENNReal ProbabilityTheory

theorem DName.kind_eq (d : DName) : d.kind = if d.onIntegers then .disc else .cont := by cases d <;> rfl

theorem dom_reals {i : Ivl EReal} (h : realsDom = .ok i) (x : ℝ) : i.Mem (x : EReal) := by
  rw [mkIvl_mem h]; simp

theorem dom_pos {i : Ivl EReal} (h : realsPosDom = .ok i) (x : ℝ) : i.Mem (x : EReal) ↔ 0 ≤ x := by
  rw [mkIvl_mem h]; simp

theorem dom_neg {i : Ivl EReal} (h : realsNegDom = .ok i) (x : ℝ) : i.Mem (x : EReal) ↔ x ≤ 0 := by
  rw [mkIvl_mem h]; simp

theorem dom_ipos {i : Ivl EReal} (h : integersPosDom = .ok i) (x : ℝ) : i.Mem (x : EReal) ↔ 0 < x := by
  rw [mkIvl_mem h]; simp

theorem dom_posLoc {kw : Kw} {i : Ivl EReal} (h : realsPosLoc kw = .ok i) (x : ℝ) : i.Mem (x : EReal) ↔ kw.loc ≤ x := by
  unfold realsPosLoc at h
  unfold Kw.loc
  cases hl : kw.lookup "loc" with
  | none => simp only [hl] at h; rw [dom_pos h]; simp
  | some l => simp only [hl] at h; rw [mkIvl_mem h]; simp

theorem dom_closed {a b : ℝ} {i : Ivl EReal} (h : closedIvl a b = .ok i) (x : ℝ) : i.Mem (x : EReal) ↔ a ≤ x ∧ x ≤ b := by
  rw [mkIvl_mem h]; simp

theorem dom_unit {kw : Kw} {i : Ivl EReal} (h : unitIntervalLocScale kw = .ok i) (x : ℝ) : i.Mem (x : EReal) ↔ kw.loc ≤ x ∧ x ≤ kw.loc + kw.scale := by
  rw [dom_closed h]; rfl

theorem mkRange_mem {a b : ℝ} {i : Ivl EReal} (h : mkRange a b = .ok i) (x : ℝ) :
    i.Mem (x : EReal) ↔ a ≤ x ∧ (if a = b then x < a + 1 else x ≤ b) := by
  unfold mkRange at h
  simp only [bind, Except.bind] at h
  split at h; · cases h
  split at h; · cases h
  split at h; · cases h
  split at h; · cases h
  rw [mkIvl_mem h]
  by_cases hab : a = b
  · subst hab
    simp only [decide_true, if_true, Bool.false_eq_true, if_false, EReal.coe_le_coe_iff]
    rw [← EReal.coe_one, ← EReal.coe_add, EReal.coe_lt_coe_iff]
  · simp [hab]

theorem kwGet_par {kw : Kw} {s : String} {v : ℝ} (h : kwGet kw s = .ok v) : kw.par s = v := by
  unfold kwGet at h
  unfold Kw.par
  split at h
  · rename_i w hw; injection h with h; rw [hw]; exact h
  · cases h

theorem two_keys {kw : Kw} {s t : String} {f : ℝ → ℝ → Res (Ivl EReal)} {i : Ivl EReal}
    (h : (do let a ← kwGet kw s; let b ← kwGet kw t; f a b) = .ok i) : f (kw.par s) (kw.par t) = .ok i := by
  simp only [bind, Except.bind] at h
  split at h; · cases h
  rename_i a ha
  split at h; · cases h
  rename_i b hb
  rw [kwGet_par ha, kwGet_par hb]; exact h

theorem one_key {kw : Kw} {s : String} {f : ℝ → Res (Ivl EReal)} {i : Ivl EReal}
    (h : (do let a ← kwGet kw s; f a) = .ok i) : f (kw.par s) = .ok i := by
  simp only [bind, Except.bind] at h
  split at h; · cases h
  rename_i a ha
  rw [kwGet_par ha]; exact h

theorem getDomain_wf {d : DName} {kw : Kw} {i : Ivl EReal} (h : d.getDomain kw = .ok i) : i.WF := by
  have key : ∀ {a b : EReal}, mkRange a b = .ok i → i.WF := by
    intro a b h
    unfold mkRange at h
    simp only [bind, Except.bind] at h
    split at h; · cases h
    split at h; · cases h
    split at h; · cases h
    split at h; · cases h
    exact mkIvl_wf h
  have kp : realsPosLoc kw = .ok i → i.WF := by
    intro h; unfold realsPosLoc at h; split at h <;> exact mkIvl_wf h
  cases d
  all_goals simp only [DName.getDomain] at h
  all_goals first
    | exact kp h | exact mkIvl_wf h | exact key h
    | (replace h := two_keys h; first | exact mkIvl_wf h | exact key h)
    | (replace h := one_key h; first | exact mkIvl_wf h | exact key h)
    | skip
  case genextreme => replace h := one_key h; split_ifs at h <;> exact mkIvl_wf h
  case genhalflogistic => replace h := one_key h; split_ifs at h; exact mkIvl_wf h
  case hypergeom =>
    simp only [bind, Except.bind] at h
    split at h; · cases h
    split at h; · cases h
    split at h; · cases h
    exact key h

theorem Distr.call_real {L : Lib} {X : String} {k : Kind} {d : Dist} {i : Ivl EReal} {s : Spe} (h : Distr.call L X (.real k d i) = .ok s) :
    s = .real k X d i false [(X, .id X)] ∧ (k = .disc → (i.a = ⊥ ∨ ∃ n : ℤ, i.a = ((n : ℝ) : EReal)) ∧ (i.b = ⊤ ∨ ∃ n : ℤ, i.b = ((n : ℝ) : EReal))) := by
  unfold Distr.call mkReal at h
  cases k with
  | cont =>
    simp only [bind, Except.bind, Bool.false_eq_true, if_false] at h
    injection h with h
    exact ⟨h.symm, by intro h; cases h⟩
  | disc =>
    simp only [bind, Except.bind, Bool.false_eq_true, if_false] at h
    split at h; · cases h
    rename_i a ha
    split at h; · cases h
    rename_i ha'
    split at h; · cases h
    rename_i b hb
    split at h; · cases h
    rename_i hu
    injection h with h
    refine ⟨h.symm, fun _ => ?_⟩
    have aa : ∀ {b : Bool} {u : Unit}, assertB b = .ok u → b = true := by
      intro b u h; unfold assertB at h; split at h; · assumption
      cases h
    have ha1 := aa ha'
    have hb1 := aa hu
    subst ha1; subst hb1
    constructor
    · unfold intOrNegInf at ha
      split at ha; · left; assumption
      split at ha; · cases ha
      injection ha with ha; right; simpa [isInt] using ha
    · unfold intOrPosInf at hb
      split at hb; · left; assumption
      split at hb; · cases hb
      injection hb with hb; right; simpa [isInt] using hb

theorem DName.call_ok {L : Lib} {d : DName} {args : List ℝ} {kw : Kw} {X : String} {s : Spe} (h : d.call L args kw X = .ok s) :
    ∃ i, d.getDomain kw = .ok i ∧ s = .real d.kind X (d.scipy kw) i false [(X, .id X)] ∧
      (d.kind = .disc → (i.a = ⊥ ∨ ∃ n : ℤ, i.a = ((n : ℝ) : EReal)) ∧ (i.b = ⊤ ∨ ∃ n : ℤ, i.b = ((n : ℝ) : EReal))) := by
  unfold DName.call at h
  split at h; · cases h
  simp only [bind, Except.bind] at h
  split at h; · cases h
  rename_i i hi
  exact ⟨i, hi, Distr.call_real h⟩

theorem noAtoms_ivl {m : Measure ℝ} [IsProbabilityMeasure m] (ha : ∀ x, m {x} = 0) {i : Ivl EReal} (hi : i.WF) :
    m.real {y | (y : EReal) ≤ i.b} - m.real {y | (y : EReal) ≤ i.a} = m.real i.reals := by
  have hz : ∀ a : EReal, m {y : ℝ | (y : EReal) = a} = 0 := by
    intro a
    induction a with
    | bot => simp
    | top => simp
    | coe a => simpa using ha a
  have hm : ∀ a : EReal, MeasurableSet {y : ℝ | (y : EReal) ≤ a} := fun a => measurableSet_le measurable_coe_real_ereal _root_.measurable_const
  have hsub : {y : ℝ | (y : EReal) ≤ i.a} ⊆ {y : ℝ | (y : EReal) ≤ i.b} := fun y (hy : (y : EReal) ≤ i.a) => hy.trans hi.1.le
  rw [← measureReal_sdiff hsub (hm _)]
  refine measureReal_congr ?_
  rw [ae_eq_set]
  constructor
  · refine measure_mono_null (t := {y : ℝ | (y : EReal) = i.b}) ?_ (hz _)
    rintro y ⟨⟨h1, h2⟩, h3⟩
    simp only [Set.mem_ofPred_eq, not_le] at h1 h2 ⊢
    by_contra hne
    apply h3
    refine ⟨?_, ?_⟩
    · split_ifs; · exact h2
      exact h2.le
    · split_ifs; · exact lt_of_le_of_ne h1 hne
      exact h1
  · refine measure_mono_null (t := {y : ℝ | (y : EReal) = i.a}) ?_ (hz _)
    rintro y ⟨⟨h1, h2⟩, h3⟩
    simp only [Set.mem_ofPred_eq]
    by_contra hne
    apply h3
    refine ⟨?_, ?_⟩
    · show (y : EReal) ≤ i.b
      split_ifs at h2; · exact h2.le
      exact h2
    · show ¬ (y : EReal) ≤ i.a
      rw [not_le]
      split_ifs at h1; · exact h1
      exact lt_of_le_of_ne h1 (Ne.symm hne)

theorem kwGet_isSome {kw : Kw} {s : String} (h : (kw.lookup s).isSome) : kwGet kw s = .ok (kw.par s) := by
  obtain ⟨v, hv⟩ := Option.isSome_iff_exists.mp h
  simp [kwGet, Kw.par, hv]

theorem mkIvl_total {a b : EReal} {lo ro : Bool} (h : a < b) : ∃ i, mkIvl a b lo ro = .ok i := ⟨_, mkIvl_eq h⟩

theorem isInt_coe (n : ℤ) : isInt ((n : ℝ) : EReal) = true := by simp [isInt]

theorem mkRange_total {m n : ℤ} (h : m ≤ n) : ∃ i, mkRange ((m : ℝ) : EReal) ((n : ℝ) : EReal) = .ok i := by
  unfold mkRange
  simp only [intOrNegInf, intOrPosInf, EReal.coe_ne_bot, EReal.coe_ne_top, if_false, isInt_coe, assertB, if_true, bind, Except.bind]
  refine mkIvl_total ?_
  by_cases hmn : m = n
  · subst hmn
    simp only [if_true]
    rw [← EReal.coe_one, ← EReal.coe_add, EReal.coe_lt_coe_iff]; linarith
  · have : m < n := lt_of_le_of_ne h hmn
    simp [hmn, this]

theorem DName.call_of {L : Lib} {d : DName} {kw : Kw} {X : String} {i : Ivl EReal} (h : d.getDomain kw = .ok i)
    (hint : d.onIntegers = true → (i.a = ⊥ ∨ ∃ n : ℤ, i.a = ((n : ℝ) : EReal)) ∧ (i.b = ⊤ ∨ ∃ n : ℤ, i.b = ((n : ℝ) : EReal))) :
    ∃ s, d.call L [] kw X = .ok s := by
  unfold DName.call
  rw [if_neg (by simp)]
  simp only [h, bind, Except.bind, Distr.call, mkReal, Bool.false_eq_true, if_false]
  rw [DName.kind_eq]
  cases hk : d.onIntegers with
  | false => simp
  | true =>
    obtain ⟨ha, hb⟩ := hint hk
    have h1 : intOrNegInf i.a = .ok true := by
      rcases ha with ha | ⟨n, ha⟩ <;> simp [intOrNegInf, ha, isInt_coe, EReal.coe_ne_bot, EReal.coe_ne_top]
    have h2 : intOrPosInf i.b = .ok true := by
      rcases hb with ha | ⟨n, ha⟩ <;> simp [intOrPosInf, ha, isInt_coe, EReal.coe_ne_bot, EReal.coe_ne_top]
    simp [h1, h2, assertB]

theorem mkIvl_a {a b : EReal} {lo ro : Bool} {i : Ivl EReal} (h : mkIvl a b lo ro = .ok i) : i.a = a := by
  obtain ⟨-, rfl⟩ := mkIvl_ok h; rfl

theorem mkRange_ivl {a b : EReal} {i : Ivl EReal} (h : mkRange a b = .ok i) : mkIvl a (b + (if a = b then 1 else 0)) false (decide (a = b)) = .ok i := by
  unfold mkRange at h
  simp only [bind, Except.bind] at h
  split at h; · cases h
  split at h; · cases h
  split at h; · cases h
  split at h; · cases h
  exact h

theorem mkRange_wf {a b : EReal} {i : Ivl EReal} (h : mkRange a b = .ok i) : i.WF := mkIvl_wf (mkRange_ivl h)

theorem mkRange_a {a b : EReal} {i : Ivl EReal} (h : mkRange a b = .ok i) : i.a = a := mkIvl_a (mkRange_ivl h)

end Sppl
