import Verif.Events.FinvLemmas

set_option linter.all false

/-! Lemmas on the sets computed by the `invert_interval` methods. -/

namespace Sppl
open Classical
variable {r0 : Bool}

theorem firstElem_spec {c : Ctx} {s : SSet EReal} {x : EReal} (h : firstElem c s = .ok x) :
    Val.num x ∈ s.den := by
  unfold firstElem at h
  split at h
  · split at h
    · rename_i s x' l heq
      cases h
      have := (c.mem_iter _ x).1 (by rw [heq]; simp)
      simpa [SSet.den] using this
    · cases h
  · cases h

/-- Inversion of a strictly increasing partial function on an interval. -/
theorem increasing_ivl {f : ℝ → Option ℝ} {i : Ivl EReal} {a' b' : EReal} {j : Ivl EReal}
    (hi : i.WF) (hj : mkIvl a' b' i.lo i.ro = .ok j)
    (ha : a' = ⊥ → ∀ x z, f x = some z → i.a < (z : EReal))
    (hb : b' = ⊤ → ∀ x z, f x = some z → (z : EReal) < i.b)
    (hd : ∀ x, f x = none → ¬ j.Mem (x : EReal))
    (h1 : ∀ x z, f x = some z → (a' < (x : EReal) ↔ i.a < (z : EReal)) ∧ (a' ≤ (x : EReal) ↔ i.a ≤ (z : EReal)) ∧
      ((x : EReal) < b' ↔ (z : EReal) < i.b) ∧ ((x : EReal) ≤ b' ↔ (z : EReal) ≤ i.b)) (x : ℝ) :
    j.Mem (x : EReal) ↔ ∃ z, f x = some z ∧ i.Mem (z : EReal) := by
  obtain ⟨hab, rfl⟩ := mkIvl_ok hj
  cases hf : f x with
  | none => simp; exact hd x hf
  | some z =>
    obtain ⟨g1, g2, g3, g4⟩ := h1 x z hf
    simp only [Option.some.injEq, exists_eq_left']
    have ga := fun h => ha h x z hf
    have gb := fun h => hb h x z hf
    unfold Ivl.Mem
    obtain ⟨a, b, lo, ro⟩ := i
    simp only at *
    by_cases e1 : a' = ⊥ <;> by_cases e2 : b' = ⊤ <;> cases lo <;> cases ro <;>
      simp only [e1, e2, decide_true, decide_false, Bool.or_true, Bool.or_false, if_true, if_false, Bool.false_eq_true, true_implies] at * <;>
      grind

theorem Ivl.Mem.le {i : Ivl EReal} {x : EReal} (h : i.Mem x) : i.a ≤ x ∧ x ≤ i.b := by
  unfold Ivl.Mem at h
  obtain ⟨h1, h2⟩ := h
  constructor
  · split at h1
    · exact h1.le
    · exact h1
  · split at h2
    · exact h2.le
    · exact h2

theorem injInterval_spec {c : Ctx} (hc : c.Correct) {t : Tr} (hm : t.MadeG r0 c) {i : Ivl EReal} (hi : i.WF)
    {U : SSet EReal} (h : injInterval c t i = .ok U)
    (ht : (∃ s n, t = .radical s n) ∨ (∃ s b, t = .exp s b) ∨ (∃ s b, t = .log s b)) :
    GoodR U ∧ ∀ x : ℝ, ¬ t.Sing x → (Val.num (x : EReal) ∈ U.den ↔ ∃ z : ℝ, t.fn x = some z ∧ i.Mem (z : EReal)) := by
  unfold injInterval at h
  simp only [bind, Except.bind] at h
  cases hfa : t.finv c i.a with
  | error e => simp [hfa] at h
  | ok fa =>
  cases hea : firstElem c fa with
  | error e => simp [hfa, hea] at h
  | ok a' =>
  cases hfb : t.finv c i.b with
  | error e => simp [hfa, hea, hfb] at h
  | ok fb =>
  cases heb : firstElem c fb with
  | error e => simp [hfa, hea, hfb, heb] at h
  | ok b' =>
  simp only [hfa, hea, hfb, heb, transformInterval, Bool.false_eq_true, if_false] at h
  cases hj : mkIvl a' b' i.lo i.ro with
  | error e => simp [hj] at h
  | ok j =>
  simp only [hj, Except.ok.injEq] at h
  subst h
  refine ⟨goodR_ivl (mkIvl_wf hj), ?_⟩
  have ma := firstElem_spec hea
  have mb := firstElem_spec heb
  have hjj := mkIvl_ok hj
  obtain ⟨hi1, hi2, hi3⟩ := hi
  intro x hsx
  simp only [SSet.den_pc, Piece.mem_den_ivl]
  rcases ht with ⟨s, n, rfl⟩ | ⟨s, b, rfl⟩ | ⟨s, b, rfl⟩
  · -- radical
    cases hm with
    | radical hms hn =>
    have hpos : ∀ {y : EReal} {F : SSet EReal} {v : EReal}, (Tr.radical s n).finv c y = .ok F → Val.num v ∈ F.den →
        0 ≤ y ∧ ((y = ⊤ ∧ v = ⊤) ∨ (y ≠ ⊤ ∧ v = ((y.toReal ^ n : ℝ) : EReal))) := by
      intro y F v hF hv
      cases hrr : extRealsPos c with
      | error e => simp [Tr.finv, ifInRange, hrr, bind, Except.bind] at hF
      | ok r =>
        obtain ⟨hg, hmem⟩ := extRealsPos_spec hrr
        rcases ifInRange_spec hrr hg hF with ⟨h1, h2⟩ | ⟨h1, h2⟩
        · refine ⟨(hmem y).1 h1, ?_⟩
          split at h2 <;> cases h2 <;> simp at hv
          · exact .inl ⟨by assumption, hv⟩
          · exact .inr ⟨by assumption, by simpa using hv⟩
        · subst h2; simp at hv
    obtain ⟨pa, ca⟩ := hpos hfa ma
    obtain ⟨pb, cb⟩ := hpos hfb mb
    have hat : i.a ≠ ⊤ := fun h => by rw [h] at hi1; exact not_top_lt hi1
    rcases ca with ⟨h, -⟩ | ⟨-, ha'⟩
    · exact absurd h hat
    obtain ⟨a, rfl'⟩ : ∃ a : ℝ, i.a = a := by
      induction hia : i.a with
      | bot => rw [hia] at pa; simp at pa
      | top => exact absurd hia hat
      | coe a => exact ⟨a, rfl⟩
    have ha0 : 0 ≤ a := by rw [rfl'] at pa; exact_mod_cast pa
    rw [rfl', EReal.toReal_coe] at ha'
    refine increasing_ivl ⟨hi1, hi2, hi3⟩ hj ?_ ?_ ?_ ?_ x
    · intro h; rw [ha'] at h; exact absurd h (EReal.coe_ne_bot _)
    · intro h x z hz
      rcases cb with ⟨h', -⟩ | ⟨-, h'⟩
      · rw [h']; exact EReal.coe_lt_top z
      · rw [h] at h'; exact absurd h'.symm (EReal.coe_ne_top _)
    · intro x hx hmem
      have := hmem.le.1
      rw [hjj.2] at this
      simp only [ha'] at this
      simp only [Tr.fn, radicalVal] at hx
      split at hx <;> simp at hx
      have h2 : a ^ n ≤ x := by exact_mod_cast this
      exact absurd (le_trans (pow_nonneg ha0 n) h2) (by assumption)
    · intro x z hz
      have hz0 : 0 ≤ z := by
        simp only [Tr.fn, radicalVal] at hz
        split at hz <;> simp at hz
        rw [← hz]; exact Real.rpow_nonneg (by assumption) _
      have hxz : x = z ^ n := (radicalVal_eq_iff hn hz0).1 hz
      rw [ha', rfl', hxz]
      have key : ∀ {p q : ℝ}, 0 ≤ p → 0 ≤ q → (p ^ n < q ^ n ↔ p < q) ∧ (p ^ n ≤ q ^ n ↔ p ≤ q) :=
        fun hp hq => ⟨pow_lt_pow_iff_left₀ hp hq hn, pow_le_pow_iff_left₀ hp hq hn⟩
      refine ⟨by rw [EReal.coe_lt_coe_iff, EReal.coe_lt_coe_iff]; exact (key ha0 hz0).1, by rw [EReal.coe_le_coe_iff, EReal.coe_le_coe_iff]; exact (key ha0 hz0).2, ?_⟩
      rcases cb with ⟨h', h''⟩ | ⟨h', h''⟩
      · rw [h', h'']; simp only [EReal.coe_lt_top, le_top, and_self]
      · obtain ⟨b, hb⟩ : ∃ b : ℝ, i.b = b := by
          induction hib : i.b with
          | bot => rw [hib] at pb; simp at pb
          | top => exact absurd hib h'
          | coe b => exact ⟨b, rfl⟩
        have hb0 : 0 ≤ b := by rw [hb] at pb; exact_mod_cast pb
        rw [h'', hb, EReal.toReal_coe]
        exact ⟨by rw [EReal.coe_lt_coe_iff, EReal.coe_lt_coe_iff]; exact (key hz0 hb0).1, by rw [EReal.coe_le_coe_iff, EReal.coe_le_coe_iff]; exact (key hz0 hb0).2⟩
  · -- exp
    cases hm with
    | exp hms hb1 =>
    have hpos : ∀ {y : EReal} {F : SSet EReal} {v : EReal}, (Tr.exp s b).finv c y = .ok F → Val.num v ∈ F.den →
        (y = ⊤ ∧ v = ⊤) ∨ (y = 0 ∧ v = ⊥) ∨ ∃ r : ℝ, 0 < r ∧ y = r ∧ v = ((Real.logb b r : ℝ) : EReal) := by
      intro y F v hF hv
      cases hrr : extRealsPos c with
      | error e => simp [Tr.finv, ifInRange, hrr, bind, Except.bind] at hF
      | ok r =>
        obtain ⟨hg, hmem⟩ := extRealsPos_spec hrr
        rcases ifInRange_spec hrr hg hF with ⟨h1, h2⟩ | ⟨h1, h2⟩
        · have hy0 := (hmem y).1 h1
          split at h2
          · cases h2; simp at hv; exact .inl ⟨by assumption, hv⟩
          · split at h2
            · cases h2; simp at hv; exact .inr (.inl ⟨le_antisymm (by assumption) hy0, hv⟩)
            · rw [if_neg (by linarith)] at h2
              cases h2
              right; right
              induction y with
              | bot => simp at hy0
              | top => contradiction
              | coe y =>
                refine ⟨y, ?_, rfl, by simpa using hv⟩
                have : ¬ ((y : EReal) ≤ 0) := by assumption
                simpa using this
        · subst h2; simp at hv
    have ca := hpos hfa ma
    have cb := hpos hfb mb
    have hat : i.a ≠ ⊤ := fun h => by rw [h] at hi1; exact not_top_lt hi1
    have hbpos : ∀ x : ℝ, (0 : ℝ) < b ^ x := fun x => Real.rpow_pos_of_pos (by linarith) x
    have hlb : ∀ {r x : ℝ}, 0 < r → (Real.logb b r < x ↔ r < b ^ x) ∧ (Real.logb b r ≤ x ↔ r ≤ b ^ x) ∧
        (x < Real.logb b r ↔ b ^ x < r) ∧ (x ≤ Real.logb b r ↔ b ^ x ≤ r) := by
      intro r x hr
      exact ⟨Real.logb_lt_iff_lt_rpow hb1 hr, Real.logb_le_iff_le_rpow hb1 hr,
        Real.lt_logb_iff_rpow_lt hb1 hr, Real.le_logb_iff_rpow_le hb1 hr⟩
    refine increasing_ivl ⟨hi1, hi2, hi3⟩ hj ?_ ?_ ?_ ?_ x
    · intro h x z hz
      simp only [Tr.fn, expVal, Option.some.injEq] at hz
      subst hz
      rcases ca with ⟨h', -⟩ | ⟨h', -⟩ | ⟨r, _, _, h'⟩
      · exact absurd h' hat
      · rw [h']; exact_mod_cast hbpos x
      · rw [h] at h'; simp at h'
    · intro h x z hz
      rcases cb with ⟨h', -⟩ | ⟨_, h'⟩ | ⟨r, _, _, h'⟩
      · rw [h']; exact EReal.coe_lt_top z
      · rw [h] at h'; simp at h'
      · rw [h] at h'; simp at h'
    · intro x hx; simp [Tr.fn, expVal] at hx
    · intro x z hz
      simp only [Tr.fn, expVal, Option.some.injEq] at hz
      subst hz
      have hL : (a' < (x : EReal) ↔ i.a < ((b ^ x : ℝ) : EReal)) ∧ (a' ≤ (x : EReal) ↔ i.a ≤ ((b ^ x : ℝ) : EReal)) := by
        rcases ca with ⟨h', -⟩ | ⟨h1, h2⟩ | ⟨r, h1, h2, h3⟩
        · exact absurd h' hat
        · rw [h1, h2]
          have : (0 : EReal) < ((b ^ x : ℝ) : EReal) := by exact_mod_cast hbpos x
          simp [this, this.le]
        · rw [h2, h3]
          exact ⟨by simpa using (hlb h1).1, by simpa using (hlb h1).2.1⟩
      have hR : ((x : EReal) < b' ↔ ((b ^ x : ℝ) : EReal) < i.b) ∧ ((x : EReal) ≤ b' ↔ ((b ^ x : ℝ) : EReal) ≤ i.b) := by
        rcases cb with ⟨h', h''⟩ | ⟨h1, h2⟩ | ⟨r, h1, h2, h3⟩
        · rw [h', h'']; simp only [EReal.coe_lt_top, le_top, and_self]
        · rw [h2] at hjj; exact absurd hjj.1 not_lt_bot
        · rw [h2, h3]
          exact ⟨by simpa using (hlb h1).2.2.1, by simpa using (hlb h1).2.2.2⟩
      exact ⟨hL.1, hL.2, hR.1, hR.2⟩
  · -- log
    cases hm with
    | log hms hb1 =>
    have hpos : ∀ {y : EReal} {F : SSet EReal} {v : EReal}, (Tr.log s b).finv c y = .ok F → Val.num v ∈ F.den →
        (y = ⊤ ∧ v = ⊤) ∨ (y = ⊥ ∧ v = 0) ∨ ∃ r : ℝ, y = r ∧ v = ((b ^ r : ℝ) : EReal) := by
      intro y F v hF hv
      cases hrr : extReals c with
      | error e => simp [Tr.finv, ifInRange, hrr, bind, Except.bind] at hF
      | ok r =>
        obtain ⟨hg, hmem⟩ := extReals_spec hrr
        rcases ifInRange_spec hrr hg hF with ⟨h1, h2⟩ | ⟨h1, h2⟩
        · split at h2
          · cases h2; simp at hv; exact .inl ⟨by assumption, hv⟩
          · split at h2
            · cases h2; simp at hv; exact .inr (.inl ⟨by assumption, hv⟩)
            · cases h2
              right; right
              induction y with
              | bot => contradiction
              | top => contradiction
              | coe y => exact ⟨y, rfl, by simpa using hv⟩
        · subst h2; simp at hv
    have ca := hpos hfa ma
    have cb := hpos hfb mb
    have hat : i.a ≠ ⊤ := fun h => by rw [h] at hi1; exact not_top_lt hi1
    have hbt : i.b ≠ ⊥ := fun h => by rw [h] at hi1; exact not_lt_bot hi1
    have hbpos : ∀ x : ℝ, (0 : ℝ) < b ^ x := fun x => Real.rpow_pos_of_pos (by linarith) x
    have hlb : ∀ {r x : ℝ}, 0 < x → (b ^ r < x ↔ r < Real.logb b x) ∧ (b ^ r ≤ x ↔ r ≤ Real.logb b x) ∧
        (x < b ^ r ↔ Real.logb b x < r) ∧ (x ≤ b ^ r ↔ Real.logb b x ≤ r) := by
      intro r x hr
      exact ⟨(Real.lt_logb_iff_rpow_lt hb1 hr).symm, (Real.le_logb_iff_rpow_le hb1 hr).symm,
        (Real.logb_lt_iff_lt_rpow hb1 hr).symm, (Real.logb_le_iff_le_rpow hb1 hr).symm⟩
    have hsome : ∀ {x z : ℝ}, (Tr.log s b).fn x = some z → 0 < x ∧ z = Real.logb b x := by
      intro x z hz
      simp only [Tr.fn, logVal] at hz
      split at hz <;> simp at hz
      exact ⟨by assumption, hz.symm⟩
    refine increasing_ivl ⟨hi1, hi2, hi3⟩ hj ?_ ?_ ?_ ?_ x
    · intro h x z hz
      rcases ca with ⟨h', -⟩ | ⟨_, h'⟩ | ⟨r, _, h'⟩
      · exact absurd h' hat
      · rw [h] at h'; simp at h'
      · rw [h] at h'; simp at h'
    · intro h x z hz
      rcases cb with ⟨h', -⟩ | ⟨h', _⟩ | ⟨r, _, h'⟩
      · rw [h']; exact EReal.coe_lt_top z
      · exact absurd h' hbt
      · rw [h] at h'; simp at h'
    · intro x hx hmem
      simp only [Tr.fn, logVal] at hx
      split at hx
      · simp at hx
      rename_i hx0
      rw [hjj.2] at hmem
      rcases ca with ⟨h', -⟩ | ⟨h1, h2⟩ | ⟨r, h1, h2⟩
      · exact absurd h' hat
      · have := hmem.1
        simp only [hi2 h1, h2, Bool.true_or, if_true] at this
        exact hx0 (by exact_mod_cast this)
      · have := hmem.le.1
        simp only [h2] at this
        have : b ^ r ≤ x := by exact_mod_cast this
        exact hx0 (lt_of_lt_of_le (hbpos r) this)
    · intro x z hz
      obtain ⟨hx0, rfl⟩ := hsome hz
      have hL : (a' < (x : EReal) ↔ i.a < ((Real.logb b x : ℝ) : EReal)) ∧ (a' ≤ (x : EReal) ↔ i.a ≤ ((Real.logb b x : ℝ) : EReal)) := by
        rcases ca with ⟨h', -⟩ | ⟨h1, h2⟩ | ⟨r, h2, h3⟩
        · exact absurd h' hat
        · rw [h1, h2]
          have : (0 : EReal) < (x : EReal) := by exact_mod_cast hx0
          simp [this, this.le]
        · rw [h2, h3]
          exact ⟨by simpa using (hlb hx0).1, by simpa using (hlb hx0).2.1⟩
      have hR : ((x : EReal) < b' ↔ ((Real.logb b x : ℝ) : EReal) < i.b) ∧ ((x : EReal) ≤ b' ↔ ((Real.logb b x : ℝ) : EReal) ≤ i.b) := by
        rcases cb with ⟨h', h''⟩ | ⟨h', _⟩ | ⟨r, h2, h3⟩
        · rw [h', h'']; simp only [EReal.coe_lt_top, le_top, and_self]
        · exact absurd h' hbt
        · rw [h2, h3]
          exact ⟨by simpa using (hlb hx0).2.2.1, by simpa using (hlb hx0).2.2.2⟩
      exact ⟨hL.1, hL.2, hR.1, hR.2⟩

theorem mkIvl_mem {a b : EReal} {lo ro : Bool} {j : Ivl EReal} (h : mkIvl a b lo ro = .ok j) (x : ℝ) :
    j.Mem (x : EReal) ↔ (if lo = true then a < (x : EReal) else a ≤ (x : EReal)) ∧
      (if ro = true then (x : EReal) < b else (x : EReal) ≤ b) := by
  obtain ⟨hab, rfl⟩ := mkIvl_ok h
  unfold Ivl.Mem
  simp only
  have h1 : a = ⊥ → a < (x : EReal) := fun h => h ▸ EReal.bot_lt_coe x
  have h2 : b = ⊤ → (x : EReal) < b := fun h => h ▸ EReal.coe_lt_top x
  by_cases e1 : a = ⊥ <;> by_cases e2 : b = ⊤ <;> cases lo <;> cases ro <;>
    simp only [e1, e2, decide_true, decide_false, Bool.or_true, Bool.or_false, if_true, if_false, Bool.false_eq_true, true_implies] at * <;>
    grind

theorem absInterval_spec {c : Ctx} {i : Ivl EReal} (hi : i.WF) (hpos : ∀ x, i.Mem x → 0 ≤ x)
    {U : SSet EReal} (h : absInterval c i = .ok U) :
    GoodR U ∧ ∀ x : ℝ, (Val.num (x : EReal) ∈ U.den ↔ i.Mem ((|x| : ℝ) : EReal)) := by
  unfold absInterval at h
  simp only [bind, Except.bind, transformInterval, if_true, Bool.false_eq_true, if_false] at h
  cases hp : mkIvl i.a i.b i.lo i.ro with
  | error e => simp [hp] at h
  | ok p =>
  cases hn : mkIvl (-i.b) (-i.a) i.ro i.lo with
  | error e => simp [hp, hn] at h
  | ok n =>
  simp only [hp, hn] at h
  have ho := SSet.or_spec c.σ _ _ (show (SSet.pc (.ivl p)).WF from mkIvl_wf hp) trivial
    (show (SSet.pc (.ivl n)).WF from mkIvl_wf hn) trivial h
  refine ⟨⟨ho.wf, ho.disj, fun s hs => by have := ho.sub _ hs; simp at this⟩, fun x => ?_⟩
  have hm1 : ∀ x : ℝ, p.Mem (x : EReal) ↔ i.Mem (x : EReal) := by
    intro x; rw [mkIvl_mem hp]; rfl
  have hm2 : ∀ x : ℝ, n.Mem (x : EReal) ↔ i.Mem ((-x : ℝ) : EReal) := by
    intro x; rw [mkIvl_mem hn]; unfold Ivl.Mem
    rw [and_comm]
    simp only [EReal.coe_neg]
    have e1 : (-i.b < (x : EReal) ↔ -(x : EReal) < i.b) := EReal.neg_lt_comm
    have e2 : (-i.b ≤ (x : EReal) ↔ -(x : EReal) ≤ i.b) := EReal.neg_le
    have e3 : ((x : EReal) < -i.a ↔ i.a < -(x : EReal)) := EReal.lt_neg_comm
    have e4 : ((x : EReal) ≤ -i.a ↔ i.a ≤ -(x : EReal)) := EReal.le_neg
    rw [e1, e2, e3, e4]
  have hU : Val.num (x : EReal) ∈ U.den ↔ i.Mem (x : EReal) ∨ i.Mem ((-x : ℝ) : EReal) := by
    rw [← hm1, ← hm2]
    constructor
    · intro hx; simpa using ho.sub _ hx
    · intro hx; exact ho.sup _ ⟨EReal.coe_ne_bot _, EReal.coe_ne_top _⟩ (by simpa using hx)
  rw [hU]
  have k1 := fun h => hpos _ (show i.Mem ((x : ℝ) : EReal) from h)
  have k2 := fun h => hpos _ (show i.Mem ((-x : ℝ) : EReal) from h)
  rcases abs_cases x with ⟨h1, h2⟩ | ⟨h1, h2⟩
  · rw [h1]
    constructor
    · rintro (h | h)
      · exact h
      · have : (0 : ℝ) ≤ -x := by exact_mod_cast k2 h
        have : x = 0 := by linarith
        subst this; simpa using h
    · exact .inl
  · rw [h1]
    constructor
    · rintro (h | h)
      · have : (0 : ℝ) ≤ x := by exact_mod_cast k1 h
        linarith
      · exact h
    · exact .inr

theorem recipInterval_spec {i : Ivl EReal} (hi : i.WF) {U : SSet EReal} (h : recipInterval i = .ok U) :
    GoodR U ∧ ∀ x : ℝ, (Val.num (x : EReal) ∈ U.den ↔ ∃ z, recipVal x = some z ∧ i.Mem (z : EReal)) := by
  obtain ⟨hi1, hi2, hi3⟩ := hi
  have hat : i.a ≠ ⊤ := fun h => by rw [h] at hi1; exact not_top_lt hi1
  have hbt : i.b ≠ ⊥ := fun h => by rw [h] at hi1; exact not_lt_bot hi1
  unfold recipInterval at h
  simp only [bind, Except.bind, transformInterval, if_true] at h
  split at h
  · rename_i h0
    split at h
    · rename_i h00
      split at h
      · cases h
      rename_i j hj
      cases h
      refine ⟨goodR_ivl (mkIvl_wf hj), fun x => ?_⟩
      simp only [SSet.den_pc, Piece.mem_den_ivl]
      rw [mkIvl_mem hj]
      -- the lower end point is a nonnegative real
      obtain ⟨a, ha⟩ : ∃ a : ℝ, i.a = a := by
        induction hia : i.a with
        | bot => rw [hia] at h0; simp at h0
        | top => exact absurd hia hat
        | coe a => exact ⟨a, rfl⟩
      have ha0 : 0 ≤ a := by have := h0.1; rw [ha] at this; exact_mod_cast this
      have hb : i.b = ⊤ ∨ ∃ b : ℝ, i.b = b ∧ a < b := by
        induction hib : i.b with
        | bot => exact absurd hib hbt
        | top => exact .inl rfl
        | coe b => exact .inr ⟨b, rfl, by rw [ha, hib] at hi1; exact_mod_cast hi1⟩
      rcases eq_or_ne x 0 with hx | hx
      · subst hx
        simp only [recipVal, if_true]
        refine iff_of_false ?_ (by simp)
        rintro ⟨g1, -⟩
        rcases hb with hb | ⟨b, hb, hab⟩
        · simp only [hb, if_true, hi3 hb] at g1
          exact lt_irrefl _ g1
        · have hbp : (0:ℝ) < b := lt_of_le_of_lt ha0 hab
          have g1' : ((if i.b = ⊤ then 0 else ((i.b.toReal⁻¹ : ℝ) : EReal)) : EReal) ≤ ((0:ℝ) : EReal) := by
            split at g1
            · exact g1.le
            · exact g1
          rw [hb] at g1'
          simp only [EReal.coe_ne_top, if_false, EReal.toReal_coe] at g1'
          have : b⁻¹ ≤ 0 := by exact_mod_cast g1'
          have := inv_pos.2 hbp
          linarith
      · simp only [recipVal, if_neg hx, Option.some.injEq, exists_eq_left']
        rcases lt_or_gt_of_ne hx with hneg | hposx
        · -- negative x : both sides false
          refine iff_of_false ?_ ?_
          · rintro ⟨g1, -⟩
            have g1' : ((if i.b = ⊤ then 0 else ((i.b.toReal⁻¹ : ℝ) : EReal)) : EReal) ≤ (x : EReal) := by
              split at g1
              · exact g1.le
              · exact g1
            rcases hb with hb | ⟨b, hb, hab⟩
            · simp only [hb, if_true] at g1'
              have : (0:ℝ) ≤ x := by exact_mod_cast g1'
              linarith
            · rw [hb] at g1'
              simp only [EReal.coe_ne_top, if_false, EReal.toReal_coe] at g1'
              have : b⁻¹ ≤ x := by exact_mod_cast g1'
              have := inv_pos.2 (lt_of_le_of_lt ha0 hab)
              linarith
          · intro hm
            have := hm.le.1
            rw [ha] at this
            have : a ≤ x⁻¹ := by exact_mod_cast this
            have := inv_lt_zero.2 hneg
            linarith
        · unfold Ivl.Mem
          have hxi : 0 < x⁻¹ := inv_pos.2 hposx
          -- left end
          have hL : (if i.lo = true then ((x : EReal) < (if 0 < i.a then ((i.a.toReal⁻¹ : ℝ) : EReal) else ⊤))
              else ((x : EReal) ≤ (if 0 < i.a then ((i.a.toReal⁻¹ : ℝ) : EReal) else ⊤))) ↔
              (if i.lo = true then i.a < ((x⁻¹ : ℝ) : EReal) else i.a ≤ ((x⁻¹ : ℝ) : EReal)) := by
            rcases ha0.eq_or_lt with h | h
            · subst h
              have hlo : i.lo = true := by
                rcases h00 with h | h
                · rw [ha] at h; simp at h
                · exact h
              rw [hlo, ha]; simp [hxi, EReal.coe_lt_top, hposx]
            · rw [ha]
              have : (0 : EReal) < a := by exact_mod_cast h
              simp only [this, if_true, EReal.toReal_coe, EReal.coe_lt_coe_iff, EReal.coe_le_coe_iff]
              rw [lt_inv_comm₀ hposx h, le_inv_comm₀ hposx h]
          have hR : (if i.ro = true then ((if i.b = ⊤ then 0 else ((i.b.toReal⁻¹ : ℝ) : EReal)) : EReal) < (x : EReal)
              else ((if i.b = ⊤ then 0 else ((i.b.toReal⁻¹ : ℝ) : EReal)) : EReal) ≤ (x : EReal)) ↔
              (if i.ro = true then ((x⁻¹ : ℝ) : EReal) < i.b else ((x⁻¹ : ℝ) : EReal) ≤ i.b) := by
            rcases hb with hb | ⟨b, hb, hab⟩
            · rw [hi3 hb, hb]
              simp only [if_true, EReal.coe_lt_top, iff_true]
              exact_mod_cast hposx
            · rw [hb]
              have hbp : 0 < b := lt_of_le_of_lt ha0 hab
              simp only [EReal.coe_ne_top, if_false, EReal.toReal_coe, EReal.coe_lt_coe_iff, EReal.coe_le_coe_iff]
              rw [inv_lt_comm₀ hbp hposx, inv_le_comm₀ hbp hposx]
          rw [and_comm, hL, hR]
    · cases h
  · split at h
    · rename_i hn0 h0
      split at h
      · rename_i h00
        split at h
        · cases h
        rename_i j hj
        cases h
        refine ⟨goodR_ivl (mkIvl_wf hj), fun x => ?_⟩
        simp only [SSet.den_pc, Piece.mem_den_ivl]
        rw [mkIvl_mem hj]
        obtain ⟨b, hb⟩ : ∃ b : ℝ, i.b = b := by
          induction hib : i.b with
          | bot => exact absurd hib hbt
          | top => rw [hib] at h0; simp at h0
          | coe b => exact ⟨b, rfl⟩
        have hb0 : b ≤ 0 := by have := h0.2; rw [hb] at this; exact_mod_cast this
        have ha : i.a = ⊥ ∨ ∃ a : ℝ, i.a = a ∧ a < b := by
          induction hia : i.a with
          | bot => exact .inl rfl
          | top => exact absurd hia hat
          | coe a => exact .inr ⟨a, rfl, by rw [hia, hb] at hi1; exact_mod_cast hi1⟩
        rcases eq_or_ne x 0 with hx | hx
        · subst hx
          simp only [recipVal, if_true]
          refine iff_of_false ?_ (by simp)
          rintro ⟨-, g1⟩
          rcases ha with ha | ⟨a, ha, hab⟩
          · simp only [ha, if_true, hi2 ha] at g1
            exact lt_irrefl _ g1
          · have hap : a < 0 := lt_of_lt_of_le hab hb0
            have g1' : ((0:ℝ) : EReal) ≤ ((if i.a = ⊥ then 0 else ((i.a.toReal⁻¹ : ℝ) : EReal)) : EReal) := by
              split at g1
              · exact g1.le
              · exact g1
            rw [ha] at g1'
            simp only [EReal.coe_ne_bot, if_false, EReal.toReal_coe] at g1'
            have : 0 ≤ a⁻¹ := by exact_mod_cast g1'
            have := inv_lt_zero.2 hap
            linarith
        · simp only [recipVal, if_neg hx, Option.some.injEq, exists_eq_left']
          rcases lt_or_gt_of_ne hx with hneg | hposx
          · unfold Ivl.Mem
            have hxi : x⁻¹ < 0 := inv_lt_zero.2 hneg
            have hR : (if i.ro = true then (((if i.b < 0 then ((i.b.toReal⁻¹ : ℝ) : EReal) else ⊥) : EReal) < (x : EReal))
                else (((if i.b < 0 then ((i.b.toReal⁻¹ : ℝ) : EReal) else ⊥) : EReal) ≤ (x : EReal))) ↔
                (if i.ro = true then ((x⁻¹ : ℝ) : EReal) < i.b else ((x⁻¹ : ℝ) : EReal) ≤ i.b) := by
              rcases hb0.eq_or_lt with h | h
              · subst h
                have hro : i.ro = true := by
                  rcases h00 with h | h
                  · rw [hb] at h; simp at h
                  · exact h
                rw [hro, hb]; simp [hxi, EReal.bot_lt_coe, hneg]
              · rw [hb]
                have : (b : EReal) < 0 := by exact_mod_cast h
                simp only [this, if_true, EReal.toReal_coe, EReal.coe_lt_coe_iff, EReal.coe_le_coe_iff]
                rw [inv_lt_of_neg h hneg, inv_le_of_neg h hneg]
            have hL : (if i.lo = true then (x : EReal) < ((if i.a = ⊥ then 0 else ((i.a.toReal⁻¹ : ℝ) : EReal)) : EReal)
                else (x : EReal) ≤ ((if i.a = ⊥ then 0 else ((i.a.toReal⁻¹ : ℝ) : EReal)) : EReal)) ↔
                (if i.lo = true then i.a < ((x⁻¹ : ℝ) : EReal) else i.a ≤ ((x⁻¹ : ℝ) : EReal)) := by
              rcases ha with ha | ⟨a, ha, hab⟩
              · rw [hi2 ha, ha]
                simp only [if_true, EReal.bot_lt_coe, iff_true]
                exact_mod_cast hneg
              · rw [ha]
                have hap : a < 0 := lt_of_lt_of_le hab hb0
                simp only [EReal.coe_ne_bot, if_false, EReal.toReal_coe, EReal.coe_lt_coe_iff, EReal.coe_le_coe_iff]
                rw [lt_inv_of_neg hneg hap, le_inv_of_neg hneg hap]
            rw [and_comm, hL, hR]
          · refine iff_of_false ?_ ?_
            · rintro ⟨-, g1⟩
              have g1' : (x : EReal) ≤ ((if i.a = ⊥ then 0 else ((i.a.toReal⁻¹ : ℝ) : EReal)) : EReal) := by
                split at g1
                · exact g1.le
                · exact g1
              rcases ha with ha | ⟨a, ha, hab⟩
              · simp only [ha, if_true] at g1'
                have : x ≤ (0:ℝ) := by exact_mod_cast g1'
                linarith
              · rw [ha] at g1'
                simp only [EReal.coe_ne_bot, if_false, EReal.toReal_coe] at g1'
                have : x ≤ a⁻¹ := by exact_mod_cast g1'
                have := inv_lt_zero.2 (lt_of_lt_of_le hab hb0)
                linarith
            · intro hm
              have := hm.le.2
              rw [hb] at this
              have : x⁻¹ ≤ b := by exact_mod_cast this
              have := inv_pos.2 hposx
              linarith
      · cases h
    · cases h

theorem solvePolyIneq_spec {c : Ctx} (hc : c.Correct) {cs : List ℝ} {b : EReal} {st : Bool} {r : SSet EReal}
    (h : solvePolyIneq c cs b st = .ok r) : GoodR r ∧ ∀ x : ℝ, (Val.num (x : EReal) ∈ r.den ↔
      if st = true then ((polyVal cs x : ℝ) : EReal) < b else ((polyVal cs x : ℝ) : EReal) ≤ b) := by
  unfold solvePolyIneq at h
  split at h
  · rename_i hb; subst hb; cases h
    refine ⟨goodR_empty, fun x => ?_⟩
    simp
  · split at h
    · rename_i hb; subst hb
      split at h
      · have ho := SSet.or_spec c.σ _ _ SSet.wf_reals trivial (show (SSet.empty : SSet EReal).WF from trivial) trivial h
        refine ⟨⟨ho.wf, ho.disj, fun s hs => by have := ho.sub _ hs; simp [SSet.reals] at this⟩, fun x => ?_⟩
        rename_i hst
        simp only [hst, if_true, EReal.coe_lt_top, iff_true]
        exact ho.sup _ ⟨EReal.coe_ne_bot _, EReal.coe_ne_top _⟩ (.inl (by simp))
      · cases h
        refine ⟨⟨SSet.wf_reals, trivial, fun s hs => by simp [SSet.reals] at hs⟩, fun x => ?_⟩
        rename_i hst
        simp [hst]
    · obtain ⟨h1, h2, h3, h4⟩ := hc.ineq _ _ _ _ h
      refine ⟨⟨h1, h2, h3⟩, fun x => ?_⟩
      rw [h4]
      induction b with
      | bot => contradiction
      | top => contradiction
      | coe b => simp

theorem polyInterval_spec {c : Ctx} (hc : c.Correct) {cs : List ℝ} {i : Ivl EReal} {U : SSet EReal}
    (h : polyInterval c cs i = .ok U) :
    GoodR U ∧ ∀ x : ℝ, (Val.num (x : EReal) ∈ U.den ↔ i.Mem ((polyVal cs x : ℝ) : EReal)) := by
  unfold polyInterval at h
  simp only [bind, Except.bind] at h
  cases ha : solvePolyIneq c cs i.a (!i.lo) with
  | error e => simp [ha] at h
  | ok a =>
  cases hb : solvePolyIneq c cs i.b i.ro with
  | error e => simp [ha, hb] at h
  | ok b =>
  cases hna : SSet.invert c.σ a with
  | error e => simp [ha, hb, hna] at h
  | ok na =>
  simp only [ha, hb, hna] at h
  obtain ⟨ga, ma⟩ := solvePolyIneq_spec hc ha
  obtain ⟨gb, mb⟩ := solvePolyIneq_spec hc hb
  have hinv := SSet.invert_real c.σ a ga.wf (SSet.pureReal_of_str ga.wf ga.str) hna
  have hand := SSet.and_spec c.σ b na gb.wf gb.disj hinv.wf hinv.disj h
  refine ⟨⟨hand.wf, hand.disj, fun s hs => gb.str s (hand.sub _ hs).1⟩, fun x => ?_⟩
  have hx : Val.num (x : EReal) ∈ U.den ↔ Val.num (x : EReal) ∈ b.den ∧ Val.num (x : EReal) ∉ a.den := by
    constructor
    · intro hx
      have := hand.sub _ hx
      exact ⟨this.1, ((hinv.num _).1 this.2).2⟩
    · intro hx
      exact hand.sup _ ⟨EReal.coe_ne_bot _, EReal.coe_ne_top _⟩
        ⟨hx.1, (hinv.num _).2 ⟨⟨EReal.coe_ne_bot _, EReal.coe_ne_top _⟩, hx.2⟩⟩
  rw [hx, ma, mb, and_comm]
  unfold Ivl.Mem
  cases i.lo <;> cases i.ro <;> simp

/-- The preimage of an interval inside the range, under a unary transform. -/
theorem Tr.intervalPre_spec {c : Ctx} (hc : c.Correct) {t : Tr} (h : t.Unary) (hm : t.MadeG r0 c) {i : Ivl EReal}
    (hi : i.WF) {r : SSet EReal} (hr : t.range c = .ok r) (hsub : ∀ x, i.Mem x → Val.num x ∈ r.den)
    {U : SSet EReal} (hU : t.intervalPre c i = .ok U) :
    GoodR U ∧ ∀ x : ℝ, ¬ t.Sing x → (Val.num (x : EReal) ∈ U.den ↔ ∃ z : ℝ, t.fn x = some z ∧ i.Mem (z : EReal)) := by
  cases t with
  | id => exact False.elim h
  | pw => exact False.elim h
  | radical s n => exact injInterval_spec hc hm hi hU (.inl ⟨_, _, rfl⟩)
  | exp s n => exact injInterval_spec hc hm hi hU (.inr (.inl ⟨_, _, rfl⟩))
  | log s n => exact injInterval_spec hc hm hi hU (.inr (.inr ⟨_, _, rfl⟩))
  | abs s =>
    have hr' := extRealsPos_spec (show extRealsPos c = .ok r by simpa [Tr.range] using hr)
    obtain ⟨h1, h2⟩ := absInterval_spec hi (fun x hx => (hr'.2 x).1 (hsub x hx)) hU
    exact ⟨h1, fun x _ => by rw [h2]; simp [Tr.fn]⟩
  | recip s =>
    obtain ⟨h1, h2⟩ := recipInterval_spec hi hU
    exact ⟨h1, fun x _ => h2 x⟩
  | poly s cs =>
    obtain ⟨h1, h2⟩ := polyInterval_spec hc hU
    exact ⟨h1, fun x _ => by rw [h2]; simp [Tr.fn]⟩

end Sppl
