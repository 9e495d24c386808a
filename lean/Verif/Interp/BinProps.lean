import Verif.Spe.TotKey
import Verif.Interp.BinLemmas
import Verif.Interp.Props
import Verif.Interp.RunLemmas
import Verif.Interp.Example
import Mathlib.Algebra.Order.Floor.Semiring

set_option linter.all false

/-!
# C50: `binspace` divides an interval, and a `Switch` on its bins has exactly one case for each value
-/

namespace Sppl
open Classical MeasureTheory
open scoped ENNReal ProbabilityTheory

/-- The `i`-th of the points that divide `[a, b]` into `n` equal parts. -/
noncomputable def cutPoint (a b : ℝ) (n i : ℕ) : ℝ := a + i * ((b - a) / n)

theorem cut_zero (a b : ℝ) (n : ℕ) : cutPoint a b n 0 = a := by simp [cutPoint]

theorem cut_last {a b : ℝ} {n : ℕ} (hn : 1 ≤ n) : cutPoint a b n n = b := by
  have : (n : ℝ) ≠ 0 := by exact_mod_cast (by omega : n ≠ 0)
  simp [cutPoint]; field_simp; ring

theorem cut_mono {a b : ℝ} (h : a < b) {n : ℕ} (hn : 1 ≤ n) : StrictMono (cutPoint a b n) := grid_strictMono h hn

theorem mem_closedBin {a b x : ℝ} : Val.num (x : EReal) ∈ (SSet.pc (Piece.ivl (closedBin a b))).den ↔ a ≤ x ∧ x ≤ b := by
  simp [SSet.den, Piece.den, Ivl.Mem, closedBin]

/-- Every point of `[v 0, v n]` is in a bin whose left end (except for the first bin) is left out. -/
theorem exists_bin {v : ℕ → ℝ} (n : ℕ) {x : ℝ} (h0 : v 0 ≤ x) (h1 : x ≤ v n) (hn : 1 ≤ n) : ∃ i < n, x ≤ v (i + 1) ∧ (v i < x ∨ i = 0) := by
  induction n with
  | zero => omega
  | succ n ih =>
    by_cases h : v n < x
    · exact ⟨n, by omega, h1, .inl h⟩
    · push Not at h
      rcases Nat.eq_zero_or_pos n with rfl | hp
      · exact ⟨0, by omega, h1, .inr rfl⟩
      · obtain ⟨i, hi, h2, h3⟩ := ih h hp
        exact ⟨i, by omega, h2, h3⟩

section
variable {a b : ℝ} (h : a < b) {n : ℕ} (hn : 1 ≤ n)
include h hn

/-- **C50 (bins).** `binspace(a, b, n + 1)` returns `n` sets of numbers, the closed intervals between consecutive points of the division of `[a, b]` into `n`
equal parts; together they are `[a, b]`. -/
theorem C50_bins : ∃ l, binspace a b ((n : ℤ) + 1) = .ok l ∧ l.length = n ∧
    (∀ i (hi : i < l.length), ∀ w : Val EReal, w.Proper → (w ∈ l[i].den ↔ ∃ x : ℝ, w = .num (x : EReal) ∧ cutPoint a b n i ≤ x ∧ x ≤ cutPoint a b n (i + 1))) ∧
    ∀ x : ℝ, (∃ s ∈ l, Val.num (x : EReal) ∈ s.den) ↔ a ≤ x ∧ x ≤ b := by
  have key : ∀ i (hi : i < (gridBins (cutPoint a b n) 0 n).length), (gridBins (cutPoint a b n) 0 n)[i] = .pc (.ivl (closedBin (cutPoint a b n i) (cutPoint a b n (i + 1)))) := by
    intro i hi; simp [gridBins]
  refine ⟨_, binspace_ok h hn, by simp [gridBins], ?_, fun x => ⟨?_, ?_⟩⟩
  · intro i hi w hw
    rw [show (gridBins (fun i : ℕ => a + i * ((b - a) / n)) 0 n)[i] = _ from key i hi]
    constructor
    · rintro ⟨x, rfl, hx⟩
      have hp : Fin' x := hw
      obtain ⟨y, rfl⟩ : ∃ y : ℝ, x = (y : EReal) := ⟨x.toReal, (EReal.coe_toReal hp.2 hp.1).symm⟩
      exact ⟨y, rfl, mem_closedBin.1 ⟨_, rfl, hx⟩⟩
    · rintro ⟨x, rfl, hx⟩
      exact mem_closedBin.2 hx
  · rintro ⟨s, hs, hx⟩
    obtain ⟨i, hi, rfl⟩ := List.getElem_of_mem hs
    rw [show (gridBins (fun i : ℕ => a + i * ((b - a) / n)) 0 n)[i] = _ from key i hi, mem_closedBin] at hx
    have hi' : i < n := by simpa [gridBins] using hi
    have h1 := (cut_mono h hn).monotone (Nat.zero_le i)
    have h2 := (cut_mono h hn).monotone (show i + 1 ≤ n by omega)
    rw [cut_zero] at h1
    rw [cut_last hn] at h2
    exact ⟨h1.trans hx.1, hx.2.trans h2⟩
  · rintro ⟨h1, h2⟩
    obtain ⟨i, hi, h3, h4⟩ := exists_bin (v := cutPoint a b n) (x := x) n (by rwa [cut_zero]) (by rwa [cut_last hn]) hn
    have hi' : i < (gridBins (cutPoint a b n) 0 n).length := by simpa [gridBins] using hi
    refine ⟨_, List.getElem_mem hi', ?_⟩
    rw [key i hi', mem_closedBin]
    refine ⟨?_, h3⟩
    rcases h4 with h4 | rfl
    · exact h4.le
    · rwa [cut_zero]

/-- The assignments in the `i`-th case: `t` is between two consecutive points, the first of them left out in all cases but the first. -/
def binCase (a b : ℝ) (n : ℕ) (t : Tr) (i : ℕ) : Set Asg :=
  {ω | ∃ x : ℝ, t.eval ω = some (.num x) ∧ (if i = 0 then a ≤ x else cutPoint a b n i < x) ∧ x ≤ cutPoint a b n (i + 1)}

/-- **C50 (cases).** The cases that `Switch` makes of these bins, on any transform `t`, are computed without an error (the bins overlap in end points, which
`sets[i] & ~sets[0] & ...` removes), and are: `t` between two consecutive points, the first of them left out in all cases but the first. -/
theorem C50_cases (c : Ctx) (t : Tr) : ∃ l es, binspace a b ((n : ℤ) + 1) = .ok l ∧ caseEvents c t [] l = .ok es ∧ es.length = n ∧
    ∀ i (hi : i < es.length) ω, es[i].holds ω ↔ ω ∈ binCase a b n t i := by
  refine ⟨_, _, binspace_ok h hn, caseEvents_grid (cut_mono h hn) c t n, by simp, ?_⟩
  intro i hi ω
  simp only [List.getElem_map, List.getElem_range, binCase, Set.mem_setOf_eq]
  rw [Ev.holds_basic (t := t) rfl]
  constructor
  · rintro ⟨w, h1, x, h2, h3⟩
    cases w with
    | str w => simp [Val.lift] at h2
    | num w =>
      simp only [Val.lift, Val.num.injEq] at h2
      subst h2
      refine ⟨w, h1, ?_⟩
      by_cases h0 : i = 0
      · subst h0; simpa [Ivl.Mem, cut_zero] using h3
      · simpa [Ivl.Mem, h0, Nat.pos_of_ne_zero h0] using h3
  · rintro ⟨x, h1, h2⟩
    refine ⟨.num x, h1, _, rfl, ?_⟩
    by_cases h0 : i = 0
    · subst h0; simpa [Ivl.Mem, cut_zero] using h2
    · simpa [Ivl.Mem, h0, Nat.pos_of_ne_zero h0] using h2

/-- **C50 (exactly one case).** A value between `a` and `b` is in exactly one case; other values are in none. -/
theorem C50_one_case (t : Tr) {ω : Asg} {x : ℝ} (hx : t.eval ω = some (.num x)) :
    (a ≤ x ∧ x ≤ b → ∃ i < n, ω ∈ binCase a b n t i ∧ ∀ j < n, ω ∈ binCase a b n t j → j = i) ∧ ((∃ i < n, ω ∈ binCase a b n t i) → a ≤ x ∧ x ≤ b) := by
  have e (i) : ω ∈ binCase a b n t i ↔ (if i = 0 then a ≤ x else cutPoint a b n i < x) ∧ x ≤ cutPoint a b n (i + 1) := by
    simp only [binCase, Set.mem_setOf_eq, hx, Option.some.injEq, Val.num.injEq]
    exact ⟨fun ⟨y, h1, h2⟩ => h1 ▸ h2, fun h => ⟨x, rfl, h⟩⟩
  have hm := cut_mono h hn
  constructor
  · rintro ⟨h1, h2⟩
    obtain ⟨i, hi, h3, h4⟩ := exists_bin (v := cutPoint a b n) (x := x) n (by rwa [cut_zero]) (by rwa [cut_last hn]) hn
    refine ⟨i, hi, ?_, ?_⟩
    · rw [e]
      refine ⟨?_, h3⟩
      split
      · exact h1
      · rcases h4 with h4 | h4
        · exact h4
        · contradiction
    · intro j hj hjx
      rw [e] at hjx
      by_contra hne
      rcases Nat.lt_or_gt_of_ne hne with hl | hl
      · have h5 := hm.monotone (show j + 1 ≤ i by omega)
        have : cutPoint a b n i < x := h4.resolve_right (by omega)
        linarith [hjx.2]
      · have h5 := hm.monotone (show i + 1 ≤ j by omega)
        have h6 := hjx.1
        rw [if_neg (by omega)] at h6
        linarith
  · rintro ⟨i, hi, h1⟩
    rw [e] at h1
    have h2 := hm.monotone (show i + 1 ≤ n by omega)
    have h3 := hm.monotone (Nat.zero_le i)
    rw [cut_last hn] at h2
    rw [cut_zero] at h3
    refine ⟨?_, h1.2.trans h2⟩
    have h4 := h1.1
    split at h4
    · exact h4
    · linarith
end

/-- **C50 (errors).** A negative number of points gives `ValueError`; none or one gives no bin; and at least two points an `AssertionError` if `b <= a`. -/
theorem C50_errors (a b : ℝ) (num : ℤ) : (num < 0 → binspace a b num = .error .value) ∧ (0 ≤ num → num < 2 → binspace a b num = .ok []) ∧
    (2 ≤ num → b ≤ a → binspace a b num = .error .assertion) := by
  refine ⟨fun h => by simp [binspace, linspace, h, bind, Except.bind], fun h1 h2 => ?_, fun h1 h2 => ?_⟩
  · obtain rfl | rfl : num = 0 ∨ num = 1 := by omega
    · simp [binspace, linspace, bind, Except.bind, pure, Except.pure]
    · simp [binspace, linspace, bind, Except.bind, pure, Except.pure, List.range_succ]
  · obtain ⟨n, rfl⟩ : ∃ n : ℕ, num = (n : ℤ) + 2 := ⟨(num - 2).toNat, by omega⟩
    have h3 : linspace a b ((n : ℤ) + 2) = .ok ((List.range (n + 1 + 1)).map (fun i : ℕ => a + i * ((b - a) / ((n : ℝ) + 1)))) := by
      unfold linspace
      rw [if_neg (by omega), show ((n : ℤ) + 2).toNat = n + 1 + 1 by omega]
      push_cast
      rw [show (n : ℝ) + 2 - 1 = n + 1 by ring]
    have h4 : mkIvl (((a + (0 : ℕ) * ((b - a) / ((n : ℝ) + 1)) : ℝ)) : EReal) ((a + (0 + 1 : ℕ) * ((b - a) / ((n : ℝ) + 1)) : ℝ) : EReal) false false = .error .assertion := by
      unfold mkIvl
      rw [if_neg]
      rw [EReal.coe_lt_coe_iff, not_lt]
      have : (b - a) / ((n : ℝ) + 1) ≤ 0 := div_nonpos_of_nonpos_of_nonneg (by linarith) (by positivity)
      push_cast
      linarith
    unfold binspace
    rw [h3]
    simp only [bind, Except.bind, zip_range]
    simp only [List.range_succ_eq_map, List.map_cons, List.mapM_cons, h4, bind, Except.bind]

theorem firsts_bins {a b : ℝ} (h : a < b) {n : ℕ} (hn : 1 ≤ n) (t : Tr) :
    firsts ∅ (caseSets t ((gridBins (cutPoint a b n) 0 n).map .set)) = (List.range n).map (binCase a b n t) := by
  have hm := cut_mono h hn
  have mem : ∀ (x : Val ℝ) u v, x.lift ∈ (SSet.pc (Piece.ivl (closedBin u v))).den ↔ ∃ y, x = .num y ∧ u ≤ y ∧ y ≤ v := by
    intro x u v
    cases x with
    | str x => simp [Val.lift, SSet.den, Piece.den]
    | num x => simp only [Val.lift]; rw [mem_closedBin]; simp
  have key : ∀ j k, firsts {ω | ∃ x : ℝ, t.eval ω = some (.num x) ∧ a ≤ x ∧ x ≤ cutPoint a b n k ∧ 0 < k} (caseSets t ((gridBins (cutPoint a b n) k j).map .set)) =
      (List.range' k j).map (binCase a b n t) := by
    intro j
    induction j with
    | zero => intro k; simp [gridBins, caseSets, firsts]
    | succ j ih =>
      intro k
      have e : gridBins (cutPoint a b n) k (j + 1) = .pc (.ivl (closedBin (cutPoint a b n k) (cutPoint a b n (k + 1)))) :: gridBins (cutPoint a b n) (k + 1) j := by
        simp [gridBins, List.range'_succ]
      have hk : a ≤ cutPoint a b n k := by
        have := hm.monotone (Nat.zero_le k); rwa [cut_zero] at this
      have hk' := hm (Nat.lt_succ_self k)
      rw [e, List.range'_succ, List.map_cons, List.map_cons, caseSets, List.map_cons, firsts, ← ih (k + 1), caseSets]
      congr 1
      · ext ω
        simp only [SwVal.Holds, mem, binCase, Set.mem_diff, Set.mem_setOf_eq]
        constructor
        · rintro ⟨⟨w, h1, x, rfl, h2, h3⟩, h4⟩
          refine ⟨x, h1, ?_, h3⟩
          split
          · exact hk.trans h2
          · rename_i h0
            by_contra h5
            exact h4 ⟨x, h1, hk.trans h2, not_lt.1 h5, Nat.pos_of_ne_zero h0⟩
        · rintro ⟨x, h1, h2, h3⟩
          split at h2
          · rename_i h0
            subst h0
            refine ⟨⟨_, h1, x, rfl, by rwa [cut_zero], h3⟩, ?_⟩
            rintro ⟨y, -, -, -, h4⟩; omega
          · refine ⟨⟨_, h1, x, rfl, h2.le, h3⟩, ?_⟩
            rintro ⟨y, h4, -, h5, -⟩
            rw [h1] at h4
            simp only [Option.some.injEq, Val.num.injEq] at h4
            subst h4
            linarith
      · congr 1
        ext ω
        simp only [SwVal.Holds, mem, Set.mem_union, Set.mem_setOf_eq]
        constructor
        · rintro (⟨x, h1, h2, h3, h4⟩ | ⟨w, h1, x, rfl, h2, h3⟩)
          · exact ⟨x, h1, h2, h3.trans hk'.le, by omega⟩
          · exact ⟨x, h1, hk.trans h2, h3, by omega⟩
        · rintro ⟨x, h1, h2, h3, -⟩
          by_cases h4 : cutPoint a b n k ≤ x
          · exact .inr ⟨_, h1, x, rfl, h4, h3⟩
          · push Not at h4
            refine .inl ⟨x, h1, h2, h4.le, ?_⟩
            by_contra h0
            obtain rfl : k = 0 := by omega
            rw [cut_zero] at h4
            linarith
  have := key n 0
  simpa [List.range_eq_range'] using this

theorem bins_sum {a b : ℝ} (h : a < b) {n : ℕ} (hn : 1 ≤ n) (t : Tr) (m : Measure Asg) [IsProbabilityMeasure m] :
    (∀ i < n, MeasurableSet (binCase a b n t i)) ∧ ((List.range n).map (fun i => m.real (binCase a b n t i))).sum = m.real (⋃ i ∈ Finset.range n, binCase a b n t i) := by
  have hmeas : ∀ i < n, MeasurableSet (binCase a b n t i) := by
    intro i hi'
    obtain ⟨l, es, -, -, e1, e2⟩ := C50_cases h hn ctx0 t
    have : binCase a b n t i = {ω | (es[i]'(by omega)).holds ω} := by ext ω; exact (e2 i (by omega) ω).symm
    rw [this]
    exact Ev.measurable_set _
  refine ⟨hmeas, ?_⟩
  rw [measureReal_biUnion_finset]
  · rw [Finset.sum_eq_multiset_sum, Finset.range_val, ← Multiset.coe_range, Multiset.map_coe, Multiset.sum_coe]
  · intro i hi j hj hij
    rw [Function.onFun, Set.disjoint_left]
    intro ω h1 h2
    obtain ⟨x, hx, h4⟩ := h1
    obtain ⟨k, -, -, h5⟩ := (C50_one_case h hn t hx).1 ((C50_one_case h hn t hx).2 ⟨i, by simpa using hi, x, hx, h4⟩)
    exact hij ((h5 i (by simpa using hi) ⟨x, hx, h4⟩).trans (h5 j (by simpa using hj) h2).symm)
  · intro i hi
    exact hmeas i (by simpa using hi)

section
variable {o : Opts} (hc : o.c.Correct) {μ : Dist → Measure ℝ} {a b : ℝ} (h : a < b) {n : ℕ} (hn : 1 ≤ n)
include hc h hn

/-- **C50 (`Switch`).** A `Switch` on the bins gives the mixture, over the bins, of what the command for a bin makes of the distribution conditioned on `t` being in
the bin; and it only returns if `t` is almost surely between `a` and `b`. -/
theorem C50_switch (hsimp : SimpOK o.c o.L μ o.simp) {t : Tr} {f : ℕ → Cmd} {l : List (SSet EReal)} {s : Spe} {s' : Option Spe} (hs : Rep o.c o.L μ (s.den μ) s)
    (ht : t.Made o.c) (hr : ∀ᵐ ω ∂(s.den μ), t.Regular ω) (hk : ∀ᵐ ω ∂(s.den μ), ∃ x, t.eval ω = some (.num x))
    (hf : ∀ i < n, s.den μ (binCase a b n t i) ≠ 0 → (f i).Safe o.c o.L μ ((s.den μ)[|binCase a b n t i]))
    (hl : binspace a b ((n : ℤ) + 1) = .ok l) (hi : (Cmd.switch t (l.map .set) ((List.range n).map f)).interp o (some s) = .ok s') :
    ∃ r, s' = some r ∧ (∀ A, r.den μ A = ((List.range n).map (fun i => s.den μ (binCase a b n t i) * (f i).sem μ ((s.den μ)[|binCase a b n t i]) A)).sum) ∧
      ∀ᵐ ω ∂(s.den μ), ∃ x : ℝ, t.eval ω = some (.num x) ∧ a ≤ x ∧ x ≤ b := by
  have hpr := hs.wf.prob
  rw [show binspace a b ((n : ℤ) + 1) = .ok (gridBins (cutPoint a b n) 0 n) from binspace_ok h hn] at hl
  cases hl
  have hsafe : (Cmd.switch t ((gridBins (cutPoint a b n) 0 n).map .set) ((List.range n).map f)).Safe o.c o.L μ (s.den μ) := by
    simp only [Cmd.Safe]
    refine ⟨.real ht ?_ hr hk, ?_⟩
    · intro v hv
      simp only [gridBins, List.map_map, List.mem_map, Function.comp] at hv
      obtain ⟨i, -, rfl⟩ := hv
      have hlt := cut_mono h hn (Nat.lt_succ_self i)
      exact ⟨.ivl (mkIvl_closed hlt), by simp [SwVal.toSet, SSet.den, Piece.den]⟩
    · rw [firsts_bins h hn]
      have : ∀ l : List ℕ, (∀ i ∈ l, i < n) → Cmd.SafeB o.c o.L μ (l.map f) (l.map (binCase a b n t)) (s.den μ) := by
        intro l hl
        induction l with
        | nil => simp [Cmd.SafeB]
        | cons i l ih =>
          simp only [List.map_cons, Cmd.SafeB]
          exact ⟨hf i (hl i (by simp)), ih (fun j hj => hl j (by simp [hj]))⟩
      exact this _ (fun i hi => List.mem_range.1 hi)
  obtain ⟨r, h1, h2, -, h3, -⟩ := C30_switch_partial hc hsimp hs hsafe hi
  rw [firsts_bins h hn] at h2 h3
  refine ⟨r, h1, fun A => ?_, ?_⟩
  · rw [h2]
    have : ∀ l : List ℕ, branches (s.den μ) (l.map (binCase a b n t)) (Cmd.semL μ (l.map f)) A =
        (l.map (fun i => s.den μ (binCase a b n t i) * (f i).sem μ ((s.den μ)[|binCase a b n t i]) A)).sum := by
      intro l
      induction l with
      | nil => simp [branches]
      | cons i l ih =>
        simp only [branches] at ih
        simp only [branches, List.map_cons, Cmd.semL, List.zipWith_cons_cons, List.sum_cons, Measure.add_apply, Measure.smul_apply, smul_eq_mul, ih]
    exact this _
  · obtain ⟨hmeas, hU⟩ := bins_sum h hn t (s.den μ)
    rw [List.map_map] at h3
    replace hU := hU.symm.trans h3
    have hms : MeasurableSet (⋃ i ∈ Finset.range n, binCase a b n t i) := Finset.measurableSet_biUnion _ (fun i hi => hmeas i (by simpa using hi))
    have h0 : s.den μ (⋃ i ∈ Finset.range n, binCase a b n t i) = 1 := by
      rw [measureReal_def] at hU
      exact (ENNReal.toReal_eq_one_iff _).1 hU
    have hae : ∀ᵐ ω ∂(s.den μ), ω ∈ ⋃ i ∈ Finset.range n, binCase a b n t i := (prob_compl_eq_zero_iff hms).2 h0
    filter_upwards [hae] with ω hω
    simp only [Set.mem_iUnion, Finset.mem_range] at hω
    obtain ⟨i, hi', hω⟩ := hω
    obtain ⟨x, hx, h4⟩ := hω
    exact ⟨x, hx, (C50_one_case h hn t hx).2 ⟨i, hi', x, hx, h4⟩⟩

/-- See `C50_switch_total`. -/
theorem switch_bins_total (hok : SimpOK o.c o.L μ o.simp)
    (hsimp : ∀ ts ws t, (∀ t ∈ ts, t.WF o.c o.L μ ∧ (∀ E, t.Ready E) ∧ ∃ ds, t = .prod ds) → (∀ w ∈ ws, 0 < w) → mkSum ts ws = .ok t → ∃ t', o.simp t = .ok t' ∧ t'.symbols = t.symbols) (hdepth : 0 < o.n) {X Y : String} {d : ℕ → Source} {l : List (SSet EReal)} {s : Spe} (hs : Rep o.c o.L μ (s.den μ) s)
    (hX : X ∈ s.symbols) (hb : s.BaseOn {X}) (hX' : s.NotDisc X) (hk : ∀ᵐ ω ∂(s.den μ), ∃ x : ℝ, ω X = some (.num x) ∧ a ≤ x ∧ x ≤ b) (hY : Y ∉ s.symbols)
    (hd : ∀ i < n, (d i).WF o.L μ ∧ ∃ leaf, (d i).call o.L Y = .ok leaf) (hl : binspace a b ((n : ℤ) + 1) = .ok l) :
    ∃ r, (Cmd.switch (.id X) (l.map .set) ((List.range n).map (fun i => .sample Y (d i)))).interp o (some s) = .ok (some r) ∧ r.symbols = insert Y s.symbols ∧
      ∀ A, r.den μ A = ((List.range n).map (fun i => s.den μ (binCase a b n (.id X) i) * withIndep Y ((d i).law μ Y) ((s.den μ)[|binCase a b n (.id X) i]) A)).sum := by
  have hpr := hs.wf.prob
  have hl' := hl
  rw [show binspace a b ((n : ℤ) + 1) = .ok (gridBins (cutPoint a b n) 0 n) from binspace_ok h hn] at hl
  cases hl
  have hm := cut_mono h hn
  obtain ⟨l', es, e1, e2, e3, e4⟩ := C50_cases h hn o.c (.id X)
  rw [hl'] at e1
  cases e1
  have hes := e2
  rw [caseEvents_grid hm] at hes
  replace hes := (Except.ok.inj hes).symm
  have hk' : ∀ᵐ ω ∂(s.den μ), ∃ x : ℝ, (Tr.id X).eval ω = some (.num x) := by
    filter_upwards [hk] with ω hω
    obtain ⟨x, h1, -⟩ := hω
    exact ⟨x, h1⟩
  obtain ⟨k, hk0⟩ : ∃ k, o.n = k + 1 := ⟨o.n - 1, by omega⟩
  -- the events of the cases
  have hev : ∀ i (hi : i < es.length), Usable o.c (s.den μ) es[i] ∧ es[i].Simple s.Whole ∧ es[i].basic? = some (.id X) ∧ es[i].symbols = {X} ∧ ∀ A : Finset String, es[i].NomFree A := by
    intro i hi
    subst hes
    simp only [List.getElem_map, List.getElem_range]
    have hi' := hm (Nat.lt_succ_self i)
    have hw : (⟨(cutPoint a b n i : EReal), (cutPoint a b n (i + 1) : EReal), decide (0 < i), false⟩ : Ivl EReal).WF := ⟨EReal.coe_lt_coe_iff.2 hi', by simp, by simp⟩
    refine ⟨⟨.ivl (.id _) hw, ?_, Filter.Eventually.of_forall (fun ω => trivial), ?_⟩, .ivl hw ⟨fun _ => .inl hX', fun _ => .inl hX'⟩, rfl, by simp [Ev.symbols, Tr.symbols], by intro A; simp [Ev.NomFree]⟩
    · exact .lit rfl trivial
    · filter_upwards [hk'] with ω hω
      simpa [Ev.Suits, Tr.symbols, Tr.eval] using hω
  have hset : ∀ i (hi : i < es.length), {ω | es[i].holds ω} = binCase a b n (.id X) i := fun i hi => by ext ω; exact e4 i hi ω
  have hprob : ∀ i (hi : i < es.length), optProb o s (some es[i]) = .ok ((s.den μ).real (binCase a b n (.id X) i)) := by
    intro i hi
    obtain ⟨u1, u2, u3, u4, u5⟩ := hev i hi
    have := C18_total_basic hc hs.wf u3 u2 (by rw [u4]; exact hb) (by rw [u4]; simpa using hX) (u5 _) (u1.asks hs).can o.n
    rw [hset i hi] at this
    exact ((keyed_base hs.wf u2 (by rw [u4]; exact hb) o.n).1).trans this
  have hone : ((List.range n).map (fun i => (s.den μ).real (binCase a b n (.id X) i))).sum = 1 := by
    rw [(bins_sum h hn (.id X) (s.den μ)).2]
    have : ∀ᵐ ω ∂(s.den μ), ω ∈ ⋃ i ∈ Finset.range n, binCase a b n (.id X) i := by
      filter_upwards [hk] with ω hω
      obtain ⟨x, h1, h2⟩ := hω
      obtain ⟨i, h3, h4, -⟩ := (C50_one_case h hn (.id X) (ω := ω) h1).1 h2
      simp only [Set.mem_iUnion, Finset.mem_range]
      exact ⟨i, h3, h4⟩
    have hms : MeasurableSet (⋃ i ∈ Finset.range n, binCase a b n (.id X) i) :=
      Finset.measurableSet_biUnion _ (fun i hi => (bins_sum h hn (.id X) (s.den μ)).1 i (by simpa using hi))
    rw [measureReal_def, (prob_compl_eq_zero_iff hms).1 this]
    rfl
  have hlen : (Cmd.interpL o ((List.range n).map (fun i => Cmd.sample Y (d i)))) = (List.range n).map (fun i => (Cmd.sample Y (d i)).interp o) := by
    rw [interpL_eq, List.map_map]; rfl
  have hcond : ∀ i (hi : i < n), (s.den μ).real (binCase a b n (.id X) i) ≠ 0 → ∃ s' t, optCond o s (some (es[i]'(by omega))) = .ok s' ∧
      (Cmd.sample Y (d i)).interp o (some s') = .ok (some t) ∧ t.WF o.c o.L μ ∧ t.symbols = insert Y s.symbols ∧ (∀ E, t.Ready E) ∧ ∃ ds, t = .prod ds := by
    intro i hi h0
    have hi' : i < es.length := by omega
    obtain ⟨u1, u2, u3, u4, u5⟩ := hev i hi'
    have hpos : 0 < s.den μ {ω | es[i].holds ω} := by
      rw [hset i hi', pos_iff_ne_zero]
      intro h1
      rw [measureReal_def, h1] at h0
      simp at h0
    obtain ⟨s', hs'⟩ := C22_total_basic (hash := o.hash) hc hs.wf (hs.ready (fun _ => [])) u3 u2 (by rw [u4]; exact hb) (by rw [u4]; simpa using hX) (u5 _) hpos k
    rw [← hk0] at hs'
    have hask := u1.asks hs
    have kk := C24_condition_partial hc (⟨hs.wf, hs.ready (fun _ => []), hask, .inr u1.suits⟩ : CanCond o.c o.L μ (fun _ => []) s es[i]) hs'
    have kr := (u1.condition hc hs hs').1.ready
    obtain ⟨hd1, leaf, hd2⟩ := hd i hi
    obtain ⟨t, t1, t2, t3, t4⟩ := sample_total (o := o) hd1 hd2 kk.1 kr (by rw [kk.2.1]; exact hY)
    exact ⟨s', t, ((keyed_base hs.wf u2 (by rw [u4]; exact hb) o.n).2 o.hash).trans hs', t1, t2, by rw [t3, kk.2.1], t4⟩
  obtain ⟨r, hr, hrs⟩ := ifBlock_total (P := fun t => (∀ E, t.Ready E) ∧ ∃ ds, t = .prod ds) (Q := fun t => t.symbols = insert Y s.symbols) (c := o.c) (L := o.L) (μ := μ) (o := o) (s := s) (S := insert Y s.symbols) (events := es.map some)
    (rs := (List.range n).map (fun i => (Cmd.sample Y (d i)).interp o)) (ps := (List.range n).map (fun i => (s.den μ).real (binCase a b n (.id X) i)))
    (by simp [e3])
    (by
      rw [List.forall₂_iff_get]
      refine ⟨by simp [e3], ?_⟩
      intro i h1 h2
      simp only [List.get_eq_getElem, List.getElem_map, List.getElem_range]
      exact hprob i (by simpa using h1))
    hone
    (by
      intro i h1 h2 h3 h0
      simp only [List.getElem_map, List.getElem_range] at h0
      obtain ⟨s', t, t1, t2, t3, t4⟩ := hcond i (by simpa using h3) h0
      refine ⟨s', t, by simpa using t1, ?_, t3, t4⟩
      simpa using t2)
    (by
      intro ts ws t h1 h2 h3
      have h4 : ∀ w ∈ ws, 0 < w := by
        intro w hw
        obtain ⟨h5, h6⟩ := h2 w hw
        obtain ⟨i, -, rfl⟩ := List.mem_map.1 h6
        exact lt_of_le_of_ne measureReal_nonneg (Ne.symm h5)
      obtain ⟨-, m2, -, -, -, m3, -⟩ := mkSum_ok (fun t ht => (h1 t ht).1) (fun w hw => (h4 w hw).le) h3
      obtain ⟨u, hu⟩ := List.exists_mem_of_ne_nil _ m3
      obtain ⟨t', ht', h7⟩ := hsimp ts ws t (fun t ht => ⟨(h1 t ht).1, (h1 t ht).2.2⟩) h4 h3
      exact ⟨t', ht', by rw [h7, ← m2 u hu, (h1 u hu).2.1]⟩)
    (fun t _ h1 _ => h1)
  have hrun : (Cmd.switch (.id X) ((gridBins (cutPoint a b n) 0 n).map .set) ((List.range n).map (fun i => .sample Y (d i)))).interp o (some s) = .ok (some r) := by
    have e5 : ((gridBins (cutPoint a b n) 0 n).map SwVal.set).map SwVal.toSet = gridBins (cutPoint a b n) 0 n := by simp [Function.comp_def, SwVal.toSet]
    rw [Cmd.interp]
    simp only [e5, e2, bind, Except.bind]
    rw [hlen, hr]
  obtain ⟨r', g1, g2, -⟩ := C50_switch hc h hn (μ := μ) (f := fun i => .sample Y (d i)) hok hs (.id X) (Filter.Eventually.of_forall (fun ω => trivial)) hk'
    (fun i hi _ => by simpa [Cmd.Safe] using (hd i hi).1) hl' hrun
  cases g1
  exact ⟨r, hrun, hrs, fun A => by simpa [Cmd.sem] using g2 A⟩

/-- **C50 (`Switch` returns).** On a continuous variable `X` that is almost surely between `a` and `b`, a `Switch` on the bins that samples a new variable `Y` in
every bin returns, with or without `SPPL_NO_SIMPLIFY`, and what it returns is the mixture. -/
theorem C50_switch_total (hsimp : o.simp = .ok ∨ o.simp = simplifySum o.hash) (hdepth : 0 < o.n) {X Y : String} {d : ℕ → Source} {l : List (SSet EReal)} {s : Spe} (hs : Rep o.c o.L μ (s.den μ) s)
    (hX : X ∈ s.symbols) (hb : s.BaseOn {X}) (hX' : s.NotDisc X) (hk : ∀ᵐ ω ∂(s.den μ), ∃ x : ℝ, ω X = some (.num x) ∧ a ≤ x ∧ x ≤ b) (hY : Y ∉ s.symbols)
    (hd : ∀ i < n, (d i).WF o.L μ ∧ ∃ leaf, (d i).call o.L Y = .ok leaf) (hl : binspace a b ((n : ℤ) + 1) = .ok l) :
    ∃ r, (Cmd.switch (.id X) (l.map .set) ((List.range n).map (fun i => .sample Y (d i)))).interp o (some s) = .ok (some r) ∧ r.symbols = insert Y s.symbols ∧
      ∀ A, r.den μ A = ((List.range n).map (fun i => s.den μ (binCase a b n (.id X) i) * withIndep Y ((d i).law μ Y) ((s.den μ)[|binCase a b n (.id X) i]) A)).sum := by
  rcases hsimp with h0 | h0
  · refine switch_bins_total hc h hn (by rw [h0]; exact simpOK_none _ _ _) ?_ hdepth hs hX hb hX' hk hY hd hl
    intro ts ws t _ _ _
    exact ⟨t, by rw [h0], rfl⟩
  · obtain ⟨r, h1, h2⟩ := switch_bins_total (o := { o with simp := guarded o.hash }) hc h hn (simpOK_guarded _ _ _ _) (fun ts ws t => guarded_total) hdepth hs hX hb hX' hk hY hd hl
    refine ⟨r, ?_, h2⟩
    have := interp_mono (o := { o with simp := guarded o.hash }) (simp' := simplifySum o.hash) (fun s s' h => by
      simp only [guarded] at h
      split at h
      · exact h
      · cases h) _ _ _ h1
    rw [← h0] at this
    exact this
end

/-! ## Non-vacuity -/

/-- Five points give four bins. -/
example : ∃ l, binspace 0 1 5 = .ok l ∧ l.length = 4 := by
  obtain ⟨l, h1, h2, -⟩ := C50_bins (a := 0) (b := 1) (by norm_num) (n := 4) (by norm_num)
  exact ⟨l, by simpa using h1, h2⟩

/-- `X >> uniform(0, 1)`; `Switch(X, binspace(0, 1, 5), lambda i: Sample(Y, coin))` returns, and meets the hypotheses of `C50_switch_total` and `C50_switch`. -/
theorem bins_return : ∃ l r, binspace 0 1 5 = .ok l ∧ (Cmd.switch (.id "X") (l.map .set) ((List.range 4).map (fun _ => .sample "Y" (.one coinD)))).interp opts0 (some (leafX "X")) = .ok (some r) := by
  obtain ⟨l, h1, -⟩ := C50_bins (a := 0) (b := 1) (by norm_num) (n := 4) (by norm_num)
  have hs : Rep opts0.c opts0.L muU ((leafX "X").den muU) (leafX "X") := ⟨leafX_wf _ _, fun E => .real rfl, by simp [leafX, Spe.atomSyms], rfl⟩
  obtain ⟨r, hr, -⟩ := C50_switch_total (o := opts0) (μ := muU) ctx0_correct (a := 0) (b := 1) (by norm_num) (n := 4) (by norm_num) (.inl rfl) (by decide) (X := "X") (Y := "Y")
    (d := fun _ => .one coinD) hs (by simp [leafX, Spe.symbols]) (.real (by intro s _ hs; simpa using hs)) (.real (by simp))
    (by
      simp only [leafX, Spe.den, realMeas, Bool.false_eq_true, if_false]
      rw [ae_map_iff (measurable_leafAsg "X" _).aemeasurable]
      · have : ∀ᵐ x ∂(muU d0), x ∈ Set.Icc (0 : ℝ) 1 := ae_restrict_mem measurableSet_Icc
        filter_upwards [this] with x hx
        exact ⟨x, by simp [Env.extend, Tr.eval, baseAsg], hx⟩
      · have e : {ω : Asg | ∃ x : ℝ, ω "X" = some (.num x) ∧ 0 ≤ x ∧ x ≤ 1} = {ω | (Ev.ivl (.id "X") unitIvl).holds ω} := by
          ext ω
          rw [Set.mem_setOf_eq, Set.mem_setOf_eq, Ev.holds_basic (t := .id "X") rfl]
          constructor
          · rintro ⟨x, h1, h2⟩
            exact ⟨.num x, h1, mem_closedBin.2 h2⟩
          · rintro ⟨w, h1, h2⟩
            cases w with
            | str w => simp [Val.lift, SSet.den, Piece.den, Ev.values] at h2
            | num w => exact ⟨w, h1, mem_closedBin.1 h2⟩
        rw [e]
        exact Ev.measurable_set _)
    (by simp [leafX, Spe.symbols])
    (fun i _ => ⟨.one (.nominal (by simp) (by simp)), coin "Y", by norm_num [Source.call, coinD, Distr.call, mkNominal, mkNom, bind, Except.bind, coin]⟩)
    h1
  exact ⟨l, r, by simpa using h1, hr⟩

end Sppl
