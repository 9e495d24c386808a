import Verif.Spe.DensityLemmas

set_option linter.all false

/-!
# Limits of probabilities of boxes (helper lemmas)
-/

namespace Sppl
open Classical MeasureTheory Topology
open scoped ENNReal ProbabilityTheory

variable {c : Ctx} {L : Lib} {μ : Dist → Measure ℝ}

/-- `F ε` is about `v (2 ε) ^ d`, where `e = (d, w)`; if the density `w` is 0 it vanishes. -/
structure DLim (F : ℝ → ℝ) (e : ℕ × ℝ) (v : ℝ) : Prop where
  nonneg : 0 ≤ e.2
  zero : e.2 = 0 → ∀ᶠ ε in 𝓝[>] (0 : ℝ), F ε = 0
  lim : e.2 ≠ 0 → Filter.Tendsto (fun ε => F ε / (2 * ε) ^ e.1) (𝓝[>] (0 : ℝ)) (𝓝 v)

theorem DLim.const {v : ℝ} : DLim (fun _ => v) (0, 1) v :=
  ⟨by norm_num, fun h => absurd h (by norm_num), fun _ => by simpa using tendsto_const_nhds⟩

theorem DLim.mul {F G : ℝ → ℝ} {e f : ℕ × ℝ} {v u : ℝ} (h1 : DLim F e v) (h2 : DLim G f u) : DLim (fun ε => F ε * G ε) (e.1 + f.1, e.2 * f.2) (v * u) := by
  refine ⟨mul_nonneg h1.nonneg h2.nonneg, fun h => ?_, fun h => ?_⟩
  · rcases mul_eq_zero.1 h with h | h
    · filter_upwards [h1.zero h] with ε h; simp [h]
    · filter_upwards [h2.zero h] with ε h; simp [h]
  · have h3 : e.2 ≠ 0 := fun h' => h (by simp [h'])
    have h4 : f.2 ≠ 0 := fun h' => h (by simp [h'])
    refine ((h1.lim h3).mul (h2.lim h4)).congr (fun ε => ?_)
    simp only [pow_add, div_mul_div_comm]

theorem tendsto_two_pow {k : ℕ} (hk : k ≠ 0) : Filter.Tendsto (fun ε : ℝ => (2 * ε) ^ k) (𝓝[>] (0 : ℝ)) (𝓝 0) := by
  have : Filter.Tendsto (fun ε : ℝ => (2 * ε) ^ k) (𝓝 (0 : ℝ)) (𝓝 ((2 * 0) ^ k)) :=
    (Continuous.tendsto (by fun_prop) 0)
  rw [mul_zero, zero_pow hk] at this
  exact this.mono_left nhdsWithin_le_nhds

/-- What a component contributes at dimension `m`. -/
theorem DLim.at {F : ℝ → ℝ} {e : ℕ × ℝ} {v : ℝ} (h : DLim F e v) {m : ℕ} (hm : e.2 ≠ 0 → m ≤ e.1) :
    Filter.Tendsto (fun ε => F ε / (2 * ε) ^ m) (𝓝[>] (0 : ℝ)) (𝓝 (if e.1 = m ∧ e.2 ≠ 0 then v else 0)) := by
  by_cases h0 : e.2 = 0
  · rw [if_neg (fun h => h.2 h0)]
    refine tendsto_const_nhds.congr' ?_
    filter_upwards [h.zero h0] with ε hε; simp [hε]
  · by_cases hd : e.1 = m
    · rw [if_pos ⟨hd, h0⟩, ← hd]; exact h.lim h0
    · rw [if_neg (fun h => hd h.1)]
      obtain ⟨k, hk⟩ := Nat.exists_eq_add_of_le (hm h0)
      have h1 := (h.lim h0).mul (tendsto_two_pow (k := k) (by omega))
      rw [mul_zero] at h1
      refine h1.congr' ?_
      filter_upwards [self_mem_nhdsWithin] with ε (hε : 0 < ε)
      have h2 : (2 * ε) ^ k ≠ 0 := by positivity
      rw [hk, pow_add]
      field_simp

theorem mixPdf_le {ws : List ℝ} {es : List (ℕ × ℝ)} {e : ℕ × ℝ} (he : e ∈ es) (h : e.2 ≠ 0) : (mixPdf ws es).1 ≤ e.1 := by
  obtain ⟨m, -, -, hmin, e'⟩ := mixPdf_some (ws := ws) ⟨e, he, h⟩
  rw [e']; exact hmin e he h

/-- Mixtures: what the components contribute at the dimension of the mixture. -/
theorem DLim.mix' {ws : List ℝ} {Fs : List (ℝ → ℝ)} {es : List (ℕ × ℝ)} {vs : List ℝ} (hw : ∀ w ∈ ws, 0 < w) (hlen : es.length = ws.length)
    (hnn : ∀ e ∈ es, 0 ≤ e.2)
    (h : List.Forall₂ (fun F (q : (ℕ × ℝ) × ℝ) => Filter.Tendsto (fun ε => F ε / (2 * ε) ^ (mixPdf ws es).1) (𝓝[>] (0 : ℝ))
      (𝓝 (if q.1.1 = (mixPdf ws es).1 ∧ q.1.2 ≠ 0 then q.2 else 0)) ∧ (q.1.2 = 0 → ∀ᶠ ε in 𝓝[>] (0 : ℝ), F ε = 0)) Fs (es.zip vs)) (hvs : vs.length = es.length) :
    DLim (fun ε => mixSum ws (Fs.map (fun F => F ε))) (mixPdf ws es)
      (List.zipWith (fun w (q : (ℕ × ℝ) × ℝ) => w * (if q.1.1 = (mixPdf ws es).1 ∧ q.1.2 ≠ 0 then q.2 else 0)) ws (es.zip vs)).sum := by
  by_cases hnz : ∃ q ∈ es, q.2 ≠ 0
  · obtain ⟨m, -, ⟨q, hq, hq1, hq2⟩, hmin, e⟩ := mixPdf_some (ws := ws) hnz
    have hpos : 0 < (mixPdf ws es).2 := by
      rw [e]
      clear e h hvs hmin hnz vs Fs
      induction es generalizing ws with
      | nil => cases hq
      | cons d es ih =>
        cases ws with
        | nil => simp at hlen
        | cons w ws =>
          rw [List.zipWith_cons_cons, List.sum_cons]
          have hrest : ∀ (ws : List ℝ) (es : List (ℕ × ℝ)), (∀ w ∈ ws, 0 < w) → (∀ e ∈ es, 0 ≤ e.2) →
              0 ≤ (List.zipWith (fun w (q : ℕ × ℝ) => w * (if q.1 = m then q.2 else 0)) ws es).sum := by
            intro ws es hw hnn
            refine List.sum_nonneg ?_
            intro x hx
            rw [← List.map_uncurry_zip_eq_zipWith] at hx
            obtain ⟨⟨w, e⟩, hwe, rfl⟩ := List.mem_map.1 hx
            obtain ⟨h1, h2⟩ := List.of_mem_zip hwe
            refine mul_nonneg (hw w h1).le ?_
            split
            · exact hnn e h2
            · exact le_rfl
          have h1 := hrest ws es (fun w hw' => hw w (by simp [hw'])) (fun e he => hnn e (by simp [he]))
          rcases List.mem_cons.1 hq with rfl | hq
          · rw [if_pos hq2]
            have := mul_pos (hw w (by simp)) (lt_of_le_of_ne (hnn q (by simp)) (Ne.symm hq1))
            linarith
          · have := ih (ws := ws) (fun w hw' => hw w (by simp [hw'])) (by simpa using hlen) (fun e he => hnn e (by simp [he])) hq
            have h2 : 0 ≤ w * (if d.1 = m then d.2 else 0) := by
              refine mul_nonneg (hw w (by simp)).le ?_
              split
              · exact hnn d (by simp)
              · exact le_rfl
            linarith
    refine ⟨hpos.le, fun h => absurd h hpos.ne', fun hz => ?_⟩
    clear hz
    generalize (mixPdf ws es).1 = m' at h ⊢
    clear hpos e hnz hq hq1 hq2 q hnn hmin
    induction es generalizing ws vs Fs with
    | nil => cases h; simp [mixSum]
    | cons d es ih =>
      cases vs with
      | nil => simp at hvs
      | cons v vs =>
        cases ws with
        | nil => simp at hlen
        | cons w ws =>
          cases h with
          | @cons F _ Fs _ h1 h2 =>
          have i1 := ih (ws := ws) (fun w hw' => hw w (by simp [hw'])) (by simpa using hlen) (by simpa using hvs) h2
          have i2 := h1.1.const_mul w
          refine (i2.add i1).congr (fun ε => ?_)
          simp only [List.map_cons, mixSum, List.zipWith_cons_cons, List.sum_cons]
          ring
  · push Not at hnz
    rw [mixPdf_none hnz]
    refine ⟨le_rfl, fun _ => ?_, fun h => absurd rfl h⟩
    generalize (mixPdf ws es).1 = m' at h
    clear hnn
    induction es generalizing ws vs Fs with
    | nil => cases h; simp [mixSum]
    | cons d es ih =>
      cases vs with
      | nil => simp at hvs
      | cons v vs =>
        cases ws with
        | nil => simp at hlen
        | cons w ws =>
          cases h with
          | @cons F _ Fs _ h1 h2 =>
          have i1 := ih (ws := ws) (fun w hw' => hw w (by simp [hw'])) (by simpa using hlen) (by simpa using hvs) (fun q hq => hnz q (by simp [hq])) h2
          filter_upwards [i1, h1.2 (hnz d (by simp))] with ε h3 h4
          simp only [List.map_cons, mixSum, List.zipWith_cons_cons, List.sum_cons] at h3 ⊢
          rw [h3, h4]; simp

theorem DLim.mix {ws : List ℝ} {Fs : List (ℝ → ℝ)} {es : List (ℕ × ℝ)} {vs : List ℝ} (hw : ∀ w ∈ ws, 0 < w) (hlen : es.length = ws.length)
    (h : List.Forall₂ (fun F (q : (ℕ × ℝ) × ℝ) => DLim F q.1 q.2) Fs (es.zip vs)) (hvs : vs.length = es.length) :
    DLim (fun ε => mixSum ws (Fs.map (fun F => F ε))) (mixPdf ws es)
      (List.zipWith (fun w (q : (ℕ × ℝ) × ℝ) => w * (if q.1.1 = (mixPdf ws es).1 ∧ q.1.2 ≠ 0 then q.2 else 0)) ws (es.zip vs)).sum := by
  refine DLim.mix' hw hlen ?_ (forall₂_mono_mem h ?_) hvs
  · intro e he
    obtain ⟨i, hi, rfl⟩ := List.getElem_of_mem he
    have : (es[i], vs[i]'(by omega)) ∈ es.zip vs := by
      rw [List.mem_iff_getElem]; exact ⟨i, by simp; omega, by simp⟩
    obtain ⟨F, -, hF⟩ := forall₂_mem_right h this
    exact hF.nonneg
  · intro F _ q hq h
    exact ⟨h.at (fun hne => mixPdf_le (List.of_mem_zip hq).1 hne), h.zero⟩

/-! ## Leaves -/

theorem near_num (ε x : ℝ) : {y : ℝ | some (Val.num y) ∈ {u | near ε (.num x) u}} = {y | |y - x| ≤ ε} := by
  ext y
  simp only [near, Set.mem_setOf_eq, Option.some.injEq, Val.num.injEq]
  constructor
  · rintro ⟨z, rfl, h⟩; exact h
  · intro h; exact ⟨y, rfl, h⟩

theorem Point.box_single (X : String) (v : Val ℝ) (ε : ℝ) : Point.box [(X, v)] ε = {ω | ω X ∈ {u | near ε v u}} := by ext ω; simp [Point.box]

theorem realMeas_cond {d : Dist} {supp : Ivl EReal} {B : Set ℝ} : (realMeas μ d supp true).real B = (μ d).real (supp.reals ∩ B) / (μ d).real supp.reals := by
  unfold realMeas
  rw [if_pos rfl, measureReal_def, ProbabilityTheory.cond_apply (show MeasurableSet supp.reals from Ivl.measurableSet _), ENNReal.toReal_mul, ENNReal.toReal_inv, measureReal_def, measureReal_def]
  ring

theorem eventually_ball {p : ℝ → Prop} {x : ℝ} (h : ∀ᶠ y in 𝓝 x, p y) : ∀ᶠ ε in 𝓝[>] (0 : ℝ), ∀ y, |y - x| ≤ ε → p y := by
  obtain ⟨δ, hδ, hp⟩ := Metric.eventually_nhds_iff.1 h
  filter_upwards [Ioo_mem_nhdsGT hδ] with ε hε y hy
  exact hp (by rw [Real.dist_eq]; exact lt_of_le_of_lt hy hε.2)

/-- The density of a continuous leaf. -/
theorem cont_lim {X d supp cond env} (hs : Spe.WF c L μ (.real .cont X d supp cond env)) {x : ℝ} (hx : PdfAt L μ d supp cond x) {w : ℝ}
    (h : RLeaf.pdf L ⟨.cont, d, supp, cond⟩ x = .ok w) : DLim (fun ε => (realMeas μ d supp cond).real {y | |y - x| ≤ ε}) (1, w) w := by
  obtain ⟨hr, -, -, -⟩ := hs.rleaf
  have hP := hr.dist.prob
  have h0 : 0 ≤ L.pdf d x := by
    refine ge_of_tendsto hx.lim ?_
    filter_upwards [self_mem_nhdsWithin] with ε (hε : 0 < ε)
    have : 0 ≤ (μ d).real {y | |y - x| ≤ ε} := measureReal_nonneg
    positivity
  unfold RLeaf.pdf at h
  cases cond with
  | false =>
    rw [if_pos rfl] at h
    cases h
    refine ⟨h0, fun h => ?_, fun h => ?_⟩
    · filter_upwards [hx.zero h] with ε hε; simpa [realMeas] using hε
    · simpa [realMeas] using hx.lim
  | true =>
    rw [if_neg (by simp)] at h
    simp only [bind, Except.bind] at h
    split at h; · cases h
    rename_i b hb
    have hb' : b = true ↔ x ∈ supp.reals := by
      simp only [SSet.contains, Piece.contains] at hb
      cases hb
      simp [Ivl.reals, Ivl.has_iff]
    simp only [realMeas_cond]
    split at h
    · rename_i hbt
      split at h; · cases h
      rename_i z hz
      cases h
      have hz := hr.Z_ok hz
      simp only at hz
      have hz0 : 0 < z := by
        rw [hz]
        have := hr.mass
        simp only [if_true] at this
        exact lt_of_le_of_ne measureReal_nonneg (Ne.symm (by rw [measureReal_def]; exact ENNReal.toReal_ne_zero.2 ⟨this, measure_ne_top _ _⟩))
      rw [← hz]
      have hin : ∀ᶠ ε in 𝓝[>] (0 : ℝ), supp.reals ∩ {y | |y - x| ≤ ε} = {y | |y - x| ≤ ε} := by
        rcases hx.inner rfl with h | h
        · filter_upwards [eventually_ball h] with ε hε
          exact Set.inter_eq_right.2 (fun y hy => hε y hy)
        · exact absurd (hb'.1 hbt) h.self_of_nhds
      refine ⟨div_nonneg h0 hz0.le, fun h => ?_, fun h => ?_⟩
      · have h : L.pdf d x = 0 := by
          rcases div_eq_zero_iff.1 h with h | h
          · exact h
          · exact absurd h hz0.ne'
        filter_upwards [hx.zero h, hin] with ε h1 h2
        rw [h2, h1]; simp
      · have := hx.lim.div_const z
        refine this.congr' ?_
        filter_upwards [hin] with ε h2
        rw [h2, pow_one]; ring
    · rename_i hbt
      cases h
      refine ⟨le_rfl, fun _ => ?_, fun h => absurd rfl h⟩
      rcases hx.inner rfl with h | h
      · exact absurd (hb'.2 h.self_of_nhds) hbt
      · filter_upwards [eventually_ball h] with ε hε
        have : supp.reals ∩ {y | |y - x| ≤ ε} = ∅ := by
          ext y
          simp only [Set.mem_inter_iff, Set.mem_setOf_eq, Set.mem_empty_iff_false, iff_false, not_and]
          intro h1 h2; exact hε y h2 h1
        rw [this]; simp

/-- Around a number, a distribution on the integers only has that number. -/
theorem disc_ball {m : Measure ℝ} (h : ∀ᵐ y : ℝ ∂m, ∃ n : ℤ, y = n) (x : ℝ) : ∀ᶠ ε in 𝓝[>] (0 : ℝ), m.real {y | |y - x| ≤ ε} = m.real {x} := by
  have h1 : ∀ᶠ y : ℝ in 𝓝 x, (∃ n : ℤ, y = n) → y = x := by
    by_cases hx : ∃ n : ℤ, x = n
    · obtain ⟨n, rfl⟩ := hx
      filter_upwards [Metric.ball_mem_nhds (n : ℝ) one_pos] with y hy
      rintro ⟨k, rfl⟩
      rw [Metric.mem_ball, Real.dist_eq] at hy
      have : |k - n| < 1 := by exact_mod_cast hy
      rw [Int.abs_lt_one_iff, sub_eq_zero] at this
      rw [this]
    · have hc : IsOpen (Set.range ((↑) : ℤ → ℝ))ᶜ := Int.isClosedEmbedding_coe_real.isClosed_range.isOpen_compl
      filter_upwards [hc.mem_nhds (by rintro ⟨n, hn⟩; exact hx ⟨n, hn.symm⟩)] with y hy
      rintro ⟨n, rfl⟩
      exact absurd ⟨n, rfl⟩ hy
  filter_upwards [eventually_ball h1, self_mem_nhdsWithin] with ε hε (hε0 : 0 < ε)
  refine measureReal_congr ?_
  filter_upwards [h] with y hy
  refine propext ⟨fun hy' => hε y hy' hy, fun hy' => ?_⟩
  have : y = x := hy'
  show |y - x| ≤ ε
  rw [this]; simp [hε0.le]

theorem DLim.exact {F : ℝ → ℝ} {w : ℝ} (h0 : 0 ≤ w) (h : ∀ᶠ ε in 𝓝[>] (0 : ℝ), F ε = w) : DLim F (0, w) w := by
  refine ⟨h0, fun hw => ?_, fun _ => ?_⟩
  · filter_upwards [h] with ε hε; rw [hε]; exact hw
  · refine tendsto_const_nhds.congr' ?_
    filter_upwards [h] with ε hε; simp [hε]

theorem leaf_lim {s : Spe} (hs : s.WF c L μ) {a : Point} (ha : s.Smooth L μ a) {e : ℕ × ℝ} (h : leafPdfMem L s a = .ok e) :
    DLim (fun ε => (s.den μ).real (a.box ε)) e e.2 := by
  have hx := (leafPdfMem_exact hs h)
  unfold leafPdfMem at h
  simp only [bind, Except.bind] at h
  split at h; · cases h
  rename_i v hv
  split at h; · cases h
  rename_i w hw
  cases h
  obtain ⟨sym, env, he, rfl⟩ := leafValue_ok hv
  simp only [Point.box_single]
  have hP : ∀ ε, MeasurableSet {u : Option (Val ℝ) | near ε v u} := fun ε => measurable_near ε v
  cases s with
  | real k X d supp cond env =>
    cases he
    simp only [fun ε => real_leaf_on hs (hP ε)]
    cases v with
    | str x =>
      simp only [leafPdf] at hw
      cases hw
      refine ⟨le_rfl, fun _ => ?_, fun h => absurd rfl h⟩
      simp [near]
    | num x =>
      simp only [near_num]
      cases k with
      | cont => cases ha with | cont ha => exact cont_lim hs (ha x (by simp)) hw
      | disc =>
        obtain ⟨hr, -, -, -⟩ := hs.rleaf
        simp only [leafPdf] at hw
        have hw := hr.pmf_ok rfl hw
        simp only [EReal.coe_eq_coe_iff, Set.setOf_eq_eq_singleton] at hw
        refine DLim.exact ?_ ?_
        · show 0 ≤ w; rw [hw]; exact measureReal_nonneg
        · show ∀ᶠ ε in 𝓝[>] (0 : ℝ), _ = w
          rw [hw]
          exact disc_ball (RLeafOK.ae (μ := μ) (l := ⟨.disc, d, supp, cond⟩) hr.dist.ae_int) x
  | atomic X v' env => cases v <;> simp [leafPdf] at hw
  | nominal X dist =>
    cases he
    have h1 := hx.1 rfl
    simp only at h1
    refine DLim.exact ?_ ?_
    · show 0 ≤ w; rw [← h1]; exact measureReal_nonneg
    · show ∀ᶠ ε in 𝓝[>] (0 : ℝ), _ = w
      cases v with
      | str x =>
        refine Filter.Eventually.of_forall (fun ε => ?_)
        rw [← h1, Point.set_single]; rfl
      | num x =>
        simp only [leafPdf] at hw
        cases hw
        refine Filter.Eventually.of_forall (fun ε => ?_)
        cases hs with
        | nominal hn h0 _ =>
        rw [nominal_real_on c L hn h0 (hP ε)]
        simp [near]
  | sum cs ws => cases he
  | prod cs => cases he

theorem Spe.Smooth.on {a : Point} {s : Spe} (h : s.Smooth L μ a) (S : Finset String) : s.Smooth L μ (a.on S) := by
  induction h with
  | cont h => exact .cont (fun x hx => h x (Point.mem_on.1 hx).1)
  | disc => exact .disc
  | atomic => exact .atomic
  | nominal => exact .nominal
  | sum _ hw ih => exact .sum ih hw
  | prod _ ih => exact .prod ih

/-- `logpdf` is the limit of probabilities of boxes. -/
theorem pdf_lim : ∀ s : Spe, s.WF c L μ → ∀ (a : Point) (e : ℕ × ℝ), s.Smooth L μ a → s.pdfMem L a = .ok e →
    DLim (fun ε => (s.den μ).real (a.box ε)) e e.2 := by
  refine Spe.ind ?_ ?_ ?_ ?_ ?_
  · intro k X d supp cond env hs a r ha h; rw [Spe.pdfMem] at h; exact leaf_lim hs ha h
  · intro X v env hs a r ha h; rw [Spe.pdfMem] at h; exact leaf_lim hs ha h
  · intro X dist hs a r ha h; rw [Spe.pdfMem] at h; exact leaf_lim hs ha h
  · intro cs ws ih hs a r ha h
    rw [Spe.pdfMem, Spe.pdfMemL_eq] at h
    simp only [bind, Except.bind, callAll] at h
    split at h; · cases h
    rename_i ds hds
    cases h
    cases hs with
    | @sum _ _ S h1 hne hl hw hsum hS =>
    cases ha with
    | sum ha hpos =>
    have hds := mapM_ok hds
    rw [List.forall₂_map_left_iff] at hds
    simp only [Spe.den]
    simp only [Spe.denL_eq, fun A => mixture_real (A := A) hw (ms := cs.map (Spe.den μ))
      (by intro m hm; obtain ⟨s, hs, rfl⟩ := List.mem_map.1 hm; have := (h1 s hs).prob; infer_instance), List.map_map]
    have key : List.Forall₂ (fun F (q : (ℕ × ℝ) × ℝ) => DLim F q.1 q.2) (cs.map (fun s ε => (s.den μ).real (a.box ε))) (ds.zip (ds.map Prod.snd)) := by
      have : ds.zip (ds.map Prod.snd) = ds.map (fun e => (e, e.2)) := by
        clear * -
        induction ds with
        | nil => rfl
        | cons d ds ih => simp [ih]
      rw [this, List.forall₂_map_left_iff, List.forall₂_map_right_iff]
      exact forall₂_mono_mem hds (fun s hs e _ he => ih s hs (h1 s hs) a e (ha s hs) he)
    have hlen : ds.length = ws.length := by rw [← hl]; exact hds.length_eq.symm
    have := DLim.mix hpos hlen key (by simp)
    simp only [List.map_map, Function.comp_def] at this ⊢
    convert this using 1
    have hz : ds.zip (ds.map Prod.snd) = ds.map (fun e => (e, e.2)) := by
      clear * -
      induction ds with
      | nil => rfl
      | cons d ds ih => simp [ih]
    rw [hz, List.zipWith_map_right]
    by_cases hnz : ∃ q ∈ ds, q.2 ≠ 0
    · obtain ⟨m, -, -, -, e⟩ := mixPdf_some (ws := ws) hnz
      rw [e]
      refine congrArg List.sum (congrArg (fun f => List.zipWith f ws ds) ?_)
      funext w q
      by_cases h1 : q.1 = m <;> by_cases h2 : q.2 = 0 <;> simp [h1, h2]
    · push Not at hnz
      rw [mixPdf_none hnz]
      symm
      refine zipWith_zero (g := fun q => if q.1 = 0 ∧ q.2 ≠ 0 then q.2 else 0) ?_
      intro d hd
      simp [hnz d hd]
  · intro cs ih hs a r ha h
    have hd : (Spe.symbolsL cs).Pairwise Disjoint := by cases hs; assumption
    obtain ⟨es, hes, rfl⟩ := pdf_prod_parts hd h
    have hw : ∀ s ∈ cs, s.WF c L μ := by cases hs; assumption
    have e := fun ε => prod_real hs (a.boxRect_meas ε) (by
      intro p hp; obtain ⟨q, hq, rfl⟩ := List.mem_map.1 hp; exact hes.vars q hq)
    simp only [← Point.boxRect_set, e, Point.boxRect_on]
    have key : List.Forall₂ (fun s e => DLim (fun ε => (s.den μ).real ((a.on s.symbols).boxRect ε).set) e e.2) cs es := by
      refine forall₂_mono_mem hes.each ?_
      intro s hs e _ he
      by_cases h0 : a.on s.symbols = []
      · rw [he.1 h0, h0]
        have := (hw s hs).prob
        have h2 : ∀ ε, (Point.boxRect [] ε).set = Set.univ := by intro ε; simp [Rect.set, Point.boxRect]
        simp only [h2]
        simpa using DLim.const (v := 1)
      · simp only [Point.boxRect_set]
        cases ha with
        | prod ha => exact ih s hs (hw s hs) _ _ ((ha s hs).on _) (he.2 h0)
    clear e ih hes h hd hs hw ha
    induction key with
    | nil => simpa using DLim.const (v := 1)
    | @cons s e cs es h1 h2 ih => exact h1.mul ih

end Sppl
