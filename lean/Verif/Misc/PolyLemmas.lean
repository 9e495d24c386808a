import Verif.Misc.PolyModel
import Verif.Sets.TotalLemmas
import Verif.Sets.Props
import Verif.Util.ExceptLemmas
import Mathlib.Topology.Order.IntermediateValue
import Mathlib.Topology.Algebra.Polynomial
import Mathlib.Topology.Order.Real
import Mathlib.Topology.Instances.EReal.Lemmas

/-! Lemmas for the numerical polynomial solver. -/

set_option linter.all false

namespace Sppl
open Classical Topology

theorem toPoly_eval (cs : List ℝ) (x : ℝ) : (toPoly cs).eval x = polyVal cs x := by
  induction cs with
  | nil => simp [toPoly, polyVal]
  | cons c cs ih => simp [toPoly, ih, polyVal]

theorem polyVal_continuous (cs : List ℝ) : Continuous (polyVal cs) := by
  have : polyVal cs = fun x => (toPoly cs).eval x := by funext x; exact (toPoly_eval cs x).symm
  rw [this]; exact (toPoly cs).continuous

/-- No root between two points: same sign. -/
theorem no_root_sign {f : ℝ → ℝ} (hf : Continuous f) {a b : EReal} (h0 : ∀ z : ℝ, f z = 0 → ¬ (a < z ∧ (z : EReal) < b))
    {x y : ℝ} (hx : a < x ∧ (x : EReal) < b) (hy : a < y ∧ (y : EReal) < b) (h : f x < 0) : f y < 0 := by
  by_contra hc
  push Not at hc
  have h1 : (0 : ℝ) ∈ Set.uIcc (f x) (f y) := Set.mem_uIcc.2 (Or.inl ⟨h.le, hc⟩)
  obtain ⟨z, hz, hz0⟩ := intermediate_value_uIcc (hf.continuousOn) h1
  refine h0 z hz0 ?_
  rcases Set.mem_uIcc.1 hz with hz | hz
  · exact ⟨hx.1.trans_le (by exact_mod_cast hz.1), lt_of_le_of_lt (by exact_mod_cast hz.2) hy.2⟩
  · exact ⟨hy.1.trans_le (by exact_mod_cast hz.1), lt_of_le_of_lt (by exact_mod_cast hz.2) hx.2⟩

/-- Every simple root is a limit of points where the polynomial is negative. -/
theorem simple_root_closure (P : Polynomial ℝ) (hP : P ≠ 0) (r : ℝ) (hr : P.rootMultiplicity r = 1) :
    r ∈ closure {x : ℝ | P.eval x < 0} := by
  obtain ⟨Q, hQ, hnd⟩ := Polynomial.exists_eq_pow_rootMultiplicity_mul_and_not_dvd P hP r
  rw [hr, pow_one] at hQ
  have hQr : Q.eval r ≠ 0 := by
    intro h; exact hnd (Polynomial.dvd_iff_isRoot.2 h)
  rw [Metric.mem_closure_iff]
  intro ε hε
  rcases lt_or_gt_of_ne hQr with h | h
  · have : ∀ᶠ x in 𝓝 r, Q.eval x < 0 := Q.continuous.continuousAt.eventually (gt_mem_nhds h) 
    obtain ⟨δ, hδ, hb⟩ := Metric.eventually_nhds_iff.1 this
    refine ⟨r + min ε δ / 2, ?_, ?_⟩
    · have h1 : 0 < min ε δ := lt_min hε hδ
      have := hb (y := r + min ε δ / 2) (by rw [Real.dist_eq]; rw [abs_of_pos] <;> [skip; linarith]; linarith [min_le_right ε δ])
      rw [Set.mem_setOf_eq, hQ]
      simp only [Polynomial.eval_mul, Polynomial.eval_sub, Polynomial.eval_X, Polynomial.eval_C]
      exact mul_neg_of_pos_of_neg (by linarith) this
    · have h1 : 0 < min ε δ := lt_min hε hδ
      rw [dist_comm, Real.dist_eq, abs_of_pos] <;> linarith [min_le_left ε δ]
  · have : ∀ᶠ x in 𝓝 r, 0 < Q.eval x := Q.continuous.continuousAt.eventually (lt_mem_nhds h)
    obtain ⟨δ, hδ, hb⟩ := Metric.eventually_nhds_iff.1 this
    refine ⟨r - min ε δ / 2, ?_, ?_⟩
    · have h1 : 0 < min ε δ := lt_min hε hδ
      have := hb (y := r - min ε δ / 2) (by rw [Real.dist_eq]; rw [abs_of_neg] <;> [skip; linarith]; linarith [min_le_right ε δ])
      rw [Set.mem_setOf_eq, hQ]
      simp only [Polynomial.eval_mul, Polynomial.eval_sub, Polynomial.eval_X, Polynomial.eval_C]
      exact mul_neg_of_neg_of_pos (by linarith) this
    · have h1 : 0 < min ε δ := lt_min hε hδ
      rw [Real.dist_eq, abs_of_pos] <;> linarith [min_le_left ε δ]

/-! ## The cells -/

theorem zip_mem_lt : ∀ (w : ℝ) (l : List ℝ), (w :: l).Pairwise (· < ·) → ∀ q ∈ (w :: l).zip l, q.1 < q.2
  | w, [], _, q, hq => by simp at hq
  | w, b :: l, hp, q, hq => by
    rw [List.zip_cons_cons, List.mem_cons] at hq
    rcases hq with rfl | hq
    · exact (List.pairwise_cons.1 hp).1 b (by simp)
    · exact zip_mem_lt b l (List.pairwise_cons.1 hp).2 q hq

theorem zip_gap : ∀ (w : ℝ) (l : List ℝ), (w :: l).Pairwise (· < ·) → ∀ q ∈ (w :: l).zip l,
    ∀ y ∈ w :: l, y ≤ q.1 ∨ q.2 ≤ y
  | w, [], _, q, hq => by simp at hq
  | w, b :: l, hp, q, hq => by
    have hp' := List.pairwise_cons.1 hp
    have hpb := List.pairwise_cons.1 hp'.2
    rw [List.zip_cons_cons, List.mem_cons] at hq
    intro y hy
    rcases hq with rfl | hq
    · rcases List.mem_cons.1 hy with rfl | hy
      · exact Or.inl le_rfl
      · rcases List.mem_cons.1 hy with rfl | hy
        · exact Or.inr le_rfl
        · exact Or.inr (hpb.1 y hy).le
    · rcases List.mem_cons.1 hy with rfl | hy
      · left
        have : q.1 ∈ b :: l := List.of_mem_zip hq |>.1
        exact (hp'.1 q.1 this).le
      · exact zip_gap b l hp'.2 q hq y hy

theorem zip_cover : ∀ (w : ℝ) (l : List ℝ) (x : ℝ), w < x →
    x ∈ w :: l ∨ (∃ q ∈ (w :: l).zip l, q.1 < x ∧ x < q.2) ∨ (w :: l).getLast (by simp) < x
  | w, [], x, hx => by simp [hx]
  | w, b :: l, x, hx => by
    rcases lt_trichotomy x b with h | rfl | h
    · exact Or.inr (Or.inl ⟨(w, b), by simp, hx, h⟩)
    · simp
    · rcases zip_cover b l x h with h' | ⟨q, hq, h'⟩ | h'
      · exact Or.inl (by simp only [List.mem_cons] at h' ⊢; tauto)
      · exact Or.inr (Or.inl ⟨q, by rw [List.zip_cons_cons]; exact List.mem_cons_of_mem _ hq, h'⟩)
      · right; right; rw [List.getLast_cons (by simp)]; exact h'

theorem le_getLast (w : ℝ) (l : List ℝ) (hp : (w :: l).Pairwise (· < ·)) : ∀ y ∈ w :: l,
    y ≤ (w :: l).getLast (by simp) := by
  induction l generalizing w with
  | nil => simp
  | cons b l ih =>
    intro y hy
    have hp' := List.pairwise_cons.1 hp
    rw [List.getLast_cons (by simp)]
    rcases List.mem_cons.1 hy with rfl | hy
    · exact (hp'.1 _ (List.getLast_mem _)).le
    · exact ih b hp'.2 y hy

/-- The cells, explicitly. -/
noncomputable def cellList (strict : Bool) (z0 : ℝ) (zs : List ℝ) : List (Ivl EReal) :=
  [⟨⊥, (z0 : EReal), true, strict⟩] ++
  ((z0 :: zs).zip zs).map (fun p => ⟨(p.1 : EReal), (p.2 : EReal), strict, strict⟩) ++
  [⟨(((z0 :: zs).getLast (by simp) : ℝ) : EReal), ⊤, strict, true⟩]

theorem cells_ok (strict : Bool) (z0 : ℝ) (zs : List ℝ) (hp : (z0 :: zs).Pairwise (· < ·)) :
    cells strict z0 zs = .ok (cellList strict z0 zs) := by
  have hm : ∀ l : List (ℝ × ℝ), (∀ q ∈ l, q.1 < q.2) →
      l.mapM (fun p => mkCell strict (p.1 : EReal) (p.2 : EReal)) =
        .ok (l.map (fun p => (⟨(p.1 : EReal), (p.2 : EReal), strict, strict⟩ : Ivl EReal))) := by
    intro l
    induction l with
    | nil => intro _; rfl
    | cons q l ih =>
      intro hl
      rw [List.mapM_cons, ih (fun q hq => hl q (by simp [hq]))]
      have : q.1 < q.2 := hl q (by simp)
      simp [mkCell, mkIvl, this, bind, Except.bind, pure, Except.pure]
  unfold cells
  rw [hm _ (zip_mem_lt z0 zs hp)]
  simp [mkCell, mkIvl, bind, Except.bind, EReal.bot_lt_coe, EReal.coe_lt_top, cellList]

/-- A repeated zero makes the interval constructor raise. -/
theorem cells_dup (strict : Bool) (z0 : ℝ) (zs : List ℝ) (hp : (z0 :: zs).Pairwise (· ≤ ·))
    (hd : ¬ (z0 :: zs).Nodup) : cells strict z0 zs = .error .assertion := by
  have hz : ∀ (w : ℝ) (l : List ℝ), (w :: l).Pairwise (· ≤ ·) → ¬ (w :: l).Nodup →
      ((w :: l).zip l).mapM (fun p => mkCell strict (p.1 : EReal) (p.2 : EReal)) = .error .assertion := by
    intro w l
    induction l generalizing w with
    | nil => simp
    | cons b l ih =>
      intro hp hd
      have hp' := List.pairwise_cons.1 hp
      rw [List.zip_cons_cons, List.mapM_cons]
      by_cases hwb : w < b
      · have hd' : ¬ (b :: l).Nodup := by
          intro hn
          apply hd
          refine List.nodup_cons.2 ⟨?_, hn⟩
          intro hm
          have : b ≤ w := by
            rcases List.mem_cons.1 hm with rfl | hm
            · exact le_rfl
            · exact (List.pairwise_cons.1 hp'.2).1 w hm
          exact absurd hwb (not_lt.2 this)
        rw [ih b hp'.2 hd']
        simp [mkCell, mkIvl, hwb, bind, Except.bind]
      · simp [mkCell, mkIvl, hwb, bind, Except.bind]
  unfold cells
  rw [hz z0 zs hp hd]
  simp [mkCell, mkIvl, bind, Except.bind, EReal.bot_lt_coe]

noncomputable def probeList (z0 : ℝ) (zs : List ℝ) : List ℝ :=
  [z0 - 1 / 2] ++ ((z0 :: zs).zip zs).map (fun p => (p.1 + p.2) / 2) ++ [(z0 :: zs).getLast (by simp) + 1 / 2]

theorem probes_eq (strict : Bool) (z0 : ℝ) (zs : List ℝ) :
    probes z0 zs (cellList strict z0 zs) = probeList z0 zs := by
  unfold probes probeList cellList
  simp [List.tail_append, List.dropLast_append]

/-- Cell and probe point go together. -/
structure CellOK (strict : Bool) (zeros : List ℝ) (i : Ivl EReal) (q : ℝ) : Prop where
  left : i.a < q
  right : (q : EReal) < i.b
  gap : ∀ z ∈ zeros, ¬ (i.a < (z : EReal) ∧ (z : EReal) < i.b)
  lo : i.lo = (strict || decide (i.a = ⊥))
  ro : i.ro = (strict || decide (i.b = ⊤))
  ends : i.a = ⊥ ∨ ∃ z ∈ zeros, i.a = ((z : ℝ) : EReal)
  ends' : i.b = ⊤ ∨ ∃ z ∈ zeros, i.b = ((z : ℝ) : EReal)

theorem cellList_ok (strict : Bool) (z0 : ℝ) (zs : List ℝ) (hp : (z0 :: zs).Pairwise (· < ·)) :
    List.Forall₂ (CellOK strict (z0 :: zs)) (cellList strict z0 zs) (probeList z0 zs) := by
  have h0 : ∀ y ∈ z0 :: zs, z0 ≤ y := by
    intro y hy
    rcases List.mem_cons.1 hy with rfl | hy
    · exact le_rfl
    · exact ((List.pairwise_cons.1 hp).1 y hy).le
  unfold cellList probeList
  refine List.rel_append (List.rel_append (.cons ?_ .nil) ?_) (.cons ?_ .nil)
  · refine ⟨EReal.bot_lt_coe _, ?_, ?_, by simp, by simp, by simp, ?_⟩
    · exact EReal.coe_lt_coe_iff.2 (by linarith : z0 - 1/2 < z0)
    · rintro z hz ⟨-, h⟩
      have h : z < z0 := EReal.coe_lt_coe_iff.1 h
      exact absurd (h0 z hz) (not_le.2 h)
    · exact Or.inr ⟨z0, by simp, rfl⟩
  · rw [List.forall₂_map_left_iff, List.forall₂_map_right_iff, List.forall₂_same]
    intro q hq
    have hlt := zip_mem_lt z0 zs hp q hq
    have hmem := List.of_mem_zip hq
    refine ⟨?_, ?_, ?_, by simp, by simp, Or.inr ⟨q.1, hmem.1, rfl⟩, Or.inr ⟨q.2, by simp [hmem.2], rfl⟩⟩
    · exact EReal.coe_lt_coe_iff.2 (by linarith : q.1 < (q.1 + q.2) / 2)
    · exact EReal.coe_lt_coe_iff.2 (by linarith : (q.1 + q.2) / 2 < q.2)
    · rintro z hz ⟨h1, h2⟩
      have h1 : q.1 < z := EReal.coe_lt_coe_iff.1 h1
      have h2 : z < q.2 := EReal.coe_lt_coe_iff.1 h2
      rcases zip_gap z0 zs hp q hq z hz with h | h <;> linarith
  · refine ⟨?_, EReal.coe_lt_top _, ?_, by simp, by simp, Or.inr ⟨_, List.getLast_mem _, rfl⟩, by simp⟩
    · show ((_ : ℝ) : EReal) < ((_ : ℝ) : EReal)
      rw [EReal.coe_lt_coe_iff]; linarith
    · rintro z hz ⟨h, -⟩
      have h : (z0 :: zs).getLast (by simp) < z := EReal.coe_lt_coe_iff.1 h
      exact absurd (le_getLast z0 zs hp z hz) (not_le.2 h)

theorem cellList_cover (strict : Bool) (z0 : ℝ) (zs : List ℝ) (x : ℝ) :
    x ∈ z0 :: zs ∨ ∃ i ∈ cellList strict z0 zs, i.a < (x : EReal) ∧ (x : EReal) < i.b := by
  rcases lt_trichotomy x z0 with h | rfl | h
  · exact Or.inr ⟨⟨⊥, (z0 : EReal), true, strict⟩, by simp [cellList], EReal.bot_lt_coe _, EReal.coe_lt_coe_iff.2 h⟩
  · simp
  · rcases zip_cover z0 zs x h with h' | ⟨q, hq, h1, h2⟩ | h'
    · exact Or.inl h'
    · exact Or.inr ⟨⟨(q.1 : EReal), (q.2 : EReal), strict, strict⟩,
        by simp only [cellList, List.mem_append, List.mem_map]; exact Or.inl (Or.inr ⟨q, hq, rfl⟩),
        EReal.coe_lt_coe_iff.2 h1, EReal.coe_lt_coe_iff.2 h2⟩
    · exact Or.inr ⟨⟨(((z0 :: zs).getLast (by simp) : ℝ) : EReal), ⊤, strict, true⟩, by simp [cellList], EReal.coe_lt_coe_iff.2 h', EReal.coe_lt_top _⟩

/-! ## Selection -/

theorem sel_ok (cs : List ℝ) (b : ℝ) (R : Ivl EReal → ℝ → Prop) (ivs : List (Ivl EReal)) (xs : List ℝ)
    (hR : List.Forall₂ R ivs xs) : ∃ sel, (negIdx cs b xs).mapM (getIvl ivs) = .ok sel ∧
      (∀ s ∈ sel, ∃ i ∈ ivs, ∃ q, R i q ∧ polyVal cs q < b ∧ s = .pc (.ivl i)) ∧
      (∀ i ∈ ivs, ∃ q, R i q ∧ (polyVal cs q < b → SSet.pc (.ivl i) ∈ sel)) := by
  have hget : ∀ k ∈ negIdx cs b xs, ∃ i q, ivs[k]? = some i ∧ xs[k]? = some q ∧ R i q ∧ polyVal cs q < b := by
    intro k hk
    simp only [negIdx, List.mem_filterMap] at hk
    obtain ⟨⟨q, k'⟩, hq, hk⟩ := hk
    split at hk
    · rename_i hneg
      simp only [Option.some.injEq] at hk
      subst hk
      have hq' := List.mem_zipIdx_iff_getElem?.1 hq
      simp only at hq'
      have hlen := hR.length_eq
      have hlt : k' < xs.length := (List.getElem?_eq_some_iff.1 hq').1
      have hlt' : k' < ivs.length := by omega
      refine ⟨ivs[k'], q, by simp [hlt'], hq', ?_, by linarith⟩
      have := List.Forall₂.get hR hlt' hlt
      have e : xs[k'] = q := (List.getElem?_eq_some_iff.1 hq').2
      simpa [e] using this
    · cases hk
  have hm : ∀ l : List ℕ, (∀ k ∈ l, ∃ i q, ivs[k]? = some i ∧ xs[k]? = some q ∧ R i q ∧ polyVal cs q < b) →
      ∃ sel, l.mapM (getIvl ivs) = .ok sel ∧
      (∀ s ∈ sel, ∃ i ∈ ivs, ∃ q, R i q ∧ polyVal cs q < b ∧ s = .pc (.ivl i)) ∧
      (∀ k ∈ l, ∀ i, ivs[k]? = some i → SSet.pc (.ivl i) ∈ sel) := by
    intro l
    induction l with
    | nil => intro _; exact ⟨[], rfl, by simp, by simp⟩
    | cons k l ih =>
      intro hl
      obtain ⟨sel, h1, h2, h3⟩ := ih (fun k hk => hl k (by simp [hk]))
      obtain ⟨i, q, e1, e2, e3, e4⟩ := hl k (by simp)
      refine ⟨.pc (.ivl i) :: sel, ?_, ?_, ?_⟩
      · rw [List.mapM_cons, h1]; simp [getIvl, e1, bind, Except.bind, pure, Except.pure]
      · intro s hs
        rcases List.mem_cons.1 hs with rfl | hs
        · exact ⟨i, List.mem_of_getElem? e1, q, e3, e4, rfl⟩
        · exact h2 s hs
      · intro k' hk' i' hi'
        rcases List.mem_cons.1 hk' with rfl | hk'
        · rw [e1] at hi'; cases hi'; simp
        · exact List.mem_cons_of_mem _ (h3 k' hk' i' hi')
  obtain ⟨sel, h1, h2, h3⟩ := hm _ hget
  refine ⟨sel, h1, h2, ?_⟩
  intro i hi
  obtain ⟨k, hk, rfl⟩ := List.getElem_of_mem hi
  have hk' : k < xs.length := by rw [← hR.length_eq]; exact hk
  refine ⟨xs[k], by simpa using List.Forall₂.get hR hk hk', ?_⟩
  intro hq
  refine h3 k ?_ _ (by simp [hk])
  simp only [negIdx, List.mem_filterMap]
  refine ⟨(xs[k], k), ?_, ?_⟩
  · rw [List.mem_zipIdx_iff_getElem?]; simp [hk']
  · rw [if_pos (by simpa using hq)]

/-! ## `make_union` of real intervals does not raise -/

theorem reduce_or_total (σ : Orders EReal) (l : List (SSet EReal)) (hne : l ≠ [])
    (hl : ∀ s ∈ l, s.WF ∧ s.Disj ∧ ∀ t, Val.str t ∉ s.den) : ∃ r, makeUnion σ l = .ok r := by
  have key : ∀ (l : List (SSet EReal)), (∀ s ∈ l, s.WF ∧ s.Disj ∧ ∀ t, Val.str t ∉ s.den) → ∀ s : SSet EReal, 
      (s.WF ∧ s.Disj ∧ ∀ t, Val.str t ∉ s.den) → ∃ r, l.foldlM (SSet.or σ) s = .ok r := by
    intro l
    induction l with
    | nil => intro _ s _; exact ⟨s, rfl⟩
    | cons t l ih =>
      intro hl s hs
      have ht := hl t (by simp)
      obtain ⟨r, hr⟩ := SSet.or_total_real σ s t hs.1 ht.1 (SSet.pureReal_of_str hs.1 hs.2.2)
        (SSet.pureReal_of_str ht.1 ht.2.2)
      rw [List.foldlM_cons, hr]
      obtain ⟨g1, g2, g3, -⟩ := reduce_or_spec σ [s, t] (by
        intro u hu; simp only [List.mem_cons, List.not_mem_nil, or_false] at hu
        rcases hu with rfl | rfl
        · exact ⟨hs.1, hs.2.1⟩
        · exact ⟨ht.1, ht.2.1⟩) (r := r) (by simp [reduceM, hr, bind, Except.bind, pure, Except.pure])
      refine ih (fun s h => hl s (by simp [h])) r ⟨g1, g2, fun w hw => ?_⟩
      obtain ⟨u, hu, hw⟩ := g3 _ hw
      simp only [List.mem_cons, List.not_mem_nil, or_false] at hu
      rcases hu with rfl | rfl
      · exact hs.2.2 w hw
      · exact ht.2.2 w hw
  cases l with
  | nil => exact absurd rfl hne
  | cons s l => exact key l (fun s h => hl s (by simp [h])) s (hl s (by simp))

/-- Members of a cell. -/
theorem CellOK.mem_iff {strict : Bool} {zeros : List ℝ} {i : Ivl EReal} {q : ℝ} (h : CellOK strict zeros i q) (x : ℝ) :
    Val.num (x : EReal) ∈ (SSet.pc (.ivl i) : SSet EReal).den ↔
      if strict = true then i.a < x ∧ (x : EReal) < i.b else i.a ≤ x ∧ (x : EReal) ≤ i.b := by
  have h1 := h.lo
  have h2 := h.ro
  simp only [SSet.den, Piece.den, Set.mem_setOf_eq, Ivl.Mem]
  cases strict
  · simp only [Bool.false_or] at h1 h2
    simp only [Val.num.injEq, exists_eq_left', Bool.false_eq_true, if_false]
    by_cases e1 : i.a = ⊥ <;> by_cases e2 : i.b = ⊤ <;>
      simp [h1, h2, e1, e2, EReal.bot_lt_coe, EReal.coe_lt_top]
  · simp only [Bool.true_or] at h1 h2
    simp [h1, h2]

theorem CellOK.wf {strict : Bool} {zeros : List ℝ} {i : Ivl EReal} {q : ℝ} (h : CellOK strict zeros i q) :
    (SSet.pc (.ivl i) : SSet EReal).WF := by
  refine ⟨h.left.trans h.right, ?_, ?_⟩
  · intro e; rw [h.lo]; simp [e]
  · intro e; rw [h.ro]; simp [e]

end Sppl
