import Verif.Spe.BuildLemmas
import Verif.Spe.ContigLemmas

set_option linter.all false

/-!
# Conditioning leaves (helper lemmas)
-/

namespace Sppl
open Classical MeasureTheory
open scoped ENNReal ProbabilityTheory

/-- A possible value of a leaf of kind `k`. -/
def IntOK (k : Kind) (x : ℝ) : Prop := k = .disc → ∃ n : ℤ, x = n

/-- Intervals without a common value. -/
def ApartK (k : Kind) (i j : Ivl EReal) : Prop := ∀ x : ℝ, IntOK k x → ¬ (x ∈ i.reals ∧ x ∈ j.reals)

theorem flattenPiece_ok {k : Kind} {p : Piece EReal} {is : List (Ivl EReal)} (hp : p.WF) (hf : ∀ x, Val.num x ∈ p.den → x ≠ ⊥ ∧ x ≠ ⊤)
    (h : flattenPiece k p = .ok is) :
    (∀ i ∈ is, i.WF ∧ (∀ j : Ivl EReal, (∀ x, Val.num x ∈ p.den → j.Mem x) → j.a ≤ i.a)) ∧
      (∀ x : ℝ, IntOK k x → ((∃ i ∈ is, x ∈ i.reals) ↔ x ∈ p.realSet)) ∧ is.Pairwise (ApartK k) := by
  cases p with
  | nom n => cases h
  | ivl i =>
    cases h
    refine ⟨?_, ?_, List.pairwise_singleton _ _⟩
    · intro j hj
      rw [List.mem_singleton.1 hj]
      exact ⟨hp, fun j hj => ivl_sub_left hp (fun x hx => hj x (by simpa using hx))⟩
    · intro x _; simp [Piece.realSet, Ivl.reals]
  | fin s =>
    cases k with
    | cont => cases h
    | disc =>
      simp only [flattenPiece, bind, Except.bind] at h
      split at h; · cases h
      rename_i bs hbs
      obtain ⟨h1, h2, -⟩ := partitionContiguous_spec hbs
      have hF := mapM_ok h
      have hmem : ∀ x : EReal, x ∈ s ↔ ∃ b ∈ bs, x ∈ b := by
        intro x
        rw [← Finset.mem_sort (α := EReal) (· ≤ ·), ← h1]
        simp
      have hr : ∀ b ∈ bs, ∀ x ∈ b, x ≠ ⊥ ∧ x ≠ ⊤ := fun b hb x hx => hf x (by simpa using (hmem x).2 ⟨b, hb, hx⟩)
      have hS : ∀ b i, b ∈ bs → blockRange b = .ok i → _ := fun b i hb hi => blockRange_spec (h2 b hb).2 (hr b hb) hi
      have hnd : bs.flatten.Nodup := by rw [h1]; exact Finset.sort_nodup _ _
      refine ⟨?_, ?_, ?_⟩
      · intro i hi
        obtain ⟨b, hb, hbi⟩ := forall₂_mem_right hF hi
        obtain ⟨g1, ⟨a, ga, gb⟩, -, g3, g4⟩ := hS b i hb hbi
        refine ⟨g1, fun j hj => ?_⟩
        have hm := hj i.a (by simpa using (hmem i.a).2 ⟨b, hb, gb⟩)
        obtain ⟨hm1, -⟩ := hm
        split at hm1
        · exact hm1.le
        · exact hm1
      · intro x hx
        obtain ⟨n, rfl⟩ := hx rfl
        simp only [Piece.realSet, Set.mem_setOf_eq, Piece.mem_den_fin, hmem]
        constructor
        · rintro ⟨i, hi, hxi⟩
          obtain ⟨b, hb, hbi⟩ := forall₂_mem_right hF hi
          exact ⟨b, hb, ((hS b i hb hbi).2.2.2.1 n).1 hxi⟩
        · rintro ⟨b, hb, hxb⟩
          obtain ⟨i, hi, hbi⟩ := forall₂_mem_left hF hb
          exact ⟨i, hi, ((hS b i hb hbi).2.2.2.1 n).2 hxb⟩
      · have hpw := (List.nodup_flatten.1 hnd).2
        have hpw' : bs.Pairwise (fun a b => (a ∈ bs ∧ b ∈ bs) ∧ List.Disjoint a b) := by
          refine (List.Pairwise.and_mem.1 hpw).imp ?_
          rintro a b ⟨h1, h2, h3⟩; exact ⟨⟨h1, h2⟩, h3⟩
        refine forall₂_pairwise (R := fun b i => blockRange b = .ok i) ?_ hF hpw'
        intro a a' i j h1 h2 h3 x hx hh
        obtain ⟨n, rfl⟩ := hx rfl
        exact h3.2 (((hS a i h3.1.1 h1).2.2.2.1 n).1 hh.1) (((hS a' j h3.1.2 h2).2.2.2.1 n).1 hh.2)

/-- The pieces of a set, in the order of iteration. -/
def SSet.valPieces : SSet EReal → List (Piece EReal)
  | .empty => []
  | .pc p => [p]
  | .un u => u.values

theorem flattenValues_ok {k : Kind} {V : SSet EReal} {is : List (Ivl EReal)} (hw : V.WF) (hd : V.Disj) (hn : V.argPieces.Nodup)
    (hf : ∀ x, Val.num x ∈ V.den → x ≠ ⊥ ∧ x ≠ ⊤) (h : flattenValues k V = .ok is) :
    (∀ i ∈ is, i.WF ∧ (∀ j : Ivl EReal, (∀ x, Val.num x ∈ V.den → j.Mem x) → j.a ≤ i.a)) ∧
      (∀ x : ℝ, IntOK k x → ((∃ i ∈ is, x ∈ i.reals) ↔ x ∈ V.realSet)) ∧ is.Pairwise (ApartK k) := by
  cases V with
  | empty => cases h
  | pc p => exact flattenPiece_ok hw hf h
  | un u =>
    have hu : u.WF := hw
    simp only [flattenValues, bind, Except.bind] at h
    split at h; · cases h
    rename_i ls hls
    cases h
    have hF := mapM_ok hls
    have hP : ∀ p l, p ∈ u.args → flattenPiece k p = .ok l → _ := fun p l hp hl =>
      flattenPiece_ok (hu.pieces p ((hu.mem_args p).1 hp)) (fun x hx => hf x ⟨p, (hu.mem_args p).1 hp, hx⟩) hl
    refine ⟨?_, ?_, ?_⟩
    · intro i hi
      obtain ⟨l, hl, hil⟩ := List.mem_flatten.1 hi
      obtain ⟨p, hp, hpl⟩ := forall₂_mem_right hF hl
      obtain ⟨g1, g2⟩ := (hP p l hp hpl).1 i hil
      exact ⟨g1, fun j hj => g2 j (fun x hx => hj x ⟨p, (hu.mem_args p).1 hp, hx⟩)⟩
    · intro x hx
      have hV : x ∈ (SSet.un u).realSet ↔ ∃ p ∈ u.args, x ∈ p.realSet := by simp [SSet.realSet, SSet.den, Piece.realSet, hu.mem_args]
      rw [hV]
      constructor
      · rintro ⟨i, hi, hxi⟩
        obtain ⟨l, hl, hil⟩ := List.mem_flatten.1 hi
        obtain ⟨p, hp, hpl⟩ := forall₂_mem_right hF hl
        exact ⟨p, hp, ((hP p l hp hpl).2.1 x hx).1 ⟨i, hil, hxi⟩⟩
      · rintro ⟨p, hp, hxp⟩
        obtain ⟨l, hl, hpl⟩ := forall₂_mem_left hF hp
        obtain ⟨i, hi, hxi⟩ := ((hP p l hp hpl).2.1 x hx).2 hxp
        exact ⟨i, List.mem_flatten.2 ⟨l, hl, hi⟩, hxi⟩
    · rw [List.pairwise_flatten]
      refine ⟨fun l hl => ?_, ?_⟩
      · obtain ⟨p, hp, hpl⟩ := forall₂_mem_right hF hl
        exact (hP p l hp hpl).2.2
      · have hpw : u.args.Pairwise (fun p q => (p ∈ u.args ∧ q ∈ u.args) ∧ p ≠ q) := by
          refine (List.Pairwise.and_mem.1 hn).imp ?_
          rintro a b ⟨h1, h2, h3⟩; exact ⟨⟨h1, h2⟩, h3⟩
        refine forall₂_pairwise (R := fun p l => flattenPiece k p = .ok l) ?_ hF hpw
        intro p q l m h1 h2 h3 i hi j hj x hx hh
        have g1 := ((hP p l h3.1.1 h1).2.1 x hx).1 ⟨i, hi, hh.1⟩
        have g2 := ((hP q m h3.1.2 h2).2.1 x hx).1 ⟨j, hj, hh.2⟩
        exact hd p ((hu.mem_args p).1 h3.1.1) q ((hu.mem_args q).1 h3.1.2) h3.2 (.num x) ⟨g1, g2⟩

/-! ## What conditioning has to return -/

/-- `s'` is `s` conditioned on the set `A`. -/
structure CondOK (c : Ctx) (L : Lib) (μ : Dist → Measure ℝ) (s s' : Spe) (A : Set Asg) : Prop where
  wf : s'.WF c L μ
  syms : s'.symbols = s.symbols
  atoms : s'.atomSyms ⊆ s.atomSyms
  mass : s.den μ A ≠ 0
  den : s'.den μ = (s.den μ)[|A]
  ready : ∀ E, s.Ready E → s'.Ready E

theorem cond_self {α : Type} [MeasurableSpace α] {ν : Measure α} [IsProbabilityMeasure ν] {A : Set α} (hA : MeasurableSet A) (h : ∀ᵐ x ∂ν, x ∈ A) : ν[|A] = ν := by
  rw [cond_congr hA MeasurableSet.univ (by filter_upwards [h] with x hx; simp [hx]), cond_univ']

/-! ## Real leaves -/

theorem mkReal_ok {L : Lib} {l : RLeaf} {X : String} {env : Env} {s : Spe} (h : mkReal L l X env = .ok s) :
    s = .real l.k X l.d l.supp l.cond env ∧
      (l.k = .disc → (l.supp.a = ⊥ ∨ ∃ n : ℤ, l.supp.a = ((n : ℝ) : EReal)) ∧ (l.supp.b = ⊤ ∨ ∃ n : ℤ, l.supp.b = ((n : ℝ) : EReal))) := by
  have hl : ∀ x, intOrNegInf x = .ok true → x = ⊥ ∨ ∃ n : ℤ, x = ((n : ℝ) : EReal) := by
    intro x hx
    unfold intOrNegInf at hx
    split at hx; · left; assumption
    split at hx; · cases hx
    right; rw [← isInt_iff]; simpa using hx
  have hr : ∀ x, intOrPosInf x = .ok true → x = ⊤ ∨ ∃ n : ℤ, x = ((n : ℝ) : EReal) := by
    intro x hx
    unfold intOrPosInf at hx
    split at hx; · left; assumption
    split at hx; · cases hx
    right; rw [← isInt_iff]; simpa using hx
  have tail : ∀ {s}, (if l.cond then (do let _ ← l.Z L; .ok (.real l.k X l.d l.supp l.cond env) : Res Spe)
      else .ok (.real l.k X l.d l.supp l.cond env)) = .ok s → s = .real l.k X l.d l.supp l.cond env := by
    intro s h
    split at h
    · simp only [bind, Except.bind] at h
      split at h; · cases h
      cases h; rfl
    · cases h; rfl
  unfold mkReal at h
  cases hk : l.k with
  | cont =>
    simp only [hk, bind, Except.bind] at h
    rw [hk] at tail
    exact ⟨tail h, by simp⟩
  | disc =>
    simp only [hk, bind, Except.bind] at h
    rw [hk] at tail
    cases ha : intOrNegInf l.supp.a with
    | error e => simp [ha] at h
    | ok a =>
    cases a with
    | false => simp [ha, assertB] at h
    | true =>
    cases hb : intOrPosInf l.supp.b with
    | error e => simp [ha, hb, assertB] at h
    | ok b =>
    cases b with
    | false => simp [ha, hb, assertB] at h
    | true =>
    simp only [ha, hb, assertB, if_true] at h
    exact ⟨tail h, fun _ => ⟨hl _ ha, hr _ hb⟩⟩

theorem Ivl.Mem.fin {i : Ivl EReal} (hi : i.WF) {x : EReal} (h : i.Mem x) : x ≠ ⊥ ∧ x ≠ ⊤ := by
  obtain ⟨h1, h2⟩ := h
  constructor
  · rintro rfl
    split at h1
    · exact absurd h1 not_lt_bot
    · rename_i hlo
      exact hlo (hi.2.1 (le_bot_iff.1 h1))
  · rintro rfl
    split at h2
    · exact absurd h2 not_top_lt
    · rename_i hro
      exact hro (hi.2.2 (top_le_iff.1 h2))

theorem condReal_ok {c : Ctx} {L : Lib} {μ : Dist → Measure ℝ} {l : RLeaf} {X : String} {env : Env} {S : SSet EReal} {s' : Spe} (hl : RLeafOK L μ l)
    (hz : l.k = .disc → NotNeg μ l.d l.supp) (hwf : Spe.WF c L μ (.real l.k X l.d l.supp l.cond env)) (hw : S.WF) (hd : S.Disj)
    (h : condReal c L l X env S = .ok s') :
    s'.WF c L μ ∧ s'.symbols = (env.map Prod.fst).toFinset ∧ s'.atomSyms = ∅ ∧ (l.meas μ) S.realSet ≠ 0 ∧
      s'.den μ = ((l.meas μ)[|S.realSet]).map (fun x => env.extend (baseAsg X (.num x))) ∧ (l.d.values = [] → ∀ E, s'.Ready E) := by
  have hP := hl.prob
  have hPd := hl.dist.prob
  obtain ⟨-, hE, -, hreg⟩ := hwf.rleaf
  unfold condReal at h
  simp only [bind, Except.bind] at h
  split at h; · cases h
  rename_i V hV
  split at h; · cases h
  rename_i w hp
  have hw' := realLeaf_prob (c := c) hl hz hw hd hV hp
  split at h; · cases h
  rename_i hw0
  rw [hw'] at hw0
  replace hw0 := real_ne_zero.1 hw0
  obtain ⟨v1, v2, v3, -, -, v6, v7⟩ := realLeaf_values hl hz hw hd hV
  split at h
  · rename_i hVs
    cases h
    refine ⟨hwf, by simp [Spe.symbols], by simp [Spe.atomSyms], hw0, ?_, fun hv E => .real hv⟩
    rw [cond_self (SSet.measurable_realSet S)]
    · rfl
    · filter_upwards [hl.ae_supp] with x hx
      exact ((v7 x).1 (by rw [hVs]; simpa [SSet.den, Ivl.reals] using hx)).2
  · split at h; · cases h
    rename_i is his
    have hfin : ∀ x, Val.num x ∈ V.den → x ≠ ⊥ ∧ x ≠ ⊤ := by
      intro x hx
      have := (v6 _ hx).1
      rw [Piece.mem_den_ivl] at this
      exact Ivl.Mem.fin hl.wf this
    obtain ⟨f1, f2, f3⟩ := flattenValues_ok v1 v2 v3 hfin his
    have hia : ∀ i ∈ is, l.supp.a ≤ i.a := fun i hi => (f1 i hi).2 l.supp (fun x hx => by
      have := (v6 _ hx).1
      rwa [Piece.mem_den_ivl] at this)
    have hok : ∀ᵐ x : ℝ ∂(μ l.d), IntOK l.k x := by
      cases hk : l.k with
      | cont => exact Filter.Eventually.of_forall (fun x h => by cases h)
      | disc =>
        have h0 := hl.dist
        rw [hk] at h0
        filter_upwards [h0.ae_int] with x hx _ using hx
    have hokν : ∀ᵐ x : ℝ ∂(l.meas μ), IntOK l.k x := RLeafOK.ae hok
    unfold condIvls at h
    simp only [bind, Except.bind] at h
    split at h; · cases h
    rename_i ps hps
    have hps' : ps = is.map (fun i => (l.meas μ).real i.reals) := mapM_map_eq hps (fun i hi p hp =>
      hl.probIvl_ok (f1 i hi).1 (fun hk => (hz hk).trunc (f1 i hi).1 (hia i hi)) hp)
    have hgood : (is.zip ps).filter (fun q => q.2 ≠ 0) =
        (is.filter (fun i => (l.meas μ).real i.reals ≠ 0)).map (fun i => (i, (l.meas μ).real i.reals)) := by
      have e : is.zip ps = is.map (fun i => (i, (l.meas μ).real i.reals)) := by
        rw [hps']; clear * -; induction is with
        | nil => rfl
        | cons i is ih => simp [ih]
      rw [e, List.filter_map]; rfl
    split at h; · cases h
    split at h; · cases h
    rename_i hgne
    split at h; · cases h
    rename_i children hch
    rw [hgood] at hch hgne h
    set G := is.filter (fun i => (l.meas μ).real i.reals ≠ 0) with hG
    have hGis : ∀ i ∈ G, i ∈ is ∧ (l.meas μ) i.reals ≠ 0 := by
      intro i hi
      rw [hG, List.mem_filter] at hi
      exact ⟨hi.1, real_ne_zero.1 (by simpa using hi.2)⟩
    have hGne : G ≠ [] := by rintro h; simp [h] at hgne
    have hmk : ∀ i ∈ G, ∃ s, mkReal L ⟨l.k, l.d, i, true⟩ X env = .ok s := by
      intro i hi
      obtain ⟨s, -, hs⟩ := forall₂_mem_left (mapM_ok hch) (List.mem_map.2 ⟨i, hi, rfl⟩)
      exact ⟨s, hs⟩
    have hchildren : children = G.map (fun i => Spe.real l.k X l.d i true env) := by
      have := mapM_map_eq hch (g := fun q => Spe.real l.k X l.d q.1 true env) (fun q hq s hs => (mkReal_ok hs).1)
      rw [this, List.map_map]; rfl
    -- the measure of a child
    have hmeas : ∀ i ∈ G, (μ l.d)[|i.reals] = (l.meas μ)[|i.reals] := by
      intro i hi
      have hm1 : MeasurableSet l.supp.reals := Ivl.measurableSet _
      have hm2 : MeasurableSet i.reals := Ivl.measurableSet _
      unfold RLeaf.meas realMeas
      split
      · rw [ProbabilityTheory.cond_cond_eq_cond_inter hm1 hm2]
        refine cond_congr hm2 (hm1.inter hm2) ?_
        filter_upwards [hok] with x hx
        constructor
        · intro hxi
          exact ⟨((v7 x).1 ((f2 x hx).1 ⟨i, (hGis i hi).1, hxi⟩)).1, hxi⟩
        · exact fun h => h.2
      · rfl
    have hden : ∀ i ∈ G, (Spe.real l.k X l.d i true env).den μ = ((l.meas μ)[|i.reals]).map (fun x => env.extend (baseAsg X (.num x))) := by
      intro i hi
      simp only [Spe.den, realMeas, if_true]
      rw [hmeas i hi]; rfl
    have hcwf : ∀ i ∈ G, Spe.WF c L μ (.real l.k X l.d i true env) := by
      intro i hi
      obtain ⟨s, hs⟩ := hmk i hi
      have hint := (mkReal_ok hs).2
      refine .real hl.dist hE (f1 i (hGis i hi).1).1 (fun hk => ⟨⟨(hz hk).sub (hia i (hGis i hi).1), (hint hk).1⟩, (hint hk).2⟩) ?_ ?_
      · simp only [if_true]
        exact fun h0 => (hGis i hi).2 (RLeafOK.ac l h0)
      · simp only [realMeas, if_true]
        rw [hmeas i hi]
        exact ProbabilityTheory.cond_absolutelyContinuous.ae_le hreg
    have hmB : ∀ B ∈ G.map Ivl.reals, MeasurableSet B := by
      intro B hB
      obtain ⟨i, -, rfl⟩ := List.mem_map.1 hB
      exact Ivl.measurableSet _
    -- the union of the intervals is the solution set
    have hnull : ∀ᵐ x : ℝ ∂(l.meas μ), ∀ i ∈ is, x ∈ i.reals → i ∈ G := by
      have : ∀ l' : List (Ivl EReal), (∀ i ∈ l', i ∈ is) → ∀ᵐ x : ℝ ∂(l.meas μ), ∀ i ∈ l', x ∈ i.reals → i ∈ G := by
        intro l'
        induction l' with
        | nil => intro _; simp
        | cons i l' ih =>
          intro hsub
          have h2 := ih (fun j hj => hsub j (by simp [hj]))
          by_cases hi : i ∈ G
          · filter_upwards [h2] with x hx j hj hxj
            rcases List.mem_cons.1 hj with rfl | hj
            · exact hi
            · exact hx j hj hxj
          · have h0 : (l.meas μ) i.reals = 0 := by
              by_contra hne
              refine hi (List.mem_filter.2 ⟨hsub i (by simp), ?_⟩)
              simpa using real_ne_zero.2 hne
            have h0' : ∀ᵐ x : ℝ ∂(l.meas μ), x ∉ i.reals := by
              rw [ae_iff]; simpa using h0
            filter_upwards [h2, h0'] with x hx hxi j hj hxj
            rcases List.mem_cons.1 hj with rfl | hj
            · exact absurd hxj hxi
            · exact hx j hj hxj
      exact this is (fun _ h => h)
    have hunion : (l.meas μ)[|{x | ∃ B ∈ G.map Ivl.reals, x ∈ B}] = (l.meas μ)[|S.realSet] := by
      refine cond_congr (measurable_exists hmB) (SSet.measurable_realSet S) ?_
      filter_upwards [hokν, hl.ae_supp, hnull] with x h1 h2 h3
      have e : x ∈ S.realSet ↔ x ∈ V.realSet := by
        show Val.num (x : EReal) ∈ S.den ↔ Val.num (x : EReal) ∈ V.den
        rw [v7 x]; exact ⟨fun h => ⟨h2, h⟩, fun h => h.2⟩
      rw [e, ← f2 x h1]
      constructor
      · rintro ⟨B, hB, hx⟩
        obtain ⟨i, hi, rfl⟩ := List.mem_map.1 hB
        exact ⟨i, (hGis i hi).1, hx⟩
      · rintro ⟨i, hi, hx⟩
        exact ⟨i.reals, List.mem_map.2 ⟨i, h3 i hi hx, rfl⟩, hx⟩
    have hnd : NullDisj (l.meas μ) (G.map Ivl.reals) := by
      unfold NullDisj
      rw [List.pairwise_map]
      refine ((f3.sublist (List.filter_sublist)).imp ?_)
      intro i j hij
      have : ∀ᵐ x : ℝ ∂(l.meas μ), x ∉ i.reals ∩ j.reals := by
        filter_upwards [hokν] with x hx using hij x hx
      rw [ae_iff] at this
      simpa using this
    have hpos : ∀ B ∈ G.map Ivl.reals, (l.meas μ) B ≠ 0 := by
      intro B hB
      obtain ⟨i, hi, rfl⟩ := List.mem_map.1 hB
      exact (hGis i hi).2
    have hmix := mix_cond hmB hnd hpos (by simpa using hGne)
    rw [hunion] at hmix
    have hsym : ∀ i, (Spe.real l.k X l.d i true env).symbols = (env.map Prod.fst).toFinset := fun i => by simp [Spe.symbols]
    split at h
    · rename_i s
      cases h
      -- one child
      have : ∃ i, G = [i] ∧ s' = Spe.real l.k X l.d i true env := by
        cases hGc : G with
        | nil => exact absurd hGc hGne
        | cons i t =>
          rw [hGc] at hchildren
          cases t with
          | nil => exact ⟨i, rfl, by simpa using hchildren⟩
          | cons => simp at hchildren
      obtain ⟨i, hGi, rfl⟩ := this
      have hi : i ∈ G := by simp [hGi]
      refine ⟨hcwf i hi, hsym i, by simp [Spe.atomSyms], hw0, ?_, fun hv E => .real hv⟩
      rw [hden i hi, ← hunion, hGi]
      congr 2
      ext x; simp
    · rename_i cs hcs
      have hwpos := pnorm_ok (l := (G.map (fun i => (i, (l.meas μ).real i.reals))).map Prod.snd) (by
        intro x hx
        rw [List.map_map] at hx
        obtain ⟨i, hi, rfl⟩ := List.mem_map.1 hx
        exact real_pos (hGis i hi).2) (by simpa using hGne)
      rw [hchildren] at h
      obtain ⟨m1, m2, m3, m4, -, -, -, m5⟩ := mkSum_ok (c := c) (L := L) (μ := μ) (by
        intro t ht
        obtain ⟨i, hi, rfl⟩ := List.mem_map.1 ht
        exact hcwf i hi) (fun w hw => (hwpos.1 w hw).le) h
      obtain ⟨i0, hi0⟩ := List.exists_mem_of_ne_nil _ hGne
      refine ⟨m1, ?_, ?_, hw0, ?_, fun hv E => m5 E ?_ hwpos.1⟩
      · rw [← m2 _ (List.mem_map.2 ⟨i0, hi0, rfl⟩), hsym]
      · rw [Finset.eq_empty_iff_forall_notMem]
        intro x hx
        obtain ⟨t, ht, hxt⟩ := Spe.mem_atomSymsL.1 (m4 hx)
        obtain ⟨i, hi, rfl⟩ := List.mem_map.1 ht
        simp [Spe.atomSyms] at hxt
      · rw [m3, ← hmix, mixG_map (measurable_leafAsg X env), mixture_eq, List.map_map, List.map_map, List.map_map, List.map_map]
        congr 1
        rw [List.map_map]
        refine List.map_congr_left ?_
        intro i hi
        exact hden i hi
      · intro t ht
        obtain ⟨i, hi, rfl⟩ := List.mem_map.1 ht
        exact .real hv

/-! ## Nominal leaves -/

theorem nominal_restrict {X : String} {A : Set Asg} (hA : MeasurableSet A) {vals : Finset String} {p : ℚ} (hp : 0 < p) : ∀ {dist : List (String × ℚ)},
    (∀ q ∈ dist, 0 ≤ q.2) → (∀ q ∈ dist, (q.1 ∈ vals ↔ baseAsg X (.str q.1) ∈ A)) →
    mixG ((dist.map (fun q => (q.1, if q.1 ∈ vals then q.2 / p else 0))).map (fun q => ((q.2 : ℚ) : ℝ)))
        ((dist.map (fun q => (q.1, if q.1 ∈ vals then q.2 / p else 0))).map (fun q => Measure.dirac (baseAsg X (.str q.1)))) =
      (ENNReal.ofReal (p : ℝ))⁻¹ • (mixG (dist.map (fun q => (q.2 : ℝ))) (dist.map (fun q => Measure.dirac (baseAsg X (.str q.1))))).restrict A
  | [], _, _ => by simp
  | q :: dist, h0, hv => by
    have ih := nominal_restrict hA hp (dist := dist) (fun q hq => h0 q (by simp [hq])) (fun q hq => hv q (by simp [hq]))
    simp only [List.map_cons, mixG_cons] at ih ⊢
    rw [Measure.restrict_add, smul_add, ih, Measure.restrict_smul]
    congr 1
    have hvq := hv q (by simp)
    rw [restrict_dirac' hA]
    have hpr : (0 : ℝ) < (p : ℝ) := by exact_mod_cast hp
    by_cases hq : q.1 ∈ vals
    · rw [if_pos hq, if_pos (hvq.1 hq), smul_smul]
      congr 1
      push_cast
      rw [ENNReal.ofReal_div_of_pos hpr, ENNReal.div_eq_inv_mul]
    · rw [if_neg hq, if_neg (fun h => hq (hvq.2 h))]
      simp

theorem mkNominal_ok {X : String} {dist : List (String × ℚ)} {s : Spe} (h : mkNominal X dist = .ok s) : s = .nominal X dist ∧ (dist.map Prod.snd).sum = 1 := by
  unfold mkNominal at h
  simp only [bind, Except.bind] at h
  split at h; · cases h
  split at h
  · cases h; exact ⟨rfl, by assumption⟩
  · cases h

theorem condNominal_ok {c : Ctx} {L : Lib} {μ : Dist → Measure ℝ} {X : String} {dist : List (String × ℚ)} {A : Set Asg} (hA : MeasurableSet A) {vals : Finset String}
    {p : ℚ} {s' : Spe} (hs : Spe.WF c L μ (.nominal X dist)) (hp : nominalMass dist vals = .ok p)
    (hv : ∀ q ∈ dist, (q.1 ∈ vals ↔ baseAsg X (.str q.1) ∈ A)) (h : condNominal X dist vals p = .ok s') :
    CondOK c L μ (.nominal X dist) s' A := by
  have hPr := hs.prob
  cases hs with
  | nominal hn h0 h1 =>
  have hmass : (p : ℝ) = ((Spe.nominal X dist).den μ).real A := by
    rw [nominal_real (c := c) (L := L) h0 hA, (nominalMass_ok hn hp).1]
    rw [show (((dist.map (fun q => if q.1 ∈ vals then q.2 else 0)).sum : ℚ) : ℝ) =
      ((dist.map (fun q => if q.1 ∈ vals then q.2 else 0)).map (Rat.cast : ℚ → ℝ)).sum from map_list_sum (Rat.castHom ℝ) _, List.map_map]
    congr 1
    refine List.map_congr_left ?_
    intro q hq
    simp only [Function.comp, hv q hq]
    split <;> simp
  unfold condNominal at h
  split at h; · cases h
  rename_i hp0
  have hm : (Spe.nominal X dist).den μ A ≠ 0 := by
    rw [← real_ne_zero, ← hmass]; exact_mod_cast hp0
  split at h
  · rename_i hp1
    cases h
    refine ⟨.nominal hn h0 h1, rfl, fun _ h => h, hm, ?_, fun E _ => .nominal⟩
    rw [cond_self hA]
    refine (mem_ae_iff_prob_eq_one hA).2 ?_
    rw [hp1] at hmass
    have : ((Spe.nominal X dist).den μ).real A = 1 := by rw [← hmass]; simp
    rw [measureReal_def, ENNReal.toReal_eq_one_iff] at this
    exact this
  · obtain ⟨rfl, hs1⟩ := mkNominal_ok h
    have hpos : 0 < p := by
      have : (0 : ℝ) < (p : ℝ) := by rw [hmass]; exact real_pos hm
      exact_mod_cast this
    refine ⟨.nominal ?_ ?_ hs1, rfl, by simp [Spe.atomSyms], hm, ?_, fun E _ => .nominal⟩
    · simpa [List.map_map, Function.comp_def] using hn
    · intro q hq
      obtain ⟨q', hq', rfl⟩ := List.mem_map.1 hq
      simp only
      split
      · exact div_nonneg (h0 q' hq') hpos.le
      · exact le_refl _
    · unfold ProbabilityTheory.cond
      have e : (Spe.nominal X dist).den μ A = ENNReal.ofReal (p : ℝ) := by
        rw [hmass, measureReal_def, ENNReal.ofReal_toReal (measure_ne_top _ _)]
      rw [e]
      simp only [Spe.den, mixture_eq]
      exact nominal_restrict hA hpos h0 hv

/-! ## Leaves -/

theorem leafCond_ok {c : Ctx} {L : Lib} {μ : Dist → Measure ℝ} (hc : c.Correct) {n : ℕ} {s s' : Spe} {e : Ev} (hs : s.WF c L μ)
    (he : LeafEvOK c s e) (hr : ∀ᵐ ω ∂(s.den μ), e.Regular ω) (h : leafCond c L n s e = .ok s') : CondOK c L μ s s' e.set := by
  have hPr := hs.prob
  unfold leafCond at h
  cases s with
  | sum | prod => exact absurd he id
  | real k X d supp cond env =>
    simp only [Spe.leafEnv, bind, Except.bind] at h
    split at h; · cases h
    rename_i r hsub
    split at h; · cases h
    rename_i S hS
    simp only [leafCondSet] at h
    obtain ⟨hl, hE, hz, hreg⟩ := hs.rleaf
    obtain ⟨w1, w2, w3⟩ := leaf_solve hc hE he hsub hS
    obtain ⟨g1, g2, g3, g4, g5, g6⟩ := condReal_ok (c := c) hl hz hs w1 w2 h
    have hr' : ∀ᵐ x : ℝ ∂(realMeas μ d supp cond), e.Regular (env.extend (baseAsg X (.num x))) := by
      simp only [Spe.den] at hr
      exact ae_of_ae_map (measurable_leafAsg X env).aemeasurable hr
    have hae : ∀ᵐ x : ℝ ∂(realMeas μ d supp cond), x ∈ S.realSet ↔ x ∈ (fun x : ℝ => env.extend (baseAsg X (.num x))) ⁻¹' e.set := by
      filter_upwards [hr', hreg] with x h1 h2
      exact w3 x h2 h1
    refine ⟨g1, by rw [g2]; simp [Spe.symbols], by rw [g3]; simp, ?_, ?_, fun E hE => by cases hE with | real hv => exact g6 hv E⟩
    · simp only [Spe.den]
      rw [Measure.map_apply (measurable_leafAsg X env) e.measurable_set, ← measure_congr (Filter.eventuallyEq_set.2 hae)]
      exact g4
    · rw [g5]
      simp only [Spe.den]
      rw [cond_map (measurable_leafAsg X env) _ e.measurable_set]
      congr 1
      exact cond_congr (SSet.measurable_realSet S) (measurable_leafAsg X env e.measurable_set) hae
  | atomic X v env =>
    simp only [Spe.leafEnv, bind, Except.bind] at h
    split at h; · cases h
    rename_i r hsub
    split at h; · cases h
    rename_i S hS
    simp only [leafCondSet, bind, Except.bind] at h
    split at h; · cases h
    rename_i b hb
    cases b with
    | false => simp [assertB] at h
    | true =>
    simp only [assertB, if_true] at h
    cases h
    have hp : leafProb c L n (.atomic X v env) e = .ok 1 := by
      simp [leafProb, Spe.leafEnv, bind, Except.bind, hsub, hS, leafProbSet, hb]
    have hp' := leafProb_ok hc hs he hr hp
    have hm : (Spe.atomic X v env).den μ e.set = 1 := by
      rw [eq_comm, measureReal_def, ENNReal.toReal_eq_one_iff] at hp'
      exact hp'
    refine ⟨hs, rfl, fun _ h => h, by rw [hm]; exact one_ne_zero, ?_, fun _ h => h⟩
    rw [cond_self e.measurable_set]
    exact (mem_ae_iff_prob_eq_one e.measurable_set).2 hm
  | nominal X dist =>
    simp only [Spe.leafEnv, bind, Except.bind] at h
    split at h; · cases h
    rename_i r hsub
    split at h; · cases h
    rename_i S hS
    simp only [leafCondSet, bind, Except.bind] at h
    split at h; · cases h
    rename_i V hV
    obtain ⟨w1, w2, w3⟩ := nominal_solve hc he hsub hS
    rcases nominalValues_ok w1 w2 hV with ⟨rfl, hx⟩ | ⟨m, rfl, hne, hm⟩ | ⟨u, rfl⟩
    · cases h
    · simp only at h
      split at h; · cases h
      rename_i p hp
      refine condNominal_ok e.measurable_set hs hp ?_ h
      intro q hq
      rw [hm, w3]
      exact ⟨fun h => h.2, fun h => ⟨List.mem_map.2 ⟨q, hq, rfl⟩, h⟩⟩
    · cases h

end Sppl
