import Verif.Spe.CondLeaf
import Verif.Spe.TotalSpec
import Verif.Spe.ContigProps
import Verif.Spe.PartialLemmas
import Verif.Dnf.Total3Lemmas

set_option linter.all false

/-!
# Leaves never raise on the events they are asked about (helper lemmas)
-/

namespace Sppl
open Classical MeasureTheory
open scoped ENNReal ProbabilityTheory

variable {c : Ctx} {L : Lib} {μ : Dist → Measure ℝ} {l : RLeaf}

theorem pdiff_total {a b : ℝ} (h : b ≤ a) : ∃ r, pdiff a b = .ok r := by
  unfold pdiff
  split
  · exact ⟨_, rfl⟩
  · rw [if_pos (by linarith)]; exact ⟨_, rfl⟩

theorem DistOK.cdf_mono {k : Kind} {d : Dist} (h : DistOK L μ k d) {x y : EReal} (hxy : x ≤ y) : L.cdf d x ≤ L.cdf d y := by
  have := h.prob
  rw [h.cdf, h.cdf]
  exact measureReal_mono (fun z hz => le_trans hz hxy)

theorem isInt_top : isInt (⊤ : EReal) ≠ true := by
  rw [Ne, isInt_iff]; rintro ⟨n, hn⟩; exact absurd hn.symm (EReal.coe_ne_top _)

theorem int_coe_sub (n : ℤ) : (((n : ℝ) : EReal) - 1) = (((n - 1 : ℤ) : ℝ) : EReal) := by
  rw [coe_sub_one]; push_cast; rfl

/-- The lower end of an interval is at most its upper end, after rounding. -/
theorem ivlLo_le_ivlHi {k : Kind} {i : Ivl EReal} (hi : i.WF) (ht : k = .disc → TruncOK i) : ivlLo k i ≤ ivlHi k i := by
  cases k with
  | cont => exact hi.1.le
  | disc =>
    have ht := ht rfl
    have sub_le : ∀ x : EReal, ∀ P : Prop, [Decidable P] → x - (if P then 1 else 0) ≤ x := by
      intro x P _
      split
      · exact EReal.sub_le_of_le_add (by simpa using add_le_add_right (show (0 : EReal) ≤ 1 from zero_le_one) x)
      · simp
    simp only [ivlLo, ivlHi]
    -- the integers strictly below `i.b` after rounding
    obtain ⟨a, b, lo, ro⟩ := i
    obtain ⟨h1, h2, h3⟩ := hi
    simp only [TruncOK] at h1 h2 h3 ht ⊢
    refine (sub_le _ _).trans ?_
    have fin_a : a = ⊥ ∨ ∃ m : ℤ, floatToInt a = ((m : ℝ) : EReal) ∧ ∀ n : ℤ, a < ((n : ℝ) : EReal) → m < n := by
      rcases ht.1 with h | ⟨n, h⟩ | h
      · exact .inl h
      · right; exact ⟨n, by rw [h, floatToInt_int], fun k hk => by rw [h] at hk; exact_mod_cast hk⟩
      · right
        induction a with
        | bot => simp at h
        | top => simp at h1
        | coe x =>
          have hx : 0 ≤ x := by exact_mod_cast h
          refine ⟨⌊x⌋, floatToInt_nonneg hx, fun n hn => ?_⟩
          rw [Int.floor_lt]; exact_mod_cast hn
    rcases fin_a with rfl | ⟨m, hm, hm'⟩
    · simp
    rw [hm]
    have hbint : ∀ n : ℤ, b = ((n : ℝ) : EReal) → ((m : ℝ) : EReal) ≤ floatToInt b - (if ro = true ∧ isInt b = true then 1 else 0) := by
      intro n hn
      subst hn
      have := hm' n h1
      rw [floatToInt_int]
      split
      · rw [int_coe_sub]
        exact_mod_cast (by omega : m ≤ n - 1)
      · simp only [sub_zero]
        exact_mod_cast this.le
    rcases ht.2 with h | ⟨n, h⟩ | h
    · subst h
      simp [isInt_top]
    · exact hbint n h
    · induction b with
      | bot => simp at h1
      | top => simp [isInt_top]
      | coe y =>
        have hy : 0 ≤ y := by exact_mod_cast h
        by_cases hiy : isInt (y : EReal) = true
        · obtain ⟨n, hn⟩ := isInt_iff.1 hiy
          exact hbint n hn
        · rw [if_neg (by simp [hiy]), floatToInt_nonneg hy, sub_zero]
          have : m < ⌊y⌋ + 1 := hm' _ (h1.trans (by exact_mod_cast Int.lt_floor_add_one y))
          exact_mod_cast (by omega : m ≤ ⌊y⌋)

theorem RLeafOK.Z_ok_total (h : RLeafOK L μ l) : ∃ z, l.Z L = .ok z := by
  unfold RLeaf.Z
  refine pdiff_total ?_
  rw [RLeaf.Fl_eq, h.low_eq.1, h.low_eq.2]
  exact h.dist.cdf_mono (ivlLo_le_ivlHi h.wf h.supp_trunc)

theorem RLeafOK.low_le_xl (h : RLeafOK L μ l) : l.low ≤ l.xl := by
  unfold RLeaf.low
  cases hk : l.k with
  | cont => exact le_rfl
  | disc => exact EReal.sub_le_of_le_add (by simpa using add_le_add_right (show (0 : EReal) ≤ 1 from zero_le_one) l.xl)

theorem RLeafOK.cdf_total (h : RLeafOK L μ l) (x : EReal) : ∃ p, l.cdf L x = .ok p := by
  unfold RLeaf.cdf
  split; · exact ⟨_, rfl⟩
  split; · exact ⟨_, rfl⟩
  split; · exact ⟨_, rfl⟩
  rename_i hx
  obtain ⟨p, hp⟩ := pdiff_total (a := L.cdf l.d x) (b := l.Fl L) (by
    rw [RLeaf.Fl_eq]
    exact h.dist.cdf_mono (h.low_le_xl.trans (not_lt.1 hx)))
  obtain ⟨z, hz⟩ := h.Z_ok_total
  simp only [hp, hz, bind, Except.bind]
  exact ⟨_, rfl⟩

theorem RLeafOK.probIvl_total (h : RLeafOK L μ l) {i : Ivl EReal} (hi : i.WF) (ht : l.k = .disc → TruncOn (μ l.d (Set.Iic 0) = 0) i) : ∃ p, l.probIvl L i = .ok p := by
  have hP := h.prob
  have key : ∀ {x y : EReal}, x ≤ y ∨ (μ l.d (Set.Iic 0) = 0 ∧ x ≤ 0) → ∃ fl fu p, l.cdf L x = .ok fl ∧ l.cdf L y = .ok fu ∧ pdiff fu fl = .ok p := by
    intro x y hxy
    obtain ⟨fl, hfl⟩ := h.cdf_total x
    obtain ⟨fu, hfu⟩ := h.cdf_total y
    obtain ⟨p, hp⟩ := pdiff_total (a := fu) (b := fl) (by
      rw [h.cdf_ok hfl, h.cdf_ok hfu]
      rcases hxy with hxy | ⟨h0, hx⟩
      · exact measureReal_mono (fun z hz => le_trans hz hxy)
      · refine le_trans (le_of_eq ?_) measureReal_nonneg
        rw [measureReal_def, measure_mono_null (t := Set.Iic 0) (fun z hz => ?_) (RLeafOK.ac l h0)]
        · rfl
        · exact_mod_cast le_trans hz hx)
    exact ⟨fl, fu, p, hfl, hfu, hp⟩
  have hle : ivlLo l.k i ≤ ivlHi l.k i ∨ (μ l.d (Set.Iic 0) = 0 ∧ ivlLo l.k i ≤ 0) := by
    cases hk : l.k with
    | cont => exact .inl (ivlLo_le_ivlHi hi (fun h => by cases h))
    | disc =>
      rcases ht hk with hP | ht
      · by_cases ha : 0 ≤ i.a
        · exact .inl (ivlLo_le_ivlHi hi (fun _ => ⟨.inr (.inr ha), .inr (.inr (ha.trans hi.1.le))⟩))
        · refine .inr ⟨hP, (sub_ite_le _ _).trans ?_⟩
          induction hia : i.a with
          | bot => simp
          | top => rw [hia] at ha; simp at ha
          | coe x => exact floatToInt_neg (by rw [hia, not_le] at ha; exact_mod_cast ha)
      · exact .inl (ivlLo_le_ivlHi hi (fun _ => ht))
  unfold RLeaf.probIvl
  cases hk : l.k with
  | cont =>
    rw [hk] at hle
    obtain ⟨fl, fu, p, h1, h2, h3⟩ := key hle
    simp only [ivlLo, ivlHi] at h1 h2
    simp only [h1, h2, h3, bind, Except.bind]
    exact ⟨_, rfl⟩
  | disc =>
    rw [hk] at hle
    have hl : ∃ il, leftIncl i = .ok il ∧ floatToInt i.a - (if il = true then 1 else 0) = ivlLo .disc i := by
      unfold leftIncl
      cases hlo : i.lo
      · have ha : i.a ≠ ⊥ := fun ha => by have := hi.2.1 ha; rw [hlo] at this; cases this
        have ha' : i.a ≠ ⊤ := ne_top_of_lt hi.1
        refine ⟨isInt i.a, by simp [intOrNegInf, ha, ha'], by simp [ivlLo, hlo]⟩
      · exact ⟨false, by simp, by simp [ivlLo, hlo]⟩
    have hr : ∃ ir, rightExcl i = .ok ir ∧ floatToInt i.b - (if ir = true then 1 else 0) = ivlHi .disc i := by
      unfold rightExcl
      cases hro : i.ro
      · exact ⟨false, by simp, by simp [ivlHi, hro]⟩
      · have hb' : i.b ≠ ⊥ := ne_bot_of_gt hi.1
        by_cases hb : i.b = ⊤
        · refine ⟨true, by simp [intOrPosInf, hb], ?_⟩
          have e : isInt (⊤ : EReal) = false := by simpa using isInt_top
          simp only [ivlHi, hb, e, floatToInt_top, if_true]
          simp
          exact EReal.top_sub_coe 1
        · exact ⟨isInt i.b, by simp [intOrPosInf, hb, hb'], by simp [ivlHi, hro]⟩
    obtain ⟨il, hil, eil⟩ := hl
    obtain ⟨ir, hir, eir⟩ := hr
    obtain ⟨fl, fu, p, h1, h2, h3⟩ := key hle
    rw [← eil] at h1
    rw [← eir] at h2
    simp only [hil, hir, h1, h2, h3, bind, Except.bind]
    exact ⟨_, rfl⟩

theorem RLeafOK.pmf_total (h : RLeafOK L μ l) (x : EReal) : ∃ p, l.pmf L x = .ok p := by
  unfold RLeaf.pmf
  split; · exact ⟨_, rfl⟩
  split; · exact ⟨_, rfl⟩
  obtain ⟨z, hz⟩ := h.Z_ok_total
  simp only [hz, bind, Except.bind]
  exact ⟨_, rfl⟩

theorem RLeafOK.probFinite_total (h : RLeafOK L μ l) (s : Finset EReal) : ∃ p, l.probFinite L s = .ok p := by
  unfold RLeaf.probFinite
  cases l.k with
  | cont => exact ⟨_, rfl⟩
  | disc =>
    obtain ⟨ps, hps, -⟩ := mapM_total (P := fun _ => True) (l := s.sort (· ≤ ·)) (f := l.pmf L) (fun x _ => by
      obtain ⟨p, hp⟩ := h.pmf_total x
      exact ⟨p, hp, trivial⟩)
    simp only [hps, bind, Except.bind]
    exact ⟨_, rfl⟩

theorem RLeafOK.probPiece_total (h : RLeafOK L μ l) {q : Piece EReal} (hq : q.WF) (ht : PieceTrunc (μ l.d (Set.Iic 0) = 0) l.k q) (hn : ∀ n, q ≠ .nom n) : ∃ p, l.probPiece L q = .ok p := by
  cases q with
  | nom n => exact absurd rfl (hn n)
  | fin s => exact h.probFinite_total s
  | ivl i => exact h.probIvl_total hq (fun hk => ht hk i rfl)

/-- `logprob__` of a real leaf raises only if the intersection with the support does. -/
theorem realLeaf_prob_total (hl : RLeafOK L μ l) (hz : l.k = .disc → NotNeg μ l.d l.supp) {S V : SSet EReal}
    (hw : S.WF) (hd : S.Disj) (hV : SSet.and c.σ (.pc (.ivl l.supp)) S = .ok V) : ∃ p, l.probValues L V = .ok p := by
  obtain ⟨h1, h2, h3, h4, h5, h6, -⟩ := realLeaf_values hl hz hw hd hV
  have hp : ∀ p ∈ V.argPieces, ∃ r, l.probPiece L p = .ok r := by
    intro p hp
    refine hl.probPiece_total (h5 p hp).1 (h4 p hp) ?_
    rintro n rfl
    obtain ⟨v, hv⟩ := (h5 _ hp).1.nonempty
    have := (h6 v ((h5 _ hp).2 v hv)).1
    obtain ⟨x, rfl, -⟩ := hv
    simp at this
  cases V with
  | empty => exact ⟨_, rfl⟩
  | pc p => exact hp p (by simp [SSet.argPieces])
  | un u =>
    obtain ⟨ps, hps, -⟩ := mapM_total (P := fun _ => True) (l := u.args) (f := l.probPiece L) (fun p h => by
      obtain ⟨r, hr⟩ := hp p h
      exact ⟨r, hr, trivial⟩)
    simp only [RLeaf.probValues, hps, bind, Except.bind]
    exact ⟨_, rfl⟩

theorem solve_lit {k : String} {l : Ev} (h : l.basic? = some (.id k)) (n : ℕ) : l.solve c n = .ok l.values := by
  cases l with
  | ivl t i => simp only [Ev.basic?, Option.some.injEq] at h; subst h; rfl
  | fin t v => simp only [Ev.basic?, Option.some.injEq] at h; subst h; cases v <;> rfl
  | nom t v => simp only [Ev.basic?, Option.some.injEq] at h; subst h; cases v <;> rfl
  | or => simp [Ev.basic?] at h
  | and => simp [Ev.basic?] at h

theorem symbols_lit {k : String} {l : Ev} (h : l.basic? = some (.id k)) : l.symbols = {k} := by
  cases l with
  | ivl t i => simp only [Ev.basic?, Option.some.injEq] at h; subst h; simp [Ev.symbols, Tr.symbols]
  | fin t v => simp only [Ev.basic?, Option.some.injEq] at h; subst h; simp [Ev.symbols, Tr.symbols]
  | nom t v => simp only [Ev.basic?, Option.some.injEq] at h; subst h; simp [Ev.symbols, Tr.symbols]
  | or => simp [Ev.basic?] at h
  | and => simp [Ev.basic?] at h

theorem values_wf {l : Ev} (h : l.Valid) : l.values.WF := by
  cases h with
  | ivl h => exact h
  | @fin t v h => cases v with
    | none => trivial
    | some s => exact h s rfl
  | @nom t v h => cases v with
    | none => trivial
    | some s => exact h s rfl
  | or => trivial
  | and => trivial

theorem values_disj (l : Ev) : l.values.Disj := by
  have := l.values_not_un
  cases h : l.values with
  | un u => exact absurd h (this u)
  | _ => trivial

/-- An event about the base variable of a leaf is left alone by the substitution. -/
theorem leafSubst_base {X : String} {env : Env} (hE : EnvBuilt X env) {l : Ev} (h : l.symbols = {X}) (n : ℕ) : leafSubst c n X env l = .ok l := by
  have hno : ¬ exprInEnv l.symbols env := by
    rintro ⟨s, hs, hs'⟩
    rw [h, Finset.mem_singleton] at hs
    subst hs
    exact hs' hE.get_base
  have hsub : l.substitute c n env n = .ok l := by cases n <;> simp [Ev.substitute, hno]
  have hm : ∀ s ∈ l.symbols, s ∈ env.map Prod.fst := by
    intro s hs
    rw [h, Finset.mem_singleton] at hs
    subst hs
    exact hE.base_mem
  simp only [leafSubst, hsub, bind, Except.bind, h]
  rw [if_pos (by rw [← h]; exact hm)]
  simp

theorem leafEnv_built {s : Spe} {X : String} {env : Env} (hs : s.WF c L μ) (h : s.leafEnv = some (X, env)) : EnvBuilt X env := by
  cases s with
  | real => simp only [Spe.leafEnv, Option.some.injEq, Prod.mk.injEq] at h; obtain ⟨rfl, rfl⟩ := h; exact hs.rleaf.2.1.built
  | atomic => simp only [Spe.leafEnv, Option.some.injEq, Prod.mk.injEq] at h; obtain ⟨rfl, rfl⟩ := h; cases hs with | atomic h => exact h.built
  | nominal => simp only [Spe.leafEnv, Option.some.injEq, Prod.mk.injEq] at h; obtain ⟨rfl, rfl⟩ := h; exact .base
  | sum => simp [Spe.leafEnv] at h
  | prod => simp [Spe.leafEnv] at h

theorem nominalMass_total {dist : List (String × ℚ)} {vals : Finset String} (h : ∀ x ∈ vals, x ∈ dist.map Prod.fst) : ∃ p, nominalMass dist vals = .ok p := by
  have key : ∀ f : String → Res ℚ, (∀ x w, dist.lookup x = some w → f x = .ok w) →
      ∃ p, ((vals.sort (· ≤ ·)).mapM f >>= fun ws => .ok ws.sum) = .ok p := by
    intro f hf
    obtain ⟨ps, hps, -⟩ := mapM_total (P := fun _ => True) (l := vals.sort (· ≤ ·)) (f := f) (fun x hx => by
      have := h x ((Finset.mem_sort _).1 hx)
      cases hl : dist.lookup x with
      | some w => exact ⟨w, hf x w hl, trivial⟩
      | none =>
        exfalso
        obtain ⟨q, hq, rfl⟩ := List.mem_map.1 this
        rw [List.lookup_eq_none_iff] at hl
        simpa using hl q hq)
    simp only [hps, bind, Except.bind]
    exact ⟨_, rfl⟩
  exact key _ (fun x w h => by simp [h])

theorem nominalValues_total {dist : List (String × ℚ)} {S : SSet EReal} (hd : dist ≠ []) (hw : S.WF) (hu : ∀ u, S ≠ .un u) :
    ∃ V, nominalValues c dist S = .ok V ∧ ∀ u, V ≠ .un u := by
  have hne : (dist.map Prod.fst).toFinset.Nonempty := by
    obtain ⟨q, hq⟩ := List.exists_mem_of_ne_nil _ hd
    exact ⟨q.1, by simpa using ⟨q.2, hq⟩⟩
  have hm : mkNom (dist.map Prod.fst).toFinset none = .ok ⟨(dist.map Prod.fst).toFinset, none⟩ := by
    unfold mkNom; rw [if_pos (Or.inl hne)]
  obtain ⟨V, hV⟩ := pieces_and_total c.σ (s := .pc (.nom ⟨(dist.map Prod.fst).toFinset, none⟩)) (t := S) (Or.inl hne) hw (by simp) hu
  refine ⟨V, by simp only [nominalValues, hm, bind, Except.bind, hV], ?_⟩
  rintro u rfl
  cases S with
  | empty => simp [SSet.and] at hV
  | un u => exact hu u rfl
  | pc q => simp only [SSet.and] at hV; exact Piece.and_ne_un _ _ _ hV

/-- A leaf answers every comparison of its base variable with a set. -/
theorem leafProb_total {s : Spe} {X : String} {env : Env} (hs : s.WF c L μ) (hl : s.leafEnv = some (X, env)) {l : Ev} (hv : l.Valid)
    (hk : l.basic? = some (.id X)) (ha : l.NomFree s.atomSyms) : ∃ p, ∀ n, leafProb c L n s l = .ok p := by
  suffices h : ∃ p, leafProbSet c L s l.values = .ok p by
    obtain ⟨p, hp⟩ := h
    refine ⟨p, fun n => ?_⟩
    simp only [leafProb, hl, leafSubst_base (leafEnv_built hs hl) (symbols_lit hk) n, solve_lit hk n, bind, Except.bind, hp]
  have hw := values_wf hv
  have hu := l.values_not_un
  cases s with
  | real k X d supp cond env =>
    obtain ⟨h1, -, h2, -⟩ := hs.rleaf
    obtain ⟨V, hV⟩ := pieces_and_total c.σ (s := .pc (.ivl supp)) (t := l.values) h1.wf hw (by simp) hu
    obtain ⟨p, hp⟩ := realLeaf_prob_total (c := c) h1 h2 hw (values_disj l) hV
    exact ⟨p, by simp only [leafProbSet, hV, bind, Except.bind, hp]⟩
  | atomic X' v env' =>
    simp only [Spe.leafEnv, Option.some.injEq, Prod.mk.injEq] at hl
    obtain ⟨rfl, rfl⟩ := hl
    obtain ⟨b, hb, -⟩ := C06_contains_num (s := l.values) (v : EReal) (by
      intro m hm
      refine ⟨fun h => ?_, fun u h => absurd h (hu u)⟩
      cases l with
      | nom t w =>
        simp only [Ev.basic?, Option.some.injEq] at hk
        subst hk
        simp only [Ev.NomFree, Tr.symbols, Finset.disjoint_singleton_left, Spe.atomSyms, List.mem_toFinset] at ha
        cases hs with | atomic h => exact ha h.built.base_mem
      | fin t w => cases w <;> simp [Ev.values] at h
      | _ => simp [Ev.values] at h)
    exact ⟨if b = true then 1 else 0, by simp only [leafProbSet, hb, bind, Except.bind]⟩
  | nominal X dist =>
    cases hs with
    | nominal hn h0 h1 =>
    obtain ⟨V, hV, hVu⟩ := nominalValues_total (c := c) (dist := dist) (by rintro rfl; simp at h1) hw hu
    rcases nominalValues_ok hw (values_disj l) hV with ⟨rfl, -⟩ | ⟨m, rfl, hne, hm⟩ | ⟨u, rfl⟩
    · exact ⟨0, by simp only [leafProbSet, hV, bind, Except.bind]⟩
    · obtain ⟨p, hp⟩ := nominalMass_total (dist := dist) (vals := m.vals) (fun x hx => ((hm x).1 hx).1)
      simp only [leafProbSet, hV, bind, Except.bind, hp]
      split <;> exact ⟨_, rfl⟩
    · exact absurd rfl (hVu u)
  | sum => simp [Spe.leafEnv] at hl
  | prod => simp [Spe.leafEnv] at hl

end Sppl
