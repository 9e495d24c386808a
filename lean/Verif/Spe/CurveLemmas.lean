import Verif.Dnf.Curve2Lemmas
import Verif.Spe.TotPubLemmas

set_option linter.all false

/-!
# `prob` and `condition` on comparisons of increasing and decreasing expressions return (helper lemmas)
-/

namespace Sppl
open Classical MeasureTheory
open scoped ENNReal ProbabilityTheory

variable {c : Ctx} {L : Lib} {μ : Dist → Measure ℝ} {hash : Spe → ℤ} {Q : String → EReal → Prop} {T : String → Prop}

/-- `dnf_normalize` returns, and its result compares variables directly. -/
def NormReturns (c : Ctx) (Q : String → EReal → Prop) (e : Ev) : Prop :=
  ∃ N o, (∀ n, N ≤ n → dnfNormalize c n e = .ok o) ∧ ∀ r, o = some r → r.IsDnf ∧ r.Valid ∧ r.All (PlainLit Q) ∧ (NormTotal Q r ∨ ∀ es, r ≠ .or es)

theorem prob_norm (hc : c.Correct) {s : Spe} (hl : s.isLeaf = false) {e : Ev} (hmade : e.Made c) (H : NormReturns c Q e) (hsym : e.symbols ⊆ s.symbols) (hn : e.NomFree s.atomSyms)
    (hp : ∀ n F, F ≠ [] → (∀ m ∈ F, ClauseQ Q s e.symbols m) → ∃ p, s.probMem c L n F = .ok p) : ∃ N, ∀ n, N ≤ n → ∃ p, s.prob c L n e = .ok p := by
  obtain ⟨N, o, h1, h2⟩ := H
  refine ⟨N, fun n hN => ?_⟩
  unfold Spe.prob
  rw [if_neg (by simp [hl])]
  simp only [h1 n hN, bind, Except.bind]
  cases o with
  | none => exact ⟨0, rfl⟩
  | some r =>
    simp only
    obtain ⟨r1, r2, r3, -⟩ := h2 r rfl
    obtain ⟨hN', -⟩ := (dnfNormalize_ok hc hmade (h1 n hN)).2 r rfl
    have hnum := dnfNormalize_num hc hmade (h1 n hN) ((nomFree_iff e).1 hn)
    obtain ⟨g1, -⟩ := normOK_set hN'
    obtain ⟨F, hF, hne, hcl, -⟩ := factor_total (c := c) (s := s) (V := e.symbols) r1 r2 r3 hnum (g1.trans hsym) g1
    rw [hF]
    exact hp n F hne hcl

theorem condition_norm (hc : c.Correct) {E : String → Env} {s : Spe} (hs : s.WF c L μ) (hE : s.Ready E) (hl : s.isLeaf = false) {e : Ev} (hmade : e.Made c) (H : NormReturns c Q e) (hreg : ∀ᵐ ω ∂(s.den μ), e.Regular ω) (hsym : e.symbols ⊆ s.symbols)
    (hn : e.NomFree s.atomSyms) (hk : ∀ᵐ ω ∂(s.den μ), e.Suits ω) (hm : s.den μ e.set ≠ 0)
    (hp : ∀ n F, F ≠ [] → (∀ m ∈ F, ClauseQ Q s e.symbols m) → ∃ p, s.probMem c L n F = .ok p)
    (hcd : ∀ n F, F ≠ [] → (∀ m ∈ F, ClauseQ Q s e.symbols m) → F.Pairwise (fun a b => Disjoint (Clause.sat a) (Clause.sat b)) → s.den μ (Factor.set F) ≠ 0 →
      ∃ s', s.condMem c L hash n F = .ok s') : ∃ N, ∀ n, N ≤ n → ∃ s', s.condition c L hash n e = .ok s' := by
  obtain ⟨N0, o, h1, h2⟩ := H
  obtain ⟨z1, z2⟩ := dnfNormalize_ok hc hmade (h1 N0 (le_refl _))
  cases o with
  | none =>
    exfalso
    apply hm
    rw [measure_eq_zero_iff_ae_notMem]
    filter_upwards [hreg] with ω hω
    exact z1 rfl ω hω
  | some r =>
    obtain ⟨r1, r2, r3, r4⟩ := h2 r rfl
    obtain ⟨hN, hT⟩ := z2 r rfl
    obtain ⟨g1, g2⟩ := normOK_set hN
    have hnum := dnfNormalize_num hc hmade (h1 N0 (le_refl _)) ((nomFree_iff e).1 hn)
    have hrset : s.den μ r.set = s.den μ e.set := measure_congr (by filter_upwards [hreg] with ω hω; exact propext (hN.holds ω hω))
    obtain ⟨d, hd, hd4⟩ := dropNull_total (L := L) hc hs (V := e.symbols) r1 r2 r3 r4 hnum (g1.trans hsym) g1 hp (by rw [hrset]; exact hm)
    obtain ⟨k1, k2, k3, k4, k5⟩ := dropNull_ok hc hs hN hsym hnum (hd 0)
    obtain ⟨D, hD⟩ := toDisjoint_total hc k1 k3 (k2 _ r3) hd4
    obtain ⟨v1, v2, v3⟩ := vars_made (c := c) k3 (k2 _ hN.vars)
    have hdsym : d.symbols ⊆ e.symbols := by
      refine Finset.Subset.trans ?_ g1
      rw [Ev.symbols_all]
      exact k2 _ (Ev.symbols_all.1 (le_refl _))
    refine ⟨max N0 D, fun n hnD => ?_⟩
    obtain ⟨g, hg, hgv, hga⟩ := hD n n (le_trans (le_max_right _ _) hnD)
    have hDJ := toDisjoint_ok hc n k1 v1 v2 hg
    obtain ⟨t1, t2, t3⟩ := toDisjoint_num hc n v1 v2 (k2 _ g2) (k2 _ hnum) hg
    obtain ⟨F, hF, hne, hcl, hset, hF2⟩ := factor_total (c := c) (s := s) (V := e.symbols) hDJ.dnf hgv hga t3 ((hDJ.symbols.trans hdsym).trans hsym) (hDJ.symbols.trans hdsym)
    have hae : ∀ᵐ ω ∂(s.den μ), ω ∈ g.set ↔ ω ∈ e.set := by
      filter_upwards [hk, k5, hreg] with ω hs h5 hrg
      obtain ⟨w1, w2⟩ := Ev.suits_wk hs
      show g.holds ω ↔ e.holds ω
      rw [← hN.holds ω hrg, ← h5]
      exact ⟨hDJ.sound ω (v3 ω), hDJ.complete ω (v3 ω) (k4 ω (hT ω w1 w2))⟩
    have hmg : s.den μ (Factor.set F) ≠ 0 := by
      rw [hset]
      intro h0; exact hm (by rw [← h0]; exact measure_congr (by filter_upwards [hae] with ω hω; exact propext hω.symm))
    obtain ⟨s', hs'⟩ := hcd n F hne hcl (pairwise_sat (c := c) hF2 (fun ω => hDJ.disj ω (v3 ω))) hmg
    refine ⟨s', ?_⟩
    unfold Spe.condition
    rw [if_neg (by simp [hl])]
    simp only [h1 n (le_trans (le_max_left _ _) hnD), bind, Except.bind, hd n, hg, hF]
    exact hs'

theorem Ev.Curved.normReturns (hc : c.Correct) (hli : c.Linear) {e : Ev} (he : e.Curved Q T) : NormReturns c Q e := by
  obtain ⟨ev, ea⟩ := he.all
  exact dnfNormalize_mix hc hli ev ea

theorem prob_curve (hc : c.Correct) (hli : c.Linear) {s : Spe} (hl : s.isLeaf = false) {e : Ev} (he : e.Curved Q T) (hsym : e.symbols ⊆ s.symbols) (hn : e.NomFree s.atomSyms)
    (hp : ∀ n F, F ≠ [] → (∀ m ∈ F, ClauseQ Q s e.symbols m) → ∃ p, s.probMem c L n F = .ok p) : ∃ N, ∀ n, N ≤ n → ∃ p, s.prob c L n e = .ok p :=
  prob_norm hc hl he.made (he.normReturns hc hli) hsym hn hp

theorem condition_curve (hc : c.Correct) (hli : c.Linear) {E : String → Env} {s : Spe} (hs : s.WF c L μ) (hE : s.Ready E) (hl : s.isLeaf = false) {e : Ev} (he : e.Curved Q T) (hreg : ∀ᵐ ω ∂(s.den μ), e.Regular ω) (hsym : e.symbols ⊆ s.symbols)
    (hn : e.NomFree s.atomSyms) (hk : ∀ᵐ ω ∂(s.den μ), e.Suits ω) (hm : s.den μ e.set ≠ 0)
    (hp : ∀ n F, F ≠ [] → (∀ m ∈ F, ClauseQ Q s e.symbols m) → ∃ p, s.probMem c L n F = .ok p)
    (hcd : ∀ n F, F ≠ [] → (∀ m ∈ F, ClauseQ Q s e.symbols m) → F.Pairwise (fun a b => Disjoint (Clause.sat a) (Clause.sat b)) → s.den μ (Factor.set F) ≠ 0 →
      ∃ s', s.condMem c L hash n F = .ok s') : ∃ N, ∀ n, N ≤ n → ∃ s', s.condition c L hash n e = .ok s' :=
  condition_norm hc hs hE hl he.made (he.normReturns hc hli) hreg hsym hn hk hm hp hcd

end Sppl
