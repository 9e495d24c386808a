import Verif.Dnf.CurveSpec
import Verif.Dnf.Total2Lemmas
import Verif.Events.Chain4Lemmas
import Mathlib.Topology.Order.IntermediateValue
import Mathlib.Topology.Instances.Real.Lemmas
import Mathlib.Analysis.SpecialFunctions.Pow.Continuity
import Mathlib.Analysis.SpecialFunctions.Log.Base

set_option linter.all false

/-!
# Comparisons of increasing and decreasing expressions (helper lemmas)
-/

namespace Sppl
open Classical

/-! ## The values of a chain form an interval -/

/-- The real values that the expression takes. -/
def Tr.vals (t : Tr) : Set ℝ := {y | ∃ ω : Asg, t.eval ω = some (.num y)}

theorem onNum_some {f : ℝ → Option ℝ} {v : Option (Val ℝ)} {y : ℝ} : onNum f v = some (.num y) ↔ ∃ x, v = some (.num x) ∧ f x = some y := by
  cases v with
  | none => simp [onNum]
  | some v => cases v <;> simp [onNum]

theorem Tr.Chain.conn {k : String} {t : Tr} (h : t.Chain k) : t.vals.OrdConnected := by
  induction h with
  | id =>
    have : (Tr.id k).vals = Set.univ := by
      ext y; simp only [Tr.vals, Set.mem_setOf_eq, Set.mem_univ, iff_true]
      exact ⟨fun _ => some (.num y), rfl⟩
    rw [this]; exact Set.ordConnected_univ
  | @radical t n ht hn ih =>
    have e : (Tr.radical t n).vals = (fun x : ℝ => x ^ ((n : ℝ)⁻¹)) '' (t.vals ∩ Set.Ici 0) := by
      ext y
      simp only [Tr.vals, Set.mem_setOf_eq, Tr.eval, onNum_some, radicalVal, Set.mem_image, Set.mem_inter_iff, Set.mem_Ici]
      constructor
      · rintro ⟨ω, x, h1, h2⟩
        split at h2
        · exact ⟨x, ⟨⟨ω, h1⟩, by assumption⟩, by simpa using h2⟩
        · cases h2
      · rintro ⟨x, ⟨⟨ω, h1⟩, h2⟩, h3⟩
        exact ⟨ω, x, h1, by rw [if_pos h2, h3]⟩
    rw [e]
    refine (((ih.inter Set.ordConnected_Ici).isPreconnected).image _ ?_).ordConnected
    exact (Real.continuous_rpow_const (by positivity)).continuousOn
  | @exp t b ht hb ih =>
    have e : (Tr.exp t b).vals = (fun x : ℝ => b ^ x) '' t.vals := by
      ext y
      simp only [Tr.vals, Set.mem_setOf_eq, Tr.eval, onNum_some, expVal, Set.mem_image]
      constructor
      · rintro ⟨ω, x, h1, h2⟩; exact ⟨x, ⟨ω, h1⟩, by simpa using h2⟩
      · rintro ⟨x, ⟨ω, h1⟩, h3⟩; exact ⟨ω, x, h1, by rw [h3]⟩
    rw [e]
    exact ((ih.isPreconnected).image _ (Real.continuous_const_rpow (by linarith)).continuousOn).ordConnected
  | @log t b ht hb ih =>
    have e : (Tr.log t b).vals = (fun x : ℝ => Real.logb b x) '' (t.vals ∩ Set.Ioi 0) := by
      ext y
      simp only [Tr.vals, Set.mem_setOf_eq, Tr.eval, onNum_some, logVal, Set.mem_image, Set.mem_inter_iff, Set.mem_Ioi]
      constructor
      · rintro ⟨ω, x, h1, h2⟩
        split at h2
        · exact ⟨x, ⟨⟨ω, h1⟩, by assumption⟩, by simpa using h2⟩
        · cases h2
      · rintro ⟨x, ⟨⟨ω, h1⟩, h2⟩, h3⟩
        exact ⟨ω, x, h1, by rw [if_pos h2, h3]⟩
    rw [e]
    refine (((ih.inter Set.ordConnected_Ioi).isPreconnected).image _ ?_).ordConnected
    refine ContinuousOn.mono ?_ (Set.inter_subset_right)
    intro x hx
    unfold Real.logb
    exact ((Real.continuousAt_log (ne_of_gt hx)).div_const _).continuousWithinAt
  | @poly t p q ht hq ih =>
    have e : (Tr.poly t [p, q]).vals = (fun x : ℝ => polyVal [p, q] x) '' t.vals := by
      ext y
      simp only [Tr.vals, Set.mem_setOf_eq, Tr.eval, onNum_some, Set.mem_image]
      constructor
      · rintro ⟨ω, x, h1, h2⟩; exact ⟨x, ⟨ω, h1⟩, by simpa using h2⟩
      · rintro ⟨x, ⟨ω, h1⟩, h3⟩; exact ⟨ω, x, h1, by rw [h3]⟩
    rw [e]
    refine ((ih.isPreconnected).image _ ?_).ordConnected
    simp only [polyVal, List.foldr]
    fun_prop

/-- A value where the expression is defined is regular. -/
theorem Tr.Chain.regular {k : String} {t : Tr} (h : t.Chain k) {ω : Asg} : ∀ {y : ℝ}, t.eval ω = some (.num y) → t.Regular ω ∧ ∃ x, ω k = some (.num x) := by
  induction h with
  | id => intro y hy; exact ⟨trivial, y, hy⟩
  | radical _ _ ih => intro y hy; simp only [Tr.eval, onNum_some] at hy; obtain ⟨x, h1, -⟩ := hy; exact ih h1
  | exp _ _ ih => intro y hy; simp only [Tr.eval, onNum_some] at hy; obtain ⟨x, h1, -⟩ := hy; exact ih h1
  | log _ _ ih =>
    intro y hy; simp only [Tr.eval, onNum_some] at hy; obtain ⟨x, h1, h2⟩ := hy
    refine ⟨⟨(ih h1).1, ?_⟩, (ih h1).2⟩
    rw [h1]
    intro h0
    simp only [Option.some.injEq, Val.num.injEq] at h0
    subst h0
    simp [logVal] at h2
  | poly _ _ ih => intro y hy; simp only [Tr.eval, onNum_some] at hy; obtain ⟨x, h1, -⟩ := hy; exact ih h1

/-! ## Flat sets -/

theorem SSet.Flat.not_un {V : SSet EReal} (h : V.Flat) : ∀ u, V ≠ .un u := by cases h <;> simp

/-- A flat set that contains a number has no infinite number. -/
theorem SSet.Flat.noInf {V : SSet EReal} (h : V.Flat) {v : Val EReal} (hp : v.Proper) (hv : v ∈ V.den) : NoInf V := by
  cases h with
  | empty => simp at hv
  | ivl hi => rintro w ⟨x, rfl, hx⟩; exact ivl_proper hi hx
  | @one y =>
    obtain ⟨x, rfl, hx⟩ := hv
    rintro w ⟨x', rfl, hx'⟩
    simp at hx hx'; subst hx; subst hx'; exact hp

theorem SSet.Flat.mid {V : SSet EReal} (h : V.Flat) {a b m : EReal} (ha : Val.num a ∈ V.den) (hb : Val.num b ∈ V.den) (h1 : a ≤ m) (h2 : m ≤ b) : Val.num m ∈ V.den := by
  cases h with
  | empty => simp at ha
  | @ivl i hi =>
    obtain ⟨x, hx, ha⟩ := ha; cases hx
    obtain ⟨x, hx, hb⟩ := hb; cases hx
    refine ⟨m, rfl, ?_⟩
    obtain ⟨lo, hi', ro, ro'⟩ := i
    cases ro <;> cases ro' <;> simp [Ivl.Mem] at ha hb ⊢ <;> constructor <;>
      first
      | exact le_trans ha.1 h1 | exact lt_of_lt_of_le ha.1 h1 | exact le_trans h2 hb.2 | exact lt_of_le_of_lt h2 hb.2
  | @one y =>
    obtain ⟨x, hx, ha⟩ := ha; cases hx
    obtain ⟨x, hx, hb⟩ := hb; cases hx
    simp at ha hb
    subst ha; subst hb
    exact ⟨m, rfl, by simp [le_antisymm h2 h1]⟩

theorem helly {R : Set ℝ} (hR : R.OrdConnected) {A B : SSet EReal} (hA : A.Flat) (hB : B.Flat) {x1 x2 : ℝ} {z : EReal} (h1 : x1 ∈ R) (h2 : x2 ∈ R)
    (ha : Val.num (x1 : EReal) ∈ A.den) (hb : Val.num (x2 : EReal) ∈ B.den) (za : Val.num z ∈ A.den) (zb : Val.num z ∈ B.den) :
    ∃ y ∈ R, Val.num (y : EReal) ∈ A.den ∧ Val.num (y : EReal) ∈ B.den := by
  have real : ∀ {a b : ℝ}, a ∈ R → b ∈ R → (a : EReal) ≤ z → z ≤ b → ∃ y ∈ R, Val.num (y : EReal) ∈ A.den ∧ Val.num (y : EReal) ∈ B.den := by
    intro a b ha hb h3 h4
    have hz : ((z.toReal : ℝ) : EReal) = z := EReal.coe_toReal (ne_top_of_le_ne_top (EReal.coe_ne_top b) h4) (ne_bot_of_le_ne_bot (EReal.coe_ne_bot a) h3)
    refine ⟨z.toReal, hR.out ha hb ⟨?_, ?_⟩, by rw [hz]; exact za, by rw [hz]; exact zb⟩
    · rw [← EReal.coe_le_coe_iff, hz]; exact h3
    · rw [← EReal.coe_le_coe_iff, hz]; exact h4
  rcases le_total (x1 : EReal) (x2 : EReal) with h | h
  · rcases le_total z (x1 : EReal) with h3 | h3
    · exact ⟨x1, h1, ha, hB.mid zb hb h3 h⟩
    · rcases le_total z (x2 : EReal) with h4 | h4
      · exact real h1 h2 h3 h4
      · exact ⟨x2, h2, hA.mid ha za h h4, hb⟩
  · rcases le_total z (x2 : EReal) with h3 | h3
    · exact ⟨x2, h2, hA.mid za ha h3 h, hb⟩
    · rcases le_total z (x1 : EReal) with h4 | h4
      · exact real h2 h1 h3 h4
      · exact ⟨x1, h1, ha, hB.mid hb zb h h4⟩

theorem Ev.ChainLit.flat {k : String} {e : Ev} (h : e.ChainLit k) : ∃ t, t.Chain k ∧ e.basic? = some t ∧ e.values.Flat := by
  cases h with
  | ivl h hi => exact ⟨_, h, rfl, .ivl hi⟩
  | one h => exact ⟨_, h, rfl, .one⟩
  | empty h => exact ⟨_, h, rfl, .empty⟩

theorem Tr.Chain.str {k : String} {t : Tr} (h : t.Chain k) {ω : Asg} {x : String} (hx : t.eval ω = some (.str x)) : t = .id k := by
  cases h with
  | id => rfl
  | _ => 
    simp only [Tr.eval, onNum] at hx
    split at hx
    · rename_i x' _
      simp at hx
    · cases hx

theorem Ev.ChainLit.holds {k : String} {e : Ev} {t : Tr} (h : e.ChainLit k) (hb : e.basic? = some t) (ω : Asg) :
    e.holds ω ↔ ∃ y : ℝ, t.eval ω = some (.num y) ∧ Val.num (y : EReal) ∈ e.values.den := by
  cases h with
  | ivl h hi => simp [Ev.basic?] at hb; subst hb; simp [Ev.values, SSet.den, Piece.den]
  | one h => simp [Ev.basic?] at hb; subst hb; simp [Ev.values, SSet.den, Piece.den]
  | empty h => simp [Ev.basic?] at hb; subst hb; simp [Ev.values, SSet.den]

theorem chainLit_ofSet {k : String} {t : Tr} (ht : t.Chain k) {r : SSet EReal} (hr : r.Flat) {g : Ev} (h : Ev.ofSet t r = some g) : g.ChainLit k := by
  cases hr with
  | empty => cases h; exact .empty ht
  | ivl hi => cases h; exact .ivl ht hi
  | one => cases h; exact .one ht

/-- A comparison of a chain that some number satisfies. -/
def CurveLit (k : String) (l : Ev) : Prop := l.ChainLit k ∧ l.Live

theorem curveLit_and {c : Ctx} {k : String} : ∀ e f g : Ev, CurveLit k e → CurveLit k f → Ev.simplify (SSet.and c.σ) e f = .ok (some g) → CurveLit k g := by
  rintro e f g ⟨he, le⟩ ⟨hf, lf⟩ h
  obtain ⟨t, ht, hb, hV⟩ := he.flat
  obtain ⟨t', -, hb', hW⟩ := hf.flat
  unfold Ev.simplify at h
  simp only [hb, hb'] at h
  split at h
  · rename_i heq; subst heq
    obtain ⟨r, hr, hrf⟩ := flat_and c.σ hV hW
    simp only [hr, bind, Except.bind, Except.ok.injEq] at h
    have hg := chainLit_ofSet ht hrf h
    refine ⟨hg, ?_⟩
    have hs := SSet.and_spec c.σ _ _ hV.wf.1 hV.wf.2.1 hW.wf.1 hW.wf.2.1 hr
    have hgv : g.basic? = some t ∧ g.values = r := by cases hrf <;> cases h <;> exact ⟨rfl, rfl⟩
    by_cases hemp : r = .empty
    · subst hemp; cases h; exact .inr ⟨t, rfl⟩
    · left
      have ne : ∀ {e : Ev}, e.ChainLit k → e.Live → e.values ≠ .empty → ∃ ω, e.holds ω := by
        intro e he hl hv
        rcases hl with h | ⟨t, rfl⟩
        · exact h
        · exact absurd rfl hv
      obtain ⟨ω1, h1⟩ := ne he le (by rintro h0; rw [h0] at hr; simp [SSet.and] at hr; exact hemp hr.symm)
      obtain ⟨ω2, h2⟩ := ne hf lf (by
        rintro h0; rw [h0] at hr
        have : SSet.and c.σ e.values .empty = .ok .empty := by cases e.values <;> rfl
        rw [this] at hr; cases hr; exact hemp rfl)
      obtain ⟨x1, e1, m1⟩ := (he.holds hb ω1).1 h1
      obtain ⟨x2, e2, m2⟩ := (hf.holds hb' ω2).1 h2
      obtain ⟨v, hv⟩ := set_nonempty hs.wf hrf.not_un (by cases r <;> simp_all [SSet.isEmpty])
      have hv' := hs.sub v hv
      obtain ⟨z, rfl⟩ : ∃ z, v = .num z := by
        cases hrf with
        | empty => simp at hv
        | ivl => obtain ⟨x, rfl, -⟩ := hv; exact ⟨x, rfl⟩
        | one => obtain ⟨x, rfl, -⟩ := hv; exact ⟨x, rfl⟩
      obtain ⟨y, ⟨ω, hy⟩, ya, yb⟩ := helly ht.conn hV hW ⟨ω1, e1⟩ ⟨ω2, e2⟩ m1 m2 hv'.1 hv'.2
      refine ⟨ω, (hg.holds hgv.1 ω).2 ⟨y, hy, ?_⟩⟩
      rw [hgv.2]
      exact hs.sup _ (coe_proper y) ⟨ya, yb⟩
  · simp at h

/-! ## Solving -/

theorem rng_empty {t : Tr} {c : Ctx} {r : SSet EReal} (h : t.range c = .ok r) (n : ℕ) : t.invert c (n + 1) .empty = .ok .empty := by
  have : SSet.and c.σ r .empty = .ok .empty := by cases r <;> rfl
  simp only [Tr.invert, h, bind, Except.bind, this]
  cases t <;> rfl

theorem Tr.Chain.range {c : Ctx} (hl : c.Linear) {k : String} {t : Tr} (h : t.Chain k) : ∃ r, t.range c = .ok r := by
  cases h with
  | id => obtain ⟨r, h, -⟩ := extReals_rng c; exact ⟨r, h⟩
  | radical _ h => obtain ⟨r, h, -⟩ := (stepOK_radical c _ h).range; exact ⟨r, h⟩
  | exp _ h => obtain ⟨r, h, -⟩ := (stepOK_exp c _ h).range; exact ⟨r, h⟩
  | log _ h => obtain ⟨r, h, -⟩ := (stepOK_log c _ h).range; exact ⟨r, h⟩
  | @poly t p q _ h => obtain ⟨r, h, -⟩ := hl.range p q h; exact ⟨r, h⟩

theorem chain_exact_noInf {c : Ctx} {k : String} {e : Ev} (he : e.ChainLit k) {S : SSet EReal} (hS : S.Flat) (hx : ExactE false e S) {ω : Asg} (h : e.holds ω) : NoInf S := by
  obtain ⟨t, ht, hb, -⟩ := he.flat
  obtain ⟨y, hy, -⟩ := (he.holds hb ω).1 h
  obtain ⟨hr, x, hxk⟩ := ht.regular hy
  have := (hx.2.2 ω k (.num x) he.symbols hxk (by simp) (by rw [regular_of_basic hb]; exact hr)).2 h
  exact hS.noInf (Val.lift_proper _) this

theorem CurveLit.inv {c : Ctx} (hc : c.Correct) (hl : c.Linear) {k : String} {e : Ev} (h : CurveLit k e) :
    ∃ N S, (S.Flat ∧ NoInf S) ∧ Ev.invert c N e (.pc (.fin {1})) = .ok S := by
  obtain ⟨he, hlive⟩ := h
  obtain ⟨t, V, ht, hof⟩ := he.of
  obtain ⟨N, S, hS, h1⟩ := hof.inv hc hl ht
  rcases hlive with ⟨ω, hω⟩ | ⟨t', rfl⟩
  · exact ⟨N, S, ⟨hS, chain_exact_noInf (c := c) he hS ((exact hc).2 e he.made N S h1) hω⟩, h1⟩
  · cases hof
    obtain ⟨r, hr⟩ := ht.range hl
    refine ⟨2, .empty, ⟨.empty, by intro v hv; simp at hv⟩, ?_⟩
    obtain ⟨xs, h4, h5⟩ := iterUnion_one (c := c) (y := 1) (f := fun y => Ev.finvReal c .empty y) (X := .empty) (by simp [Ev.finvReal]) rfl
    rw [Ev.invert]
    simp only [bool_and_one, bind, Except.bind, Ev.invertFinite, optFin, h4, h5]
    exact rng_empty hr 0

theorem CurveLit.solve {c : Ctx} (hc : c.Correct) (hl : c.Linear) {k : String} {e : Ev} (h : CurveLit k e) :
    ∃ N S, (S.Flat ∧ NoInf S) ∧ e.solve c N = .ok S := by
  have h' := h
  obtain ⟨he, hlive⟩ := h'
  obtain ⟨t, V, ht, hof⟩ := he.of
  obtain ⟨N, S, hS, h1⟩ := hof.solve hc hl ht
  rcases hlive with ⟨ω, hω⟩ | ⟨t', rfl⟩
  · exact ⟨N, S, ⟨hS, chain_exact_noInf (c := c) he hS (Ev.solve_exact hc he.made h1) hω⟩, h1⟩
  · obtain ⟨M, S', hS', h2⟩ := h.inv hc hl
    by_cases hid : ∃ x, t' = .id x
    · obtain ⟨x, rfl⟩ := hid
      exact ⟨0, .empty, ⟨.empty, by intro v hv; simp at hv⟩, rfl⟩
    · refine ⟨M, S', hS', ?_⟩
      have hs := he.symbols
      unfold Ev.solve
      split
      · simp_all
      · exact absurd ⟨_, by injection ‹Ev.fin _ _ = Ev.fin _ _›⟩ hid
      · simp_all
      · rw [if_neg (by simp [hs])]; exact h2

/-- A clause of comparisons of one variable. -/
theorem curve_solve {c : Ctx} (hc : c.Correct) (hl : c.Linear) {k : String} {e : Ev} (hcl : e.IsClause) (ha : e.All (CurveLit k)) :
    ∃ N S, (S.Flat ∧ NoInf S) ∧ e.solve c N = .ok S := by
  cases e with
  | or => exact False.elim hcl
  | and es =>
    have h : ∀ e ∈ es, CurveLit k e := by
      intro e he
      obtain ⟨t, ht⟩ := Ev.isLit_iff.1 (hcl.2 e he)
      exact (Ev.all_lit ht).1 (Ev.all_and.1 ha e he)
    obtain ⟨N, xs, h1, h2, h3⟩ := mapM_some (f := fun n e => Ev.invert c n e (.pc (.fin {1}))) (P := fun S => S.Flat ∧ NoInf S)
      (fun n m e hnm => Ev.invert_le' n m e hnm _) es (fun e he => (h e he).inv hc hl)
    have hx : xs ≠ [] := by intro h; rw [h] at h2; exact hcl.1 (List.length_eq_zero_iff.1 h2.symm)
    obtain ⟨r, h4, h5⟩ := reduceM_total (P := fun S => S.Flat ∧ NoInf S) (fun a b ha hb => by
      obtain ⟨r, h1, h2⟩ := flat_and c.σ ha.1 hb.1
      have hs := SSet.and_spec c.σ _ _ ha.1.wf.1 ha.1.wf.2.1 hb.1.wf.1 hb.1.wf.2.1 h1
      exact ⟨r, h1, h2, fun v hv => ha.2 v (hs.sub v hv).1⟩) hx h3
    refine ⟨N + 1, r, h5, ?_⟩
    rw [Ev.solve, if_neg (by rw [(Ev.ChainAnd.and hcl.1 (fun e he => (h e he).1)).symbols]; simp), Ev.invert]
    simp only [bool_and_one, bind, Except.bind, Ev.invertFinite, h1]
    exact h4
    all_goals simp
  | ivl t i => exact ((Ev.all_lit rfl).1 ha).solve hc hl
  | fin t i => exact ((Ev.all_lit rfl).1 ha).solve hc hl
  | nom t i => exact ((Ev.all_lit rfl).1 ha).solve hc hl

end Sppl
