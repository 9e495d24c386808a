import Verif.Spe.SolvedProps
import Verif.Events.ValLemmas

set_option linter.all false

/-!
# Disjunctions of comparisons of one variable with sets of numbers (helper lemmas)
-/

namespace Sppl
open Classical MeasureTheory
open scoped ENNReal ProbabilityTheory

variable {c : Ctx} {L : Lib} {μ : Dist → Measure ℝ} {X : String} {e f g : Ev}

/-- A comparison of the variable `X` with a set of finite numbers. -/
structure NumLit (X : String) (e : Ev) : Prop where
  basic : e.basic? = some (.id X)
  num : e.isNom = false
  ok : RealOK e.values
  fin : ∀ v ∈ e.values.den, v.Proper

/-- Such a comparison or a disjunction of them. -/
def NumOr (X : String) (e : Ev) : Prop := NumLit X e ∨ ∃ es, es ≠ [] ∧ e = .or es ∧ ∀ l ∈ es, NumLit X l

theorem NumLit.cases (h : NumLit X e) : (∃ i, e = .ivl (.id X) i ∧ i.WF) ∨ e = .fin (.id X) none ∨
    ∃ W : Finset EReal, W.Nonempty ∧ (∀ w ∈ W, ∃ x : ℝ, w = x) ∧ e = .fin (.id X) (some W) := by
  obtain ⟨h1, h2, h3, h4⟩ := h
  cases e with
  | ivl t i => simp only [Ev.basic?, Option.some.injEq] at h1; subst h1; exact .inl ⟨i, rfl, h3.1⟩
  | fin t v =>
    simp only [Ev.basic?, Option.some.injEq] at h1; subst h1
    cases v with
    | none => exact .inr (.inl rfl)
    | some W =>
      refine .inr (.inr ⟨W, h3.1, fun w hw => ?_, rfl⟩)
      obtain ⟨a, b⟩ := h4 (.num w) (by simpa [Ev.values, optFin, SSet.den] using hw)
      induction w using EReal.rec with
      | bot => exact absurd rfl a
      | top => exact absurd rfl b
      | coe x => exact ⟨x, rfl⟩
  | nom t v => simp [Ev.isNom] at h2
  | or => simp [Ev.basic?] at h1
  | and => simp [Ev.basic?] at h1

theorem NumOr.disjuncts (h : NumOr X e) : e.disjuncts ≠ [] ∧ ∀ l ∈ e.disjuncts, NumLit X l := by
  rcases h with h | ⟨es, h1, rfl, h2⟩
  · have : e.disjuncts = [e] := by
      have := h.basic
      cases e <;> simp_all [Ev.disjuncts, Ev.basic?]
    rw [this]; simpa using h
  · exact ⟨h1, h2⟩

theorem NumOr.lor (he : NumOr X e) (hf : NumOr X f) : ∃ g, e.lor c f = .ok g ∧ NumOr X g := by
  have parts : NumOr X (.or (e.disjuncts ++ f.disjuncts)) := by
    refine .inr ⟨_, by simp [he.disjuncts.1], rfl, fun l hl => ?_⟩
    rcases List.mem_append.1 hl with h | h
    exacts [he.disjuncts.2 l h, hf.disjuncts.2 l h]
  unfold Ev.lor Ev.simplify
  rcases he with he | ⟨es, h1, rfl, h2⟩
  · rcases hf with hf | ⟨fs, h1', rfl, h2'⟩
    · obtain ⟨r, hr, hok⟩ := real_or c.σ e.values f.values he.ok hf.ok
      have hsp := SSet.or_spec c.σ _ _ he.ok.1 he.ok.2.1 hf.ok.1 hf.ok.2.1 hr
      simp only [he.basic, hf.basic, if_true, hr, bind, Except.bind]
      have hp : ∀ v ∈ r.den, v.Proper := fun v hv => (hsp.sub v hv).elim (he.fin v) (hf.fin v)
      cases r with
      | empty => exact ⟨_, rfl, .inl ⟨rfl, rfl, hok, hp⟩⟩
      | un u => exact ⟨_, rfl, parts⟩
      | pc p =>
        cases p with
        | nom m => exact absurd rfl (hok.2.2 m)
        | fin s => exact ⟨_, rfl, .inl ⟨rfl, rfl, hok, hp⟩⟩
        | ivl i => exact ⟨_, rfl, .inl ⟨rfl, rfl, hok, hp⟩⟩
    · have hb : (Ev.or fs).basic? = none := rfl
      simp only [he.basic, hb, bind, Except.bind]
      exact ⟨_, rfl, parts⟩
  · simp only [Ev.basic?, bind, Except.bind]
    exact ⟨_, rfl, parts⟩

theorem NumLit.inv (hc : c.Correct) (hl : c.Linear) (h : NumLit X e) : ∃ N S, RealOK S ∧ Ev.invert c N e (.pc (.fin {1})) = .ok S := by
  have fin : ∀ v : Option (Finset EReal), FinOf (fun y => ¬ (Tr.id X).Zero y) (optFin v) → ∃ N S, RealOK S ∧ Ev.invert c N (.fin (.id X) v) (.pc (.fin {1})) = .ok S := by
    intro v hv
    obtain ⟨M, S, g1, g2⟩ := (Tr.Bends.id (k := X)).invert hc hl (optFin v) hv
    obtain ⟨xs, h4, h5⟩ := iterUnion_one (c := c) (y := 1) (f := fun y => Ev.finvReal c (optFin v) y) (X := optFin v) (by simp [Ev.finvReal])
      (by cases v <;> simp [optFin, SSet.or, Piece.or])
    refine ⟨M + 1, S, ?_, ?_⟩
    · rcases g1 with rfl | ⟨W, w1, w2, rfl⟩
      · exact ⟨trivial, trivial, trivial⟩
      · exact ⟨w1, trivial, by intro n hn; cases hn⟩
    · rw [Ev.invert]
      simp only [bool_and_one, bind, Except.bind, Ev.invertFinite, h4, h5]
      exact g2
  have hz : ∀ y, ¬ (Tr.id X).Zero y := by intro y h; cases h
  rcases h.cases with ⟨i, rfl, hi⟩ | rfl | ⟨W, w1, w2, rfl⟩
  · exact (Ev.PeakLit.chain (.ivl .id hi)).inv hc hl
  · exact fin none (.inl rfl)
  · exact fin (some W) (.inr ⟨W, w1, fun w hw => by obtain ⟨x, hx⟩ := w2 w hw; exact ⟨x, hx, hz x⟩, rfl⟩)

theorem NumLit.symbols (h : NumLit X e) : e.symbols = {X} := by
  rw [symbols_of_basic h.basic]; rfl

theorem NumLit.made (h : NumLit X e) {r0 : Bool} : e.MadeG r0 c := by
  rcases h.cases with ⟨i, rfl, hi⟩ | rfl | ⟨W, w1, w2, rfl⟩
  · exact .ivl (.id _) hi
  · exact .fin (.id _) (by simp)
  · exact .fin (.id _) (by intro s hs; cases hs; exact w1)

theorem NumOr.symbols (h : NumOr X e) : e.symbols = {X} := by
  rcases h with h | ⟨es, h1, rfl, h2⟩
  · exact h.symbols
  · rw [Ev.symbols]; exact symbolsL_const h1 (fun e he => (h2 e he).symbols)

theorem NumOr.made (h : NumOr X e) {r0 : Bool} : e.MadeG r0 c := by
  rcases h with h | ⟨es, h1, rfl, h2⟩
  · exact h.made
  · exact .or h1 (fun e he => (h2 e he).made)

theorem NumOr.solve (hc : c.Correct) (hl : c.Linear) (h : NumOr X e) : ∃ N S, e.solve c N = .ok S ∧ RealOK S := by
  have hs := h.symbols
  rcases h with h | ⟨es, h1, rfl, h2⟩
  · exact ⟨0, _, solve_lit h.basic 0, h.ok⟩
  · obtain ⟨N, xs, g1, g2, g3⟩ := mapM_some (f := fun n e => Ev.invert c n e (.pc (.fin {1}))) (P := RealOK)
      (fun n m e hnm => Ev.invert_le' n m e hnm _) es (fun e he => (h2 e he).inv hc hl)
    have hx : xs ≠ [] := by intro h; rw [h] at g2; exact h1 (List.length_eq_zero_iff.1 g2.symm)
    obtain ⟨r, h4, h5⟩ := reduceM_total (fun a b ha hb => real_or c.σ a b ha hb) hx g3
    refine ⟨N + 1, r, ?_, h5⟩
    rw [Ev.solve, if_neg (by rw [hs]; simp)]
    · rw [Ev.invert]
      simp only [bool_and_one, bind, Except.bind, Ev.invertFinite, g1]
      exact h4
    all_goals simp

/-- A leaf with an open support answers such events. -/
theorem leafProb_numOr (hc : c.Correct) (hl : c.Linear) {k : Kind} {d : Dist} {supp : Ivl EReal} {cond : Bool} {env : Env} (hs : (Spe.real k X d supp cond env).WF c L μ)
    (h1 : supp.lo = true) (h2 : supp.ro = true) {N n : ℕ} {S : SSet EReal} (hg : NumOr X g) (hS : g.solve c N = .ok S) (hn : N ≤ n) :
    ∃ p, leafProb c L n (.real k X d supp cond env) g = .ok p := by
  obtain ⟨w1, w2, -⟩ := Ev.solve_exact (r0 := true) hc hg.made hS
  obtain ⟨g1, -, g2, -⟩ := hs.rleaf
  obtain ⟨V, hV⟩ := open_and_total c.σ g1.wf w1 w2 (.inl ⟨h1, h2⟩)
  obtain ⟨p, hp⟩ := realLeaf_prob_total (c := c) g1 g2 w1 w2 hV
  have hle : (Spe.real k X d supp cond env).leafEnv = some (X, env) := rfl
  exact ⟨p, by simp only [leafProb, hle, leafSubst_base (leafEnv_built hs hle) hg.symbols n, Ev.solve_le hn g _ hS, bind, Except.bind, leafProbSet, hV, hp]⟩

/-- An atomic leaf answers such events. -/
theorem atomProb_numOr {v : ℝ} {env : Env} (hs : (Spe.atomic X v env).WF c L μ) {N n : ℕ} {S : SSet EReal} (hg : NumOr X g) (hS : g.solve c N = .ok S) (hR : RealOK S)
    (hn : N ≤ n) : ∃ p, leafProb c L n (.atomic X v env) g = .ok p := by
  have hle : (Spe.atomic X v env).leafEnv = some (X, env) := rfl
  obtain ⟨b, hb, -⟩ := C06_contains_num (s := S) (v : EReal) (fun m _ => ⟨by
    rintro rfl; exact hR.2.2 m rfl, by rintro u rfl hu; exact hR.2.2 _ hu m rfl⟩)
  exact ⟨if b = true then 1 else 0, by simp only [leafProb, hle, leafSubst_base (leafEnv_built hs hle) hg.symbols n, Ev.solve_le hn g _ hS, bind, Except.bind, leafProbSet, hb]⟩

/-- Mixtures, of any depth, of leaves of the variable `X`: leaves with open supports and atomic leaves. -/
inductive Spe.OpenMix (X : String) : Spe → Prop
  | leaf {k d supp cond env} : supp.lo = true → supp.ro = true → Spe.OpenMix X (.real k X d supp cond env)
  | atom {v env} : Spe.OpenMix X (.atomic X v env)
  | sum {cs ws} : (∀ s ∈ cs, Spe.OpenMix X s) → Spe.OpenMix X (.sum cs ws)

/-- Without strings there are no strings for any variable. -/
theorem nomFree_one (hX : e.symbols = {X}) (hn : e.NomFree {X}) (A : Finset String) : e.NomFree A := by
  refine (nomFree_iff e).2 ((((nomFree_iff e).1 hn).and' (Ev.symbols_all.1 (le_refl _))).mono ?_)
  rintro l t ht ⟨h1, h2⟩ hl k hk hA
  have := h2 hk
  rw [hX] at this
  exact h1 hl k hk this

/-- The members of an event of one variable. -/
theorem numOr_factor {Q : String → EReal → Prop} {F : Factor} (hne : F ≠ []) (h : ∀ m ∈ F, ClauseQ Q (.atomic X 0 [(X, .id X)]) {X} m) :
    ∃ g, factorEvent c F = .ok g ∧ NumOr X g := by
  obtain ⟨es, h1, h2, h3⟩ := mapM_total (P := NumOr X) (l := F) (f := fun m => reduceM (Ev.land c) (m.map Prod.snd)) (by
    intro m hm
    obtain ⟨hl, hw⟩ := h m hm
    obtain ⟨l, rfl, g1, g2, g3, -⟩ := hl.leaf (c := c) (.atomic (by intro s hs _; simpa using hs)) rfl
    refine ⟨l, rfl, .inl ?_⟩
    have hw' := hw (X, l) (by simp)
    simp only at hw'
    cases l with
    | ivl t i =>
      have hi : i.WF := (Ev.valid_basic g1).1 g2
      exact ⟨g1, rfl, ⟨hi, trivial, by intro n hn; cases hn⟩, fun v hv => by
        cases v with
        | str _ => trivial
        | num x => exact ivl_proper hi (by simpa [Ev.values, SSet.den] using hv)⟩
    | fin t v =>
      cases v with
      | none => exact ⟨g1, rfl, ⟨trivial, trivial, trivial⟩, fun v hv => by simp [Ev.values, optFin, SSet.den] at hv⟩
      | some W =>
        refine ⟨g1, rfl, ⟨(Ev.valid_basic g1).1 g2, trivial, by intro n hn; cases hn⟩, fun v hv => ?_⟩
        cases v with
        | str _ => trivial
        | num x => exact ⟨(hw' x (by simpa [Ev.values, optFin, SSet.den] using hv)).1, (hw' x (by simpa [Ev.values, optFin, SSet.den] using hv)).2.1⟩
    | nom t v =>
      simp only [Ev.basic?, Option.some.injEq] at g1; subst g1
      simp [Ev.NomFree, Spe.atomSyms, Tr.symbols] at g3
    | or => simp [Ev.basic?] at g1
    | and => simp [Ev.basic?] at g1)
  have hes : es ≠ [] := by intro h; rw [h] at h2; exact hne (List.length_eq_zero_iff.1 h2.symm)
  obtain ⟨g, hg, hgn⟩ := reduceM_total (f := Ev.lor c) (fun a b ha hb => NumOr.lor ha hb) hes h3
  exact ⟨g, by simp only [factorEvent, bind, Except.bind, h1, hg], hgn⟩

theorem probMem_open (hc : c.Correct) (hl : c.Linear) {N n : ℕ} {S : SSet EReal} {F : Factor} (hF : factorEvent c F = .ok g) (hg : NumOr X g) (hS : g.solve c N = .ok S) (hR : RealOK S) (hn : N ≤ n)
    {s : Spe} (ho : s.OpenMix X) (hs : s.WF c L μ) : ∃ p, s.probMem c L n F = .ok p := by
  induction ho with
  | leaf h1 h2 =>
    obtain ⟨p, hp⟩ := leafProb_numOr hc hl hs h1 h2 hg hS hn
    exact ⟨p, by rw [Spe.probMem]; simp only [hF, bind, Except.bind, hp]⟩
  | atom =>
    obtain ⟨p, hp⟩ := atomProb_numOr hs hg hS hR hn
    exact ⟨p, by rw [Spe.probMem]; simp only [hF, bind, Except.bind, hp]⟩
  | @sum cs ws h ih =>
    rw [Spe.probMem, callAll, Spe.probMemL_eq, List.mapM_map]
    cases hs with
    | @sum _ _ S h1 hne hl hw hsum hS =>
    obtain ⟨ps, hps, -⟩ := mapM_total (P := fun _ => True) (l := cs) (f := fun s => s.probMem c L n F) (by
      intro s hs
      obtain ⟨p, hp⟩ := ih s hs (h1 s hs)
      exact ⟨p, hp, trivial⟩)
    exact ⟨mixSum ws ps, by simp only [bind, Except.bind]; rw [show (List.mapM ((fun f => f F) ∘ Spe.probMem c L n) cs) = .ok ps from hps]⟩

/-- A mixture of leaves with open supports and atomic leaves answers every event that `dnf_normalize` brings into normal form. -/
theorem prob_openMix (hc : c.Correct) (hl : c.Linear) {Q : String → EReal → Prop} {s : Spe} (hs : s.WF c L μ) (ho : s.OpenMix X) (hlf : s.isLeaf = false) (hmade : e.Made c) (H : NormReturns c Q e)
    (hX : e.symbols = {X}) (hn : e.NomFree {X}) : ∃ N, ∀ n, N ≤ n → ∃ p, s.prob c L n e = .ok p := by
  obtain ⟨N, o, h1, h2⟩ := H
  cases o with
  | none =>
    refine ⟨N, fun n hN => ⟨0, ?_⟩⟩
    unfold Spe.prob
    rw [if_neg (by simp [hlf])]
    simp only [h1 n hN, bind, Except.bind]
  | some r =>
    obtain ⟨r1, r2, r3, -⟩ := h2 r rfl
    obtain ⟨hN', -⟩ := (dnfNormalize_ok hc hmade (h1 N le_rfl)).2 r rfl
    have hnum := dnfNormalize_num hc hmade (h1 N le_rfl) ((nomFree_iff e).1 hn)
    obtain ⟨g1, -⟩ := normOK_set hN'
    rw [hX] at g1
    obtain ⟨F, hF, hne, hcl, -⟩ := factor_total (c := c) (s := .atomic X 0 [(X, .id X)]) (V := {X}) r1 r2 r3 (by simpa [Spe.atomSyms] using hnum) (by simpa [Spe.symbols] using g1) g1
    obtain ⟨g, hg, hgn⟩ := numOr_factor (c := c) hne hcl
    obtain ⟨M, S, hS, hR⟩ := hgn.solve hc hl
    refine ⟨max N M, fun n hn => ?_⟩
    unfold Spe.prob
    rw [if_neg (by simp [hlf])]
    simp only [h1 n (le_trans (le_max_left _ _) hn), bind, Except.bind, hF]
    exact probMem_open hc hl hg hgn hS hR (le_trans (le_max_right _ _) hn) ho hs

end Sppl
