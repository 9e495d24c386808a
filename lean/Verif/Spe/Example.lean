import Verif.Spe.ProbLemmas
import Verif.Events.Example
import Mathlib.MeasureTheory.Measure.Lebesgue.Basic

set_option linter.all false

/-!
# Concrete SPEs

Used to show that the hypotheses of the theorems are met.
-/

namespace Sppl
open Classical MeasureTheory
open scoped ENNReal ProbabilityTheory

/-- A correct scipy for given distributions. -/
noncomputable def libOf (μ : Dist → Measure ℝ) : Lib where
  cdf d x := (μ d).real {y | (y : EReal) ≤ x}
  pmf d x := (μ d).real {y | (y : EReal) = x}
  pdf _ _ := 0

/-- The uniform distribution on `[0, 1]`. -/
noncomputable def unif : Measure ℝ := volume.restrict (Set.Icc 0 1)

instance : IsProbabilityMeasure unif := ⟨by simp [unif]⟩

/-- Every name is the uniform distribution. -/
noncomputable def muU : Dist → Measure ℝ := fun _ => unif

/-- The name of a distribution. -/
def d0 : Dist := ⟨"uniform", [], [], []⟩

theorem distOK_unif (d : Dist) : DistOK (libOf muU) muU .cont d where
  prob := by unfold muU; infer_instance
  cdf x := rfl
  cont := by intro _ x; simp [muU, unif]
  disc := by intro h; cases h
  pmf := by intro h; cases h

theorem unif_cdf (x : ℝ) (h0 : 0 ≤ x) (h1 : x ≤ 1) : (libOf muU).cdf d0 (x : EReal) = x := by
  simp only [libOf, muU, unif, EReal.coe_le_coe_iff]
  rw [measureReal_restrict_apply (show MeasurableSet {y : ℝ | y ≤ x} from measurableSet_Iic)]
  have : {y : ℝ | y ≤ x} ∩ Set.Icc 0 1 = Set.Icc 0 x := by
    ext y; simp only [Set.mem_inter_iff, Set.mem_setOf_eq, Set.mem_Icc]
    constructor
    · rintro ⟨h, h', -⟩; exact ⟨h', h⟩
    · rintro ⟨h, h'⟩; exact ⟨h', h, h'.trans h1⟩
  rw [this]
  simp [h0]

/-- The support `[0, 1]`. -/
noncomputable def unitIvl : Ivl EReal := ⟨((0 : ℝ) : EReal), ((1 : ℝ) : EReal), false, false⟩

theorem unitIvl_wf : unitIvl.WF := ⟨by simp [unitIvl], fun h => absurd h (EReal.coe_ne_bot _), fun h => absurd h (EReal.coe_ne_top _)⟩

theorem unitIvl_reals : unitIvl.reals = Set.Icc 0 1 := by
  ext x
  simp only [unitIvl, Ivl.reals, Set.mem_setOf_eq, Ivl.Mem, Bool.false_eq_true, if_false, EReal.coe_le_coe_iff, Set.mem_Icc]

/-- A uniform variable. -/
noncomputable def leafX (X : String) : Spe := .real .cont X d0 unitIvl false [(X, .id X)]

theorem envOK_single (c : Ctx) (X : String) : EnvOK c X [(X, .id X)] :=
  ⟨.base, by intro p hp; simp at hp; subst hp; exact .id _⟩

theorem leafX_wf (c : Ctx) (X : String) : (leafX X).WF c (libOf muU) muU := by
  refine .real (distOK_unif d0) (envOK_single c X) unitIvl_wf (by intro h; cases h) ?_ ?_
  · simp only [Bool.false_eq_true, if_false, unitIvl_reals]
    simp [muU, unif]
  · refine Filter.Eventually.of_forall (fun x p hp => ?_)
    simp at hp; subst hp; trivial

/-- A fair coin. -/
def coin (Y : String) : Spe := .nominal Y [("a", 1/2), ("b", 1/2)]

theorem coin_wf (c : Ctx) (L : Lib) (μ : Dist → Measure ℝ) (Y : String) : (coin Y).WF c L μ := by
  refine .nominal (by simp) ?_ ?_
  · intro p hp; simp at hp; rcases hp with rfl | rfl <;> norm_num
  · norm_num

/-- Two independent coins. -/
def coins : Spe := .prod [coin "Y", coin "Z"]

theorem coins_wf (c : Ctx) (L : Lib) (μ : Dist → Measure ℝ) : coins.WF c L μ := by
  refine .prod ?_ (by simp) ?_
  · intro s hs; simp at hs; rcases hs with rfl | rfl <;> exact coin_wf _ _ _ _
  · simp [Spe.symbolsL, Spe.symbols, coin]

/-- `Y == 'a'`. -/
def strEv (s x : String) : Ev := .nom (.id s) (some ⟨{x}, none⟩)

theorem strEv_made (c : Ctx) (s x : String) : (strEv s x).Made c := .nom (.id _) (by simp) (by simp [Nom.WF])

theorem coin_prob (L : Lib) (n : ℕ) (Y : String) : leafProb ctx0 L (n + 1) (coin Y) (strEv Y "a") = .ok (1/2) := by
  have h1 : leafSubst ctx0 (n + 1) Y [(Y, .id Y)] (strEv Y "a") = .ok (strEv Y "a") := by
    have hno : ¬ exprInEnv (strEv Y "a").symbols [(Y, .id Y)] := by rintro ⟨s, -, hs⟩; exact hs (single_get Y s)
    have hsub : (strEv Y "a").substitute ctx0 (n + 1) [(Y, .id Y)] (n + 1) = .ok (strEv Y "a") := by simp [Ev.substitute, hno]
    unfold leafSubst
    rw [hsub]
    simp [bind, Except.bind, strEv, Ev.symbols, Tr.symbols]
  have h2 : (strEv Y "a").solve ctx0 (n + 1) = .ok (.pc (.nom ⟨{"a"}, none⟩)) := by simp [strEv, Ev.solve, optNom]
  have h3 : nominalValues ctx0 [("a", 1/2), ("b", 1/2)] (.pc (.nom ⟨{"a"}, none⟩)) = .ok (.pc (.nom ⟨{"a"}, none⟩)) := by
    unfold nominalValues mkNom
    have : Finset.filter (fun x => x = "a") ({"a", "b"} : Finset String) = {"a"} := by decide
    simp [bind, Except.bind, SSet.and, Piece.and, Nom.and, Nom.neg, nomOrEmpty, this, mkNom, Nom.has, Nom.WF]
  have h4 : nominalMass [("a", 1/2), ("b", 1/2)] {"a"} = .ok (1/2) := by
    unfold nominalMass
    simp [bind, Except.bind, pure, Except.pure, List.mapM_cons]
  simp only [leafProb, coin, Spe.leafEnv, h1, h2, leafProbSet, h3, h4, bind, Except.bind]
  simp

/-- `Y == 'a' | Z == 'a'`. -/
def coinsEv : Ev := .or [strEv "Y" "a", strEv "Z" "a"]

theorem coinsEv_made (c : Ctx) : coinsEv.Made c := by
  refine .or (by simp) ?_
  intro e he; simp at he; rcases he with rfl | rfl <;> exact strEv_made _ _ _

theorem coinsEv_normal (n : ℕ) : dnfNormalize ctx0 n coinsEv = .ok (some coinsEv) := by
  simp [coinsEv, dnfNormalize, Ev.isIdLit, Ev.basic?, strEv, normalizeBody, Ev.toDnf, Ev.toDnfList, Ev.toDnfListL, simplifyEvent, dnfFactor1, dnfFactor,
      factorClause, factorLoop, factorLit, Ev.symbol1, Ev.symbols, Ev.symbolsL, Tr.symbols, selfLookup, 
      solveClause, Ev.solve, optNom, SSet.isEmpty, dedupSols, solConj, Tr.inSet, reduceM, Ev.lor, Ev.simplify, Ev.disjuncts, Sol.eqPy, List.lookup,
      bind, Except.bind, pure, Except.pure, List.mapM_cons]

/-- The factored event. -/
def coinsF : Factor := [[("Y", strEv "Y" "a")], [("Z", strEv "Z" "a")]]

theorem coinsEv_factor : dnfFactor1 ctx0 coinsEv = .ok coinsF := by
  simp [coinsEv, coinsF, dnfFactor1, dnfFactor, strEv, factorClause, factorLit, Ev.symbol1, Ev.symbols, Ev.symbolsL, Tr.symbols, selfLookup,
      bind, Except.bind, pure, Except.pure, List.mapM_cons]

theorem coins_mem (L : Lib) (n : ℕ) (Y : String) : (coin Y).probMem ctx0 L (n + 1) [[(Y, strEv Y "a")]] = .ok (1/2) := by
  have : factorEvent ctx0 [[(Y, strEv Y "a")]] = .ok (strEv Y "a") := by
    simp [factorEvent, reduceM, bind, Except.bind, pure, Except.pure, List.mapM_cons]
  have h := coin_prob L n Y
  unfold coin at h ⊢
  simp only [Spe.probMem, this, bind, Except.bind, h]

theorem coins_prob (L : Lib) (n : ℕ) : coins.prob ctx0 L (n + 1) coinsEv = .ok (3/4) := by
  have hsym : Spe.symbolsL [coin "Y", coin "Z"] = [{"Y"}, {"Z"}] := rfl
  have hY : lookupChild [{"Y"}, {"Z"}] "Y" = .ok 0 := by decide
  have hZ : lookupChild [{"Y"}, {"Z"}] "Z" = .ok 1 := by decide
  have mY := coins_mem L n "Y"
  have mZ := coins_mem L n "Z"
  have f0 : conjProb ctx0 [{"Y"}, {"Z"}] (Spe.probMemL ctx0 L (n + 1) [coin "Y", coin "Z"]) [[("Y", strEv "Y" "a")]] = .ok (1/2) := by
    simp [conjProb, conjKeys, conjKey, conjClause, conjClauseLoop, hY, hZ, Clause.addAnd, Spe.probMemL, mY, mZ, bind, Except.bind, pure, Except.pure,
      List.mapM_cons, List.foldlM]
  have f1 : conjProb ctx0 [{"Y"}, {"Z"}] (Spe.probMemL ctx0 L (n + 1) [coin "Y", coin "Z"]) [[("Z", strEv "Z" "a")]] = .ok (1/2) := by
    simp [conjProb, conjKeys, conjKey, conjClause, conjClauseLoop, hY, hZ, Clause.addAnd, Spe.probMemL, mY, mZ, bind, Except.bind, pure, Except.pure,
      List.mapM_cons, List.foldlM]
  have f2 : conjProb ctx0 [{"Y"}, {"Z"}] (Spe.probMemL ctx0 L (n + 1) [coin "Y", coin "Z"]) [[("Y", strEv "Y" "a")], [("Z", strEv "Z" "a")]] = .ok (1/4) := by
    simp [conjProb, conjKeys, conjKey, conjClause, conjClauseLoop, hY, hZ, Clause.addAnd, Spe.probMemL, mY, mZ, bind, Except.bind, pure, Except.pure,
      List.mapM_cons, List.foldlM]
    norm_num
  unfold Spe.prob
  rw [if_neg (by simp [coins, Spe.isLeaf, Spe.leafEnv])]
  simp only [coinsEv_normal, coinsEv_factor, bind, Except.bind]
  unfold coins
  rw [Spe.probMem, hsym]
  generalize hf : (fun J => conjProb ctx0 [{"Y"}, {"Z"}] (Spe.probMemL ctx0 L (n + 1) [coin "Y", coin "Z"]) (pickClauses coinsF J)) = f
  have g0 : f [0] = .ok (1/2) := by rw [← hf]; exact f0
  have g1 : f [1] = .ok (1/2) := by rw [← hf]; exact f1
  have g2 : f [0, 1] = .ok (1/4) := by rw [← hf]; exact f2
  have hlen : coinsF.length = 2 := rfl
  rw [hlen, inclExcl]
  have hloop : ieLoop 2 f ((List.range 2).map (fun i => ([i], i))) [] [] [] = .ok ([1/2, 1/2], [1/4]) := by
    simp only [List.range_succ, List.range_zero, List.nil_append, List.map_cons, List.map_nil, List.cons_append]
    rw [ieLoop]; simp only [isBad, List.any_nil, Bool.false_eq_true, if_false, g0, ieNext, List.cons_append, List.nil_append, List.range', List.map_cons, List.map_nil]
    norm_num
    rw [ieLoop]; simp only [isBad, List.any_nil, Bool.false_eq_true, if_false, g1, ieNext, List.cons_append, List.nil_append, List.range', List.map_cons, List.map_nil]
    norm_num
    rw [ieLoop]; simp only [isBad, List.any_nil, Bool.false_eq_true, if_false, g2, ieNext, List.cons_append, List.nil_append, List.range', List.map_cons, List.map_nil]
    norm_num
    rw [ieLoop]
  rw [hloop]
  simp only [bind, Except.bind, pdiff]
  norm_num

end Sppl
