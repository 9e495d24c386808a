import Verif.Interp.Props
import Verif.Spe.Props
import Verif.Spe.CondProps
import Verif.Spe.InfoProps

set_option linter.all false

/-!
# C29–C31: a program that meets the hypotheses, and what it computes
-/

namespace Sppl
open Classical MeasureTheory
open scoped ENNReal ProbabilityTheory

/-- The settings of the examples: no simplification. -/
noncomputable def opts0 : Opts := ⟨ctx0, libOf muU, fun _ => 0, 5, .ok⟩

/-- The distribution of a fair coin. -/
noncomputable def coinD : Distr := .nominal [("a", 1/2), ("b", 1/2)]

/-- `Y >> coin`; `if Y == 'a': X >> uniform(0, 1)`, `else: X >> {'z': 1}`. -/
noncomputable def prog0 : Cmd := .seq [.sample "Y" (.one coinD), .ifelse [strEv "Y" "a"] true [.sample "X" (.one (.real .cont d0 unitIvl)), .sample "X" (.one (.nominal [("z", 1)]))]]

/-- A coin known to show `b`. -/
def surely (Y : String) : Spe := .nominal Y [("a", 0), ("b", 1)]

theorem coin_cond_not (L : Lib) (n : ℕ) (Y : String) : leafCond ctx0 L (n + 1) (coin Y) (nomN Y "a") = .ok (surely Y) := by
  have h1 : leafSubst ctx0 (n + 1) Y [(Y, .id Y)] (nomN Y "a") = .ok (nomN Y "a") := by
    have hno : ¬ exprInEnv (nomN Y "a").symbols [(Y, .id Y)] := by rintro ⟨s, -, hs⟩; exact hs (single_get Y s)
    have hsub : (nomN Y "a").substitute ctx0 (n + 1) [(Y, .id Y)] (n + 1) = .ok (nomN Y "a") := by simp [Ev.substitute, hno]
    unfold leafSubst
    rw [hsub]
    simp [bind, Except.bind, nomN, Ev.symbols, Tr.symbols]
  have h2 : (nomN Y "a").solve ctx0 (n + 1) = .ok (.pc (.nom ⟨{"a"}, some true⟩)) := by simp [nomN, Ev.solve, optNom]
  have h3 : nominalValues ctx0 [("a", 1/2), ("b", 1/2)] (.pc (.nom ⟨{"a"}, some true⟩)) = .ok (.pc (.nom ⟨{"b"}, none⟩)) := by
    unfold nominalValues mkNom
    have : Finset.filter (fun x => ¬ x = "a") ({"a", "b"} : Finset String) = {"b"} := by decide
    simp [bind, Except.bind, SSet.and, Piece.and, Nom.and, Nom.neg, nomOrEmpty, this, mkNom, Nom.has, Nom.WF]
  have h4 : nominalMass [("a", 1/2), ("b", 1/2)] {"b"} = .ok (1/2) := by
    unfold nominalMass
    simp [bind, Except.bind, pure, Except.pure, List.mapM_cons, List.lookup]
  have h5 : condNominal Y [("a", 1/2), ("b", 1/2)] {"b"} (1/2) = .ok (surely Y) := by
    unfold condNominal mkNominal surely mkNom
    norm_num [bind, Except.bind, show ¬ ("a" = "b") by decide]
  simp only [leafCond, coin, Spe.leafEnv, h1, h2, leafCondSet, h3, h4, bind, Except.bind]
  exact h5

/-- What `prog0` computes. -/
theorem prog0_run : prog0.interp opts0 none = .ok (some (.sum [.prod [sure "Y", leafX "X"], .prod [surely "Y", .nominal "X" [("z", 1)]]] [1/2, 1/2])) := by
  obtain ⟨-, -, -, -, -, hnot, h1, -, -, -, h2⟩ := coin_facts
  have c1 : (coin "Y").condition ctx0 (libOf muU) (fun _ => 0) 5 (strEv "Y" "a") = .ok (sure "Y") := by
    unfold Spe.condition
    rw [if_pos (show Spe.isLeaf _ = true from rfl)]
    exact coin_cond _ 4 "Y"
  have c2 : (coin "Y").condition ctx0 (libOf muU) (fun _ => 0) 5 (nomN "Y" "a") = .ok (surely "Y") := by
    unfold Spe.condition
    rw [if_pos (show Spe.isLeaf _ = true from rfl)]
    exact coin_cond_not _ 4 "Y"
  have n1 : dnfNormalize ctx0 5 (strEv "Y" "a") = .ok (some (strEv "Y" "a")) := by
    simp [dnfNormalize, Ev.isIdLit, Ev.basic?, strEv, Tr.isId]
  have n2 : dnfNormalize ctx0 5 (nomN "Y" "a") = .ok (some (nomN "Y" "a")) := by
    simp [dnfNormalize, Ev.isIdLit, Ev.basic?, nomN, Tr.isId]
  have d1 : coinD.call (libOf muU) "Y" = .ok (coin "Y") := by norm_num [coinD, Distr.call, mkNominal, mkNom, bind, Except.bind, coin]
  have d2 : (Distr.real .cont d0 unitIvl).call (libOf muU) "X" = .ok (leafX "X") := by simp [Distr.call, mkReal, leafX]; rfl
  have d3 : (Distr.nominal [("z", 1)]).call (libOf muU) "X" = .ok (.nominal "X" [("z", 1)]) := by simp [Distr.call, mkNominal, mkNom, bind, Except.bind]
  have p1 : mkProd [sure "Y", leafX "X"] = .ok (.prod [sure "Y", leafX "X"]) := by
    simp [mkProd, Spe.prodChildren, leafX, sure, areDisjoint, Spe.symbolsL, Spe.symbols]
  have p2 : mkProd [surely "Y", .nominal "X" [("z", 1)]] = .ok (.prod [surely "Y", .nominal "X" [("z", 1)]]) := by
    simp [mkProd, Spe.prodChildren, surely, areDisjoint, Spe.symbolsL, Spe.symbols]
  have s1 : mkSum [.prod [sure "Y", leafX "X"], .prod [surely "Y", .nominal "X" [("z", 1)]]] [1/2, 1/2] =
      .ok (.sum [.prod [sure "Y", leafX "X"], .prod [surely "Y", .nominal "X" [("z", 1)]]] [1/2, 1/2]) := by
    simp [mkSum, Spe.sumChildren, Spe.sumWeights, leafX, sure, surely, areIdentical, Spe.symbolsL, Spe.symbols]
    norm_num
  have i1 : ifEvents ctx0 [strEv "Y" "a"] true = .ok [strEv "Y" "a", nomN "Y" "a"] := by
    simp [ifEvents, branchEvents, branchEvent, hnot, bind, Except.bind, pure, Except.pure]
  have b1 : ifBlock opts0 (coin "Y") [some (strEv "Y" "a"), some (nomN "Y" "a")]
      [Cmd.interp opts0 (.sample "X" (.one (.real .cont d0 unitIvl))), Cmd.interp opts0 (.sample "X" (.one (.nominal [("z", 1)])))] =
        .ok (.sum [.prod [sure "Y", leafX "X"], .prod [surely "Y", .nominal "X" [("z", 1)]]] [1/2, 1/2]) := by
    have o1 : optProb opts0 (coin "Y") (some (strEv "Y" "a")) = .ok (1/2) := NoPiecewise.keyed_prob (s := coin "Y") (by intro s e h; cases h; simp [strEv, nomN, Ev.hashable, Tr.hashable]) |>.trans h1
    have o2 : optProb opts0 (coin "Y") (some (nomN "Y" "a")) = .ok (1/2) := NoPiecewise.keyed_prob (s := coin "Y") (by intro s e h; cases h; simp [strEv, nomN, Ev.hashable, Tr.hashable]) |>.trans h2
    have q1 : optCond opts0 (coin "Y") (some (strEv "Y" "a")) = .ok (sure "Y") := NoPiecewise.keyed_condition (s := coin "Y") (by intro s e h; cases h; simp [strEv, nomN, Ev.hashable, Tr.hashable]) |>.trans c1
    have q2 : optCond opts0 (coin "Y") (some (nomN "Y" "a")) = .ok (surely "Y") := NoPiecewise.keyed_condition (s := coin "Y") (by intro s e h; cases h; simp [strEv, nomN, Ev.hashable, Tr.hashable]) |>.trans c2
    have r1 : runSome (Cmd.interp opts0 (.sample "X" (.one (.real .cont d0 unitIvl)))) (sure "Y") = .ok (.prod [sure "Y", leafX "X"]) := by
      simp only [runSome, Cmd.interp, Source.call, show opts0.L = libOf muU from rfl, d2, p1, bind, Except.bind]
    have r2 : runSome (Cmd.interp opts0 (.sample "X" (.one (.nominal [("z", 1)])))) (surely "Y") = .ok (.prod [surely "Y", .nominal "X" [("z", 1)]]) := by
      simp only [runSome, Cmd.interp, Source.call, show opts0.L = libOf muU from rfl, d3, p2, bind, Except.bind]
    unfold ifBlock
    rw [if_neg (by simp)]
    simp only [List.mapM_cons, List.mapM_nil, o1, o2, bind, Except.bind, pure, Except.pure, List.zip_cons_cons, List.zip_nil_left, List.filter_cons, List.filter_nil,
      ne_eq, show ¬ ((1 : ℝ)/2 = 0) by norm_num, not_false_eq_true, decide_true, if_true, List.map_cons, List.map_nil, q1, q2, r1, r2, List.sum_cons, List.sum_nil,
      show ((1 : ℝ)/2 + (1/2 + 0) = 1) by norm_num, not_true_eq_false, if_false, reduceCtorEq, mergeBranches, s1]
    rfl
  have e1 : (Cmd.ifelse [strEv "Y" "a"] true [.sample "X" (.one (.real .cont d0 unitIvl)), .sample "X" (.one (.nominal [("z", 1)]))]).interp opts0 (some (coin "Y")) =
      .ok (some (.sum [.prod [sure "Y", leafX "X"], .prod [surely "Y", .nominal "X" [("z", 1)]]] [1/2, 1/2])) := by
    rw [Cmd.interp]
    simp only [needSpe, show opts0.c = ctx0 from rfl, show opts0.n = 5 from rfl, i1, bind, Except.bind, List.mapM_cons, List.mapM_nil, n1, n2, pure, Except.pure,
      Cmd.interpL, b1]
  have e0 : (Cmd.sample "Y" (.one coinD)).interp opts0 none = .ok (some (coin "Y")) := by
    simp only [Cmd.interp, Source.call, show opts0.L = libOf muU from rfl, d1, bind, Except.bind]
  unfold prog0
  rw [Cmd.interp]
  simp only [Cmd.interpL, List.foldlM_cons, List.foldlM_nil, e0, bind, Except.bind, e1, pure, Except.pure]

/-- `prog0` is one of the programs that are covered. -/
theorem prog0_safe : prog0.Safe ctx0 (libOf muU) muU start := by
  have hcoin : coinD.WF (libOf muU) muU := .nominal (by simp) (by simp)
  have d1 : (Source.one coinD).call (libOf muU) "Y" = .ok (coin "Y") := by norm_num [Source.call, coinD, Distr.call, mkNominal, mkNom, bind, Except.bind, coin]
  obtain ⟨k1, k2⟩ := source_ok (c := ctx0) (.one hcoin) d1
  have hrun : Rep ctx0 (libOf muU) muU (withIndep "Y" ((Source.one coinD).law muU "Y") start) (coin "Y") := by
    have := sample_ok (o := opts0) (X := "Y") (μ := muU) (.one hcoin) start none (some (coin "Y")) rfl (by
      simp only [Cmd.interp, show opts0.L = libOf muU from rfl, d1, bind, Except.bind])
    exact this
  unfold prog0
  simp only [Cmd.Safe, Cmd.SafeS, Cmd.sem, Cmd.SafeB, condSets, firsts, List.map_cons, List.map_nil, List.cons_append, List.nil_append, if_true, and_true]
  refine ⟨.one hcoin, ?_, ?_, ?_⟩
  · intro e he
    simp only [List.mem_cons, List.not_mem_nil, or_false] at he
    subst he
    rw [← hrun.den]
    exact ⟨strEv_made _ _ _, by simp [strEv, Ev.All, NomId, Tr.isId], by simp [strEv, Ev.All, NomSome], by filter_upwards with ω; simp [strEv, Ev.Regular, Tr.Regular], (coin_typed "Y" "a").typed⟩
  · intro _; exact .one (.real rfl (distOK_unif _) unitIvl_wf (by intro h; cases h) (by rw [unitIvl_reals]; simp [muU, unif]))
  · intro _; exact .one (.nominal (by simp) (by simp))

/-- C29, C30 non-vacuity: `prog0` meets the hypotheses, and the SPE denotes: `Y` is `a` and `X` uniform, or `Y` is `b` and `X` is `z`, with probabilities one half. -/
example : ∃ s, prog0.interp opts0 none = .ok (some s) ∧ s.den muU = prog0.sem muU start := 
  ⟨_, prog0_run, (C30_program_partial (o := opts0) ctx0_correct (simpOK_none _ _ _) prog0_safe prog0_run).1⟩

/-- C31 non-vacuity: the first command of a branch of `prog0`, on the coin that shows `a`. -/
example : ∃ s', (Cmd.sample "X" (.one (.real .cont d0 unitIvl))).interp opts0 (some (sure "Y")) = .ok s' := by
  have d2 : (Distr.real .cont d0 unitIvl).call (libOf muU) "X" = .ok (leafX "X") := by simp [Distr.call, mkReal, leafX]; rfl
  have p1 : mkProd [sure "Y", leafX "X"] = .ok (.prod [sure "Y", leafX "X"]) := by
    simp [mkProd, Spe.prodChildren, leafX, sure, areDisjoint, Spe.symbolsL, Spe.symbols]
  exact ⟨_, by simp only [Cmd.interp, Source.call, show opts0.L = libOf muU from rfl, d2, p1, bind, Except.bind]; rfl⟩

/-- C30: in a `Switch` the case of a string that comes after a case of numbers is lost: its set is empty, whatever the sets are.  So a `Switch` over a variable that
is sometimes a number and sometimes a string fails (its probabilities do not add up to one), or does not take the case. -/
theorem C30_switch_mixed_wrong {c : Ctx} {S : SSet EReal} (hS : Built S) (hr : ∀ t, Val.str t ∉ S.den) (x : String) {r : SSet EReal}
    (h : caseSet c [S] (SwVal.str x).toSet = .ok r) : (SwVal.str x).Holds (.id "X") (baseAsg "X" (.str x)) ∧ ∀ v, v ∉ r.den := by
  refine ⟨by simp [SwVal.Holds, Tr.eval, baseAsg], ?_⟩
  simp only [caseSet, List.foldlM_cons, List.foldlM_nil, bind, Except.bind, pure, Except.pure, SwVal.toSet] at h
  split at h; · cases h
  rename_i y hy
  split at hy; · cases hy
  rename_i z hz
  cases h
  obtain ⟨h1, h2⟩ := C03_invert_real c.σ hS hr hz
  have hb : Built (SSet.pc (.nom ⟨{x}, none⟩) : SSet EReal) := .nom (vals := {x}) (b := none) rfl
  obtain ⟨a1, a2⟩ := C04_built_disjoint hb
  obtain ⟨a3, a4⟩ := C04_built_disjoint (Built.invert hS hz)
  have ok := SSet.and_spec c.σ _ _ a1 a2 a3 a4 hy
  intro v hv
  obtain ⟨b1, b2⟩ := ok.sub _ hv
  cases v with
  | str t => exact h2 t b2
  | num t => simp [SSet.den] at b1

end Sppl
