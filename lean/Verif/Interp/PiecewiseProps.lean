import Verif.Memo.Props
import Verif.Spe.CacheProps
import Verif.Spe.TotalProps
import Verif.Interp.Example
import Verif.Spe.Info

/-!
# C25, C27, C37, C39, C52: `Piecewise` transforms have no hash

`Piecewise.__hash__` (transforms.py 757-759) hashes a tuple of lists, which raises a `TypeError`.  Queries of leaves without a memo do not compute a
hash; everything else that looks at a leaf with such a derived variable does.
-/

namespace Sppl
open Classical MeasureTheory
open scoped ENNReal

/-- `Piecewise([X], [X in {1}])`. -/
noncomputable def pwT : Tr := .pw [.id "X"] [.fin (.id "X") (some {1})] [.pc (.fin {1})]

/-- A variable that is uniform on `[0, 1]`, and `Z = Piecewise([X], [X in {1}])`. -/
noncomputable def leafPw : Spe := .real .cont "X" d0 unitIvl false [("X", .id "X"), ("Z", pwT)]

/-- `Z in {1}`. -/
noncomputable def pwEv : Ev := .fin (.id "Z") (some {1})

theorem pwT_made (n : ℕ) : mkPiecewise ctx0 n [.id "X"] [.fin (.id "X") (some {1})] = .ok pwT := by
  simp [mkPiecewise, Tr.symbolsL, Tr.symbols, Ev.symbolsL, Ev.symbols, Ev.solve, optFin, checkDisjoint, List.zipIdx, bind, Except.bind, pure, Except.pure, pwT, List.mapM_cons]

theorem leafPw_made : (leafX "X").transform (libOf muU) "Z" pwT = .ok leafPw := by
  simp [leafX, Spe.transform, envTransform, pwT, Tr.symbols, Tr.symbolsL, bind, Except.bind, leafPw, mkReal]

theorem leafPw_subst (n : ℕ) : leafSubst ctx0 (n + 2) "X" [("X", .id "X"), ("Z", pwT)] pwEv = .ok (.fin pwT (some {1})) := by
  have h1 : exprInEnv ({"Z"} : Finset String) [("X", .id "X"), ("Z", pwT)] := ⟨"Z", by simp, by simp [Env.get, pwT, List.lookup]⟩
  have h2 : ¬ exprInEnv ({"X"} : Finset String) [("X", .id "X"), ("Z", pwT)] := by
    rintro ⟨s, hs, h⟩
    simp at hs; subst hs; simp [Env.get, List.lookup] at h
  have h3 : pwT.symbols = {"X"} := by simp [pwT, Tr.symbols, Tr.symbolsL]
  have h4 : Env.get [("X", .id "X"), ("Z", pwT)] "Z" = pwT := by simp [Env.get, List.lookup]
  simp [leafSubst, Ev.substitute, pwEv, Ev.symbols, Tr.symbols, h1, Ev.subs, Tr.subs, h2, h3, h4, bind, Except.bind]

theorem leafPw_solve (n : ℕ) : (Ev.fin pwT (some {1})).solve ctx0 (n + 3) = .ok (.pc (.fin {1})) := by
  have h01 : SSet.and ctx0.σ (.pc (.fin {0, 1})) (.pc (.fin {1})) = .ok (.pc (.fin {1})) := by
    have : ({0, 1} : Finset EReal) ∩ {1} = {1} := by ext x; simp
    simp [SSet.and, Piece.and, finOrEmpty, this]
  have h11 : SSet.and ctx0.σ (.pc (.fin {1})) (.pc (.fin {1})) = .ok (.pc (.fin {1})) := by
    simp [SSet.and, Piece.and, finOrEmpty]
  have hr : ∀ r, extReals ctx0 = .ok r → SSet.and ctx0.σ r (.pc (.fin {1})) = .ok (.pc (.fin {1})) := by
    intro r hr
    rw [ctx0_extReals] at hr; cases hr
    have h1 : ({⊥, ⊤} : Finset EReal) ∩ {1} = ∅ := by
      ext x; simp; rintro (rfl | rfl)
      · exact one_ne_bot'.symm
      · exact one_ne_top'.symm
    have h3 : (⟨⊥, ⊤, true, true⟩ : Ivl EReal).has 1 = true := by simp [Ivl.has, one_ne_top'.lt_top, one_ne_bot'.bot_lt]
    simp [SSet.and, Un.andPiece, andOptFin, Piece.and, h1, h3, finOrEmpty, finishAnd, SSet.isEmpty, bind, Except.bind, pure, Except.pure, List.mapM_cons]
  have hi : ∀ m, Tr.invert ctx0 (m + 1) (.id "X") (.pc (.fin {1})) = .ok (.pc (.fin {1})) := by
    intro m
    rw [Tr.invert, Tr.range, ctx0_extReals]
    simp only [bind, Except.bind, hr _ ctx0_extReals, Tr.invertStep, Tr.invertFinite]
  have hp : Tr.invert ctx0 (n + 2) pwT (.pc (.fin {1})) = .ok (.pc (.fin {1})) := by
    rw [Tr.invert, pwT, Tr.range]
    simp only [Tr.rangeL, Tr.range, ctx0_extReals, makeUnion, reduceM, List.foldlM, bind, Except.bind, pure, Except.pure, hr _ ctx0_extReals, Tr.invertStep, Tr.invertFinite,
      pwInverse, List.mapM_cons, List.mapM_nil, hi, List.zip_cons_cons, List.zip_nil_left, h11]
  have hsym : (Ev.fin pwT (some {1})).symbols = {"X"} := by simp [pwT, Ev.symbols, Tr.symbols, Tr.symbolsL]
  rw [Ev.solve, hsym, if_neg (by simp), Ev.invert, h01]
  · simp only [Ev.invertFinite, ctx0_iter_one, Ev.finvReal, optFin, makeUnion, reduceM, if_true, hp, List.foldlM, bind, Except.bind, pure, Except.pure, List.mapM_cons, List.mapM_nil]
  all_goals simp [pwT]

theorem leafPw_prob (n : ℕ) : leafPw.prob ctx0 (libOf muU) (n + 3) pwEv = .ok 0 := by
  have h1 : SSet.and ctx0.σ (.pc (.ivl unitIvl)) (.pc (.fin {1})) = .ok (.pc (.fin {1})) := by
    have h2 : Finset.filter (fun v => unitIvl.has v = true) {1} = ({1} : Finset EReal) := by
      ext x; simp; rintro rfl
      simp [Ivl.has, unitIvl]
    simp [SSet.and, Piece.and, h2, finOrEmpty]
  have h3 := leafPw_subst (n + 1)
  have h4 := leafPw_solve n
  simp only [leafPw] at h3 ⊢
  simp [Spe.prob, Spe.isLeaf, Spe.leafEnv, leafProb, h3, h4, leafProbSet, h1, bind, Except.bind, RLeaf.probValues, RLeaf.probPiece, RLeaf.probFinite]

/-- **C27.** The variable `Z = Piecewise([X], [X in {1}])` of a leaf that is uniform on `[0, 1]`: the probability of `Z in {1}` is zero, and `logprob` says so; given any memo
it raises `TypeError`, for `logprob` and `condition`, whatever the memo holds. -/
theorem C27_piecewise_raises (n i : ℕ) (hash : Spe → ℤ) (al : Alloc) (st : St) :
    mkPiecewise ctx0 n [.id "X"] [.fin (.id "X") (some {1})] = .ok pwT ∧ (leafX "X").transform (libOf muU) "Z" pwT = .ok leafPw ∧ leafPw.prob ctx0 (libOf muU) (n + 3) pwEv = .ok 0 ∧
    ((Node.leaf i leafPw).logprob ctx0 (libOf muU) (n + 3) pwEv st).1 = .error .type ∧
    ((Node.leaf i leafPw).condition ctx0 (libOf muU) hash (n + 3) al pwEv st).1 = .error .type := by
  have h3 := leafPw_subst (n + 1)
  have h4 : (Ev.fin pwT (some {1})).hashable = false := rfl
  refine ⟨pwT_made n, leafPw_made, leafPw_prob n, ?_, ?_⟩
  · simp only [leafPw] at h3 ⊢
    simp [Node.logprob, Spe.leafEnv, bind, Mem.bind, Mem.lift, h3, h4]
  · simp only [leafPw] at h3 ⊢
    simp [Node.condition, Spe.leafEnv, bind, Mem.bind, Mem.lift, h3, h4]

/-- **C39.** `mutual_information` raises `TypeError` on the same leaf, even for the event `Z in {1}` and itself, although `prob` answers: it uses a memo. -/
theorem C39_piecewise_raises (n : ℕ) : leafPw.prob ctx0 (libOf muU) (n + 3) pwEv = .ok 0 ∧ pwEv.land ctx0 pwEv = .ok pwEv ∧
    leafPw.mutualInfo ctx0 (libOf muU) (n + 3) pwEv pwEv = .error .type := by
  have h1 := leafPw_prob n
  have h2 : pwEv.land ctx0 pwEv = .ok pwEv := by
    simp [pwEv, Ev.land, Ev.simplify, Ev.basic?, SSet.and, Piece.and, finOrEmpty, bind, Except.bind, Ev.values, Ev.ofSet]
  have h3 := leafPw_subst (n + 1)
  have h4 : (Ev.fin pwT (some {1})).hashable = false := rfl
  have h5 : pdiff 1 0 = .ok 1 := by simp [pdiff]
  have h6 : ∀ r : Res ℝ, keyed ctx0 (n + 3) leafPw pwEv r = .error .type := by
    intro r
    simp only [keyed, leafKey, show leafPw.leafEnv = some ("X", [("X", .id "X"), ("Z", pwT)]) from rfl, h3, h4, bind, Except.bind]
    rfl
  refine ⟨h1, h2, ?_⟩
  simp only [Spe.mutualInfo, h1, h2, h5, h6, bind, Except.bind]

/-- **C37.** Removing duplicates raises `TypeError` on an SPE that contains a leaf with a `Piecewise` derived variable, for example on `leafPw`. -/
theorem C37_piecewise_raises (hash : Spe → ℤ) (m : Cache) : (∀ s : Spe, ¬ s.hashable = true → s.cache hash m = .error .type) ∧ leafPw.cache hash m = .error .type :=
  ⟨fun _ h => cache_not_hashable h, cache_not_hashable (by simp [leafPw, Spe.hashable, pwT, Tr.hashable])⟩

/-- **C25.** So does simplification of a mixture of such leaves, even if all leaves are the same. -/
theorem C25_piecewise_raises (hash : Spe → ℤ) : mkSum [leafPw, leafPw] [1/2, 1/2] = .ok (.sum [leafPw, leafPw] [1/2, 1/2]) ∧
    simplifySum hash (.sum [leafPw, leafPw] [1/2, 1/2]) = .error .type := by
  constructor
  · unfold mkSum
    have : areIdentical (Spe.symbolsL [leafPw, leafPw]) = true := by
      rw [areIdentical_iff]; simp [Spe.symbolsL, leafPw, Spe.symbols]
    have e1 : leafPw.sumChildren = [leafPw] := rfl
    have e3 (w) : leafPw.sumWeights w = [w] := rfl
    norm_num [this, e1, e3]
    intro h; simp at h
  · have e1 : leafPw.isLeaf = true := rfl
    have e2 : leafPw.hashable = false := by simp [leafPw, Spe.hashable, pwT, Tr.hashable]
    simp [simplifySum, e1, e2, simplifySumLeaf]

/-- `X ~ uniform(); Z ~ Piecewise([X], [X in {1}]); if Z in {1}: skip else: skip`. -/
noncomputable def progPw : Cmd := .seq [.sample "X" (.one (.real .cont d0 unitIvl)), .transform "Z" pwT, .ifelse [pwEv] true [.skip, .skip]]

/-- The interpreter, with calls of depth `n + 3`. -/
noncomputable def optsPw (n : ℕ) : Opts := ⟨ctx0, libOf muU, fun _ => 0, n + 3, .ok⟩

/-- **C52.** A program with one variable raises `TypeError` when it branches on a `Piecewise` derived variable, whatever the branches: `if` blocks compute the probabilities of
the branches with a memo. -/
theorem C52_piecewise_raises (n : ℕ) : progPw.interp (optsPw n) none = .error .type := by
  have hs : pwEv.Simple (fun _ _ => True) := .fin (by simp) (by simp [Piece.Within, one_ne_bot', one_ne_top'])
  obtain ⟨v, hv, hv'⟩ := C07_not_total ctx0 hs (.lit rfl (by simp [pwEv]))
  obtain ⟨d, hd, -⟩ := normalize_total ctx0_correct hv'
  have d1 : (Distr.real .cont d0 unitIvl).call (libOf muU) "X" = .ok (leafX "X") := by simp [Distr.call, mkReal, leafX]; rfl
  have i1 : ifEvents ctx0 [pwEv] true = .ok [pwEv, v] := by
    simp [ifEvents, branchEvents, branchEvent, hv, bind, Except.bind, pure, Except.pure]
  have n1 : dnfNormalize ctx0 (n + 3) pwEv = .ok (some pwEv) := by simp [dnfNormalize, Ev.isIdLit, Ev.basic?, pwEv, Tr.isId]
  have o1 : optProb (optsPw n) leafPw (some pwEv) = .error .type := by
    have h3 := leafPw_subst (n + 1)
    have h4 : (Ev.fin pwT (some {1})).hashable = false := rfl
    simp only [optProb, keyed, leafKey, show leafPw.leafEnv = some ("X", [("X", .id "X"), ("Z", pwT)]) from rfl, show (optsPw n).c = ctx0 from rfl, show (optsPw n).n = n + 3 from rfl, h3, h4, bind, Except.bind]
    rfl
  have e1 : (Cmd.ifelse [pwEv] true [.skip, .skip]).interp (optsPw n) (some leafPw) = .error .type := by
    rw [Cmd.interp]
    simp only [needSpe, show (optsPw n).c = ctx0 from rfl, show (optsPw n).n = n + 3 from rfl, i1, List.mapM_cons, List.mapM_nil, n1, hd, bind, Except.bind, pure, Except.pure]
    unfold ifBlock
    rw [if_neg (by simp [Cmd.interpL])]
    simp only [List.mapM_cons, o1, bind, Except.bind]
  have t1 : (leafX "X").transform (optsPw n).L "Z" pwT = .ok leafPw := leafPw_made
  have s1 : (Source.one (.real .cont d0 unitIvl)).call (optsPw n).L "X" = .ok (leafX "X") := d1
  unfold progPw
  rw [Cmd.interp]
  have a1 : (Cmd.sample "X" (.one (.real .cont d0 unitIvl))).interp (optsPw n) none = .ok (some (leafX "X")) := by
    rw [Cmd.interp]; simp only [s1, bind, Except.bind]
  have a2 : (Cmd.transform "Z" pwT).interp (optsPw n) (some (leafX "X")) = .ok (some leafPw) := by
    rw [Cmd.interp]; simp only [needSpe, t1, bind, Except.bind]
  simp only [Cmd.interpL, List.foldlM_cons, a1, a2, e1, bind, Except.bind]

end Sppl
