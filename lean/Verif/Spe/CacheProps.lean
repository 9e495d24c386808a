import Verif.Spe.CacheLemmas
import Verif.Spe.Wrong

set_option linter.all false

/-!
# Properties of `spe_cache_duplicate_subtrees`
-/

namespace Sppl
open Classical MeasureTheory
open scoped ENNReal

section
variable {c : Ctx} {L : Lib} {μ : Dist → Measure ℝ} {hash : Spe → ℤ} {E : String → ℝ → Env} {P : Spe → Prop} {m : Cache} {s : Spe} {r : Spe × Cache}

theorem Cache.From.ok (hh : HashOK hash) (hP : ∀ s, P s → s.WF c L μ) (h : Cache.From hash P m) :
    CacheOK hash m ∧ ∀ E, (∀ s, P s → s.Agree E) → ∀ e ∈ m, e.2.Agree E := by
  induction h with
  | nil => exact ⟨.nil, by simp⟩
  | @step m s r _ hs h ih =>
    obtain ⟨r', h', k⟩ := cache_ok hh s (hP s hs).keyed (cache_hashable h) m ih.1
    rw [h'] at h; cases h
    exact ⟨k.ok, fun E hE => k.agree E (hE s hs) (ih.2 E hE)⟩

/-- C37: caching an SPE that has a hash returns an SPE that is equal to the argument and has the same hash, whatever was cached before. -/
theorem C37_equal (hh : HashOK hash) (hP : ∀ s, P s → s.WF c L μ) (hm : Cache.From hash P m) (hs : s.WF c L μ) (hd : s.hashable = true) :
    ∃ r, s.cache hash m = .ok r ∧ r.1.eqPy s = true ∧ s.eqPy r.1 = true ∧ hash r.1 = hash s := by
  obtain ⟨r, h, k⟩ := cache_ok hh s hs.keyed hd m (hm.ok hh hP).1
  exact ⟨r, h, k.eq, eqPy_symm _ (k.ok.keyed _ k.mem) _ hs.keyed k.eq, k.hsh⟩

/-- C37: it denotes the same distribution, over the same variables.  Missing from the full claim: atomic leaves of the same variable and
value with different derived variables, for which this is false (see below). -/
theorem C37_distribution_partial (hh : HashOK hash) (hP : ∀ s, P s → s.WF c L μ ∧ s.Agree E) (hm : Cache.From hash P m) (hs : s.WF c L μ) (hE : s.Agree E)
    (h : s.cache hash m = .ok r) : r.1.den μ = s.den μ ∧ r.1.symbols = s.symbols ∧ r.1.WF c L μ := by
  have hm' := hm.ok hh (fun s hs => (hP s hs).1)
  obtain ⟨r', h', k⟩ := cache_ok hh s hs.keyed (cache_hashable h) m hm'.1
  rw [h'] at h; cases h
  exact eqPy_den _ (k.ok.keyed _ k.mem) (k.agree E hE (hm'.2 E (fun s hs => (hP s hs).2)) _ k.mem) s hE k.eq hs

/-- C37: afterwards equal nodes of the result (with equal hashes) are the same. -/
theorem C37_shared (hh : HashOK hash) (hP : ∀ s, P s → s.WF c L μ) (hm : Cache.From hash P m) (hs : s.WF c L μ) (h : s.cache hash m = .ok r) {t t' : Spe}
    (ht : t.Sub r.1) (ht' : t'.Sub r.1) (e : hash t = hash t') (he : t.eqPy t' = true) : t = t' := by
  obtain ⟨r', h', k⟩ := cache_ok hh s hs.keyed (cache_hashable h) m (hm.ok hh hP).1
  rw [h'] at h; cases h
  have m1 := k.ok.sub _ k.mem t ht
  have m2 := k.ok.sub _ k.mem t' ht'
  obtain ⟨i, hi, e1⟩ := List.getElem_of_mem m1
  obtain ⟨j, hj, e2⟩ := List.getElem_of_mem m2
  have hu := List.pairwise_iff_getElem.1 k.ok.uniq
  rcases lt_trichotomy i j with hij | hij | hij
  · have := hu i j hi hj hij
    rw [e1, e2] at this
    exact absurd he (this e)
  · subst hij
    rw [e1] at e2
    exact (Prod.mk.inj e2).2
  · have := hu j i hj hi hij
    rw [e1, e2] at this
    exact absurd (eqPy_symm _ (k.ok.keyed _ m1) _ (k.ok.keyed _ m2) he) (this e.symm)
end

/-! ## Examples -/

mutual
/-- A hash that depends on the structure and on the names. -/
noncomputable def hashE : Spe → ℤ
  | .real _ X _ _ _ _ => X.length
  | .atomic X v _ => X.length + ⌊v⌋
  | .nominal X dist => X.length + dist.length
  | .sum cs ws => 2 * (hashEL cs).sum + ws.length
  | .prod cs => 3 * (hashEL cs).sum
/-- See `hashE`. -/
noncomputable def hashEL : List Spe → List ℤ
  | [] => []
  | s :: ss => hashE s :: hashEL ss
end

theorem hashEL_eq (cs : List Spe) : hashEL cs = cs.map hashE := by
  induction cs with
  | nil => rfl
  | cons s cs ih => simp [hashEL, ih]

theorem hashE_ok : HashOK hashE where
  sum := by intro cs cs' ws h; simp only [hashE, hashEL_eq, h]
  prod := by intro cs cs' h; simp only [hashE, hashEL_eq, h]

/-- Two mixtures that share a coin, whose outcomes are listed in a different order. -/
noncomputable def twice : Spe := .sum [.prod [coin "Y", coin "Z"], .prod [.nominal "Y" [("b", 1/2), ("a", 1/2)], coin "Z"]] [1/2, 1/2]

theorem twice_wf (c : Ctx) (L : Lib) (μ : Dist → Measure ℝ) : twice.WF c L μ := by
  refine .sum (S := {"Y", "Z"}) ?_ (by simp) rfl ?_ (by norm_num) ?_
  · intro s hs; simp at hs; rcases hs with rfl | rfl
    · exact coins_wf c L μ
    · refine .prod ?_ (by simp) ?_
      · intro s hs; simp at hs; rcases hs with rfl | rfl
        · refine .nominal (by simp) ?_ ?_
          · intro p hp; simp at hp; rcases hp with rfl | rfl <;> norm_num
          · norm_num
        · exact coin_wf c L μ "Z"
      · simp [Spe.symbolsL, Spe.symbols, coin]
  · intro w hw; simp at hw; subst hw; norm_num
  · intro s hs; simp at hs; rcases hs with rfl | rfl <;> simp [Spe.symbols, Spe.symbolsL, coin]

/-- The hypotheses are met, and the result differs from the argument: the coins and then the products are shared. -/
example : HashOK hashE ∧ twice.WF ctx0 (libOf muU) muU ∧ twice.Agree (fun X _ => [(X, .id X)]) ∧
    ∃ m, twice.cache hashE [] = .ok (.sum [coins, coins] [1/2, 1/2], m) := by
  refine ⟨hashE_ok, twice_wf _ _ _, ?_, ?_⟩
  · constructor
    · intro X v env h
      cases h with | sum h1 h2 =>
      simp at h1; rcases h1 with rfl | rfl
      all_goals
        cases h2 with | prod h1 h2 =>
        simp [coin] at h1; rcases h1 with rfl | rfl <;> cases h2
    · intro k X d supp cond env h
      cases h with | sum h1 h2 =>
      simp at h1; rcases h1 with rfl | rfl
      all_goals
        cases h2 with | prod h1 h2 =>
        simp [coin] at h1; rcases h1 with rfl | rfl <;> cases h2
  · have l1 : List.lookup "a" [("b", (2⁻¹ : ℚ)), ("a", 2⁻¹)] = some 2⁻¹ := by simp [List.lookup]
    have l2 : List.lookup "b" [("a", (2⁻¹ : ℚ)), ("b", 2⁻¹)] = some 2⁻¹ := by simp [List.lookup]
    simp [Spe.hashable, Spe.hashableL, twice, coins, coin, Spe.cache, Spe.cacheL, cacheLeaf, Cache.find, hashE, hashEL, Spe.eqPy, Spe.eqPyL, bind, Except.bind, l1, l2]

/-- Equal atomic leaves with different derived variables are replaced by the first one: the result denotes another distribution. -/
theorem C37_environment_wrong {hash : Spe → ℤ} (hh : HashOK hash) (h2 : ∀ X v env env', hash (.atomic X v env) = hash (.atomic X v env')) (μ : Dist → Measure ℝ) :
    (∃ m, (Spe.sum [shifted 1, shifted 2] [1/2, 1/2]).cache hash [] = .ok (.sum [shifted 1, shifted 1] [1/2, 1/2], m)) ∧
    (Spe.sum [shifted 1, shifted 1] [1/2, 1/2]).den μ ≠ (Spe.sum [shifted 1, shifted 2] [1/2, 1/2]).den μ := by
  have hs : hash (shifted 2) = hash (shifted 1) := h2 _ _ _ _
  constructor
  · have h3 : Spe.eqPy (shifted 1) (shifted 2) = true := by simp [shifted, Spe.eqPy]
    have h4 : (shifted 1).cache hash [] = .ok (shifted 1, [(hash (shifted 1), shifted 1)]) := by simp [shifted, Spe.hashable, Spe.cache, cacheLeaf, Cache.find]
    have h5 : (shifted 2).cache hash [(hash (shifted 1), shifted 1)] = .ok (shifted 1, [(hash (shifted 1), shifted 1)]) := by
      have : Cache.find hash [(hash (shifted 1), shifted 1)] (shifted 2) = some (shifted 1) := by simp [Cache.find, hs, h3]
      unfold shifted at this ⊢
      rw [Spe.cache, cacheLeaf, if_neg (by simp [Spe.hashable]), this]
    have h6 : hash (.sum [shifted 1, shifted 1] [1/2, 1/2]) = hash (.sum [shifted 1, shifted 2] [1/2, 1/2]) := hh.sum (by simp [hs])
    have hd : (Spe.sum [shifted 1, shifted 2] [1/2, 1/2]).hashable = true := by simp [Spe.hashable, Spe.hashableL, shifted]
    simp only [Spe.cache, hd, not_true_eq_false, if_false, Cache.find, List.find?_nil, Option.map_none, Spe.cacheL, h4, h5, bind, Except.bind]
    rw [if_pos h6]
    exact ⟨_, rfl⟩
  · intro h
    have h1 : Measurable (fun ω : Asg => ω "Y") := measurable_pi_apply "Y"
    have hm : MeasurableSet {ω : Asg | ω "Y" = some (.num 1)} := by
      have := h1 (measurableSet_nums (measurableSet_singleton (1 : ℝ)))
      simpa [Set.preimage] using this
    have := congrArg (fun m => m {ω : Asg | ω "Y" = some (.num 1)}) h
    simp [Spe.den, Spe.denL, mixture, Measure.dirac_apply' _ hm, Env.extend, baseAsg, shifted, Tr.eval, Set.indicator, onNum, polyVal] at this

end Sppl
