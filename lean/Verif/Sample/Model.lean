import Verif.Spe.Model
import Mathlib.Logic.Equiv.Defs

/-!
# Model of sampling: `/repo/src/spe.py` 226-246, 437-460, 606-624, 726-739, 947-948, 991-995, 1060-1077

The state of the random number generator (`prng`, or numpy's global one) is threaded through explicitly; numpy and scipy are the parameters
`Rand`.
-/

namespace Sppl
open Classical

/-- What is used of numpy's and scipy's random functions; `τ` is the type of states of the generator.  `size=N` fixes the length of what they return.
`choice` returns the indexes of the elements drawn (math_util.py 35); `shuffle` the order in which the elements are put (spe.py 245);
`ppf` the quantile function (spe.py 734). -/
structure Rand (τ : Type) where
  uniform : (N : ℕ) → τ → (Fin N → ℝ) × τ
  choice : List ℝ → (N : ℕ) → τ → (Fin N → ℕ) × τ
  shuffle : (n : ℕ) → τ → Equiv.Perm (Fin n) × τ
  rvs : Dist → (N : ℕ) → τ → (Fin N → ℝ) × τ
  ppf : Dist → ℝ → ℝ

/-- A sample: a Python dictionary from variables to values. -/
abbrev Dct := String → Option PyV

/-- `d[s] = v`. -/
def Dct.put (d : Dct) (s : String) (v : PyV) : Dct := fun x => if x = s then some v else d x

/-- math_util.py 37-39 `normalize`. -/
noncomputable def normProbs (p : List ℝ) : List ℝ := p.map (· / p.sum)

/-- The `evaluate` methods (see `Tr.evaluate`), on a dictionary whose values may be the sets that `Logarithm.ffwd` returns. -/
noncomputable def Tr.evalPy (d : Dct) : Tr → Res PyV
  | .id s =>
    match d s with
    | some v => .ok v
    | none => .error .value
  | .radical t n => do
    let v ← t.evalPy d
    let x ← v.num
    if x < 0 then .error .assertion else .ok (.val (.num (x ^ ((n : ℝ)⁻¹))))
  | .exp t b => do
    let v ← t.evalPy d
    let x ← v.num
    .ok (.val (.num (b ^ x)))
  | .log t _ => do
    let v ← t.evalPy d
    let x ← v.num
    if x < 0 then .error .assertion else .ok .set
  | .abs t => do
    let v ← t.evalPy d
    let x ← v.num
    .ok (.val (.num (if 0 < x then x else -x)))
  | .recip t => do
    let v ← t.evalPy d
    let x ← v.num
    if x = 0 then .error .assertion else .ok (.val (.num x⁻¹))
  | .poly t cs => do
    let v ← t.evalPy d
    let x ← v.num
    .ok (.val (.num (cs.foldr (fun c acc => c + x * acc) 0)))
  | .pw _ _ _ => .error .notImplemented

/-- spe.py 615-620: the inner loop of `LeafSPE.sample_subset`; `sample` is updated in place, `sim` is `simulations[i]`.  (The samples of an atomic
leaf are one dictionary, updated again with the same values: spe.py 948.) -/
noncomputable def envLoop (syms : List String) : Env → Dct → Dct → Res Dct
  | [], _, sim => .ok sim
  | (s, f) :: env, sample, sim => do
    let v ← f.evalPy sample
    envLoop syms env (sample.put s v) (if s ∈ syms then sim.put s v else sim)

/-- The dictionary with one key. -/
def Dct.single (X : String) (v : PyV) : Dct := fun x => if x = X then some v else none

section
variable {τ : Type} (R : Rand τ) (L : Lib)

/-- `exp(logFl)`, `exp(logFu)` (spe.py 849-850, 894-895) of a conditioned leaf, and the draws of the base variable: spe.py 726-739 `RealLeaf.sample__`. -/
noncomputable def realDraws (l : RLeaf) (N : ℕ) (t : τ) : (Fin N → ℝ) × τ :=
  if l.cond = true then
    let u := R.uniform N t
    (fun i => R.ppf l.d (u.1 i * l.Fl L + (1 - u.1 i) * L.cdf l.d l.xu), u.2)
  else R.rvs l.d N t

/-- `outcomes[i]`, for the indexes that `choice` returned. -/
def pickOutcomes {N : ℕ} (dist : List (String × ℚ)) (sel : Fin N → ℕ) : Res (List String) :=
  (List.ofFn sel).mapM (fun i => match (dist.map Prod.fst)[i]? with
    | some x => .ok x
    | none => .error .index)

/-- The `sample__` methods: spe.py 726-739, 947-948, 991-995. -/
noncomputable def leafDraws (s : Spe) (N : ℕ) (t : τ) : Res (List Dct × τ) :=
  match s with
  | .real k X d supp cond _ =>
    let r := realDraws R L ⟨k, d, supp, cond⟩ N t
    .ok ((List.ofFn r.1).map (fun x => Dct.single X (.val (.num x))), r.2)
  | .atomic X v _ => .ok (List.replicate N (Dct.single X (.val (.num v))), t)
  | .nominal X dist => do
    let r := R.choice (normProbs (dist.map (fun p => (p.2 : ℝ)))) N t
    let xs ← pickOutcomes dist r.1
    .ok (xs.map (fun x => Dct.single X (.val (.str x))), r.2)
  | _ => .error .notImplemented

/-- spe.py 608-621 `LeafSPE.sample_subset`; `isSet` tells whether `symbols` is a Python set (a list is never `== {self.symbol}`). -/
noncomputable def leafSampleSubset (s : Spe) (isSet : Bool) (syms : List String) (N : ℕ) (t : τ) : Res (List Dct × τ) :=
  match s.leafEnv with
  | none => .error .notImplemented
  | some (X, env) =>
    if ∀ x ∈ syms, x ∈ env.map Prod.fst then do
      let r ← leafDraws R L s N t
      if isSet = true ∧ syms.toFinset = {X} then .ok r
      else do
        let l ← r.1.mapM (fun d => envLoop syms env d (fun _ => none))
        .ok (l, r.2)
    else .error .assertion

/-- A list comprehension whose elements are computed with the random state. -/
def mapS {τ α β : Type} (f : α → τ → Res (β × τ)) : List α → τ → Res (List β × τ)
  | [], t => .ok ([], t)
  | a :: l, t => do
    let r ← f a t
    let rs ← mapS f l r.2
    .ok (r.1 :: rs.1, rs.2)

/-- spe.py 241-246 `SumSPE.sample_many`: `Counter` keeps the order of first occurrence. -/
noncomputable def sampleMany {α : Type} (ws : List ℝ) (func : ℕ → ℕ → τ → Res (List α × τ)) (N : ℕ) (t : τ) : Res (List α × τ) := do
  let sel := R.choice (normProbs (pnorm ws)) N t
  let selections := List.ofFn sel.1
  let keys := selections.reverse.dedup.reverse
  let r ← mapS (fun i => func i (selections.count i)) keys sel.2
  let p := R.shuffle r.1.length r.2
  .ok ((List.ofFn (fun i => r.1.get (p.1 i))).flatten, p.2)

/-- spe.py 1074-1077 `merge_samples`: `zip` stops at the shortest list, `ChainMap` takes the first dictionary that has the key. -/
def mergeSamples : List (List Dct) → List Dct
  | [] => []
  | [l] => l
  | l :: ls => List.zipWith (fun d d' x => (d x).or (d' x)) l (mergeSamples ls)

/-- spe.py 444-448: the body of the loop. -/
def partStep (look : String → Res ℕ) (acc : List (ℕ × List String)) (x : String) : Res (List (ℕ × List String)) := do
  let key ← look x
  if key ∈ acc.map Prod.fst then .ok (acc.map (fun p => if p.1 = key then (p.1, p.2 ++ [x]) else p))
  else .ok (acc ++ [(key, [x])])

/-- spe.py 443-448: the dictionary from children to the requested variables that they have. -/
def partitionSyms (look : String → Res ℕ) (syms : List String) : Res (List (ℕ × List String)) := syms.foldlM (partStep look) []

mutual
/-- `sample_subset`: spe.py 232-235, 441-455, 608-621. -/
noncomputable def Spe.sampleSubset : Spe → Bool → List String → ℕ → τ → Res (List Dct × τ)
  | .sum cs ws, isSet, syms, N, t => sampleMany R ws (fun i n t => Spe.sampleSubsetI cs i isSet syms n t) N t
  | .prod cs, _, syms, N, t => do
    let parts ← partitionSyms (lookupChild (Spe.symbolsL cs)) syms
    let r ← mapS (fun p t => Spe.sampleSubsetI cs p.1 false p.2 N t) parts t
    .ok (mergeSamples r.1, r.2)
  | .real k X d supp cond env, isSet, syms, N, t => leafSampleSubset R L (.real k X d supp cond env) isSet syms N t
  | .atomic X v env, isSet, syms, N, t => leafSampleSubset R L (.atomic X v env) isSet syms N t
  | .nominal X dist, isSet, syms, N, t => leafSampleSubset R L (.nominal X dist) isSet syms N t
/-- `self.children[i].sample_subset(...)`. -/
noncomputable def Spe.sampleSubsetI : List Spe → ℕ → Bool → List String → ℕ → τ → Res (List Dct × τ)
  | [], _, _, _, _, _ => .error .index
  | s :: _, 0, isSet, syms, N, t => s.sampleSubset isSet syms N t
  | _ :: cs, i + 1, isSet, syms, N, t => Spe.sampleSubsetI cs i isSet syms N t
end

mutual
/-- `sample`: spe.py 228-230, 437-439, 606-607. -/
noncomputable def Spe.sample : Spe → ℕ → τ → Res (List Dct × τ)
  | .sum cs ws, N, t => sampleMany R ws (fun i n t => Spe.sampleI cs i n t) N t
  | .prod cs, N, t => do
    let r ← Spe.sampleL cs N t
    .ok (mergeSamples r.1, r.2)
  | .real k X d supp cond env, N, t => leafSampleSubset R L (.real k X d supp cond env) true (env.map Prod.fst) N t
  | .atomic X v env, N, t => leafSampleSubset R L (.atomic X v env) true (env.map Prod.fst) N t
  | .nominal X dist, N, t => leafSampleSubset R L (.nominal X dist) true [X] N t
/-- `self.children[i].sample(...)`. -/
noncomputable def Spe.sampleI : List Spe → ℕ → ℕ → τ → Res (List Dct × τ)
  | [], _, _, _ => .error .index
  | s :: _, 0, N, t => s.sample N t
  | _ :: cs, i + 1, N, t => Spe.sampleI cs i N t
/-- `[spe.sample(N) for spe in self.children]`. -/
noncomputable def Spe.sampleL : List Spe → ℕ → τ → Res (List (List Dct) × τ)
  | [], _, t => .ok ([], t)
  | s :: cs, N, t => do
    let r ← s.sample N t
    let rs ← Spe.sampleL cs N r.2
    .ok (r.1 :: rs.1, rs.2)
end

/-- spe.py 1065-1072 `func_symbols`: the arguments of the function, which must be variables of the SPE. -/
def funcSymbols (S : Finset String) (args : List String) : Res (List String) :=
  if ∀ x ∈ args, x ∈ S then .ok args else .error .value

/-- spe.py 1060-1063 `func_evaluate`: `func` gets the values of its arguments (and may raise an exception). -/
def funcEvaluate {α : Type} (S : Finset String) (args : List String) (func : List PyV → Res α) (samples : List Dct) : Res (List α) := do
  let args ← funcSymbols S args
  let kwargs ← samples.mapM (fun d => args.mapM (fun x => match d x with
    | some v => .ok v
    | none => .error .key))
  kwargs.mapM func

mutual
/-- `sample_func`: spe.py 237-239, 457-460, 622-624. -/
noncomputable def Spe.sampleFunc {α : Type} (args : List String) (func : List PyV → Res α) : Spe → ℕ → τ → Res (List α × τ)
  | .sum cs ws, N, t => sampleMany R ws (fun i n t => Spe.sampleFuncI args func cs i n t) N t
  | .prod cs, N, t => do
    let syms ← funcSymbols (Spe.prod cs).symbols args
    let r ← (Spe.prod cs).sampleSubset R L false syms N t
    let l ← funcEvaluate (Spe.prod cs).symbols args func r.1
    .ok (l, r.2)
  | .real k X d supp cond env, N, t => do
    let r ← (Spe.real k X d supp cond env).sample R L N t
    let l ← funcEvaluate (Spe.real k X d supp cond env).symbols args func r.1
    .ok (l, r.2)
  | .atomic X v env, N, t => do
    let r ← (Spe.atomic X v env).sample R L N t
    let l ← funcEvaluate (Spe.atomic X v env).symbols args func r.1
    .ok (l, r.2)
  | .nominal X dist, N, t => do
    let r ← (Spe.nominal X dist).sample R L N t
    let l ← funcEvaluate (Spe.nominal X dist).symbols args func r.1
    .ok (l, r.2)
/-- `self.children[i].sample_func(...)`. -/
noncomputable def Spe.sampleFuncI {α : Type} (args : List String) (func : List PyV → Res α) : List Spe → ℕ → ℕ → τ → Res (List α × τ)
  | [], _, _, _ => .error .index
  | s :: _, 0, N, t => s.sampleFunc args func N t
  | _ :: cs, i + 1, N, t => Spe.sampleFuncI args func cs i N t
end

end

end Sppl
