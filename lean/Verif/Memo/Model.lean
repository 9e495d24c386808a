import Verif.Spe.Density

/-!
# Model of the memo tables of `/repo/src/spe.py`

The other files model `logprob`, `condition`, `logpdf` and `constrain` without the tables.  Here are the functions as they are, with tables that are shared by any number of
queries.  Every node has an identity (`id(self)`); `St.heap` records, for the statements only, what the object with each identity is.
-/

namespace Sppl
open Classical

/-- An SPE with the identities of its nodes. -/
inductive Node
  | leaf (id : ℕ) (s : Spe)
  | sum (id : ℕ) (cs : List Node) (ws : List ℝ)
  | prod (id : ℕ) (cs : List Node)

/-- `id(self)`. -/
def Node.id : Node → ℕ
  | .leaf i _ => i
  | .sum i _ _ => i
  | .prod i _ => i

mutual
/-- The SPE without the identities. -/
def Node.spe : Node → Spe
  | .leaf _ s => s
  | .sum _ cs ws => .sum (Node.speL cs) ws
  | .prod _ cs => .prod (Node.speL cs)
/-- See `Node.spe`. -/
def Node.speL : List Node → List Spe
  | [] => []
  | n :: ns => n.spe :: Node.speL ns
end

/-- The objects by identity (not used by the code). -/
abbrev Heap := ℕ → Option Spe

/-- spe.py 1038-1043 `Memo`: the tables `logprob` and `condition`, by identity and factored event, and the tables `logpdf` and `constrain`, by identity and
assignment (142-147 `get_memo_key`); and the objects. -/
structure St where
  heap : Heap
  prob : ℕ × Factor → Option ℝ
  cond : ℕ × Factor → Option Node
  dens : ℕ × Point → Option (ℕ × ℝ)
  con : ℕ × Point → Option Node

/-- A new memo. -/
def St.new (h : Heap) : St := ⟨h, fun _ => none, fun _ => none, fun _ => none, fun _ => none⟩

/-- Computations that use the tables; an exception keeps what was stored before. -/
def Mem (α : Type) : Type := St → Res α × St

/-- The computation that does nothing. -/
def Mem.pure {α : Type} (a : α) : Mem α := fun st => (.ok a, st)

/-- One computation after the other. -/
def Mem.bind {α β : Type} (p : Mem α) (k : α → Mem β) : Mem β := fun st =>
  match p st with
  | (.ok a, st') => k a st'
  | (.error e, st') => (.error e, st')

instance : Monad Mem where
  pure := Mem.pure
  bind := Mem.bind

/-- A computation that does not use the tables. -/
def Mem.lift {α : Type} (r : Res α) : Mem α := fun st => (r, st)

/-- A list comprehension. -/
def Mem.each {α β : Type} (f : α → Mem β) : List α → Mem (List β)
  | [] => Mem.pure []
  | a :: as => do
    let b ← f a
    let bs ← Mem.each f as
    Mem.pure (b :: bs)

/-- spe.py 49-60 `memoize` for the table `logprob` (also 657-661, 631-634).  The keys of `logprob_mem` and `condition_mem` contain events
about variables only, so their hashes exist; the public methods of leaves check it. -/
noncomputable def memoProb (i : ℕ) (F : Factor) (body : Mem ℝ) : Mem ℝ := fun st =>
  match st.prob (i, F) with
  | some v => (.ok v, st)
  | none =>
    match body st with
    | (.ok v, st') => (.ok v, { st' with prob := Function.update st'.prob (i, F) (some v) })
    | (.error e, st') => (.error e, st')

/-- spe.py 49-60 `memoize` for the table `condition` (also 666-670, 641-644). -/
noncomputable def memoCond (i : ℕ) (F : Factor) (body : Mem Node) : Mem Node := fun st =>
  match st.cond (i, F) with
  | some v => (.ok v, st)
  | none =>
    match body st with
    | (.ok v, st') => (.ok v, { st' with cond := Function.update st'.cond (i, F) (some v) })
    | (.error e, st') => (.error e, st')

/-- spe.py 49-60 `memoize` for the table `logpdf`; the keys are variables, numbers and strings, which have hashes. -/
noncomputable def memoPdf (i : ℕ) (a : Point) (body : Mem (ℕ × ℝ)) : Mem (ℕ × ℝ) := fun st =>
  match st.dens (i, a) with
  | some v => (.ok v, st)
  | none =>
    match body st with
    | (.ok v, st') => (.ok v, { st' with dens := Function.update st'.dens (i, a) (some v) })
    | (.error e, st') => (.error e, st')

/-- spe.py 49-60 `memoize` for the table `constrain`. -/
noncomputable def memoCon (i : ℕ) (a : Point) (body : Mem Node) : Mem Node := fun st =>
  match st.con (i, a) with
  | some v => (.ok v, st)
  | none =>
    match body st with
    | (.ok v, st') => (.ok v, { st' with con := Function.update st'.con (i, a) (some v) })
    | (.error e, st') => (.error e, st')

/-- Which identities the objects of a new SPE get; some of them may exist already (`condition__` may return `self`, a sum of one child is that child, the
constructors share the children of their arguments).  It may depend on everything, including the node `i` and the event or the assignment that is asked. -/
abbrev Alloc := St → ℕ → Factor ⊕ Point → Spe → Node × Heap

/-- A new SPE. -/
def Alloc.new (al : Alloc) (i : ℕ) (F : Factor ⊕ Point) (s : Spe) : Mem Node := fun st => (.ok (al st i F s).1, { st with heap := (al st i F s).2 })

/-! ## `logprob_mem` -/

/-- spe.py 254, 260, 271, 281. -/
def callAllM {α β : Type} (fs : List (α → Mem β)) (F : α) : Mem (List β) := Mem.each (fun f => f F) fs

/-- spe.py 537-549 `logprob_conjunction_key`. -/
noncomputable def conjKeyM (c : Ctx) (syms : List (Finset String)) (fs : List (Factor → Mem ℝ)) (ms : List (Clause String)) (key : ℕ) : Mem ℝ := do
  let cl ← Mem.lift (conjClause c syms key ms)
  if cl = [] then Mem.pure 0
  else
    match fs[key]? with
    | some f => f [cl]
    | none => Mem.lift (.error .index)

/-- spe.py 529-535 `logprob_conjunction`. -/
noncomputable def conjProbM (c : Ctx) (syms : List (Finset String)) (fs : List (Factor → Mem ℝ)) (ms : List (Clause String)) : Mem ℝ := do
  let ks ← Mem.lift (conjKeys syms ms)
  let ps ← Mem.each (conjKeyM c syms fs ms) ks
  Mem.pure ps.prod

/-- spe.py 486-502, the `while` loop. -/
noncomputable def ieLoopM (m : ℕ) (f : List ℕ → Mem ℝ) (stack : List (List ℕ × ℕ)) (avoid : List (List ℕ)) (pos neg : List ℝ) : Mem (List ℝ × List ℝ) :=
  match stack with
  | [] => Mem.pure (pos, neg)
  | (J, i) :: rest =>
    if isBad avoid J then ieLoopM m f rest avoid pos neg
    else Mem.bind (f J) (fun p =>
      ieLoopM m f (rest ++ ieNext m J i) (if p = 0 then avoid ++ [J] else avoid)
        (if J.length % 2 = 1 then pos ++ [p] else pos) (if J.length % 2 = 1 then neg else neg ++ [p]))
termination_by ieMeasure m stack
decreasing_by
  · simp [ieMeasure]
  · have := ieMeasure_next m J i
    simp only [ieMeasure, List.map_append, List.sum_append, List.map_cons, List.sum_cons] at this ⊢
    omega

/-- spe.py 479-509 `ProductSPE.logprob_mem`. -/
noncomputable def inclExclM (m : ℕ) (f : List ℕ → Mem ℝ) : Mem ℝ := do
  let pn ← ieLoopM m f ((List.range m).map (fun i => ([i], i))) [] [] []
  Mem.lift (if pn.1.sum = 0 ∨ pn.2 = [] then .ok pn.1.sum else pdiff pn.1.sum pn.2.sum)

mutual
/-- `logprob_mem`: spe.py 653-661 (leaves), 252-256 (sums), 478-509 (products). -/
noncomputable def Node.probM (c : Ctx) (L : Lib) (n : ℕ) : Node → Factor → Mem ℝ
  | .leaf i s, F => memoProb i F (Mem.lift (do
    let e ← factorEvent c F
    leafProb c L n s e))
  | .sum i cs ws, F => memoProb i F (do
    let ps ← callAllM (Node.probML c L n cs) F
    Mem.pure (mixSum ws ps))
  | .prod i cs, F => memoProb i F
    (inclExclM F.length (fun J => conjProbM c (Spe.symbolsL (Node.speL cs)) (Node.probML c L n cs) (pickClauses F J)))
/-- The methods of the children. -/
noncomputable def Node.probML (c : Ctx) (L : Lib) (n : ℕ) : List Node → List (Factor → Mem ℝ)
  | [] => []
  | s :: ss => Node.probM c L n s :: Node.probML c L n ss
end

/-! ## `condition_mem` -/

/-- spe.py 551-561 `condition_clause`. -/
noncomputable def condClauseM (cs : List Node) (fs : List (Factor → Mem Node)) (m : Clause String) : Mem (List Node) :=
  Mem.each (fun p =>
    let sub := m.filter (fun q => decide (q.1 ∈ p.1.spe.symbols))
    if sub = [] then Mem.pure p.1 else p.2 [sub]) (cs.zip fs)

/-- spe.py 512-527 `ProductSPE.condition_mem`. -/
noncomputable def condProdM (c : Ctx) (hash : Spe → ℤ) (al : Alloc) (i : ℕ) (cs : List Node) (pf : List (Factor → Mem ℝ)) (fs : List (Factor → Mem Node))
    (p : Mem ℝ) (F : Factor) : Mem Node := do
  let ps ← Mem.each (fun m => conjProbM c (Spe.symbolsL (Node.speL cs)) pf [m]) F
  let q ← p
  if ps.sum ≠ q then Mem.lift (.error .assertion)
  else
    let good := (F.zip ps).filter (fun r => r.2 ≠ 0)
    if good = [] then Mem.lift (.error .value)
    else do
      let childrens ← Mem.each (fun r => condClauseM cs fs r.1) good
      let r ← Mem.lift (do
        let products ← (childrens.map (List.map Node.spe)).mapM mkProd
        condMix hash (good.map Prod.snd) products)
      al.new i (.inl F) r

/-- spe.py 259-267 `SumSPE.condition_mem`. -/
noncomputable def condSumM (al : Alloc) (i : ℕ) (ws : List ℝ) (ps : List ℝ) (fs : List (Factor → Mem Node)) (F : Factor) : Mem Node :=
  let good := ((ws.zip ps).zip fs).filter (fun r => r.1.2 ≠ 0)
  if good = [] then Mem.lift (.error .value)
  else do
    let children ← Mem.each (fun r => r.2 F) good
    let r ← Mem.lift (match children.map Node.spe with
      | [s] => .ok s
      | cs => mkSum cs (pnorm (good.map (fun r => r.1.2 * r.1.1))))
    al.new i (.inl F) r

mutual
/-- `condition_mem`: spe.py 662-670 (leaves), 258-267 (sums), 511-527 (products). -/
noncomputable def Node.condM (c : Ctx) (L : Lib) (hash : Spe → ℤ) (n : ℕ) (al : Alloc) : Node → Factor → Mem Node
  | .leaf i s, F => memoCond i F (do
    let r ← Mem.lift (do
      let e ← factorEvent c F
      leafCond c L n s e)
    al.new i (.inl F) r)
  | .sum i cs ws, F => memoCond i F (do
    let ps ← callAllM (Node.probML c L n cs) F
    condSumM al i ws ps (Node.condML c L hash n al cs) F)
  | .prod i cs, F => memoCond i F
    (condProdM c hash al i cs (Node.probML c L n cs) (Node.condML c L hash n al cs) (Node.probM c L n (.prod i cs) F) F)
/-- The methods of the children. -/
noncomputable def Node.condML (c : Ctx) (L : Lib) (hash : Spe → ℤ) (n : ℕ) (al : Alloc) : List Node → List (Factor → Mem Node)
  | [] => []
  | s :: ss => Node.condM c L hash n al s :: Node.condML c L hash n al ss
end

/-! ## `logpdf_mem` and `constrain_mem` -/

mutual
/-- `logpdf_mem`: spe.py 671-677 (leaves), 269-277 (sums), 563-572 (products). -/
noncomputable def Node.pdfM (L : Lib) : Node → Point → Mem (ℕ × ℝ)
  | .leaf i s, a => memoPdf i a (Mem.lift (leafPdfMem L s a))
  | .sum i cs ws, a => memoPdf i a (do
    let ds ← callAllM (Node.pdfML L cs) a
    Mem.pure (mixPdf ws ds))
  | .prod i cs, a => memoPdf i a (do
    let parts ← Mem.lift (splitPoint (Spe.symbolsL (Node.speL cs)) a)
    let ds ← Mem.each (fun q =>
      match (Node.pdfML L cs)[q.1]? with
      | some f => f q.2
      | none => Mem.lift (.error .index)) parts
    Mem.lift (prodPdf ds))
/-- The methods of the children. -/
noncomputable def Node.pdfML (L : Lib) : List Node → List (Point → Mem (ℕ × ℝ))
  | [] => []
  | s :: ss => Node.pdfM L s :: Node.pdfML L ss
end

/-- spe.py 282-289. -/
noncomputable def constrainSumM (al : Alloc) (i : ℕ) (ws : List ℝ) (ds : List (ℕ × ℝ)) (fs : List (Point → Mem Node)) (a : Point) : Mem Node :=
  match ((ds.filter (fun q => q.2 ≠ 0)).map Prod.fst).min? with
  | none => Mem.lift (.error .assertion)
  | some m => do
    let good := ((ds.zip ws).zip fs).filter (fun r => r.1.1.2 ≠ 0 ∧ r.1.1.1 = m)
    let children ← Mem.each (fun r => r.2 a) good
    let r ← Mem.lift (match children.map Node.spe with
      | [s] => .ok s
      | cs => mkSum cs (pnorm (good.map (fun r => r.1.1.2 * r.1.2))))
    al.new i (.inr a) r

mutual
/-- `constrain_mem`: spe.py 678-683 (leaves), 279-289 (sums; `constrain` of a child with a memo is its `constrain_mem`), 574-585 (products; see
`Spe.constrainMem` for the order of the dictionary). -/
noncomputable def Node.conM (L : Lib) (al : Alloc) : Node → Point → Mem Node
  | .leaf i s, a => memoCon i a (do
    let r ← Mem.lift (leafConstrainMem L s a)
    al.new i (.inr a) r)
  | .sum i cs ws, a => memoCon i a (do
    let ds ← callAllM (Node.pdfML L cs) a
    constrainSumM al i ws ds (Node.conML L al cs) a)
  | .prod i cs, a => memoCon i a (do
    let children ← Mem.each (fun p =>
      let sub := a.filter (fun q => decide (q.1 ∈ p.1.spe.symbols))
      if sub = [] then Mem.pure p.1 else p.2 sub) (cs.zip (Node.conML L al cs))
    let r ← Mem.lift (mkProd (children.map Node.spe))
    al.new i (.inr a) r)
/-- The methods of the children. -/
noncomputable def Node.conML (L : Lib) (al : Alloc) : List Node → List (Point → Mem Node)
  | [] => []
  | s :: ss => Node.conM L al s :: Node.conML L al ss
end

/-- `logpdf(assignment, memo)`: spe.py 183-186 (sums and products), 645-648 (leaves). -/
noncomputable def Node.logpdf (L : Lib) (t : Node) (a : Point) : Mem ℝ := do
  let q ← t.pdfM L a
  Mem.pure q.2

/-- `constrain(assignment, memo)`: spe.py 187-190 (sums and products), 649-652 (leaves). -/
noncomputable def Node.constrain (L : Lib) (al : Alloc) (t : Node) (a : Point) : Mem Node := t.conM L al a

/-! ## Public methods, with a memo -/

/-- `logprob(event, memo)`: spe.py 159-166 (sums and products), 625-634 (leaves). -/
noncomputable def Node.logprob (c : Ctx) (L : Lib) (n : ℕ) : Node → Ev → Mem ℝ
  | .leaf i s, e =>
    match s.leafEnv with
    | none => Mem.lift (.error .notImplemented)
    | some (sym, env) => do
      let r ← Mem.lift (leafSubst c n sym env e)
      if r.hashable then memoProb i [[(sym, r)]] (Mem.lift (do
        let S ← r.solve c n
        leafProbSet c L s S))
      else Mem.lift (.error .type)
  | t, e => do
    let o ← Mem.lift (dnfNormalize c n e)
    match o with
    | none => Mem.pure 0
    | some d => do
      let F ← Mem.lift (dnfFactor1 c d)
      t.probM c L n F

/-- spe.py 173-179. -/
noncomputable def dropNullM (c : Ctx) (L : Lib) (n : ℕ) (t : Node) : Ev → Mem Ev
  | .or es => do
    let Fs ← Mem.lift (es.mapM (dnfFactor1 c))
    let ps ← Mem.each (t.probM c L n) Fs
    Mem.lift (
      let good := (es.zip ps).filter (fun r => r.2 ≠ 0)
      if good = [] then .error .value else .ok (.or (good.map Prod.fst)))
  | e => Mem.pure e

/-- `condition(event, memo)`: spe.py 167-182 (sums and products), 635-644 (leaves). -/
noncomputable def Node.condition (c : Ctx) (L : Lib) (hash : Spe → ℤ) (n : ℕ) (al : Alloc) : Node → Ev → Mem Node
  | .leaf i s, e =>
    match s.leafEnv with
    | none => Mem.lift (.error .notImplemented)
    | some (sym, env) => do
      let r ← Mem.lift (leafSubst c n sym env e)
      if r.hashable then memoCond i [[(sym, r)]] (do
        let s' ← Mem.lift (do
          let S ← r.solve c n
          leafCondSet c L s S)
        al.new i (.inl [[(sym, r)]]) s')
      else Mem.lift (.error .type)
  | t, e => do
    let o ← Mem.lift (dnfNormalize c n e)
    match o with
    | none => Mem.lift (.error .value)
    | some d => do
      let d' ← dropNullM c L n t d
      let g ← Mem.lift (toDisjoint c n n d')
      let F ← Mem.lift (dnfFactor1 c g)
      t.condM c L hash n al F

/-! ## `memo=False` -/

/-- The first argument of `logprob_mem` when `memo=False`: line 54 passes the function `event_factor_to_event`, not the event. -/
inductive FArg
  | factor (F : Factor)
  | func

mutual
/-- `logprob_mem(event_factor, False)`: spe.py 53-54, 252-256 (sums), 478-509 (products: `len` of a function), 654-656 (leaves: iteration of a function). -/
noncomputable def Spe.probMemFalse (c : Ctx) (L : Lib) (n : ℕ) : Spe → FArg → Res ℝ
  | .sum cs ws, _ => do
    let ps ← Spe.probMemFalseL c L n cs .func
    .ok (mixSum ws ps)
  | .prod _, _ => .error .type
  | _, .func => .error .type
  | s, .factor F => do
    let e ← factorEvent c F
    leafProb c L n s e
/-- The children, one after the other. -/
noncomputable def Spe.probMemFalseL (c : Ctx) (L : Lib) (n : ℕ) : List Spe → FArg → Res (List ℝ)
  | [], _ => .ok []
  | s :: ss, a => do
    let p ← Spe.probMemFalse c L n s a
    let ps ← Spe.probMemFalseL c L n ss a
    .ok (p :: ps)
end

/-- `logprob(event, memo=False)`: spe.py 159-166, 625-630. -/
noncomputable def Spe.probFalse (c : Ctx) (L : Lib) (n : ℕ) (s : Spe) (e : Ev) : Res ℝ :=
  if s.isLeaf then leafProb c L n s e
  else do
    let o ← dnfNormalize c n e
    match o with
    | none => .ok 0
    | some d => do
      let F ← dnfFactor1 c d
      s.probMemFalse c L n (.factor F)

mutual
/-- `logpdf_mem` of the function that line 54 passes in place of the assignment when `memo=False`: spe.py 671-673 (leaves: `len` of a function), 269-271 (sums),
563-566 (products: a function has no `items`). -/
noncomputable def Spe.pdfMemFalse : Spe → Res (ℕ × ℝ)
  | .sum cs ws => do
    let ds ← Spe.pdfMemFalseL cs
    .ok (mixPdf ws ds)
  | .prod _ => .error .attribute
  | _ => .error .type
/-- The children, one after the other. -/
noncomputable def Spe.pdfMemFalseL : List Spe → Res (List (ℕ × ℝ))
  | [] => .ok []
  | s :: ss => do
    let d ← Spe.pdfMemFalse s
    let ds ← Spe.pdfMemFalseL ss
    .ok (d :: ds)
end

/-- `logpdf(assignment, memo=False)`: spe.py 183-186, 645-648, 53-54.  The assignment is not looked at. -/
noncomputable def Spe.pdfFalse (s : Spe) (_ : Point) : Res ℝ := do
  let q ← s.pdfMemFalse
  .ok q.2

end Sppl
