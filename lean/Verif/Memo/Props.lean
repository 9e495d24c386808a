import Verif.Memo.DensLemmas
import Verif.Spe.Props
import Verif.Spe.CondProps
import Verif.Spe.Wrong
import Verif.Spe.DensityExample

set_option linter.all false

/-!
# C27: memoisation is transparent
-/

namespace Sppl
open Classical MeasureTheory

section
variable {c : Ctx} {L : Lib} {hash : Spe → ℤ} {n : ℕ} {al : Alloc}

theorem reach_inv (hal : al.OK) {st : St} (h : Reach c L hash n al st) : Inv c L hash n st := by
  induction h with
  | start h => exact ⟨h, by simp [St.new], by simp [St.new], by simp [St.new], by simp [St.new]⟩
  | @objects st h _ hle hfin ih =>
    refine ⟨hfin, fun i F v hv => ?_, fun i F v hv => ?_, fun i F v hv => ?_, fun i F v hv => ?_⟩
    · obtain ⟨s, a, b⟩ := ih.prob i F v hv
      exact ⟨s, hle _ _ a, b⟩
    · obtain ⟨s, a, b, d⟩ := ih.cond i F v hv
      exact ⟨s, hle _ _ a, b, Node.Live.mono hle _ d⟩
    · obtain ⟨s, a, b⟩ := ih.dens i F v hv
      exact ⟨s, hle _ _ a, b⟩
    · obtain ⟨s, a, b, d⟩ := ih.con i F v hv
      exact ⟨s, hle _ _ a, b, Node.Live.mono hle _ d⟩
  | @logprob st t e _ hl hb ih => exact (logprob_sim hb e hl ih).inv
  | @condition st t e _ hl hb ih => exact (condition_sim hal hb e hl ih).inv
  | @logpdf st t a _ hl ih => exact (logpdf_sim a hl ih).inv
  | @constrain st t a _ hl ih => exact (constrain_sim hal a hl ih).inv

theorem logprob_exact (hal : al.OK) {st : St} (h : Reach c L hash n al st) {t : Node} (hl : t.Live st.heap) (hb : t.spe.BaseOK) (e : Ev) :
    (t.logprob c L n e st).1 = keyed c n t.spe e (t.spe.prob c L n e) := by
  have k := logprob_sim (hash := hash) hb e hl (reach_inv hal h)
  cases hr : (t.logprob c L n e st).1 with
  | ok v => exact (k.res v hr).1.symm
  | error x => exact (k.err x hr).symm

theorem condition_exact (hal : al.OK) {st : St} (h : Reach c L hash n al st) {t : Node} (hl : t.Live st.heap) (hb : t.spe.BaseOK) (e : Ev) :
    (t.condition c L hash n al e st).1.map Node.spe = keyed c n t.spe e (t.spe.condition c L hash n e) ∧
      ∀ t', (t.condition c L hash n al e st).1 = .ok t' → t'.Live (t.condition c L hash n al e st).2.heap := by
  have k := condition_sim hal hb e hl (reach_inv hal h)
  refine ⟨?_, fun t' ht' => (k.res t' ht').2⟩
  cases hr : (t.condition c L hash n al e st).1 with
  | ok v => exact (k.res v hr).1.symm
  | error x => exact (k.err x hr).symm

/-- C27: with any memo table that arises from earlier queries, on this or other nodes, that succeeded or failed, `logprob` returns (or raises) what it does without.
Missing from the full claim: leaves with `Piecewise` in the event or in a derived variable, for which a memo makes it raise (see below). -/
theorem C27_logprob_partial (hal : al.OK) {st : St} (h : Reach c L hash n al st) {t : Node} (hl : t.Live st.heap) (hb : t.spe.BaseOK) {e : Ev} (hp : NoPiecewise t.spe e) :
    (t.logprob c L n e st).1 = t.spe.prob c L n e :=
  (logprob_exact hal h hl hb e).trans hp.keyed_prob

/-- C27: the same for `condition`; the nodes of the result are alive, so it can be queried with the same memo. -/
theorem C27_condition_partial (hal : al.OK) {st : St} (h : Reach c L hash n al st) {t : Node} (hl : t.Live st.heap) (hb : t.spe.BaseOK) {e : Ev} (hp : NoPiecewise t.spe e) :
    (t.condition c L hash n al e st).1.map Node.spe = t.spe.condition c L hash n e ∧
      ∀ t', (t.condition c L hash n al e st).1 = .ok t' → t'.Live (t.condition c L hash n al e st).2.heap :=
  ⟨(condition_exact hal h hl hb e).1.trans hp.keyed_condition, (condition_exact hal h hl hb e).2⟩

/-- C27, for all nodes and events: a result with a memo is the result without. -/
theorem C27_results (hal : al.OK) {st : St} (h : Reach c L hash n al st) {t : Node} (hl : t.Live st.heap) (hb : t.spe.BaseOK) (e : Ev) :
    (∀ p, (t.logprob c L n e st).1 = .ok p → t.spe.prob c L n e = .ok p) ∧
      ∀ t', (t.condition c L hash n al e st).1 = .ok t' → t.spe.condition c L hash n e = .ok t'.spe := by
  refine ⟨fun p hp => keyed_ok ((logprob_exact hal h hl hb e).symm.trans hp), fun t' ht' => keyed_ok (s := t.spe) (e := e) (c := c) (n := n) ?_⟩
  rw [← (condition_exact hal h hl hb e).1, ht']; rfl

/-- C27: what is in the tables is correct. -/
theorem C27_tables (hal : al.OK) {st : St} (h : Reach c L hash n al st) (i : ℕ) (F : Factor) :
    (∀ p, st.prob (i, F) = some p → ∃ s, st.heap i = some s ∧ s.probMem c L n F = .ok p) ∧
      ∀ t, st.cond (i, F) = some t → ∃ s, st.heap i = some s ∧ s.condMem c L hash n F = .ok t.spe :=
  ⟨(reach_inv hal h).prob i F, fun t ht => let ⟨s, a, b, _⟩ := (reach_inv hal h).cond i F t ht; ⟨s, a, b⟩⟩

/-- C27: for sums and products, `memo=None` makes a new memo: the public methods do what the model without tables does. -/
theorem C27_no_memo (hal : al.OK) {h : Heap} (hf : h.Fin) {t : Node} (hl : t.Live h) (ht : t.spe.isLeaf = false) (e : Ev) :
    (t.logprob c L n e (.new h)).1 = t.spe.prob c L n e ∧
      (t.condition c L hash n al e (.new h)).1.map Node.spe = t.spe.condition c L hash n e := by
  have he : t.spe.leafEnv = none := by
    cases hs : t.spe.leafEnv with
    | none => rfl
    | some p => simp [Spe.isLeaf, hs] at ht
  have hb : t.spe.BaseOK := by intro sym env h; rw [he] at h; cases h
  have hp : NoPiecewise t.spe e := by intro sym env h; rw [he] at h; cases h
  exact ⟨C27_logprob_partial hal (.start (c := c) (L := L) (hash := hash) (n := n) hf) hl hb hp, (C27_condition_partial hal (.start hf) hl hb hp).1⟩

/-- C27 for densities: with any memo that arises from earlier queries, `logpdf` returns (or raises) what it does without tables.  Nothing is missing: assignments
of numbers and strings have hashes. -/
theorem C27_logpdf (hal : al.OK) {st : St} (h : Reach c L hash n al st) {t : Node} (hl : t.Live st.heap) (a : Point) :
    (t.logpdf L a st).1 = t.spe.pdf L a := by
  have k := logpdf_sim (hash := hash) a hl (reach_inv hal h)
  cases hr : (t.logpdf L a st).1 with
  | ok v => exact (k.res v hr).1.symm
  | error x => exact (k.err x hr).symm

/-- C27: the same for `constrain`; the nodes of the result are alive. -/
theorem C27_constrain (hal : al.OK) {st : St} (h : Reach c L hash n al st) {t : Node} (hl : t.Live st.heap) (a : Point) :
    (t.constrain L al a st).1.map Node.spe = t.spe.constrain L a ∧
      ∀ t', (t.constrain L al a st).1 = .ok t' → t'.Live (t.constrain L al a st).2.heap := by
  have k := constrain_sim hal a hl (reach_inv hal h)
  refine ⟨?_, fun t' ht' => (k.res t' ht').2⟩
  cases hr : (t.constrain L al a st).1 with
  | ok v => exact (k.res v hr).1.symm
  | error x => exact (k.err x hr).symm

/-- C27: what is in the tables for densities and constrained nodes is correct. -/
theorem C27_density_tables (hal : al.OK) {st : St} (h : Reach c L hash n al st) (i : ℕ) (a : Point) :
    (∀ q, st.dens (i, a) = some q → ∃ s, st.heap i = some s ∧ s.pdfMem L a = .ok q) ∧
      ∀ t, st.con (i, a) = some t → ∃ s, st.heap i = some s ∧ s.constrain L a = .ok t.spe :=
  ⟨(reach_inv hal h).dens i a, fun t ht => let ⟨s, x, y, _⟩ := (reach_inv hal h).con i a t ht; ⟨s, x, y⟩⟩

/-- C27: queries with a memo can be chained: the density of a constrained node, with the same memo, is that of the constrained SPE. -/
theorem C27_chain (hal : al.OK) {st : St} (h : Reach c L hash n al st) {t t' : Node} (hl : t.Live st.heap) (a b : Point)
    (ht : (t.constrain L al a st).1 = .ok t') :
    ∃ s, t.spe.constrain L a = .ok s ∧ (t'.logpdf L b (t.constrain L al a st).2).1 = s.pdf L b := by
  have k := C27_constrain hal h hl a
  refine ⟨t'.spe, ?_, C27_logpdf hal (.constrain h hl) (k.2 t' ht) b⟩
  rw [← k.1, ht]; rfl
end

/-! ## The hypotheses can be met -/

/-- Well-formed leaves have their own variable in the environment. -/
theorem wf_baseOK {c : Ctx} {L : Lib} {μ : Dist → Measure ℝ} {s : Spe} (h : s.WF c L μ) : s.BaseOK := by
  intro sym env he
  cases h with
  | real _ h _ _ _ _ => cases he; exact ⟨h.built.base_mem, h.built.get_base⟩
  | atomic h _ _ => cases he; exact ⟨h.built.base_mem, h.built.get_base⟩
  | nominal _ _ _ => cases he; simp [Env.get]
  | sum _ _ _ _ _ _ => cases he
  | prod _ _ _ => cases he

theorem fresh_node (s : Spe) : ∀ {h : Heap}, h.Fin → ∃ t h', t.spe = s ∧ Node.Live h' t ∧ Heap.Le h h' ∧ Heap.Fin h' := by
  have add : ∀ {h : Heap} (s : Spe), h.Fin → ∃ i, Heap.Le h (Function.update h i (some s)) ∧ Heap.Fin (Function.update h i (some s)) := by
    intro h s hf
    obtain ⟨i, hi⟩ := hf.exists_notMem
    have hn : h i = none := by simpa using hi
    refine ⟨i, ?_, ?_⟩
    · intro j t ht
      rw [Function.update_apply]
      split
      · rename_i e; rw [e, hn] at ht; cases ht
      · exact ht
    · refine (hf.insert i).subset ?_
      intro j hj
      simp only [Set.mem_setOf_eq, Function.update_apply] at hj
      by_cases e : j = i
      · exact .inl e
      · rw [if_neg e] at hj; exact .inr hj
  have leaf : ∀ (s : Spe), s.isLeaf = true → ∀ {h : Heap}, h.Fin → ∃ t h', t.spe = s ∧ Node.Live h' t ∧ Heap.Le h h' ∧ Heap.Fin h' := by
    intro s hs h hf
    obtain ⟨i, h1, h2⟩ := add s hf
    exact ⟨.leaf i s, _, rfl, by simp [Node.Live, hs], h1, h2⟩
  intro h hf
  revert h
  refine @fun h => Spe.rec (motive_1 := fun s => ∀ {h : Heap}, h.Fin → ∃ t h', t.spe = s ∧ Node.Live h' t ∧ Heap.Le h h' ∧ Heap.Fin h')
    (motive_2 := fun ss => ∀ {h : Heap}, h.Fin → ∃ ts h', Node.speL ts = ss ∧ Node.LiveL h' ts ∧ Heap.Le h h' ∧ Heap.Fin h') ?_ ?_ ?_ ?_ ?_ ?_ ?_ s (h := h)
  · intro k sym d supp cond env; exact leaf _ rfl
  · intro sym v env; exact leaf _ rfl
  · intro sym dist; exact leaf _ rfl
  · intro cs ws ih h hf
    obtain ⟨ts, h', h1, h2, h3, h4⟩ := ih hf
    obtain ⟨i, h5, h6⟩ := add (.sum cs ws) h4
    refine ⟨.sum i ts ws, _, by simp [Node.spe, h1], ?_, h3.trans h5, h6⟩
    simp only [Node.Live, h1, Function.update_self, true_and]
    rw [Node.liveL_iff] at h2 ⊢
    exact fun t ht => Node.Live.mono h5 t (h2 t ht)
  · intro cs ih h hf
    obtain ⟨ts, h', h1, h2, h3, h4⟩ := ih hf
    obtain ⟨i, h5, h6⟩ := add (.prod cs) h4
    refine ⟨.prod i ts, _, by simp [Node.spe, h1], ?_, h3.trans h5, h6⟩
    simp only [Node.Live, h1, Function.update_self, true_and]
    rw [Node.liveL_iff] at h2 ⊢
    exact fun t ht => Node.Live.mono h5 t (h2 t ht)
  · intro h hf; exact ⟨[], h, rfl, trivial, .refl _, hf⟩
  · intro s ss h1 h2 h hf
    obtain ⟨t, h', a1, a2, a3, a4⟩ := h1 hf
    obtain ⟨ts, h'', b1, b2, b3, b4⟩ := h2 a4
    refine ⟨t :: ts, h'', by simp [Node.speL, a1, b1], ?_, a3.trans b3, b4⟩
    simp only [Node.LiveL]
    exact ⟨Node.Live.mono b3 _ a2, b2⟩

/-- There are allocators that never reuse an identity. -/
theorem alloc_exists : ∃ al : Alloc, al.OK := by
  refine ⟨fun st i F s => if h : st.heap.Fin then (Classical.choose (fresh_node s h), Classical.choose (Classical.choose_spec (fresh_node s h))) else (.leaf 0 s, st.heap), ?_⟩
  intro st i F s h
  simp only [h, dif_pos]
  exact Classical.choose_spec (Classical.choose_spec (fresh_node s h))

/-- C27 non-vacuity: two coins are alive; after a query with a new memo, the next query with the same memo meets the hypotheses, and the answer is one half. -/
example : ∃ (al : Alloc) (t : Node) (h : Heap), al.OK ∧ t.spe = coins ∧ t.spe.BaseOK ∧ h.Fin ∧ t.Live h ∧
    Reach ctx0 (libOf muU) (fun _ => 0) 5 al (t.logprob ctx0 (libOf muU) 5 (strEv "Y" "a") (.new h)).2 := by
  obtain ⟨al, hal⟩ := alloc_exists
  obtain ⟨t, h, h1, h2, -, h4⟩ := fresh_node coins (h := fun _ => none) (by simp [Heap.Fin])
  have hb : t.spe.BaseOK := by rw [h1]; intro sym env h; cases h
  exact ⟨al, t, h, hal, h1, hb, h4, h2, .logprob (.start h4) h2 hb⟩

/-- C27 non-vacuity for densities: a coin is alive; after a query its density is in the table, and the next query with the same memo meets the hypotheses. -/
example : ∃ (al : Alloc) (t : Node) (st : St), al.OK ∧ t.spe = coin "Y" ∧ t.Live st.heap ∧ Reach ctx0 (libOf muU) (fun _ => 0) 5 al st ∧
    st.dens (t.id, [("Y", .str "a")]) = some (0, 1/2) ∧ (t.logpdf (libOf muU) [("Y", .str "a")] st).1 = .ok (1/2) := by
  obtain ⟨al, hal⟩ := alloc_exists
  have hfin : Heap.Fin (Function.update (fun _ => none) 0 (some (coin "Y"))) := by
    refine (Set.finite_singleton 0).subset ?_
    intro i hi
    by_contra hne
    simp only [Set.mem_singleton_iff] at hne
    simp [Function.update_apply, hne] at hi
  have hlive : (Node.leaf 0 (coin "Y")).Live (St.new (Function.update (fun _ => none) 0 (some (coin "Y")))).heap := by
    simp [St.new, Node.Live, coin, Spe.isLeaf, Spe.leafEnv]
  have hp : leafPdfMem (libOf muU) (coin "Y") [("Y", .str "a")] = .ok (0, 1/2) := by
    rw [← pdfMem_leaf rfl]; exact coin_pdf _ _
  have hst : Reach ctx0 (libOf muU) (fun _ => 0) 5 al ((Node.leaf 0 (coin "Y")).logpdf (libOf muU) [("Y", .str "a")] (.new _)).2 := .logpdf (.start hfin) hlive
  have hlive' : (Node.leaf 0 (coin "Y")).Live ((Node.leaf 0 (coin "Y")).logpdf (libOf muU) [("Y", .str "a")] (.new (Function.update (fun _ => none) 0 (some (coin "Y"))))).2.heap :=
    Node.Live.mono (logpdf_sim (c := ctx0) (hash := fun _ => 0) (n := 5) _ hlive (reach_inv hal (.start hfin))).le _ hlive
  refine ⟨al, .leaf 0 (coin "Y"), _, hal, rfl, hlive', hst, ?_, ?_⟩
  · simp [Node.logpdf, Node.pdfM, memoPdf, Mem.lift, hp, bind, Mem.bind, St.new, Mem.pure, Node.id]
  · rw [C27_logpdf hal hst hlive']
    simp [Spe.pdf, Node.spe, coin_pdf, bind, Except.bind]

/-! ## Where memoisation is not transparent -/

theorem leaf_saved {c : Ctx} {L : Lib} {n i : ℕ} {s : Spe} {e r : Ev} {sym : String} {env : Env} {v : ℝ} {st : St} (he : s.leafEnv = some (sym, env))
    (hr : leafSubst c n sym env e = .ok r) (hd : r.hashable = true) (h : ((Node.leaf i s).logprob c L n e st).1 = .ok v) :
    ((Node.leaf i s).logprob c L n e st).2.prob (i, [[(sym, r)]]) = some v := by
  simp only [Node.logprob, he, hr, bind, Mem.bind, Mem.lift, hd, if_true, memoProb] at h ⊢
  revert h
  split
  · rename_i v' hv; intro h; cases h; exact hv
  · split <;> (intro h; cases h); simp

theorem leaf_stale {c : Ctx} {L : Lib} {n i : ℕ} {s : Spe} {e r : Ev} {sym : String} {env : Env} {v : ℝ} {st : St} (he : s.leafEnv = some (sym, env))
    (hr : leafSubst c n sym env e = .ok r) (hd : r.hashable = true) (h : st.prob (i, [[(sym, r)]]) = some v) :
    ((Node.leaf i s).logprob c L n e st).1 = .ok v := by
  simp only [Node.logprob, he, hr, bind, Mem.bind, Mem.lift, hd, if_true, memoProb, h]

/-- C27 counterexample: the table is indexed by `id(self)`, which Python may give to a new object once the old one is gone.  If a coin is queried with a memo,
then dropped, and its identity is given to a coin that always shows `a`, the memo answers for the old coin. -/
theorem C27_identity_reuse_wrong : ∃ (t t' : Node) (e : Ev) (st : St), t.id = t'.id ∧ t.spe.WF ctx0 (libOf muU) muU ∧ t'.spe.WF ctx0 (libOf muU) muU ∧
    st = (t.logprob ctx0 (libOf muU) 5 e (.new (Function.update (fun _ => none) t.id (some t.spe)))).2 ∧
    t'.spe.prob ctx0 (libOf muU) 5 e = .ok 1 ∧ (t'.logprob ctx0 (libOf muU) 5 e st).1 = .ok (1/2) := by
  obtain ⟨al, hal⟩ := alloc_exists
  refine ⟨.leaf 0 (coin "Y"), .leaf 0 (sure "Y"), strEv "Y" "a", _, rfl, coin_wf _ _ _ _, ?_, rfl, ?_, ?_⟩
  · exact .nominal (by simp) (by intro p hp; simp at hp; rcases hp with rfl | rfl <;> norm_num) (by norm_num)
  · rw [Spe.prob, if_pos (show Spe.isLeaf _ = true from rfl)]
    simp only [Node.spe, sure, leafProb, Spe.leafEnv, strEv_subst, strEv_solve, leafProbSet,
      nominal_values (dist := [("a", 1), ("b", 0)]) (x := "a") (by simp), nominal_mass (dist := [("a", 1), ("b", 0)]) (x := "a") (p := 1) (by decide +kernel), bind, Except.bind]
    simp
  · refine leaf_stale rfl (strEv_subst 4 "Y" "a") rfl (leaf_saved rfl (strEv_subst 4 "Y" "a") rfl ?_)
    refine (C27_logprob_partial hal (.start (hash := fun _ => 0) ?_) ?_ (wf_baseOK (coin_wf ctx0 (libOf muU) muU "Y")) ?_).trans ?_
    · refine (Set.finite_singleton 0).subset ?_
      intro i hi
      by_contra hne
      simp only [Set.mem_singleton_iff] at hne
      simp [St.new, Function.update_apply, hne, Node.id] at hi
    · simp [St.new, Node.Live, Node.id, Node.spe, coin, Spe.isLeaf, Spe.leafEnv]
    · intro sym env h; cases h; simp [strEv, Ev.hashable, Tr.hashable]
    · rw [Spe.prob, if_pos (show Spe.isLeaf _ = true from rfl)]
      exact coin_prob _ 4 "Y"

theorem probMemFalse_raises {c : Ctx} {L : Lib} {n : ℕ} {μ : Dist → Measure ℝ} {s : Spe} (h : s.WF c L μ) : s.probMemFalse c L n .func = .error .type := by
  induction h with
  | real => simp [Spe.probMemFalse]
  | atomic => simp [Spe.probMemFalse]
  | nominal => simp [Spe.probMemFalse]
  | @sum cs ws S h hne h1 h2 h3 h4 ih =>
    obtain ⟨s, cs, rfl⟩ := List.exists_cons_of_ne_nil hne
    simp [Spe.probMemFalse, Spe.probMemFalseL, ih s (by simp), bind, Except.bind]
  | prod => simp [Spe.probMemFalse]

/-- C27 counterexample: `memo=False` does not turn the tables off; for every sum and product, and every event that is not empty, it raises `TypeError`. -/
theorem C27_memo_false_raises {c : Ctx} {L : Lib} {n : ℕ} {s : Spe} {μ : Dist → Measure ℝ} (hwf : s.WF c L μ) (hs : s.isLeaf = false) {e d : Ev} (hd : dnfNormalize c n e = .ok (some d))
    {F : Factor} (hF : dnfFactor1 c d = .ok F) : s.probFalse c L n e = .error .type := by
  unfold Spe.probFalse
  simp only [hs, hd, hF, bind, Except.bind]
  cases hwf with
  | real => simp [Spe.isLeaf, Spe.leafEnv] at hs
  | atomic => simp [Spe.isLeaf, Spe.leafEnv] at hs
  | nominal => simp [Spe.isLeaf, Spe.leafEnv] at hs
  | @sum cs ws S h hne h1 h2 h3 h4 =>
    obtain ⟨s, cs, rfl⟩ := List.exists_cons_of_ne_nil hne
    simp [Spe.probMemFalse, Spe.probMemFalseL, probMemFalse_raises (h s (by simp)), bind, Except.bind]
  | prod => simp [Spe.probMemFalse]

/-- Non-vacuity of the last theorem: two coins. -/
example : coins.probFalse ctx0 (libOf muU) 5 (strEv "Y" "a") = .error .type ∧ coins.prob ctx0 (libOf muU) 5 (strEv "Y" "a") = .ok (1/2) :=
  ⟨C27_memo_false_raises (coins_wf ctx0 (libOf muU) muU) rfl (strEv_normal 5 "Y" "a") (strEv_factor "Y" "a"), coins_one _ 4⟩

/-- C27 counterexample: `logpdf(a, memo=False)` raises for every SPE and every assignment: `TypeError` on leaves (`len` of a function), `AttributeError` on products. -/
theorem C27_memo_false_density_raises {c : Ctx} {L : Lib} {s : Spe} {μ : Dist → Measure ℝ} (h : s.WF c L μ) (a : Point) :
    s.pdfFalse a = .error .type ∨ s.pdfFalse a = .error .attribute := by
  have key : s.pdfMemFalse = .error .type ∨ s.pdfMemFalse = .error .attribute := by
    induction h with
    | real => simp [Spe.pdfMemFalse]
    | atomic => simp [Spe.pdfMemFalse]
    | nominal => simp [Spe.pdfMemFalse]
    | @sum cs ws S h hne h1 h2 h3 h4 ih =>
      obtain ⟨s, cs, rfl⟩ := List.exists_cons_of_ne_nil hne
      rcases ih s (by simp) with e | e <;> simp [Spe.pdfMemFalse, Spe.pdfMemFalseL, e, bind, Except.bind]
    | prod => simp [Spe.pdfMemFalse]
  rcases key with e | e <;> simp [Spe.pdfFalse, e, bind, Except.bind]

/-- Non-vacuity: a coin, whose density is one half. -/
example : ((coin "Y").pdfFalse [("Y", .str "a")] = .error .type ∨ (coin "Y").pdfFalse [("Y", .str "a")] = .error .attribute) ∧
    (coin "Y").pdf (libOf muU) [("Y", .str "a")] = .ok (1/2) :=
  ⟨C27_memo_false_density_raises (coin_wf ctx0 (libOf muU) muU "Y") _, by simp [Spe.pdf, coin_pdf, bind, Except.bind]⟩

end Sppl
