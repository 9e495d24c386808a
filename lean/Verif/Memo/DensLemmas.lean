import Verif.Memo.Lemmas

set_option linter.all false

/-!
# Memo tables: `logpdf` and `constrain` (helper lemmas)
-/

namespace Sppl
open Classical

variable {c : Ctx} {L : Lib} {hash : Spe → ℤ} {n : ℕ}

theorem memoPdf_sim {st : St} (h0 : Inv c L hash n st) {i : ℕ} {F : Point} {s : Spe} (hs : st.heap i = some s) {body : Mem (ℕ × ℝ)}
    (h : Sim c L hash n st body (s.pdfMem L F)) : Sim c L hash n st (memoPdf i F body) (s.pdfMem L F) := by
  unfold memoPdf
  cases hv : st.dens (i, F) with
  | some v =>
    obtain ⟨s', h1, h2⟩ := h0.dens i F v hv
    rw [hs] at h1; cases h1
    refine ⟨by simpa [hv] using h0, by simpa [hv] using Heap.Le.refl _, ?_, ?_⟩
    · intro a ha; simp only [hv] at ha; cases ha; exact ⟨h2, trivial⟩
    · intro e he; simp [hv] at he
  | none =>
    rcases hb : body st with ⟨x, st'⟩
    have hi := h.inv
    have hl := h.le
    rw [hb] at hi hl
    cases x with
    | error e =>
      refine ⟨by simpa [hv, hb] using hi, by simpa [hv, hb] using hl, by simp [hv, hb], ?_⟩
      intro e' he
      simp [hv, hb] at he; subst he
      exact h.err e (by rw [hb])
    | ok v =>
      obtain ⟨h1, -⟩ := h.res v (by rw [hb])
      refine ⟨?_, by simpa [hv, hb] using hl, ?_, by simp [hv, hb]⟩
      · simp only [hv, hb]
        refine ⟨hi.fin, hi.prob, hi.cond, ?_, hi.con⟩
        intro j G w hw
        simp only [Function.update_apply] at hw
        split at hw
        · rename_i e; cases e; cases hw; exact ⟨s, hl _ _ hs, h1⟩
        · exact hi.dens j G w hw
      · intro a ha; simp only [hv, hb] at ha; cases ha; exact ⟨h1, trivial⟩

theorem memoCon_sim {st : St} (h0 : Inv c L hash n st) {i : ℕ} {F : Point} {s : Spe} (hs : st.heap i = some s) {body : Mem Node}
    (h : SimN c L hash n st body (s.constrainMem L F)) : SimN c L hash n st (memoCon i F body) (s.constrainMem L F) := by
  unfold memoCon
  cases hv : st.con (i, F) with
  | some v =>
    obtain ⟨s', h1, h2, h3⟩ := h0.con i F v hv
    rw [hs] at h1; cases h1
    refine ⟨by simpa [hv] using h0, by simpa [hv] using Heap.Le.refl _, ?_, ?_⟩
    · intro a ha; simp [hv] at ha; subst ha; exact ⟨h2, by simpa [hv] using h3⟩
    · intro e he; simp [hv] at he
  | none =>
    rcases hb : body st with ⟨x, st'⟩
    have hi := h.inv
    have hl := h.le
    rw [hb] at hi hl
    cases x with
    | error e =>
      refine ⟨by simpa [hv, hb] using hi, by simpa [hv, hb] using hl, by simp [hv, hb], ?_⟩
      intro e' he
      simp [hv, hb] at he; subst he
      exact h.err e (by rw [hb])
    | ok v =>
      obtain ⟨h1, h2⟩ := h.res v (by rw [hb])
      rw [hb] at h2
      refine ⟨?_, by simpa [hv, hb] using hl, ?_, by simp [hv, hb]⟩
      · simp only [hv, hb]
        refine ⟨hi.fin, hi.prob, hi.cond, hi.dens, ?_⟩
        intro j G w hw
        simp only [Function.update_apply] at hw
        split at hw
        · rename_i e; cases e; cases hw; exact ⟨s, hl _ _ hs, h1, h2⟩
        · exact hi.con j G w hw
      · intro a ha; simp [hv, hb] at ha; subst ha; exact ⟨h1, by simpa [hv, hb] using h2⟩

theorem pdfMem_leaf {s : Spe} (hs : s.isLeaf = true) (a : Point) : s.pdfMem L a = leafPdfMem L s a := by
  cases s <;> simp [Spe.isLeaf, Spe.leafEnv] at hs <;> simp [Spe.pdfMem]

theorem constrainMem_leaf {s : Spe} (hs : s.isLeaf = true) (a : Point) : s.constrainMem L a = leafConstrainMem L s a := by
  cases s <;> simp [Spe.isLeaf, Spe.leafEnv] at hs <;> simp [Spe.constrainMem]

/-- What is known of the methods `logpdf_mem` of the children. -/
def PdfSims (c : Ctx) (L : Lib) (hash : Spe → ℤ) (n : ℕ) (H : Heap) (fs : List (Point → Mem (ℕ × ℝ))) (gs : List (Point → Res (ℕ × ℝ))) : Prop :=
  List.Forall₂ (fun f g => ∀ a st', Inv c L hash n st' → Heap.Le H st'.heap → Sim c L hash n st' (f a) (g a)) fs gs

theorem pdfPart_sim {H : Heap} {fs : List (Point → Mem (ℕ × ℝ))} {gs : List (Point → Res (ℕ × ℝ))} (hf : PdfSims c L hash n H fs gs) (q : ℕ × Point) {st : St}
    (h0 : Inv c L hash n st) (hH : Heap.Le H st.heap) : Sim c L hash n st
      (match fs[q.1]? with
        | some f => f q.2
        | none => Mem.lift (.error .index))
      (match gs[q.1]? with
        | some f => f q.2
        | none => .error .index) := by
  by_cases hk : q.1 < fs.length
  · have hk' : q.1 < gs.length := hf.length_eq ▸ hk
    rw [List.getElem?_eq_getElem hk, List.getElem?_eq_getElem hk']
    exact (List.forall₂_iff_get.1 hf).2 q.1 hk hk' _ _ h0 hH
  · have hk' : ¬ q.1 < gs.length := hf.length_eq ▸ hk
    rw [List.getElem?_eq_none (by omega), List.getElem?_eq_none (by omega)]
    exact SimAt.error h0

theorem pdfM_sim (t : Node) : ∀ {H : Heap}, t.Live H → ∀ a (st : St), Inv c L hash n st → Heap.Le H st.heap → Sim c L hash n st (t.pdfM L a) (t.spe.pdfMem L a) := by
  refine Node.rec
    (motive_1 := fun t => ∀ {H : Heap}, t.Live H → ∀ a (st : St), Inv c L hash n st → Heap.Le H st.heap → Sim c L hash n st (t.pdfM L a) (t.spe.pdfMem L a))
    (motive_2 := fun ts => ∀ {H : Heap}, Node.LiveL H ts → PdfSims c L hash n H (Node.pdfML L ts) (Spe.pdfMemL L (Node.speL ts)))
    ?_ ?_ ?_ ?_ ?_ t
  · intro i s H hl a st h0 hH
    simp only [Node.Live] at hl
    rw [Node.pdfM, Node.spe]
    refine memoPdf_sim h0 (hH _ _ hl.1) ?_
    rw [pdfMem_leaf hl.2]
    exact SimAt.lift h0 _
  · intro i cs ws ih H hl a st h0 hH
    simp only [Node.Live] at hl
    rw [Node.pdfM, Node.spe]
    refine memoPdf_sim h0 (hH _ _ hl.1) ?_
    rw [Spe.pdfMem]
    refine SimAt.bind (Sim.each (H := H) ?_ h0 hH) (fun ps st' hi _ _ => SimAt.pure hi trivial)
    exact (ih hl.2).imp (fun f g h st' hi hl => h a st' hi hl)
  · intro i cs ih H hl a st h0 hH
    simp only [Node.Live] at hl
    rw [Node.pdfM, Node.spe]
    refine memoPdf_sim h0 (hH _ _ hl.1) ?_
    rw [Spe.pdfMem]
    refine SimAt.bind (SimAt.lift h0 _) (fun parts st' hi hl' _ => ?_)
    refine SimAt.bind (Sim.each (H := H) (List.forall₂_same.2 (fun q _ st'' hi' hl'' => pdfPart_sim (ih hl.2) q hi' hl'')) hi (hH.trans hl')) (fun ds st'' hi' _ _ => ?_)
    exact SimAt.lift hi' _
  · intro H _; simp [Node.pdfML, Spe.pdfMemL, Node.speL, PdfSims]
  · intro t ts h1 h2 H hl
    simp only [Node.LiveL] at hl
    simp only [Node.pdfML, Spe.pdfMemL, Node.speL]
    exact .cons (fun a st' hi hl' => h1 hl.1 a st' hi hl') (h2 hl.2)

theorem pdfML_sim {ts : List Node} {H : Heap} (hl : Node.LiveL H ts) : PdfSims c L hash n H (Node.pdfML L ts) (Spe.pdfMemL L (Node.speL ts)) := by
  induction ts with
  | nil => simp [Node.pdfML, Spe.pdfMemL, Node.speL, PdfSims]
  | cons t ts ih =>
    simp only [Node.LiveL] at hl
    simp only [Node.pdfML, Spe.pdfMemL, Node.speL]
    exact .cons (fun F st' hi hl' => pdfM_sim t hl.1 F st' hi hl') (ih hl.2)

/-- What is known of the methods `constrain_mem` of the children. -/
def ConSims (c : Ctx) (L : Lib) (hash : Spe → ℤ) (n : ℕ) (H : Heap) (fs : List (Point → Mem Node)) (gs : List (Point → Res Spe)) : Prop :=
  List.Forall₂ (fun f g => ∀ a st', Inv c L hash n st' → Heap.Le H st'.heap → SimN c L hash n st' (f a) (g a)) fs gs

theorem conSum_sim {al : Alloc} (hal : al.OK) {i : ℕ} {ws : List ℝ} {ds : List (ℕ × ℝ)} {fs : List (Point → Mem Node)} {gs : List (Point → Res Spe)} {H : Heap}
    (hf : ConSims c L hash n H fs gs) (a : Point) {st : St} (h0 : Inv c L hash n st) (hH : Heap.Le H st.heap) :
    SimN c L hash n st (constrainSumM al i ws ds fs a) (constrainSum ws ds gs a) := by
  unfold constrainSumM constrainSum
  cases ((ds.filter (fun q => q.2 ≠ 0)).map Prod.fst).min? with
  | none => exact SimAt.error h0
  | some m =>
    have key : ∀ {qs : List ((ℕ × ℝ) × ℝ)} {fs : List (Point → Mem Node)} {gs : List (Point → Res Spe)}, ConSims c L hash n H fs gs →
        List.Forall₂ (fun r r' => r.1 = r'.1 ∧ ∀ F st', Inv c L hash n st' → Heap.Le H st'.heap → SimN c L hash n st' (r.2 F) (r'.2 F))
          ((qs.zip fs).filter (fun r => r.1.1.2 ≠ 0 ∧ r.1.1.1 = m)) ((qs.zip gs).filter (fun r => r.1.1.2 ≠ 0 ∧ r.1.1.1 = m)) := by
      intro qs
      induction qs with
      | nil => intro fs gs _; simp
      | cons q qs ih =>
        intro fs gs h
        cases h with
        | nil => simp
        | @cons f g fs gs h1 h2 =>
          simp only [List.zip_cons_cons, List.filter_cons]
          split
          · exact .cons ⟨rfl, h1⟩ (ih h2)
          · exact ih h2
    have k := key (qs := ds.zip ws) hf
    dsimp only
    generalize ((ds.zip ws).zip fs).filter (fun r => decide (r.1.1.2 ≠ 0 ∧ r.1.1.1 = m)) = A at k ⊢
    generalize ((ds.zip ws).zip gs).filter (fun r => decide (r.1.1.2 ≠ 0 ∧ r.1.1.1 = m)) = B at k ⊢
    have hw : A.map (fun r => r.1.1.2 * r.1.2) = B.map (fun r => r.1.1.2 * r.1.2) := by
      induction k with
      | nil => rfl
      | cons h1 h2 ih => simp [h1.1, ih]
    rw [← hw]
    refine SimAt.bind (SimN.each (H := H) (k.imp (fun r r' h st' hi hl => h.2 a st' hi hl)) h0 hH) (fun children st' hi hl _ => ?_)
    exact lift_new hal hi i (.inr a) _

theorem conProd_sim {cs : List Node} {fs : List (Point → Mem Node)} {gs : List (Point → Res Spe)} {H : Heap} (hcs : Node.LiveL H cs) (hf : ConSims c L hash n H fs gs)
    (a : Point) {st : St} (h0 : Inv c L hash n st) (hH : Heap.Le H st.heap) :
    SimAt c L hash n (List.map Node.spe) (fun st l => ∀ b ∈ l, b.Live st.heap) st
      (Mem.each (fun p : Node × (Point → Mem Node) =>
        let sub := a.filter (fun q => decide (q.1 ∈ p.1.spe.symbols))
        if sub = [] then Mem.pure p.1 else p.2 sub) (cs.zip fs))
      (((Node.speL cs).zip gs).mapM (fun p : Spe × (Point → Res Spe) =>
        let sub := a.filter (fun q => decide (q.1 ∈ p.1.symbols))
        if sub = [] then .ok p.1 else p.2 sub)) := by
  refine SimN.each (H := H) ?_ h0 hH
  unfold ConSims at hf
  clear h0 hH
  induction cs generalizing fs gs with
  | nil => simp [Node.speL]
  | cons t ts ih =>
    cases hf with
    | nil => simp
    | @cons f g fs gs h1 h2 =>
      simp only [Node.LiveL] at hcs
      simp only [Node.speL, List.zip_cons_cons]
      refine .cons ?_ (ih hcs.2 h2)
      intro st' hi hl
      dsimp only
      split
      · exact SimAt.pure hi (Node.Live.mono hl _ hcs.1)
      · exact h1 _ st' hi hl

theorem conM_sim {al : Alloc} (hal : al.OK) (t : Node) : ∀ {H : Heap}, t.Live H → ∀ a (st : St), Inv c L hash n st → Heap.Le H st.heap →
    SimN c L hash n st (t.conM L al a) (t.spe.constrainMem L a) := by
  refine Node.rec
    (motive_1 := fun t => ∀ {H : Heap}, t.Live H → ∀ a (st : St), Inv c L hash n st → Heap.Le H st.heap →
      SimN c L hash n st (t.conM L al a) (t.spe.constrainMem L a))
    (motive_2 := fun ts => ∀ {H : Heap}, Node.LiveL H ts → ConSims c L hash n H (Node.conML L al ts) (Spe.constrainMemL L (Node.speL ts)))
    ?_ ?_ ?_ ?_ ?_ t
  · intro i s H hl a st h0 hH
    simp only [Node.Live] at hl
    rw [Node.conM, Node.spe]
    refine memoCon_sim h0 (hH _ _ hl.1) ?_
    rw [constrainMem_leaf hl.2]
    exact lift_new hal h0 i (.inr a) _
  · intro i cs ws ih H hl a st h0 hH
    simp only [Node.Live] at hl
    rw [Node.conM, Node.spe]
    refine memoCon_sim h0 (hH _ _ hl.1) ?_
    rw [Spe.constrainMem]
    refine SimAt.bind (Sim.each (H := H) ((pdfML_sim hl.2).imp (fun f g h st' hi hl => h a st' hi hl)) h0 hH) (fun ps st' hi hl' _ => ?_)
    exact conSum_sim hal (ih hl.2) a hi (hH.trans hl')
  · intro i cs ih H hl a st h0 hH
    simp only [Node.Live] at hl
    rw [Node.conM, Node.spe]
    refine memoCon_sim h0 (hH _ _ hl.1) ?_
    rw [Spe.constrainMem]
    refine SimAt.bind (conProd_sim hl.2 (ih hl.2) a h0 hH) (fun children st' hi _ _ => ?_)
    exact lift_new hal hi i (.inr a) _
  · intro H _; simp [Node.conML, Spe.constrainMemL, Node.speL, ConSims]
  · intro t ts h1 h2 H hl
    simp only [Node.LiveL] at hl
    simp only [Node.conML, Spe.constrainMemL, Node.speL]
    exact .cons (fun a st' hi hl' => h1 hl.1 a st' hi hl') (h2 hl.2)

theorem logpdf_sim {t : Node} (a : Point) {st : St} (hl : t.Live st.heap) (h0 : Inv c L hash n st) :
    Sim c L hash n st (t.logpdf L a) (t.spe.pdf L a) := by
  unfold Node.logpdf Spe.pdf
  exact SimAt.bind (pdfM_sim t hl a st h0 (.refl _)) (fun q st' hi _ _ => SimAt.pure hi trivial)

theorem constrain_sim {al : Alloc} (hal : al.OK) {t : Node} (a : Point) {st : St} (hl : t.Live st.heap) (h0 : Inv c L hash n st) :
    SimN c L hash n st (t.constrain L al a) (t.spe.constrain L a) := conM_sim hal t hl a st h0 (.refl _)

end Sppl
