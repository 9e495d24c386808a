import Verif.Spe.LogCond

set_option linter.all false

/-!
# `logpdf` and `constrain` with logarithms refine those with densities (helper lemmas)
-/

namespace Sppl
open Classical
open scoped ENNReal

variable {cl : CloseTest} {L : Lib}

/-- A dimension and a density, with its logarithm. -/
def RD (a : ℕ × ℝ) (b : ℕ × Flt) : Prop := b.1 = a.1 ∧ RP a.2 b.2

theorem logpdfR_ref (hcl : CloseOK cl) (hL : ∀ d x, 0 ≤ L.pdf d x) {l : RLeaf} (hl : RFit L l) (x : ℝ) : Ref cl RP (l.pdf L x) (l.logpdf cl L x) := by
  unfold RLeaf.pdf RLeaf.logpdf
  split
  · exact Ref.ok ⟨hL _ _, rfl⟩
  · rename_i hc
    refine Ref.same (fun b _ => ?_)
    split
    · exact divZ_ref hcl hl hc ⟨hL _ _, rfl⟩
    · exact Ref.ok RP_zero

theorem fracLog_pos {w : ℚ} (h : 0 < w) : fracLog w = .ok (some (wlog w)) := by
  have h1 : ¬ ((w.num : ℤ) : ℚ) ≤ 0 := by rw [not_le]; exact_mod_cast Rat.num_pos.2 h
  have h2 : ¬ ((w.den : ℕ) : ℚ) ≤ 0 := by rw [not_le]; exact_mod_cast w.den_pos
  rw [fracLog, mlog, if_neg h1, mlog, if_neg h2]
  show Except.ok _ = _
  have h3 : (0 : ℝ) ≤ ((w.num : ℚ) : ℝ) := by
    rw [not_le] at h1
    exact_mod_cast h1.le
  have h4 : (0 : ℝ) < ((w.den : ℚ) : ℝ) := by
    rw [not_le] at h2
    exact_mod_cast h2
  rw [fminus_wlog h3 h4]
  congr 3
  rw [← Rat.cast_div, Rat.num_div_den]

theorem fracLog_zero : fracLog 0 = .error .value := by
  rw [fracLog, mlog, if_pos (by simp)]; rfl

theorem leafLogpdf_ref (hcl : CloseOK cl) (hL : ∀ d x, 0 ≤ L.pdf d x) {s : Spe} (hs : LogFit L s) (v : Val ℝ) : Ref cl RP (leafPdf L s v) (leafLogpdf cl L s v) := by
  cases s with
  | real k sym d supp cond env =>
    cases v with
    | str x => cases k <;> exact Ref.ok RP_zero
    | num x =>
      cases k
      · exact logpdfR_ref hcl hL hs.rfit x
      · exact logpmf_ref hcl hs.rfit rfl _
  | atomic sym a env => cases v <;> exact Ref.err
  | nominal sym dist =>
    cases v with
    | num x => exact Ref.ok RP_zero
    | str x =>
      simp only [leafPdf, leafLogpdf]
      rcases h : dist.lookup x with _ | w
      · exact Ref.ok RP_zero
      · simp only
        have h0 : 0 ≤ w := by
          obtain ⟨l1, l2, rfl, -⟩ := List.lookup_eq_some_iff.1 h
          cases hs with
          | nominal hd => exact hd (x, w) (by simp)
        by_cases hw : w = 0
        · rw [if_pos hw, hw, fracLog_zero]; exact Ref.err
        · rw [if_neg hw, fracLog_pos (lt_of_le_of_ne h0 (Ne.symm hw))]
          exact Ref.ok ⟨by exact_mod_cast h0, rfl⟩
  | sum cs ws => cases v <;> exact Ref.err
  | prod cs => cases v <;> exact Ref.err

theorem leafLogpdfMem_ref (hcl : CloseOK cl) (hL : ∀ d x, 0 ≤ L.pdf d x) {s : Spe} (hs : LogFit L s) (a : Point) : Ref cl RD (leafPdfMem L s a) (leafLogpdfMem cl L s a) := by
  unfold leafPdfMem leafLogpdfMem
  exact Ref.same (fun v _ => Ref.bind (leafLogpdf_ref hcl hL hs v) (fun w f h => Ref.ok ⟨rfl, h⟩))

theorem RD_null {a b} (h : RD a b) : (!fnull b.2) = decide (a.2 ≠ 0) := by
  rw [h.2.2, fnull_wlog h.2.1]; simp

theorem minDim_ref {ds es} (h : List.Forall₂ RD ds es) :
    (es.filter (fun q => !fnull q.2)).map Prod.fst = (ds.filter (fun q => q.2 ≠ 0)).map Prod.fst := by
  induction h with
  | nil => rfl
  | cons h _ ih =>
    rw [List.filter_cons, List.filter_cons, RD_null h]
    split
    · rw [List.map_cons, List.map_cons, ih, h.1]
    · exact ih

theorem mixPdf_good {ds es} (h : List.Forall₂ RD ds es) (m : ℕ) : ∀ {ws : List ℝ}, (∀ w ∈ ws, 0 ≤ w) →
    RL (((ds.zip ws).filter (fun q => q.1.1 = m)).map (fun q => q.2 * q.1.2))
      (((es.zip ws).filter (fun q => q.1.1 = m)).map (fun q => fadd (some (wlog q.2)) q.1.2)) := by
  induction h with
  | nil => intro ws _; exact ⟨by simp, by simp⟩
  | cons h _ ih =>
    intro ws hw
    cases ws with
    | nil => exact ⟨by simp, by simp⟩
    | cons w ws =>
      have := ih (ws := ws) (fun v hv => hw v (by simp [hv]))
      rw [List.zip_cons_cons, List.zip_cons_cons, List.filter_cons, List.filter_cons]
      simp only [h.1]
      split
      · have hp := RP_mul (⟨hw w (by simp), rfl⟩ : RP w (some (wlog w))) h.2
        rw [List.map_cons, List.map_cons]
        refine ⟨?_, ?_⟩
        · intro p hp'
          rcases List.mem_cons.1 hp' with rfl | hp'
          · exact hp.1
          · exact this.1 p hp'
        · rw [this.2, hp.2]; rfl
      · exact this

theorem mixLogpdf_ref {ds es} (h : List.Forall₂ RD ds es) {ws : List ℝ} (hw : ∀ w ∈ ws, 0 ≤ w) : RD (mixPdf ws ds) (mixLogpdf ws es) := by
  unfold mixPdf mixLogpdf
  rw [minDim_ref h]
  generalize (List.map Prod.fst (List.filter _ ds)).min? = o
  rcases o with _ | m
  · exact ⟨rfl, RP_zero⟩
  · exact ⟨rfl, RP_sum (mixPdf_good h m hw)⟩

theorem prodLogpdf_ref {ds es} (h : List.Forall₂ RD ds es) : Ref cl RD (prodPdf ds) (prodLogpdf es) := by
  cases h with
  | nil => exact Ref.err
  | cons h hs =>
    refine Ref.ok ?_
    rename_i a b ds es
    revert a b
    induction hs with
    | nil => intro a b h; exact h
    | cons h' _ ih =>
      intro a b h
      exact ih ⟨by show b.1 + _ = a.1 + _; rw [h.1, h'.1], RP_mul h.2 h'.2⟩

mutual
theorem logpdfMem_ref (hcl : CloseOK cl) (hL : ∀ d x, 0 ≤ L.pdf d x) : ∀ s : Spe, LogFit L s → ∀ a, Ref cl RD (s.pdfMem L a) (s.logpdfMem cl L a)
  | .real k sym d supp cond env, h, a => by
    rw [Spe.pdfMem, Spe.logpdfMem]; exact leafLogpdfMem_ref hcl hL h a
  | .atomic sym v env, h, a => by
    rw [Spe.pdfMem, Spe.logpdfMem]; exact leafLogpdfMem_ref hcl hL h a
  | .nominal sym dist, h, a => by
    rw [Spe.pdfMem, Spe.logpdfMem]; exact leafLogpdfMem_ref hcl hL h a
  | .sum cs ws, h, a => by
    rw [Spe.pdfMem, Spe.logpdfMem]
    cases h with
    | sum h hw => exact Ref.bind (callAll_ref (logpdfMemL_ref hcl hL cs h) a) (fun ds es hd => Ref.ok (mixLogpdf_ref hd hw))
  | .prod cs, h, a => by
    rw [Spe.pdfMem, Spe.logpdfMem]
    cases h with
    | prod h =>
      refine Ref.same (fun parts _ => Ref.bind (R := List.Forall₂ RD) (Ref.mapM (fun q _ => ?_)) (fun ds es hd => prodLogpdf_ref hd))
      rcases get_ref (logpdfMemL_ref hcl hL cs h) q.1 with ⟨h1, h2⟩ | ⟨f, g, h1, h2, h3⟩
      · rw [h1, h2]; exact Ref.err
      · rw [h1, h2]; exact h3 _
theorem logpdfMemL_ref (hcl : CloseOK cl) (hL : ∀ d x, 0 ≤ L.pdf d x) : ∀ cs : List Spe, (∀ s ∈ cs, LogFit L s) →
    List.Forall₂ (RF cl RD) (Spe.pdfMemL L cs) (Spe.logpdfMemL cl L cs)
  | [], _ => by rw [Spe.pdfMemL, Spe.logpdfMemL]; exact .nil
  | s :: ss, h => by
    rw [Spe.pdfMemL, Spe.logpdfMemL]
    exact .cons (fun a => logpdfMem_ref hcl hL s (h s (by simp)) a) (logpdfMemL_ref hcl hL ss (fun t ht => h t (by simp [ht])))
end

theorem logpdf_ref (hcl : CloseOK cl) (hL : ∀ d x, 0 ≤ L.pdf d x) {s : Spe} (h : LogFit L s) (a : Point) : Ref cl RP (s.pdf L a) (s.logpdf cl L a) := by
  unfold Spe.pdf Spe.logpdf
  exact Ref.bind (logpdfMem_ref hcl hL s h a) (fun q r hq => Ref.ok hq.2)

theorem leafConstrainMemLog_ref (hcl : CloseOK cl) (hL : ∀ d x, 0 ≤ L.pdf d x) {s : Spe} (hs : LogFit L s) (a : Point) :
    Ref cl RS (leafConstrainMem L s a) (leafConstrainMemLog cl L s a) := by
  unfold leafConstrainMem leafConstrainMemLog
  refine Ref.same (fun v _ => ?_)
  unfold leafConstrain leafConstrainLog
  refine Ref.bind (leafLogpdf_ref hcl hL hs v) (fun w f hw => ?_)
  have e : fnull f = decide (w = 0) := by rw [hw.2, fnull_wlog hw.1]
  rw [e]
  simp only [decide_eq_true_eq]
  split
  · exact Ref.err
  · cases s with
    | real k sym d supp cond env =>
      cases v with
      | num x => exact Ref.ok ⟨rfl, .atomic⟩
      | str x => exact Ref.err
    | nominal sym dist =>
      cases v with
      | num x => exact Ref.err
      | str x =>
        refine Ref.refl (fun t ht => ⟨rfl, ?_⟩)
        simp only [mkNominal, bind, Except.bind] at ht
        repeat' (split at ht)
        all_goals first | (cases ht; done) | (cases ht; exact .nominal)
    | atomic sym x env => cases v <;> exact Ref.err
    | sum cs ws => cases v <;> exact Ref.err
    | prod cs => cases v <;> exact Ref.err

theorem constrain_good {ds es} (h : List.Forall₂ RD ds es) (m : ℕ) : ∀ {ws : List ℝ} (hw : ∀ w ∈ ws, 0 ≤ w) {fs gs : List (Point → Res Spe)},
    List.Forall₂ (RF cl RS) fs gs →
    List.Forall₂ (fun (r : ((ℕ × ℝ) × ℝ) × (Point → Res Spe)) (r' : ((ℕ × Flt) × ℝ) × (Point → Res Spe)) =>
      r'.1.2 = r.1.2 ∧ 0 ≤ r.1.2 ∧ RP r.1.1.2 r'.1.1.2 ∧ RF cl RS r.2 r'.2)
      (((ds.zip ws).zip fs).filter (fun r => r.1.1.2 ≠ 0 ∧ r.1.1.1 = m))
      (((es.zip ws).zip gs).filter (fun r => !fnull r.1.1.2 ∧ r.1.1.1 = m)) := by
  induction h with
  | nil => intros; simp
  | cons h _ ih =>
    intro ws hw fs gs hf
    cases ws with
    | nil => simp
    | cons w ws =>
      cases hf with
      | nil => simp
      | cons hf hfs =>
        have := ih (ws := ws) (fun v hv => hw v (by simp [hv])) hfs
        simp only [List.zip_cons_cons, List.filter_cons, RD_null h, h.1, decide_eq_true_eq]
        split
        · exact .cons ⟨rfl, hw w (by simp), h.2, hf⟩ this
        · exact this

theorem constrainSumLog_ref (hcl : CloseOK cl) {ds es} (h : List.Forall₂ RD ds es) {ws : List ℝ} (hw : ∀ w ∈ ws, 0 ≤ w) {fs gs : List (Point → Res Spe)}
    (hg : List.Forall₂ (RF cl RS) fs gs) (a : Point) : Ref cl RS (constrainSum ws ds fs a) (constrainSumLog cl ws es gs a) := by
  unfold constrainSum constrainSumLog
  rw [minDim_ref h]
  generalize (List.map Prod.fst (List.filter _ ds)).min? = o
  rcases o with _ | m
  · exact Ref.err
  · simp only
    have hgood := constrain_good (cl := cl) h m hw hg
    refine Ref.bind (R := List.Forall₂ RS) (Ref.mapM₂ hgood (fun r r' hr => hr.2.2.2 a)) (fun ss ts hst => ?_)
    obtain ⟨rfl, hst⟩ := RS_of hst
    have key := mkSumNorm_ref (cs := ts) hcl hst (RL_of_map (f := fun r => r.1.1.2 * r.1.2) (g := fun r => fadd r.1.1.2 (some (wlog r.1.2))) hgood (fun a b h => by
      rw [h.1]
      exact RP_mul h.2.2.1 ⟨h.2.1, rfl⟩))
    rcases ts with _ | ⟨s, _ | ⟨t, ts⟩⟩
    · exact key
    · exact Ref.ok ⟨rfl, hst _ (by simp)⟩
    · exact key

theorem constrainClause_ref : ∀ {cs : List Spe} (hc : ∀ s ∈ cs, PosW s) {fs gs : List (Point → Res Spe)}, List.Forall₂ (RF cl RS) fs gs → ∀ a : Point,
    Ref cl (List.Forall₂ RS)
      ((cs.zip fs).mapM (fun p => if a.filter (fun q => decide (q.1 ∈ p.1.symbols)) = [] then .ok p.1 else p.2 (a.filter (fun q => decide (q.1 ∈ p.1.symbols)))))
      ((cs.zip gs).mapM (fun p => if a.filter (fun q => decide (q.1 ∈ p.1.symbols)) = [] then .ok p.1 else p.2 (a.filter (fun q => decide (q.1 ∈ p.1.symbols)))))
  | [], _, fs, gs, _, m => by simp only [List.zip_nil_left]; exact ⟨[], rfl, .nil⟩
  | s :: cs, _, _, _, .nil, m => by simp only [List.zip_nil_right]; exact ⟨[], rfl, .nil⟩
  | s :: cs, hc, _, _, .cons h hs, m => by
    have ih := constrainClause_ref (cs := cs) (fun t ht => hc t (by simp [ht])) hs m
    rw [List.zip_cons_cons, List.zip_cons_cons, List.mapM_cons, List.mapM_cons]
    refine Ref.bind (R := RS) ?_ (fun a b hab => Ref.bind ih (fun as bs h' => ⟨_, rfl, .cons hab h'⟩))
    simp only
    split
    · exact Ref.ok ⟨rfl, hc s (by simp)⟩
    · exact h _

mutual
theorem constrainMemLog_ref (hcl : CloseOK cl) (hL : ∀ d x, 0 ≤ L.pdf d x) : ∀ s : Spe, LogFit L s → ∀ a, Ref cl RS (s.constrainMem L a) (s.constrainMemLog cl L a)
  | .real k sym d supp cond env, h, a => by
    rw [Spe.constrainMem, Spe.constrainMemLog]; exact leafConstrainMemLog_ref hcl hL h a
  | .atomic sym v env, h, a => by
    rw [Spe.constrainMem, Spe.constrainMemLog]; exact leafConstrainMemLog_ref hcl hL h a
  | .nominal sym dist, h, a => by
    rw [Spe.constrainMem, Spe.constrainMemLog]; exact leafConstrainMemLog_ref hcl hL h a
  | .sum cs ws, h, a => by
    rw [Spe.constrainMem, Spe.constrainMemLog]
    cases h with
    | sum h hw =>
      exact Ref.bind (callAll_ref (logpdfMemL_ref hcl hL cs h) a) (fun ds es hd => constrainSumLog_ref hcl hd hw (constrainMemLogL_ref hcl hL cs h) a)
  | .prod cs, h, a => by
    rw [Spe.constrainMem, Spe.constrainMemLog]
    cases h with
    | prod h =>
      refine Ref.bind (constrainClause_ref (fun s hs => (h s hs).posW) (constrainMemLogL_ref hcl hL cs h) a) (fun ss ts hst => ?_)
      obtain ⟨rfl, hst⟩ := RS_of hst
      exact mkProd_posW hst
theorem constrainMemLogL_ref (hcl : CloseOK cl) (hL : ∀ d x, 0 ≤ L.pdf d x) : ∀ cs : List Spe, (∀ s ∈ cs, LogFit L s) →
    List.Forall₂ (RF cl RS) (Spe.constrainMemL L cs) (Spe.constrainMemLogL cl L cs)
  | [], _ => by rw [Spe.constrainMemL, Spe.constrainMemLogL]; exact .nil
  | s :: ss, h => by
    rw [Spe.constrainMemL, Spe.constrainMemLogL]
    exact .cons (fun a => constrainMemLog_ref hcl hL s (h s (by simp)) a) (constrainMemLogL_ref hcl hL ss (fun t ht => h t (by simp [ht])))
end

end Sppl
