import Verif.Spe.LogProb

set_option linter.all false

/-!
# `condition` with logarithms refines `condition` (helper lemmas)
-/

namespace Sppl
open Classical
open scoped ENNReal

/-- No weight of a mixture is negative. -/
inductive PosW : Spe → Prop
  | real {k sym d supp cond env} : PosW (.real k sym d supp cond env)
  | atomic {sym v env} : PosW (.atomic sym v env)
  | nominal {sym dist} : PosW (.nominal sym dist)
  | sum {cs ws} : (∀ s ∈ cs, PosW s) → (∀ w ∈ ws, 0 ≤ w) → PosW (.sum cs ws)
  | prod {cs} : (∀ s ∈ cs, PosW s) → PosW (.prod cs)

/-- The same SPE, without negative weights. -/
def RS (s t : Spe) : Prop := t = s ∧ PosW s

variable {cl : CloseTest} {c : Ctx} {L : Lib} {n : ℕ} {hash : Spe → ℤ}

theorem LogFit.posW {s : Spe} (h : LogFit L s) : PosW s := by
  induction h with
  | real => exact .real
  | atomic => exact .atomic
  | nominal => exact .nominal
  | sum _ hw ih => exact .sum ih hw
  | prod _ ih => exact .prod ih

theorem PosW.sumChildren {s : Spe} (h : PosW s) : ∀ t ∈ s.sumChildren, PosW t := by
  cases h with
  | sum h _ => exact h
  | real => intro t ht; simp [Spe.sumChildren] at ht; subst ht; exact .real
  | atomic => intro t ht; simp [Spe.sumChildren] at ht; subst ht; exact .atomic
  | nominal => intro t ht; simp [Spe.sumChildren] at ht; subst ht; exact .nominal
  | prod h => intro t ht; simp [Spe.sumChildren] at ht; subst ht; exact .prod h

theorem PosW.prodChildren {s : Spe} (h : PosW s) : ∀ t ∈ s.prodChildren, PosW t := by
  cases h with
  | prod h => exact h
  | real => intro t ht; simp [Spe.prodChildren] at ht; subst ht; exact .real
  | atomic => intro t ht; simp [Spe.prodChildren] at ht; subst ht; exact .atomic
  | nominal => intro t ht; simp [Spe.prodChildren] at ht; subst ht; exact .nominal
  | sum h hw => intro t ht; simp [Spe.prodChildren] at ht; subst ht; exact .sum h hw

theorem RS_of {ss ts} (h : List.Forall₂ RS ss ts) : ts = ss ∧ ∀ s ∈ ss, PosW s := by
  induction h with
  | nil => exact ⟨rfl, by simp⟩
  | cons h _ ih => exact ⟨by rw [ih.1, h.1], by intro t ht; rcases List.mem_cons.1 ht with rfl | ht; exacts [h.2, ih.2 _ ht]⟩

/-! ## Constructors -/

theorem sumWeights_posW {s : Spe} (h : PosW s) {w : ℝ} (hw : 0 ≤ w) : RL (s.sumWeights w) (s.sumLogWeights (some (wlog w))) := by
  cases h with
  | sum h hws =>
    refine ⟨?_, ?_⟩
    · intro p hp
      simp only [Spe.sumWeights, List.mem_map] at hp
      obtain ⟨a, ha, rfl⟩ := hp
      exact mul_nonneg hw (hws a ha)
    · simp only [Spe.sumWeights, Spe.sumLogWeights, List.map_map]
      apply List.map_congr_left
      intro a ha
      exact fadd_wlog hw
  | real => exact ⟨by simp [Spe.sumWeights, hw], by simp [Spe.sumWeights, Spe.sumLogWeights]⟩
  | atomic => exact ⟨by simp [Spe.sumWeights, hw], by simp [Spe.sumWeights, Spe.sumLogWeights]⟩
  | nominal => exact ⟨by simp [Spe.sumWeights, hw], by simp [Spe.sumWeights, Spe.sumLogWeights]⟩
  | prod _ => exact ⟨by simp [Spe.sumWeights, hw], by simp [Spe.sumWeights, Spe.sumLogWeights]⟩

theorem allWeights_ref : ∀ {cs : List Spe} {ws : List ℝ}, (∀ s ∈ cs, PosW s) → (∀ w ∈ ws, 0 ≤ w) →
    RL ((cs.zip ws).flatMap (fun p => p.1.sumWeights p.2))
      ((cs.zip (ws.map (fun w => (some (wlog w) : Flt)))).flatMap (fun p => p.1.sumLogWeights p.2))
  | [], ws, _, _ => ⟨by simp, by simp⟩
  | s :: cs, [], _, _ => ⟨by simp, by simp⟩
  | s :: cs, w :: ws, hc, hw => by
    have h1 := sumWeights_posW (hc s (by simp)) (hw w (by simp))
    have h2 := allWeights_ref (cs := cs) (ws := ws) (fun t ht => hc t (by simp [ht])) (fun v hv => hw v (by simp [hv]))
    simp only [List.map_cons, List.zip_cons_cons, List.flatMap_cons]
    refine ⟨?_, ?_⟩
    · intro p hp
      rcases List.mem_append.1 hp with hp | hp
      · exact h1.1 p hp
      · exact h2.1 p hp
    · rw [h1.2, h2.2, List.map_append]

theorem closeTo_one (hcl : CloseOK cl) {p : ℝ} (h : p = 1) : closeTo cl (some (wlog p)) 0 = true := by
  rw [h, wlog_one]; exact hcl.refl 0

theorem closeTo_ne {p : ℝ} (hp : 0 ≤ p) (h : p ≠ 1) : ¬ closeTo exactClose (some (wlog p)) 0 = true := by
  simp only [closeTo, exactClose, decide_eq_true_eq]
  intro h1
  rw [← wlog_one] at h1
  exact h (wlog_inj hp zero_le_one h1)

theorem mkSumLog_ref (hcl : CloseOK cl) {cs : List Spe} (hc : ∀ s ∈ cs, PosW s) {ws fs} (h : RL ws fs) :
    Ref cl RS (mkSum cs ws) (mkSumLog cl cs fs) := by
  obtain ⟨hw, rfl⟩ := h
  unfold mkSum mkSumLog
  rw [List.length_map, flse_wlog hw]
  by_cases hl : cs.length ≠ ws.length
  · rw [if_pos hl, if_pos hl]; exact Ref.err
  rw [if_neg hl, if_neg hl]
  simp only
  by_cases hs : ws.sum ≠ 1
  · rw [if_pos hs]
    intro h0
    subst h0
    rw [if_neg (closeTo_ne (List.sum_nonneg hw) hs)]
  · have hs' : ws.sum = 1 := by simpa using hs
    rw [if_neg hs, if_pos (closeTo_one hcl hs')]
    by_cases h1 : cs.flatMap Spe.sumChildren = []
    · rw [if_pos h1, if_pos h1]; exact Ref.err
    rw [if_neg h1, if_neg h1]
    split
    · have h2 := allWeights_ref hc hw
      refine ⟨_, rfl, ?_, ?_⟩
      · congr 1
        rw [h2.2, List.map_map]
        conv_rhs => rw [← List.map_id ((cs.zip ws).flatMap (fun p => p.1.sumWeights p.2))]
        apply List.map_congr_left
        intro a ha
        simp [wexp_wlog (h2.1 a ha)]
      · refine .sum ?_ h2.1
        intro s hs
        obtain ⟨t, ht, hst⟩ := List.mem_flatMap.1 hs
        exact (hc t ht).sumChildren s hst
    · exact Ref.err

theorem mapM_id_none {l : List Flt} (h : none ∈ l) : l.mapM id = none := by
  induction l with
  | nil => simp at h
  | cons a l ih =>
    rcases List.mem_cons.1 h with h' | h'
    · subst h'; rfl
    · cases a with
      | none => rfl
      | some x => simp [List.mapM_cons, ih h']

/-- The weights after normalization. -/
theorem mkSumNorm_ref (hcl : CloseOK cl) {cs : List Spe} (hc : ∀ s ∈ cs, PosW s) {ps fs} (h : RL ps fs) :
    Ref cl RS (mkSum cs (pnorm ps)) (mkSumLog cl cs (fnorm fs)) := by
  by_cases h0 : ps.sum = 0
  · have e : mkSum cs (pnorm ps) = .error .assertion := by
      unfold mkSum
      split
      · rfl
      · have : (pnorm ps).sum = 0 := by
          rw [pnorm, h0]
          simp
        rw [if_pos (by rw [this]; norm_num)]
    rw [e]
    intro hex
    subst hex
    unfold mkSumLog
    split
    · rfl
    · rw [if_neg]
      cases ps with
      | nil =>
        rw [h.2]
        simp [fnorm, flse, closeTo, exactClose, logsumexp]
      | cons p ps =>
        have hp : p = 0 := by
          have h1 := h.1 p (by simp)
          have h2 : 0 ≤ ps.sum := List.sum_nonneg (fun q hq => h.1 q (by simp [hq]))
          rw [List.sum_cons] at h0
          linarith
        have : (none : Flt) ∈ fnorm fs := by
          rw [fnorm, h.flse, h0, h.2, hp]
          simp only [List.map_cons, List.mem_cons]
          left
          simp [fminus, fsub, wlog_zero]
        rw [flse, mapM_id_none this]
        simp [closeTo]
  · obtain ⟨h1, rfl⟩ := h
    exact mkSumLog_ref hcl hc (fnorm_wlog h1 h0)

theorem mkProd_posW {cs : List Spe} (hc : ∀ s ∈ cs, PosW s) : Ref cl RS (mkProd cs) (mkProd cs) := by
  rcases h : mkProd cs with e | s
  · exact Ref.err
  · refine ⟨s, rfl, rfl, ?_⟩
    unfold mkProd at h
    simp only at h
    split at h
    · cases h
    split at h
    · cases h
      refine .prod (fun s hs => ?_)
      obtain ⟨t, ht, hst⟩ := List.mem_flatMap.1 hs
      exact (hc t ht).prodChildren s hst
    · cases h

theorem listToProd_posW {cs : List Spe} (hc : ∀ s ∈ cs, PosW s) : Ref cl RS (listToProd cs) (listToProd cs) := by
  unfold listToProd
  split
  · exact Ref.ok ⟨rfl, hc _ (by simp)⟩
  · exact mkProd_posW hc

/-! ## Leaves -/

theorem mkRealLog_ref (hcl : CloseOK cl) {l : RLeaf} (h : ∀ x, 0 ≤ L.cdf l.d x) (sym : String) (env : Env) :
    Ref cl RS (mkReal L l sym env) (mkRealLog cl L l sym env) := by
  have key : Ref cl RS (if l.cond then do let _ ← l.Z L; .ok (.real l.k sym l.d l.supp l.cond env) else .ok (.real l.k sym l.d l.supp l.cond env))
      (if l.cond then do let _ ← l.logZ cl L; .ok (.real l.k sym l.d l.supp l.cond env) else .ok (.real l.k sym l.d l.supp l.cond env)) := by
    split
    · exact Ref.bind (logZ_ref hcl h) (fun _ _ _ => Ref.ok ⟨rfl, .real⟩)
    · exact Ref.ok ⟨rfl, .real⟩
  obtain ⟨k, d, supp, cond⟩ := l
  unfold mkReal mkRealLog
  cases k
  · exact key
  · exact Ref.same (fun _ _ => Ref.same (fun _ _ => Ref.same (fun _ _ => Ref.same (fun _ _ => key))))

theorem condIvlsLog_ref (hcl : CloseOK cl) {l : RLeaf} (hl : RFit L l) (sym : String) (env : Env) (is : List (Ivl EReal)) :
    Ref cl RS (condIvls L l sym env is) (condIvlsLog cl L l sym env is) := by
  unfold condIvls condIvlsLog
  refine Ref.bind (Ref.mapM (fun i _ => logIvl_ref hcl hl i)) (fun ps fs hp => ?_)
  obtain ⟨h1, rfl⟩ := RL_of hp
  rw [filter_null is ps h1]
  by_cases h0 : is = []
  · rw [if_pos h0, if_pos h0]; exact Ref.err
  rw [if_neg h0, if_neg h0]
  simp only [List.map_eq_nil_iff]
  split
  · exact Ref.err
  rw [List.mapM_map, List.map_map]
  refine Ref.bind (R := List.Forall₂ RS) (Ref.mapM (fun q _ => mkRealLog_ref (l := ⟨l.k, l.d, q.1, true⟩) hcl hl.cdf sym env)) (fun ss ts hs => ?_)
  obtain ⟨rfl, hs⟩ := RS_of hs
  have key := mkSumNorm_ref (cs := ts) hcl hs (ps := ((is.zip ps).filter (fun q => q.2 ≠ 0)).map Prod.snd)
    (fs := ((is.zip ps).filter (fun q => q.2 ≠ 0)).map (Prod.snd ∘ fun q => (q.1, some (wlog q.2)))) ⟨by
      intro p hp
      obtain ⟨q, hq, rfl⟩ := List.mem_map.1 hp
      exact h1 _ (List.of_mem_zip (List.mem_of_mem_filter hq)).2, by rw [List.map_map]; rfl⟩
  rcases ts with _ | ⟨s, _ | ⟨t, ts⟩⟩
  · exact key
  · exact Ref.ok ⟨rfl, hs _ (by simp)⟩
  · exact key

theorem condRealLog_ref (hcl : CloseOK cl) {l : RLeaf} (hl : RFit L l) (sym : String) (env : Env) (S : SSet EReal) :
    Ref cl RS (condReal c L l sym env S) (condRealLog cl c L l sym env S) := by
  unfold condReal condRealLog
  refine Ref.same (fun V _ => ?_)
  refine Ref.bind (logValues_ref hcl hl V) (fun w f hw => ?_)
  have e : fnull f = decide (w = 0) := by rw [hw.2, fnull_wlog hw.1]
  rw [e]
  simp only [decide_eq_true_eq]
  split
  · exact Ref.err
  split
  · exact Ref.ok ⟨rfl, .real⟩
  · exact Ref.same (fun is _ => condIvlsLog_ref hcl hl sym env is)

theorem condNominal_posW {sym dist vals p s} (h : condNominal sym dist vals p = .ok s) : PosW s := by
  unfold condNominal at h
  split at h
  · cases h
  split at h
  · cases h; exact .nominal
  · unfold mkNominal at h
    simp only [bind, Except.bind] at h
    split at h
    · cases h
    · split at h
      · cases h; exact .nominal
      · cases h

theorem Ref.refl {α} {R : α → α → Prop} {r : Res α} (h : ∀ a, r = .ok a → R a a) : Ref cl R r r := by
  rcases r with e | a
  · exact Ref.err
  · exact Ref.ok (h a rfl)

theorem leafCondSet_posW {s t : Spe} {S : SSet EReal} (hr : ∀ k sym d supp cond env, s ≠ .real k sym d supp cond env)
    (h : leafCondSet c L s S = .ok t) : PosW t := by
  cases s with
  | real k sym d supp cond env => exact absurd rfl (hr k sym d supp cond env)
  | atomic sym v env =>
    simp only [leafCondSet, bind, Except.bind] at h
    repeat' (split at h)
    all_goals first | (cases h; done) | (cases h; exact .atomic)
  | nominal sym dist =>
    simp only [leafCondSet, bind, Except.bind] at h
    repeat' (split at h)
    all_goals first | (cases h; done) | exact condNominal_posW h
  | sum _ _ => cases h
  | prod _ => cases h

theorem leafCondLog_ref (hcl : CloseOK cl) {s : Spe} (hs : LogFit L s) (e : Ev) : Ref cl RS (leafCond c L n s e) (leafCondLog cl c L n s e) := by
  unfold leafCond leafCondLog
  rcases s.leafEnv with _ | ⟨sym, env⟩
  · exact Ref.err
  · refine Ref.same (fun r _ => Ref.same (fun S _ => ?_))
    cases s with
    | real k sym d supp cond env => exact condRealLog_ref hcl hs.rfit sym env S
    | atomic sym v env => exact Ref.refl (fun t ht => ⟨rfl, leafCondSet_posW (by intros; simp) ht⟩)
    | nominal sym dist => exact Ref.refl (fun t ht => ⟨rfl, leafCondSet_posW (by intros; simp) ht⟩)
    | sum cs ws => exact Ref.err
    | prod cs => exact Ref.err

/-! ## Simplification -/

theorem keepIdx_mem {l : List Spe} {js : List ℕ} {b : Bool} {s : Spe} (h : s ∈ keepIdx l js b) : s ∈ l := by
  simp only [keepIdx, List.mem_map, List.mem_filter] at h
  obtain ⟨⟨t, i⟩, ⟨h1, -⟩, rfl⟩ := h
  exact List.fst_mem_of_mem_zipIdx h1

/-- States of the reduction in `spe_simplify_sum_product`. -/
def RState (a : List Spe × ℝ) (b : List Spe × Flt) : Prop := b.1 = a.1 ∧ (∀ s ∈ a.1, PosW s) ∧ RP a.2 b.2

theorem RL_pair {p q : ℝ} {f g : Flt} (hp : RP p f) (hq : RP q g) : RL [p, q] [f, g] := by
  obtain ⟨hp, rfl⟩ := hp
  obtain ⟨hq, rfl⟩ := hq
  exact ⟨by intro x hx; simp at hx; rcases hx with rfl | rfl <;> assumption, rfl⟩

theorem RP_pair {p q : ℝ} {f g : Flt} (hp : RP p f) (hq : RP q g) : RP (p + q) (flse [f, g]) := by
  have := RP_sum (RL_pair hp hq)
  simpa using this

theorem simplifyStepLog_ref (hcl : CloseOK cl) {a : List Spe × ℝ} {b : List Spe × Flt} (h : RState a b) {bs : List Spe}
    (hb : ∀ s ∈ bs, PosW s) {w : ℝ} (hw : 0 ≤ w) :
    Ref cl RState (simplifyStep a bs w) (simplifyStepLog cl b bs (some (wlog w))) := by
  obtain ⟨cs, p⟩ := a
  obtain ⟨cs', f⟩ := b
  obtain ⟨h1, h2, h3⟩ := h
  simp only at h1 h2 h3
  subst h1
  unfold simplifyStep simplifyStepLog
  simp only
  have hpair := RL_pair h3 (⟨hw, rfl⟩ : RP w (some (wlog w)))
  have hsum := RP_pair h3 (⟨hw, rfl⟩ : RP w (some (wlog w)))
  split
  · refine Ref.bind (listToProd_posW h2) (fun pa _ ha => ?_)
    obtain ⟨rfl, ha⟩ := ha
    refine Ref.bind (listToProd_posW hb) (fun pb _ hpb => ?_)
    obtain ⟨rfl, hpb⟩ := hpb
    refine Ref.bind (mkSumNorm_ref hcl (by intro s hs; simp at hs; rcases hs with rfl | rfl <;> assumption) hpair) (fun s _ hs => ?_)
    obtain ⟨rfl, hs⟩ := hs
    exact Ref.ok ⟨rfl, by simpa using hs, hsum⟩
  · split
    · exact Ref.ok ⟨rfl, h2, hsum⟩
    · refine Ref.bind (listToProd_posW (fun s hs => h2 s (keepIdx_mem hs))) (fun pa _ ha => ?_)
      obtain ⟨rfl, ha⟩ := ha
      refine Ref.bind (listToProd_posW (fun s hs => hb s (keepIdx_mem hs))) (fun pb _ hpb => ?_)
      obtain ⟨rfl, hpb⟩ := hpb
      refine Ref.bind (mkSumNorm_ref hcl (by intro s hs; simp at hs; rcases hs with rfl | rfl <;> assumption) hpair) (fun s _ hs => ?_)
      obtain ⟨rfl, hs⟩ := hs
      refine Ref.ok ⟨rfl, ?_, hsum⟩
      intro t ht
      rcases List.mem_cons.1 ht with rfl | ht
      · exact hs
      · exact h2 t (keepIdx_mem ht)

theorem simplifyFold_ref (hcl : CloseOK cl) : ∀ (l : List (List Spe × ℝ)), (∀ q ∈ l, (∀ s ∈ q.1, PosW s) ∧ 0 ≤ q.2) →
    ∀ {a b}, RState a b → Ref cl RState (l.foldlM (fun st q => simplifyStep st q.1 q.2) a)
      (l.foldlM (fun st q => simplifyStepLog cl st q.1 (some (wlog q.2))) b)
  | [], _, a, b, h => Ref.ok h
  | q :: l, hq, a, b, h => by
    rw [List.foldlM_cons, List.foldlM_cons]
    exact Ref.bind (simplifyStepLog_ref hcl h (hq q (by simp)).1 (hq q (by simp)).2)
      (fun a b hab => simplifyFold_ref hcl l (fun r hr => hq r (by simp [hr])) hab)

theorem simplifyProductsLog_ref (hcl : CloseOK cl) {css : List (List Spe)} {ws : List ℝ} (hc : ∀ cs ∈ css, ∀ s ∈ cs, PosW s)
    (hw : ∀ w ∈ ws, 0 ≤ w) : Ref cl RS (simplifyProducts css ws) (simplifyProductsLog cl css ws) := by
  unfold simplifyProducts simplifyProductsLog
  rcases css with _ | ⟨cs, css⟩
  · exact Ref.err
  rcases ws with _ | ⟨w, ws⟩
  · exact Ref.err
  simp only
  refine Ref.bind (simplifyFold_ref hcl _ ?_ (a := (cs, w)) (b := (cs, some (wlog w))) ⟨rfl, hc cs (by simp), hw w (by simp), rfl⟩) (fun a b hab => ?_)
  · intro q hq
    have := List.of_mem_zip hq
    exact ⟨hc _ (by simp [this.1]), hw _ (by simp [this.2])⟩
  · obtain ⟨h1, h2, h3⟩ := hab
    have e : flse [b.2] = some (wlog a.2) := by
      have := flse_wlog (ps := [a.2]) (by simpa using h3.1)
      rw [h3.2]
      simpa using this
    rw [e, h1]
    by_cases h : a.2 = 1
    · rw [if_pos h, if_pos (closeTo_one hcl h)]
      exact listToProd_posW h2
    · rw [if_neg h]
      intro hex
      subst hex
      rw [if_neg (closeTo_ne h3.1 h)]

theorem prod?_posW {cs : List Spe} (h : ∀ s ∈ cs, PosW s) : ∀ {css}, cs.mapM Spe.prod? = some css → ∀ l ∈ css, ∀ s ∈ l, PosW s := by
  induction cs with
  | nil => intro css hcss; simp at hcss; subst hcss; simp
  | cons t cs ih =>
    intro css hcss
    simp only [List.mapM_cons, Option.bind_eq_bind, Option.bind_eq_some_iff, Option.pure_def, Option.some.injEq] at hcss
    obtain ⟨l, hl, ls, hls, rfl⟩ := hcss
    intro l' hl'
    rcases List.mem_cons.1 hl' with rfl | hl'
    · have ht := h t (by simp)
      cases ht with
      | prod hp => simp [Spe.prod?] at hl; subst hl; exact hp
      | real => simp [Spe.prod?] at hl
      | atomic => simp [Spe.prod?] at hl
      | nominal => simp [Spe.prod?] at hl
      | sum _ _ => simp [Spe.prod?] at hl
    · exact ih (fun s hs => h s (by simp [hs])) hls l' hl'

theorem simplifySumProductLog_ref (hcl : CloseOK cl) {cs : List Spe} {ws : List ℝ} (hc : ∀ s ∈ cs, PosW s) (hw : ∀ w ∈ ws, 0 ≤ w) :
    Ref cl RS (simplifySumProduct cs ws) (simplifySumProductLog cl cs ws) := by
  unfold simplifySumProduct simplifySumProductLog
  rcases h : cs.mapM Spe.prod? with _ | css
  · exact Ref.ok ⟨rfl, .sum hc hw⟩
  · exact simplifyProductsLog_ref hcl (prod?_posW hc h) hw

theorem simplifySumLeafLog_ref (hcl : CloseOK cl) {cs : List Spe} {ws : List ℝ} (hc : ∀ s ∈ cs, PosW s) (hw : ∀ w ∈ ws, 0 ≤ w) :
    Ref cl RS (simplifySumLeaf hash cs ws) (simplifySumLeafLog cl hash cs ws) := by
  unfold simplifySumLeaf simplifySumLeafLog
  split
  · simp only
    split
    · exact Ref.err
    split
    · exact Ref.ok ⟨rfl, .sum hc hw⟩
    split
    · refine Ref.ok ⟨rfl, ?_⟩
      cases cs with
      | nil => exact .prod (by simp)
      | cons s cs => exact hc s (by simp)
    · refine mkSumLog_ref hcl ?_ ⟨?_, ?_⟩
      · intro s hs
        obtain ⟨b, -, hb⟩ := List.mem_filterMap.1 hs
        obtain ⟨i, -, hi⟩ := Option.bind_eq_some_iff.1 hb
        exact hc s (List.mem_of_getElem? hi)
      · intro p hp
        obtain ⟨b, -, rfl⟩ := List.mem_map.1 hp
        refine List.sum_nonneg (fun w h => ?_)
        obtain ⟨i, -, hi⟩ := List.mem_filterMap.1 h
        exact hw w (List.mem_of_getElem? hi)
      · rw [List.map_map]
        apply List.map_congr_left
        intro b _
        refine flse_wlog (fun w h => ?_)
        obtain ⟨i, -, hi⟩ := List.mem_filterMap.1 h
        exact hw w (List.mem_of_getElem? hi)
  · exact Ref.err

theorem simplifySumLog_ref (hcl : CloseOK cl) {s : Spe} (hs : PosW s) : Ref cl RS (simplifySum hash s) (simplifySumLog cl hash s) := by
  cases hs with
  | real => exact Ref.err
  | atomic => exact Ref.err
  | nominal => exact Ref.err
  | prod _ => exact Ref.err
  | sum h hw =>
    rename_i cs ws
    rcases cs with _ | ⟨t, cs⟩
    · exact Ref.err
    · simp only [simplifySum, simplifySumLog]
      split
      · exact simplifySumLeafLog_ref hcl h hw
      · cases t with
        | prod ts => exact simplifySumProductLog_ref hcl h hw
        | real => exact Ref.err
        | atomic => exact Ref.err
        | nominal => exact Ref.err
        | sum => exact Ref.err

/-! ## Conditioning -/

theorem condClause_ref : ∀ {cs : List Spe} (hc : ∀ s ∈ cs, PosW s) {fs gs : List (Factor → Res Spe)}, List.Forall₂ (RF cl RS) fs gs → ∀ m : Clause String,
    Ref cl (List.Forall₂ RS) (condClause cs fs m) (condClause cs gs m)
  | [], _, fs, gs, _, m => by simp only [condClause, List.zip_nil_left]; exact ⟨[], rfl, .nil⟩
  | s :: cs, _, _, _, .nil, m => by simp only [condClause, List.zip_nil_right]; exact ⟨[], rfl, .nil⟩
  | s :: cs, hc, _, _, .cons h hs, m => by
    have ih := condClause_ref (cs := cs) (fun t ht => hc t (by simp [ht])) hs m
    unfold condClause at ih ⊢
    rw [List.zip_cons_cons, List.zip_cons_cons, List.mapM_cons, List.mapM_cons]
    refine Ref.bind (R := RS) ?_ (fun a b hab => Ref.bind ih (fun as bs h' => ⟨_, rfl, .cons hab h'⟩))
    simp only
    split
    · exact Ref.ok ⟨rfl, hc s (by simp)⟩
    · exact h _

theorem condMixLog_ref (hcl : CloseOK cl) {ps fs} (hp : RL ps fs) {ss : List Spe} (hs : ∀ s ∈ ss, PosW s) :
    Ref cl RS (condMix hash ps ss) (condMixLog cl hash fs ss) := by
  have key : Ref cl RS (do let s ← mkSum ss (pnorm ps); simplifySum hash s) (do let s ← mkSumLog cl ss (fnorm fs); simplifySumLog cl hash s) := by
    refine Ref.bind (mkSumNorm_ref hcl hs hp) (fun s t h => ?_)
    obtain ⟨rfl, h⟩ := h
    exact simplifySumLog_ref hcl h
  rcases ss with _ | ⟨s, _ | ⟨t, ss⟩⟩
  · exact key
  · exact Ref.ok ⟨rfl, hs _ (by simp)⟩
  · exact key

theorem Ref.mapM₂ {α α' β β'} {S : β → β' → Prop} {R : α → α' → Prop} {f : α → Res β} {g : α' → Res β'} {l : List α} {l' : List α'}
    (hl : List.Forall₂ R l l') (h : ∀ a a', R a a' → Ref cl S (f a) (g a')) : Ref cl (List.Forall₂ S) (l.mapM f) (l'.mapM g) := by
  induction hl with
  | nil => exact ⟨[], rfl, .nil⟩
  | cons h1 _ ih =>
    rw [List.mapM_cons, List.mapM_cons]
    exact Ref.bind (h _ _ h1) (fun a b hab => Ref.bind ih (fun as bs h' => ⟨_, rfl, .cons hab h'⟩))

theorem condProdLog_ref (hcl : CloseOK cl) {cs : List Spe} (hc : ∀ s ∈ cs, PosW s) {pf : List (Factor → Res ℝ)} {lf : List (Factor → Res Flt)}
    (hf : List.Forall₂ (RF cl RP) pf lf) {fs gs : List (Factor → Res Spe)} (hg : List.Forall₂ (RF cl RS) fs gs)
    {p : Res ℝ} {q : Res Flt} (hp : Ref cl RP p q) (F : Factor) :
    Ref cl RS (condProd c hash cs pf fs p F) (condProdLog cl c hash cs lf gs q F) := by
  unfold condProd condProdLog
  refine Ref.bind (Ref.mapM (fun m _ => conjLog_ref hf [m])) (fun ps xs hps => ?_)
  have hL := RL_of hps
  refine Ref.bind hp (fun w f hw => ?_)
  rw [hL.flse, hw.2]
  by_cases h : ps.sum = w
  · rw [if_neg (by simpa using h), h, if_pos (show closeFlt cl (some (wlog w)) (some (wlog w)) = true from hcl.refl _)]
    obtain ⟨h1, rfl⟩ := hL
    rw [filter_null F ps h1]
    simp only [List.map_eq_nil_iff]
    split
    · exact Ref.err
    rw [List.mapM_map, List.map_map]
    refine Ref.bind (R := List.Forall₂ (List.Forall₂ RS)) (Ref.mapM (fun r _ => condClause_ref hc hg r.1)) (fun as bs hab => ?_)
    refine Ref.bind (R := List.Forall₂ RS) (Ref.mapM₂ hab (fun a b h' => ?_)) (fun ss ts hst => ?_)
    · obtain ⟨rfl, h'⟩ := RS_of h'
      exact mkProd_posW h'
    · obtain ⟨rfl, hst⟩ := RS_of hst
      refine condMixLog_ref hcl ⟨?_, by rw [List.map_map]; rfl⟩ hst
      intro x hx
      obtain ⟨y, hy, rfl⟩ := List.mem_map.1 hx
      exact h1 _ (List.of_mem_zip (List.mem_of_mem_filter hy)).2
  · rw [if_pos h]
    intro hex
    subst hex
    rw [if_neg]
    simp only [closeFlt, closeTo, exactClose, decide_eq_true_eq]
    exact fun h4 => h (wlog_inj (List.sum_nonneg hL.1) hw.1 h4)

/-- The children that are kept, with their weights and probabilities. -/
theorem condSum_good : ∀ {ws ps : List ℝ} (hw : ∀ w ∈ ws, 0 ≤ w) (hp : ∀ p ∈ ps, 0 ≤ p) {fs gs : List (Factor → Res Spe)}, List.Forall₂ (RF cl RS) fs gs →
    List.Forall₂ (fun (r : (ℝ × ℝ) × (Factor → Res Spe)) (r' : (ℝ × Flt) × (Factor → Res Spe)) =>
      r'.1.1 = r.1.1 ∧ 0 ≤ r.1.1 ∧ RP r.1.2 r'.1.2 ∧ RF cl RS r.2 r'.2)
      (((ws.zip ps).zip fs).filter (fun r => r.1.2 ≠ 0))
      (((ws.zip (ps.map (fun p => (some (wlog p) : Flt)))).zip gs).filter (fun r => !fnull r.1.2))
  | [], _, _, _, _, _, _ => by simp
  | _ :: _, [], _, _, _, _, _ => by simp
  | _ :: _, _ :: _, _, _, _, _, .nil => by simp
  | w :: ws, p :: ps, hw, hp, _, _, .cons h hs => by
    have ih := condSum_good (ws := ws) (ps := ps) (fun v hv => hw v (by simp [hv])) (fun v hv => hp v (by simp [hv])) hs
    simp only [List.map_cons, List.zip_cons_cons, List.filter_cons, fnull_wlog (hp p (by simp))]
    by_cases h0 : p = 0
    · simpa [h0] using ih
    · simp only [h0, ne_eq, not_false_eq_true, decide_true, decide_false, if_true, Bool.not_false]
      exact .cons ⟨rfl, hw w (by simp), ⟨hp p (by simp), rfl⟩, h⟩ ih

theorem RL_of_map {α β : Type} {R : α → β → Prop} {f : α → ℝ} {g : β → Flt} {l : List α} {l' : List β} (h : List.Forall₂ R l l')
    (hR : ∀ a b, R a b → RP (f a) (g b)) : RL (l.map f) (l'.map g) := by
  apply RL_of
  rw [List.forall₂_map_left_iff, List.forall₂_map_right_iff]
  exact h.imp hR

theorem condSumLog_ref (hcl : CloseOK cl) {ws : List ℝ} (hw : ∀ w ∈ ws, 0 ≤ w) {ps xs} (hp : RL ps xs) {fs gs : List (Factor → Res Spe)}
    (hg : List.Forall₂ (RF cl RS) fs gs) (F : Factor) : Ref cl RS (condSum ws ps fs F) (condSumLog cl ws xs gs F) := by
  obtain ⟨hp, rfl⟩ := hp
  have hgood := condSum_good (cl := cl) hw hp hg
  unfold condSum condSumLog
  simp only
  generalize ((ws.zip ps).zip fs).filter (fun r => r.1.2 ≠ 0) = A at hgood ⊢
  generalize ((ws.zip (ps.map (fun p => (some (wlog p) : Flt)))).zip gs).filter (fun r => !fnull r.1.2) = B at hgood ⊢
  have hnil : A = [] ↔ B = [] := by
    cases hgood with
    | nil => simp
    | cons _ _ => simp
  by_cases h0 : A = []
  · rw [if_pos h0, if_pos (hnil.1 h0)]; exact Ref.err
  rw [if_neg h0, if_neg (fun h => h0 (hnil.2 h))]
  refine Ref.bind (R := List.Forall₂ RS) (Ref.mapM₂ hgood (fun a b h => h.2.2.2 F)) (fun ss ts hst => ?_)
  obtain ⟨rfl, hst⟩ := RS_of hst
  have key := mkSumNorm_ref (cs := ts) hcl hst (RL_of_map (f := fun r => r.1.2 * r.1.1) (g := fun r => fadd r.1.2 (some (wlog r.1.1))) hgood (fun a b h => by
    rw [h.1]
    exact RP_mul h.2.2.1 ⟨h.2.1, rfl⟩))
  rcases ts with _ | ⟨s, _ | ⟨t, ts⟩⟩
  · exact key
  · exact Ref.ok ⟨rfl, hst _ (by simp)⟩
  · exact key

mutual
theorem condMemLog_ref (hcl : CloseOK cl) : ∀ s : Spe, LogFit L s → ∀ F, Ref cl RS (s.condMem c L hash n F) (s.condMemLog cl c L hash n F)
  | .real k sym d supp cond env, h, F => by
    rw [Spe.condMem, Spe.condMemLog]; exact Ref.same (fun e _ => leafCondLog_ref hcl h e)
  | .atomic sym v env, h, F => by
    rw [Spe.condMem, Spe.condMemLog]; exact Ref.same (fun e _ => leafCondLog_ref hcl h e)
  | .nominal sym dist, h, F => by
    rw [Spe.condMem, Spe.condMemLog]; exact Ref.same (fun e _ => leafCondLog_ref hcl h e)
  | .sum cs ws, h, F => by
    rw [Spe.condMem, Spe.condMemLog]
    cases h with
    | sum h hw =>
      exact Ref.bind (callAll_ref (logMemL_ref hcl cs h) F) (fun ps fs hp => condSumLog_ref hcl hw (RL_of hp) (condMemLogL_ref hcl cs h) F)
  | .prod cs, h, F => by
    rw [Spe.condMem, Spe.condMemLog]
    have h' := h
    cases h with
    | prod h =>
      exact condProdLog_ref hcl (fun s hs => (h s hs).posW) (logMemL_ref hcl cs h) (condMemLogL_ref hcl cs h) (logMem_ref hcl _ h' F) F
theorem condMemLogL_ref (hcl : CloseOK cl) : ∀ cs : List Spe, (∀ s ∈ cs, LogFit L s) →
    List.Forall₂ (RF cl RS) (Spe.condMemL c L hash n cs) (Spe.condMemLogL cl c L hash n cs)
  | [], _ => by rw [Spe.condMemL, Spe.condMemLogL]; exact .nil
  | s :: ss, h => by
    rw [Spe.condMemL, Spe.condMemLogL]
    exact .cons (fun F => condMemLog_ref hcl s (h s (by simp)) F) (condMemLogL_ref hcl ss (fun t ht => h t (by simp [ht])))
end

theorem dropNullLog_ref (hcl : CloseOK cl) {s : Spe} (h : LogFit L s) (e : Ev) :
    Ref cl (fun a b => b = a) (dropNull c L n s e) (dropNullLog cl c L n s e) := by
  cases e with
  | or es =>
    refine Ref.same (fun Fs _ => ?_)
    refine Ref.bind (Ref.mapM (fun F _ => logMem_ref hcl s h F)) (fun ps fs hp => ?_)
    obtain ⟨h1, rfl⟩ := RL_of hp
    rw [filter_null es ps h1]
    simp only [List.map_eq_nil_iff]
    split
    · exact Ref.err
    · refine Ref.ok ?_
      rw [List.map_map]
      rfl
  | _ => exact Ref.ok rfl

theorem conditionLog_ref (hcl : CloseOK cl) {s : Spe} (h : LogFit L s) (e : Ev) :
    Ref cl RS (s.condition c L hash n e) (s.conditionLog cl c L hash n e) := by
  unfold Spe.condition Spe.conditionLog
  split
  · exact leafCondLog_ref hcl h e
  · refine Ref.same (fun o _ => ?_)
    cases o with
    | none => exact Ref.err
    | some d =>
      refine Ref.bind (dropNullLog_ref hcl h d) (fun a b hab => ?_)
      subst hab
      exact Ref.same (fun g _ => Ref.same (fun F _ => condMemLog_ref hcl s h F))

end Sppl
