import Verif.Spe.LogLemmas

set_option linter.all false

/-!
# `logprob` and `condition` with logarithms refine `prob` and `condition` (helper lemmas)
-/

namespace Sppl
open Classical
open scoped ENNReal

/-- What keeps the computation with logarithms away from `nan`: no negative numbers, and the mass of the support of a conditioned leaf
is not zero. -/
inductive LogFit (L : Lib) : Spe → Prop
  | real {k sym d supp cond env} : (∀ x, 0 ≤ L.cdf d x) → (k = .disc → ∀ x, 0 ≤ L.pmf d x) →
      (cond = true → ∀ z, RLeaf.Z L ⟨k, d, supp, cond⟩ = .ok z → z ≠ 0) → LogFit L (.real k sym d supp cond env)
  | atomic {sym v env} : LogFit L (.atomic sym v env)
  | nominal {sym dist} : (∀ p ∈ dist, 0 ≤ p.2) → LogFit L (.nominal sym dist)
  | sum {cs ws} : (∀ s ∈ cs, LogFit L s) → (∀ w ∈ ws, 0 ≤ w) → LogFit L (.sum cs ws)
  | prod {cs} : (∀ s ∈ cs, LogFit L s) → LogFit L (.prod cs)

/-- `LogFit` of a real leaf. -/
structure RFit (L : Lib) (l : RLeaf) : Prop where
  cdf : ∀ x, 0 ≤ L.cdf l.d x
  pmf : l.k = .disc → ∀ x, 0 ≤ L.pmf l.d x
  Z : l.cond = true → ∀ z, l.Z L = .ok z → z ≠ 0

variable {cl : CloseTest} {c : Ctx} {L : Lib} {n : ℕ} {hash : Spe → ℤ}

theorem Fl_nonneg {l : RLeaf} (h : ∀ x, 0 ≤ L.cdf l.d x) : 0 ≤ l.Fl L := by unfold RLeaf.Fl; split <;> exact h _

theorem logZ_ref (hcl : CloseOK cl) {l : RLeaf} (h : ∀ x, 0 ≤ L.cdf l.d x) : Ref cl RP (l.Z L) (l.logZ cl L) :=
  fdiff_ref hcl ⟨h _, rfl⟩ ⟨Fl_nonneg h, rfl⟩

theorem RP_div {p z : ℝ} {f g : Flt} (hp : RP p f) (hz : RP z g) (h : z ≠ 0) : RP (p / z) (fminus f g) := by
  obtain ⟨hp, rfl⟩ := hp
  obtain ⟨hz, rfl⟩ := hz
  exact ⟨div_nonneg hp hz, fminus_wlog hp (lt_of_le_of_ne hz (Ne.symm h))⟩

theorem RP_mul {p q : ℝ} {f g : Flt} (hp : RP p f) (hq : RP q g) : RP (p * q) (fadd f g) := by
  obtain ⟨hp, rfl⟩ := hp
  obtain ⟨hq, rfl⟩ := hq
  exact ⟨mul_nonneg hp hq, fadd_wlog hp⟩

theorem RP_zero : RP 0 (some ⊥) := ⟨le_rfl, by rw [wlog_zero]⟩
theorem RP_one : RP 1 (some 0) := ⟨zero_le_one, by rw [wlog_one]⟩

/-- Division by the mass of the support. -/
theorem divZ_ref (hcl : CloseOK cl) {l : RLeaf} (hl : RFit L l) (hc : ¬ l.cond = false) {p f} (hp : RP p f) :
    Ref cl RP (do let z ← l.Z L; .ok (p / z)) (do let z ← l.logZ cl L; .ok (fminus f z)) := by
  have hcond : l.cond = true := by simpa using hc
  rcases hz : l.Z L with e | z
  · intro h
    have := logZ_ref (l := l) hcl hl.cdf
    rw [hz] at this
    rw [this h]
    rfl
  · have := logZ_ref (l := l) hcl hl.cdf
    rw [hz] at this
    obtain ⟨g, hg, hR⟩ := this
    rw [hg]
    exact Ref.ok (RP_div hp hR (hl.Z hcond z hz))

theorem logcdf_ref (hcl : CloseOK cl) {l : RLeaf} (hl : RFit L l) (x : EReal) : Ref cl RP (l.cdf L x) (l.logcdf cl L x) := by
  unfold RLeaf.cdf RLeaf.logcdf
  split
  · exact Ref.ok ⟨hl.cdf _, rfl⟩
  · rename_i hc
    split
    · exact Ref.ok RP_one
    · split
      · exact Ref.ok RP_zero
      · exact Ref.bind (fdiff_ref hcl ⟨hl.cdf _, rfl⟩ ⟨Fl_nonneg hl.cdf, rfl⟩) (fun p f hp => divZ_ref hcl hl hc hp)

theorem logpmf_ref (hcl : CloseOK cl) {l : RLeaf} (hl : RFit L l) (hk : l.k = .disc) (x : EReal) : Ref cl RP (l.pmf L x) (l.logpmf cl L x) := by
  unfold RLeaf.pmf RLeaf.logpmf
  split
  · exact Ref.ok ⟨hl.pmf hk _, rfl⟩
  · rename_i hc
    split
    · exact Ref.ok RP_zero
    · exact divZ_ref hcl hl hc ⟨hl.pmf hk _, rfl⟩

theorem RP_sum {ps fs} (h : RL ps fs) : RP ps.sum (flse fs) := ⟨List.sum_nonneg h.1, h.flse⟩

theorem RP_oneOrSum {ps fs} (h : RL ps fs) : RP ps.sum (oneOrSum fs) := by
  unfold oneOrSum
  split
  · rename_i x
    obtain ⟨h1, h2⟩ := h
    cases ps with
    | nil => simp at h2
    | cons p ps =>
      cases ps with
      | nil => simp at h2; subst h2; exact ⟨by simpa using h1, by simp⟩
      | cons _ _ => simp at h2
  · exact RP_sum h

theorem logFinite_ref (hcl : CloseOK cl) {l : RLeaf} (hl : RFit L l) (s : Finset EReal) : Ref cl RP (l.probFinite L s) (l.logFinite cl L s) := by
  unfold RLeaf.probFinite RLeaf.logFinite
  cases hk : l.k
  · exact Ref.ok RP_zero
  · exact Ref.bind (Ref.mapM (fun x _ => logpmf_ref hcl hl hk x)) (fun ps fs h => Ref.ok (RP_oneOrSum (RL_of h)))

theorem logIvl_ref (hcl : CloseOK cl) {l : RLeaf} (hl : RFit L l) (i : Ivl EReal) : Ref cl RP (l.probIvl L i) (l.logIvl cl L i) := by
  unfold RLeaf.probIvl RLeaf.logIvl
  cases l.k
  · exact Ref.bind (logcdf_ref hcl hl _) (fun _ _ h1 => Ref.bind (logcdf_ref hcl hl _) (fun _ _ h2 => fdiff_ref hcl h2 h1))
  · exact Ref.same (fun a _ => Ref.same (fun b _ => Ref.bind (logcdf_ref hcl hl _) (fun _ _ h1 => Ref.bind (logcdf_ref hcl hl _) (fun _ _ h2 => fdiff_ref hcl h2 h1))))

theorem logPiece_ref (hcl : CloseOK cl) {l : RLeaf} (hl : RFit L l) (p : Piece EReal) : Ref cl RP (l.probPiece L p) (l.logPiece cl L p) := by
  cases p with
  | fin s => exact logFinite_ref hcl hl s
  | ivl i => exact logIvl_ref hcl hl i
  | nom m => exact Ref.err

theorem logValues_ref (hcl : CloseOK cl) {l : RLeaf} (hl : RFit L l) (S : SSet EReal) : Ref cl RP (l.probValues L S) (l.logValues cl L S) := by
  cases S with
  | empty => exact Ref.ok RP_zero
  | pc p => exact logPiece_ref hcl hl p
  | un u => exact Ref.bind (Ref.mapM (fun x _ => logPiece_ref hcl hl x)) (fun ps fs h => Ref.ok (RP_sum (RL_of h)))

theorem LogFit.rfit {k sym d supp cond env} (h : LogFit L (.real k sym d supp cond env)) : RFit L ⟨k, d, supp, cond⟩ := by
  cases h with
  | real h1 h2 h4 => exact ⟨h1, h2, h4⟩

theorem nominalMass_nonneg {dist : List (String × ℚ)} (h : ∀ p ∈ dist, 0 ≤ p.2) {vals : Finset String} {p : ℚ}
    (hp : nominalMass dist vals = .ok p) : 0 ≤ p := by
  unfold nominalMass at hp
  simp only [bind, Except.bind] at hp
  split at hp
  · cases hp
  · rename_i ws hws
    cases hp
    apply List.sum_nonneg
    intro w hw
    obtain ⟨x, -, hx⟩ := forall₂_mem_right (mapM_ok hws) hw
    split at hx
    · rename_i v hv
      cases hx
      obtain ⟨q, hq, rfl⟩ : ∃ q ∈ dist, q.2 = w := by
        have := List.lookup_eq_some_iff.1 hv
        obtain ⟨l1, l2, rfl, -⟩ := this
        exact ⟨(x, w), by simp, rfl⟩
      exact h q hq
    · cases hx

theorem leafLogSet_ref (hcl : CloseOK cl) {s : Spe} (hs : LogFit L s) (S : SSet EReal) : Ref cl RP (leafProbSet c L s S) (leafLogSet cl c L s S) := by
  cases hs with
  | real h1 h2 h4 => exact Ref.same (fun V _ => logValues_ref hcl ⟨h1, h2, h4⟩ V)
  | atomic =>
    refine Ref.same (fun b _ => ?_)
    cases b
    · exact Ref.ok RP_zero
    · exact Ref.ok RP_one
  | nominal h =>
    refine Ref.same (fun V _ => ?_)
    cases V with
    | empty => exact Ref.ok RP_zero
    | un u => exact Ref.err
    | pc p =>
      cases p with
      | fin _ => exact Ref.err
      | ivl _ => exact Ref.err
      | nom m =>
        simp only
        split
        · exact Ref.ok RP_one
        · refine Ref.same (fun p hp => ?_)
          have h0 := nominalMass_nonneg h hp
          split
          · rename_i hne
            rw [mlog, if_neg (not_le.2 (lt_of_le_of_ne h0 (Ne.symm hne)))]
            exact Ref.ok ⟨by exact_mod_cast h0, rfl⟩
          · rename_i hne
            have : p = 0 := by simpa using hne
            subst this
            simpa using Ref.ok RP_zero
  | sum _ _ => exact Ref.err
  | prod _ => exact Ref.err

theorem leafLog_ref (hcl : CloseOK cl) {s : Spe} (hs : LogFit L s) (e : Ev) : Ref cl RP (leafProb c L n s e) (leafLog cl c L n s e) := by
  unfold leafProb leafLog
  rcases s.leafEnv with _ | ⟨sym, env⟩
  · exact Ref.err
  · exact Ref.same (fun r _ => Ref.same (fun S _ => leafLogSet_ref hcl hs S))

/-- Related methods. -/
def RF {α β β' : Type} (cl : CloseTest) (R : β → β' → Prop) (f : α → Res β) (g : α → Res β') : Prop := ∀ a, Ref cl R (f a) (g a)

theorem get_ref {α β : Type} {R : α → β → Prop} : ∀ {fs : List α} {gs : List β}, List.Forall₂ R fs gs → ∀ k : ℕ,
    (fs[k]? = none ∧ gs[k]? = none) ∨ ∃ f g, fs[k]? = some f ∧ gs[k]? = some g ∧ R f g
  | _, _, .nil, k => .inl (by simp)
  | _, _, .cons h hs, 0 => .inr ⟨_, _, rfl, rfl, h⟩
  | _, _, .cons h hs, k + 1 => by simpa using get_ref hs k

theorem conjKeyLog_ref {syms : List (Finset String)} {fs : List (Factor → Res ℝ)} {gs : List (Factor → Res Flt)}
    (h : List.Forall₂ (RF cl RP) fs gs) (ms : List (Clause String)) (key : ℕ) :
    Ref cl RP (conjKey c syms fs ms key) (conjKeyLog c syms gs ms key) := by
  refine Ref.same (fun m _ => ?_)
  by_cases hm : m = []
  · simp only [hm, if_true]; exact Ref.ok RP_zero
  · simp only [hm, if_false]
    rcases get_ref h key with ⟨h1, h2⟩ | ⟨f, g, h1, h2, h3⟩
    · rw [h1, h2]; exact Ref.err
    · rw [h1, h2]; exact h3 _

theorem conjLog_ref {syms : List (Finset String)} {fs : List (Factor → Res ℝ)} {gs : List (Factor → Res Flt)}
    (h : List.Forall₂ (RF cl RP) fs gs) (ms : List (Clause String)) :
    Ref cl RP (conjProb c syms fs ms) (conjLog c syms gs ms) := by
  refine Ref.same (fun ks _ => ?_)
  refine Ref.bind (Ref.mapM (fun k _ => conjKeyLog_ref h ms k)) (fun ps xs hp => Ref.ok ?_)
  have := RL_of hp
  refine ⟨List.prod_nonneg this.1, ?_⟩
  rw [this.2, ftotal_wlog this.1]

theorem RL_snoc {ps fs p f} (h : RL ps fs) (hp : RP p f) : RL (ps ++ [p]) (fs ++ [f]) := by
  refine ⟨?_, ?_⟩
  · intro q hq
    rcases List.mem_append.1 hq with hq | hq
    · exact h.1 q hq
    · simp at hq; subst hq; exact hp.1
  · rw [h.2, hp.2]; simp

theorem ieLog_ref (m : ℕ) (f : List ℕ → Res ℝ) (g : List ℕ → Res Flt) (h : ∀ J, Ref cl RP (f J) (g J)) (stack : List (List ℕ × ℕ))
    (avoid : List (List ℕ)) (pos neg : List ℝ) : ∀ (pos' neg' : List Flt), RL pos pos' → RL neg neg' →
    Ref cl (fun a b => RL a.1 b.1 ∧ RL a.2 b.2) (ieLoop m f stack avoid pos neg) (ieLogLoop m g stack avoid pos' neg') := by
  induction stack, avoid, pos, neg using ieLoop.induct (m := m) (f := f) with
  | case1 avoid pos neg =>
    intro pos' neg' h1 h2
    rw [ieLoop, ieLogLoop]
    exact Ref.ok ⟨h1, h2⟩
  | case2 avoid pos neg J i rest hb ih =>
    intro pos' neg' h1 h2
    rw [ieLoop, ieLogLoop, if_pos hb, if_pos hb]
    exact ih _ _ h1 h2
  | case3 avoid pos neg J i rest hb e he =>
    intro pos' neg' h1 h2
    rw [ieLoop, ieLogLoop, if_neg hb, if_neg hb, he]
    intro hc
    have := h J
    rw [he] at this
    rw [this hc]
  | case4 avoid pos neg J i rest hb p hp ih =>
    intro pos' neg' h1 h2
    rw [ieLoop, ieLogLoop, if_neg hb, if_neg hb, hp]
    have := h J
    rw [hp] at this
    obtain ⟨x, hx, hR⟩ := this
    rw [hx]
    simp only
    have e : fnull x = decide (p = 0) := by rw [hR.2, fnull_wlog hR.1]
    rw [e]
    simp only [decide_eq_true_eq]
    apply ih
    · split
      · exact RL_snoc h1 hR
      · exact h1
    · split
      · exact h2
      · exact RL_snoc h2 hR

theorem inclExclLog_ref (hcl : CloseOK cl) (m : ℕ) (f : List ℕ → Res ℝ) (g : List ℕ → Res Flt) (h : ∀ J, Ref cl RP (f J) (g J)) :
    Ref cl RP (inclExcl m f) (inclExclLog cl m g) := by
  refine Ref.bind (ieLog_ref m f g h _ _ _ _ [] [] ⟨by simp, rfl⟩ ⟨by simp, rfl⟩) (fun a b hab => ?_)
  have e1 : fnull (flse b.1) = decide (a.1.sum = 0) := by rw [hab.1.flse, fnull_wlog (List.sum_nonneg hab.1.1)]
  have e2 : b.2 = [] ↔ a.2 = [] := by rw [hab.2.2]; simp
  by_cases hh : a.1.sum = 0 ∨ a.2 = []
  · rw [if_pos hh, if_pos (by simpa [e1, e2] using hh)]
    exact Ref.ok (RP_sum hab.1)
  · rw [if_neg hh, if_neg (by simpa [e1, e2] using hh)]
    exact fdiff_ref hcl (RP_sum hab.1) (RP_sum hab.2)

theorem mixLog_ref {ws : List ℝ} (hw : ∀ w ∈ ws, 0 ≤ w) {ps fs} (h : RL ps fs) : RP (mixSum ws ps) (mixLog ws fs) := by
  have : RL (List.zipWith (· * ·) ws ps) (List.zipWith (fun w p => fadd p (some (wlog w))) ws fs) := by
    obtain ⟨h1, rfl⟩ := h
    induction ws generalizing ps with
    | nil => exact ⟨by simp, by simp⟩
    | cons w ws ih =>
      cases ps with
      | nil => exact ⟨by simp, by simp⟩
      | cons p ps =>
        have := ih (fun w' hw' => hw w' (by simp [hw'])) (ps := ps) (fun q hq => h1 q (by simp [hq]))
        simp only [List.map_cons, List.zipWith_cons_cons]
        rw [this.2, fadd_wlog (h1 p (by simp)), mul_comm p w]
        refine ⟨?_, rfl⟩
        intro q hq
        rcases List.mem_cons.1 hq with rfl | hq
        · exact mul_nonneg (hw w (by simp)) (h1 p (by simp))
        · exact this.1 q hq
  exact RP_sum this

theorem callAll_ref {α β β'} {R : β → β' → Prop} {fs : List (α → Res β)} {gs : List (α → Res β')} (h : List.Forall₂ (RF cl R) fs gs) (a : α) :
    Ref cl (List.Forall₂ R) (callAll fs a) (callAll gs a) := by
  induction h with
  | nil => exact ⟨[], rfl, .nil⟩
  | cons h _ ih =>
    unfold callAll at ih ⊢
    rw [List.mapM_cons, List.mapM_cons]
    exact Ref.bind (h a) (fun b b' hb => Ref.bind ih (fun bs bs' hbs => ⟨_, rfl, .cons hb hbs⟩))

mutual
theorem logMem_ref (hcl : CloseOK cl) : ∀ s : Spe, LogFit L s → ∀ F, Ref cl RP (s.probMem c L n F) (s.logMem cl c L n F)
  | .real k sym d supp cond env, h, F => by
    rw [Spe.probMem, Spe.logMem]; exact Ref.same (fun e _ => leafLog_ref hcl h e)
  | .atomic sym v env, h, F => by
    rw [Spe.probMem, Spe.logMem]; exact Ref.same (fun e _ => leafLog_ref hcl h e)
  | .nominal sym dist, h, F => by
    rw [Spe.probMem, Spe.logMem]; exact Ref.same (fun e _ => leafLog_ref hcl h e)
  | .sum cs ws, h, F => by
    rw [Spe.probMem, Spe.logMem]
    cases h with
    | sum h hw => exact Ref.bind (callAll_ref (logMemL_ref hcl cs h) F) (fun ps fs hp => Ref.ok (mixLog_ref hw (RL_of hp)))
  | .prod cs, h, F => by
    rw [Spe.probMem, Spe.logMem]
    cases h with
    | prod h => exact inclExclLog_ref hcl _ _ _ (fun J => conjLog_ref (logMemL_ref hcl cs h) _)
theorem logMemL_ref (hcl : CloseOK cl) : ∀ cs : List Spe, (∀ s ∈ cs, LogFit L s) →
    List.Forall₂ (RF cl RP) (Spe.probMemL c L n cs) (Spe.logMemL cl c L n cs)
  | [], _ => by rw [Spe.probMemL, Spe.logMemL]; exact .nil
  | s :: ss, h => by
    rw [Spe.probMemL, Spe.logMemL]
    exact .cons (fun F => logMem_ref hcl s (h s (by simp)) F) (logMemL_ref hcl ss (fun t ht => h t (by simp [ht])))
end

theorem logprob_ref (hcl : CloseOK cl) {s : Spe} (h : LogFit L s) (e : Ev) : Ref cl RP (s.prob c L n e) (s.logprob cl c L n e) := by
  unfold Spe.prob Spe.logprob
  split
  · exact leafLog_ref hcl h e
  · refine Ref.same (fun o _ => ?_)
    cases o with
    | none => exact Ref.ok RP_zero
    | some d => exact Ref.same (fun F _ => logMem_ref hcl s h F)

end Sppl
