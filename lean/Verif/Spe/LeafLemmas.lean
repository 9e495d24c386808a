import Verif.Spe.RealLemmas
import Verif.Spe.NoNom
import Verif.Dnf.DisjLemmas

/-!
# Leaves: probability of an event
-/

set_option linter.all false

namespace Sppl
open Classical MeasureTheory
open scoped ENNReal ProbabilityTheory

/-! ## The pieces of `support & solution` -/

theorem Piece.WF.nonempty {p : Piece EReal} (hp : p.WF) : ∃ v, v ∈ p.den := by
  cases p with
  | nom n =>
    rcases hp with ⟨x, hx⟩ | hb
    · by_cases hb : n.b = some true
      · obtain ⟨y, hy⟩ := exists_str_not_mem n.vals
        exact ⟨.str y, y, rfl, by simp [hb, hy]⟩
      · exact ⟨.str x, x, rfl, by simp [hb, hx]⟩
    · obtain ⟨y, hy⟩ := exists_str_not_mem n.vals
      exact ⟨.str y, y, rfl, by simp [hb, hy]⟩
  | fin s => obtain ⟨x, hx⟩ := hp; exact ⟨.num x, x, rfl, hx⟩
  | ivl i => obtain ⟨x, hx⟩ := (Ivl.WF.infinite hp).nonempty; exact ⟨.num x, x, rfl, hx⟩

/-- Sets without a common member. -/
def SSet.Apart (s t : SSet EReal) : Prop := ∀ v, ¬ (v ∈ s.den ∧ v ∈ t.den)

theorem mkUnion_args {σ : Orders EReal} {vs : List (SSet EReal)} {u : Un EReal} (h : mkUnion σ vs = .ok (.un u)) :
    u.args = vs.filterMap SSet.piece? := by
  unfold mkUnion at h
  split at h; · cases h
  dsimp only at h
  split at h; · cases h
  split at h; · cases h
  split at h; · cases h
  split at h; · cases h
  cases h; rfl

theorem nodup_pieces {vs : List (SSet EReal)} (hw : ∀ s ∈ vs, s.WF) (hp : vs.Pairwise SSet.Apart) : (vs.filterMap SSet.piece?).Nodup := by
  induction vs with
  | nil => simp
  | cons s vs ih =>
    rw [List.pairwise_cons] at hp
    have ih' := ih (fun t ht => hw t (by simp [ht])) hp.2
    cases s with
    | empty => rw [List.filterMap_cons_none (by rfl : SSet.piece? (.empty : SSet EReal) = none)]; exact ih'
    | un u => rw [List.filterMap_cons_none (by rfl : SSet.piece? (.un u : SSet EReal) = none)]; exact ih'
    | pc p =>
      rw [List.filterMap_cons_some (by rfl : SSet.piece? (.pc p) = some p), List.nodup_cons]
      refine ⟨fun hmem => ?_, ih'⟩
      obtain ⟨t, ht, htp⟩ := List.mem_filterMap.1 hmem
      rw [SSet.piece?_eq_some] at htp
      subst htp
      obtain ⟨v, hv⟩ := Piece.WF.nonempty (p := p) (hw (.pc p) (by simp))
      exact hp.1 _ ht v ⟨hv, hv⟩

theorem and_ivl_nodup {σ : Orders EReal} {i : Ivl EReal} {S V : SSet EReal} (hi : i.WF) (hw : S.WF) (hd : S.Disj)
    (h : SSet.and σ (.pc (.ivl i)) S = .ok V) : V.argPieces.Nodup := by
  cases S with
  | empty => simp [SSet.and] at h; subst h; simp [SSet.argPieces]
  | pc q =>
    simp only [SSet.and] at h
    cases V with
    | empty => simp [SSet.argPieces]
    | pc q => simp [SSet.argPieces]
    | un u => exact absurd h (Piece.and_ne_un _ _ _)
  | un u =>
    cases V with
    | empty => simp [SSet.argPieces]
    | pc q => simp [SSet.argPieces]
    | un w =>
      have hu : u.WF := hw
      simp only [SSet.and, Un.andPiece, bind, Except.bind] at h
      split at h; · cases h
      rename_i A hA
      split at h; · cases h
      rename_i ints hints
      have hF := mapM_ok hints
      -- the atoms
      have hA' : A.WF ∧ (∀ w, A ≠ .un w) ∧ ∀ v ∈ A.den, ∃ s, u.atoms = some s ∧ v ∈ (Piece.fin s).den := by
        rcases hk : u.atoms with _ | k
        · rw [hk] at hA; cases hA; exact ⟨trivial, by simp, by simp⟩
        · rw [hk] at hA
          obtain ⟨r', e1, e2⟩ := Piece.and_spec (.fin k) (.ivl i) (hu.fin_wf hk) hi
          simp only [andOptFin] at hA
          rw [hA] at e1; cases e1
          exact ⟨e2.wf, fun w hw => by subst hw; exact Piece.and_ne_un _ _ _ hA, fun v hv => ⟨k, rfl, ((e2.iff v).1 hv).1⟩⟩
      have hI : ∀ s ∈ ints, s.WF ∧ (∀ w, s ≠ .un w) ∧ ∃ j ∈ u.intervals, ∀ v ∈ s.den, v ∈ (Piece.ivl j).den := by
        intro s hs
        obtain ⟨j, hj, hR⟩ := forall₂_mem_right hF hs
        obtain ⟨r', e1, e2⟩ := Piece.and_spec (.ivl j) (.ivl i) (hu.ivl_wf hj) hi
        rw [hR] at e1; cases e1
        exact ⟨e2.wf, fun w hw => by subst hw; exact Piece.and_ne_un _ _ _ hR, j, hj, fun v hv => ((e2.iff v).1 hv).1⟩
      have hP : (A :: ints).Pairwise SSet.Apart := by
        rw [List.pairwise_cons]
        constructor
        · rintro s hs v ⟨hv1, hv2⟩
          obtain ⟨k, hk, hv1⟩ := hA'.2.2 v hv1
          obtain ⟨-, -, j, hj, hv3⟩ := hI s hs
          exact hd (.fin k) ((hu.mem_values _).2 (.inr (.inl ⟨k, hk, rfl⟩))) (.ivl j) ((hu.mem_values _).2 (.inr (.inr ⟨j, hj, rfl⟩)))
            (by simp) v ⟨hv1, hv3 v hv2⟩
        · have hp1 : u.intervals.Pairwise (fun a b => ∀ v, ¬ (v ∈ (Piece.ivl a).den ∧ v ∈ (Piece.ivl b).den)) := by
            refine hu.nodup_intervals.pairwise_of_forall_ne ?_
            intro a ha b hb hab v
            exact hd (.ivl a) ((hu.mem_values _).2 (.inr (.inr ⟨a, ha, rfl⟩))) (.ivl b) ((hu.mem_values _).2 (.inr (.inr ⟨b, hb, rfl⟩)))
              (by simpa using hab) v
          have hF' : List.Forall₂ (fun j (s : SSet EReal) => j ∈ u.intervals → ∀ v ∈ s.den, v ∈ (Piece.ivl j).den) u.intervals ints := by
            refine hF.imp ?_
            intro j s hR hj v hv
            obtain ⟨r', e1, e2⟩ := Piece.and_spec (.ivl j) (.ivl i) (hu.ivl_wf hj) hi
            rw [hR] at e1; cases e1
            exact ((e2.iff v).1 hv).1
          have hp2 : u.intervals.Pairwise (fun a b => (a ∈ u.intervals ∧ b ∈ u.intervals) ∧ ∀ v, ¬ (v ∈ (Piece.ivl a).den ∧ v ∈ (Piece.ivl b).den)) :=
            List.Pairwise.imp_of_mem (fun ha hb h => ⟨⟨ha, hb⟩, h⟩) hp1
          exact forall₂_pairwise (fun a a' b b' h1 h2 h3 v hv => h3.2 v ⟨h1 h3.1.1 v hv.1, h2 h3.1.2 v hv.2⟩) hF' hp2
      have hw' : ∀ s ∈ A :: ints, s.WF := by
        intro s hs
        rcases List.mem_cons.1 hs with rfl | hs
        · exact hA'.1
        · exact (hI s hs).1
      have hsub : (A :: ints.filter (fun s => !s.isEmpty)).Sublist (A :: ints) := List.Sublist.cons_cons _ List.filter_sublist
      have hmk : mkUnion σ (A :: ints.filter (fun s => !s.isEmpty)) = .ok (.un w) → (SSet.un w).argPieces.Nodup := by
        intro h
        simp only [SSet.argPieces, mkUnion_args h]
        exact nodup_pieces (fun s hs => hw' s (hsub.subset hs)) (hP.sublist hsub)
      have hne : ∀ s ∈ A :: ints.filter (fun s => !s.isEmpty), ∀ w, s ≠ .un w := by
        intro s hs
        rcases List.mem_cons.1 (hsub.subset hs) with rfl | hs
        · exact hA'.2.1
        · exact (hI s hs).2.1
      generalize ints.filter (fun s => !s.isEmpty) = ne at h hmk hne
      match A, ne, h with
      | .empty, [], h => cases h
      | .empty, [s], h => cases h; exact absurd rfl (hne _ (by simp) w)
      | .pc q, [], h => cases h
      | .un w', _, h => exact absurd rfl (hne _ (by simp) w')
      | .empty, _ :: _ :: _, h => exact hmk h
      | .pc q, _ :: _, h => exact hmk h

/-! ## Solving an event over the base variable -/

/-- The solution set of an event, at the numbers of the base variable. -/
theorem leaf_solve {c : Ctx} (hc : c.Correct) {n : ℕ} {X : String} {env : Env} (hE : EnvOK c X env) {e r : Ev} {S : SSet EReal}
    (hm : e.MadeG true c) (hs : leafSubst c n X env e = .ok r) (hS : r.solve c n = .ok S) :
    S.WF ∧ S.Disj ∧ ∀ x : ℝ, EnvRegular X env x → e.Regular (env.extend (baseAsg X (.num x))) →
      (Val.num (x : EReal) ∈ S.den ↔ e.holds (env.extend (baseAsg X (.num x)))) := by
  unfold leafSubst at hs
  simp only [bind, Except.bind] at hs
  split at hs; · cases hs
  rename_i r' hr'
  split at hs; swap; · cases hs
  rename_i hk
  split at hs; swap; · cases hs
  rename_i hX
  cases hs
  have hkeep := substitute_keep n e r hr'
  obtain ⟨-, h2, -⟩ := hE.built.substitute n e hk r hr'
  have hmr := hkeep.made (Env.get_made hE.made) hm
  obtain ⟨w1, w2, w3⟩ := Ev.solve_exact hc hmr hS
  refine ⟨w1, w2, fun x hx hr => ?_⟩
  have hreg := hkeep.reg _ (fun s => hE.built.extend_get _ s) (fun s => Env.get_regular hx s) hr
  have := w3 (env.extend (baseAsg X (.num x))) X (.num x) hX ?_ (by simp [Val.isNum]) hreg
  · rw [show (Val.num (x : EReal)) = (Val.num x).lift from rfl, this, Ev.holds, Ev.holds, h2]
  · rw [hE.built.extend_base _ (.inr rfl)]; simp [baseAsg]

theorem noNom_all : ∀ e : Ev, e.NoNom → e.All (fun l => l.isNom = false) := by
  refine Ev.ind ?_ ?_ ?_
  · intro e t ht h
    rw [Ev.all_lit ht]
    cases h <;> simp [Ev.isNom]
  · intro es ih h
    cases h with
    | or h => exact .or (fun e he => ih e he (h e he))
  · intro es ih h
    cases h with
    | and h => exact .and (fun e he => ih e he (h e he))

/-- An event without string comparisons has no string in its solution set. -/
theorem noNom_solve {c : Ctx} (hc : c.Correct) {n : ℕ} {r : Ev} {S : SSet EReal} {X : String} (hm : r.MadeG true c) (hn : r.NoNom)
    (hX : r.symbols = {X}) (hS : r.solve c n = .ok S) (x : String) : Val.str x ∉ S.den := by
  intro hx
  have hm' := hm.strong hn
  have hω : ∀ s y, baseAsg X (.str x) s ≠ some (.num y) := by
    intro s y; unfold baseAsg; split <;> simp
  have := ((Ev.solve_exact hc hm' hS).2.2 (baseAsg X (.str x)) X (.str x) hX (by simp [baseAsg]) (by simp) ((regular_str hω).2 r)).1 hx
  obtain ⟨l, t, ht, hl, hh⟩ := Ev.holds_lit r (Ev.Made.valid _ hm') (noNom_all r hn) this
  have : ∃ y, t.eval (baseAsg X (.str x)) = some (.num y) := by
    cases l with
    | ivl t' i => simp only [Ev.basic?, Option.some.injEq] at ht; subst ht; obtain ⟨y, hy, -⟩ := (Ev.holds_ivl _ _ _).1 hh; exact ⟨y, hy⟩
    | fin t' v => 
      simp only [Ev.basic?, Option.some.injEq] at ht; subst ht
      rw [Ev.holds_basic (t := t') rfl] at hh
      obtain ⟨v', hv, hd⟩ := hh
      cases v' with
      | num y => exact ⟨y, hv⟩
      | str y => cases v <;> simp [Ev.values, optFin, Val.lift] at hd
    | nom => simp [Ev.isNom] at hl
    | or => simp [Ev.basic?] at ht
    | and => simp [Ev.basic?] at ht
  obtain ⟨y, hy⟩ := this
  obtain ⟨s, -, z, hz⟩ := (Tr.eval_sym t).1 y hy
  exact hω s z hz

/-! ## Mixtures -/

theorem mixture_nil (ws : List ℝ) : mixture ws [] = 0 := by simp [mixture]
theorem mixture_cons (w : ℝ) (ws : List ℝ) (m : Measure Asg) (ms : List (Measure Asg)) :
    mixture (w :: ws) (m :: ms) = ENNReal.ofReal w • m + mixture ws ms := by simp [mixture]

theorem mixture_finite {ws : List ℝ} {ms : List (Measure Asg)} (hm : ∀ m ∈ ms, IsFiniteMeasure m) : IsFiniteMeasure (mixture ws ms) := by
  induction ms generalizing ws with
  | nil => rw [mixture_nil]; infer_instance
  | cons m ms ih =>
    cases ws with
    | nil => simp only [mixture, List.zipWith_nil_left, List.sum_nil]; infer_instance
    | cons w ws =>
      rw [mixture_cons]
      have h1 := hm m (by simp)
      have h2 := ih (ws := ws) (fun m hm' => hm m (by simp [hm']))
      have h3 : IsFiniteMeasure (ENNReal.ofReal w • m) := Measure.smul_finite m ENNReal.ofReal_ne_top
      infer_instance

theorem mixture_real {ws : List ℝ} {ms : List (Measure Asg)} (hw : ∀ w ∈ ws, 0 ≤ w) (hm : ∀ m ∈ ms, IsFiniteMeasure m) (A : Set Asg) :
    (mixture ws ms).real A = mixSum ws (ms.map (fun m => m.real A)) := by
  induction ms generalizing ws with
  | nil => rw [mixture_nil]; simp [mixSum]
  | cons m ms ih =>
    cases ws with
    | nil => simp [mixture, mixSum]
    | cons w ws =>
      rw [mixture_cons]
      have h1 := hm m (by simp)
      have h2 := mixture_finite (ws := ws) (fun m hm' => hm m (by simp [hm']) : ∀ m ∈ ms, IsFiniteMeasure m)
      have h3 : IsFiniteMeasure (ENNReal.ofReal w • m) := Measure.smul_finite m ENNReal.ofReal_ne_top
      rw [measureReal_add_apply, ih (fun w hw' => hw w (by simp [hw'])) (fun m hm' => hm m (by simp [hm'])), measureReal_ennreal_smul_apply,
        ENNReal.toReal_ofReal (hw w (by simp))]
      simp [mixSum]

theorem mixture_ae {ws : List ℝ} {ms : List (Measure Asg)} {p : Asg → Prop} (h : ∀ m ∈ ms, ∀ᵐ ω ∂m, p ω) : ∀ᵐ ω ∂(mixture ws ms), p ω := by
  induction ms generalizing ws with
  | nil => rw [mixture_nil]; simp
  | cons m ms ih =>
    cases ws with
    | nil => simp [mixture]
    | cons w ws =>
      rw [mixture_cons, ae_add_measure_iff]
      exact ⟨Measure.ae_smul_measure (h m (by simp)) _, ih (fun m hm => h m (by simp [hm]))⟩

/-! ## Probability of an event at a leaf -/

theorem measurable_baseAsg (X : String) : Measurable (fun x : ℝ => baseAsg X (.num x)) := by
  refine measurable_pi_iff.2 (fun s => ?_)
  unfold baseAsg
  by_cases h : s = X
  · simp only [h, if_true]; exact measurable_numVal
  · simp only [h, if_false]; exact measurable_const

theorem measurable_leafAsg (X : String) (env : Env) : Measurable (fun x : ℝ => env.extend (baseAsg X (.num x))) :=
  (Env.measurable_extend env).comp (measurable_baseAsg X)

theorem Ev.measurable_set (e : Ev) : MeasurableSet e.set := e.measurable

/-- A well-formed real leaf of an SPE. -/
theorem Spe.WF.rleaf {c : Ctx} {L : Lib} {μ : Dist → Measure ℝ} {k X d supp cond env} (h : Spe.WF c L μ (.real k X d supp cond env)) :
    RLeafOK L μ ⟨k, d, supp, cond⟩ ∧ EnvOK c X env ∧ (k = .disc → NotNeg μ d supp) ∧ ∀ᵐ x ∂(realMeas μ d supp cond), EnvRegular X env x := by
  cases h with
  | real h1 h2 h3 h4 h5 h6 =>
    exact ⟨⟨h1, h3, fun hk => ⟨(h4 hk).1.2, (h4 hk).2⟩, h5⟩, h2, fun hk => (h4 hk).1.1, h6⟩

/-- The values of a real leaf in a solution set. -/
theorem realLeaf_values {c : Ctx} {L : Lib} {μ : Dist → Measure ℝ} {l : RLeaf} (hl : RLeafOK L μ l) (hz : l.k = .disc → NotNeg μ l.d l.supp) {S V : SSet EReal}
    (hw : S.WF) (hd : S.Disj) (hV : SSet.and c.σ (.pc (.ivl l.supp)) S = .ok V) :
    V.WF ∧ V.Disj ∧ V.argPieces.Nodup ∧ (∀ p ∈ V.argPieces, PieceTrunc (μ l.d (Set.Iic 0) = 0) l.k p) ∧ (∀ p ∈ V.argPieces, p.WF ∧ ∀ v ∈ p.den, v ∈ V.den) ∧
      (∀ v ∈ V.den, v ∈ (Piece.ivl l.supp).den ∧ v ∈ S.den) ∧
      ∀ x : ℝ, Val.num (x : EReal) ∈ V.den ↔ x ∈ l.supp.reals ∧ Val.num (x : EReal) ∈ S.den := by
  have hA := SSet.and_spec c.σ (.pc (.ivl l.supp)) S hl.wf trivial hw hd hV
  have hp : ∀ p ∈ V.argPieces, p.WF ∧ ∀ v ∈ p.den, v ∈ V.den := by
    intro p hp
    cases V with
    | empty => simp [SSet.argPieces] at hp
    | pc q => simp only [SSet.argPieces, List.mem_singleton] at hp; subst hp; exact ⟨hA.wf, fun v hv => hv⟩
    | un u =>
      have hu : u.WF := hA.wf
      have hp' := (hu.mem_args p).1 hp
      exact ⟨hu.pieces p hp', fun v hv => ⟨p, hp', hv⟩⟩
  refine ⟨hA.wf, hA.disj, and_ivl_nodup hl.wf hw hd hV, ?_, hp, hA.sub, fun x => ⟨fun hx => ?_, fun hx => ?_⟩⟩
  · rintro p hpm hk i rfl
    obtain ⟨h1, h2⟩ := hp _ hpm
    refine (hz hk).trunc h1 (ivl_sub_left h1 (fun x hx => ?_))
    have := (hA.sub (.num x) (h2 _ (by simpa using hx))).1
    simpa using this
  · have := hA.sub _ hx
    exact ⟨by simpa [Ivl.reals] using this.1, this.2⟩
  · exact hA.sup _ (coe_proper x) ⟨by simpa [Ivl.reals] using hx.1, hx.2⟩

/-- `logprob__` of a real leaf. -/
theorem realLeaf_prob {c : Ctx} {L : Lib} {μ : Dist → Measure ℝ} {l : RLeaf} (hl : RLeafOK L μ l) (hz : l.k = .disc → NotNeg μ l.d l.supp) {S V : SSet EReal}
    (hw : S.WF) (hd : S.Disj) (hV : SSet.and c.σ (.pc (.ivl l.supp)) S = .ok V) {p : ℝ} (hp : l.probValues L V = .ok p) :
    p = (l.meas μ).real S.realSet := by
  obtain ⟨h1, h2, h3, h4, -, h5, h6⟩ := realLeaf_values hl hz hw hd hV
  rw [hl.probValues_ok h1 h2 h3 h4 hp]
  refine measureReal_congr' ?_
  filter_upwards [hl.ae_supp] with x hx
  simp only [SSet.realSet, Set.mem_setOf_eq, h6]
  exact ⟨fun h => h.2, fun h => ⟨hx, h⟩⟩

theorem env_single_extend (X : String) (ω : Asg) : Env.extend [(X, .id X)] ω = ω := by
  funext s
  simp only [Env.extend, List.foldl_cons, List.foldl_nil, Tr.eval]
  split <;> simp [*]

/-- The mass of the values. -/
theorem nominalMass_ok {dist : List (String × ℚ)} (hn : (dist.map Prod.fst).Nodup) {vals : Finset String} {p : ℚ}
    (h : nominalMass dist vals = .ok p) : p = (dist.map (fun q => if q.1 ∈ vals then q.2 else 0)).sum ∧ ∀ x ∈ vals, x ∈ dist.map Prod.fst := by
  unfold nominalMass at h
  simp only [bind, Except.bind] at h
  split at h; · cases h
  rename_i ws hws
  cases h
  have hF := mapM_ok hws
  have hsome : ∀ x ∈ vals, ∃ w, dist.lookup x = some w := by
    intro x hx
    obtain ⟨w, -, hw⟩ := forall₂_mem_left hF ((Finset.mem_sort (α := String) (· ≤ ·)).2 hx)
    split at hw
    · exact ⟨_, by assumption⟩
    · cases hw
  have hsub : ∀ x ∈ vals, x ∈ dist.map Prod.fst := by
    intro x hx
    obtain ⟨w, hw⟩ := hsome x hx
    exact List.mem_map.2 ⟨(x, w), mem_of_lookup hw, rfl⟩
  refine ⟨?_, hsub⟩
  have : ws = (vals.sort (· ≤ ·)).map (fun x => (dist.lookup x).getD 0) := by
    refine mapM_map_eq hws ?_
    intro a _ b hb
    split at hb
    · cases hb; simp [*]
    · cases hb
  rw [this]
  clear hF hws this ws hsome
  have hl : ((vals.sort (· ≤ ·)).map (fun x => (dist.lookup x).getD 0)).sum = ∑ x ∈ vals, (dist.lookup x).getD 0 := by
    rw [← List.sum_toFinset _ (Finset.sort_nodup _ _), Finset.sort_toFinset]
  rw [hl]
  clear hl
  induction dist generalizing vals with
  | nil => simp
  | cons q dist ih =>
    rw [List.map_cons, List.nodup_cons] at hn
    have ih' := ih hn.2 (vals := vals.erase q.1) (by
      intro x hx
      obtain ⟨h1, h2⟩ := Finset.mem_erase.1 hx
      have := hsub x h2
      simp only [List.map_cons, List.mem_cons] at this
      exact this.resolve_left h1)
    have e2 : (dist.map (fun r => if r.1 ∈ vals then r.2 else 0)) = dist.map (fun r => if r.1 ∈ vals.erase q.1 then r.2 else 0) := by
      refine List.map_congr_left ?_
      intro r hr
      have : r.1 ≠ q.1 := fun h => hn.1 (List.mem_map.2 ⟨r, hr, h⟩)
      simp [Finset.mem_erase, this]
    rw [List.map_cons, List.sum_cons, e2, ← ih']
    have e3 : ∀ x ∈ vals.erase q.1, ((q :: dist).lookup x).getD 0 = (dist.lookup x).getD 0 := by
      intro x hx
      obtain ⟨h1, h2⟩ := Finset.mem_erase.1 hx
      rw [List.lookup_cons]
      have : (x == q.1) = false := by simpa using h1
      simp [this]
    by_cases hq : q.1 ∈ vals
    · rw [← Finset.add_sum_erase _ _ hq, Finset.sum_congr rfl e3]
      have : ((q :: dist).lookup q.1).getD 0 = q.2 := by
        obtain ⟨a, b⟩ := q
        simp
      simp [hq, this]
    · rw [← Finset.sum_congr rfl e3, Finset.erase_eq_of_notMem hq]
      simp [hq]

theorem dirac_real (x : Asg) {A : Set Asg} (hA : MeasurableSet A) : (Measure.dirac x).real A = if x ∈ A then 1 else 0 := by
  rw [measureReal_def, Measure.dirac_apply' x hA]
  by_cases h : x ∈ A <;> simp [h]

theorem single_get (X s : String) : Env.get [(X, .id X)] s = .id s := by
  unfold Env.get
  rw [List.lookup_cons]
  by_cases h : s = X
  · subst h; simp
  · have : (s == X) = false := by simpa using h
    simp [this]

instance : MeasurableSingletonClass (Option (Val ℝ)) := ⟨fun a => by
  rw [measurableSet_ov]
  refine Set.Subsingleton.measurableSet ?_
  intro x hx y hy
  have h1 : numVal x = a := hx
  have h2 : numVal y = a := hy
  rw [← h2] at h1
  simpa [numVal] using h1⟩

instance : Countable String := by
  have : Countable Char := (show Function.Injective Char.toNat from fun a b h => Char.toNat_inj.1 h).countable
  exact (show Function.Injective String.toList from fun a b h => String.ext h).countable

instance : MeasurableSingletonClass Asg := inferInstanceAs (MeasurableSingletonClass (String → Option (Val ℝ)))

theorem leafSubst_single {c : Ctx} {n : ℕ} {X : String} {e r : Ev} (h : leafSubst c n X [(X, .id X)] e = .ok r) : r = e ∧ e.symbols = {X} := by
  unfold leafSubst at h
  have hno : ¬ exprInEnv e.symbols [(X, .id X)] := by rintro ⟨s, -, hs⟩; exact hs (single_get X s)
  have hsub : e.substitute c n [(X, .id X)] n = .ok e := by cases n <;> simp [Ev.substitute, hno]
  rw [hsub] at h
  simp only [bind, Except.bind] at h
  split at h; swap; · cases h
  split at h; swap; · cases h
  cases h
  exact ⟨rfl, by assumption⟩

theorem leafSubst_ok {c : Ctx} {n : ℕ} {X : String} {env : Env} {e r : Ev} (h : leafSubst c n X env e = .ok r) :
    e.substitute c n env n = .ok r ∧ r.symbols = {X} := by
  unfold leafSubst at h
  simp only [bind, Except.bind] at h
  split at h; · cases h
  split at h; swap; · cases h
  split at h; swap; · cases h
  cases h
  exact ⟨by assumption, by assumption⟩

/-- The events a leaf can be asked about: strings compared as documented for its kind of variable. -/
def LeafEvOK (c : Ctx) : Spe → Ev → Prop
  | .real _ _ _ _ _ _, e => e.MadeG true c
  | .atomic _ _ _, e => e.MadeG true c ∧ e.NoNom
  | .nominal _ _, e => e.Made c
  | _, _ => False

/-- Solutions at a nominal leaf. -/
theorem nominal_solve {c : Ctx} (hc : c.Correct) {n : ℕ} {X : String} {e r : Ev} {S : SSet EReal} (hm : e.Made c)
    (hs : leafSubst c n X [(X, .id X)] e = .ok r) (hS : r.solve c n = .ok S) :
    S.WF ∧ S.Disj ∧ ∀ x : String, Val.str x ∈ S.den ↔ e.holds (baseAsg X (.str x)) := by
  obtain ⟨rfl, hX⟩ := leafSubst_single hs
  obtain ⟨w1, w2, w3⟩ := Ev.solve_exact hc hm hS
  have hω : ∀ x, ∀ s y, baseAsg X (.str x) s ≠ some (.num y) := by
    intro x s y; unfold baseAsg; split <;> simp
  exact ⟨w1, w2, fun x => w3 (baseAsg X (.str x)) X (.str x) hX (by simp [baseAsg]) (by simp) ((regular_str (hω x)).2 r)⟩

/-- The possible values of a nominal leaf in a solution set. -/
theorem nominalValues_ok {c : Ctx} {dist : List (String × ℚ)} {S V : SSet EReal} (hw : S.WF) (hd : S.Disj)
    (hV : nominalValues c dist S = .ok V) :
    (V = .empty ∧ ∀ x ∈ dist.map Prod.fst, Val.str x ∉ S.den) ∨
      (∃ m : Nom, V = .pc (.nom m) ∧ m.vals.Nonempty ∧ ∀ x, x ∈ m.vals ↔ x ∈ dist.map Prod.fst ∧ Val.str x ∈ S.den) ∨
      ∃ u, V = .un u := by
  unfold nominalValues at hV
  simp only [bind, Except.bind] at hV
  split at hV; · cases hV
  rename_i nn hnn
  have hnn' : nn = ⟨(dist.map Prod.fst).toFinset, none⟩ ∧ (Piece.nom nn : Piece EReal).WF := by
    unfold mkNom at hnn
    split at hnn
    · cases hnn; rename_i h; exact ⟨rfl, h⟩
    · cases hnn
  obtain ⟨hn1, hn2⟩ := hnn'
  have hA := SSet.and_spec c.σ (.pc (.nom nn)) S hn2 trivial hw hd hV
  have hstr : ∀ x, Val.str x ∈ V.den ↔ x ∈ dist.map Prod.fst ∧ Val.str x ∈ S.den := by
    intro x
    have hx : (Val.str x : Val EReal) ∈ (SSet.pc (.nom nn)).den ↔ x ∈ dist.map Prod.fst := by
      rw [SSet.den_pc, Piece.str_mem_den_nom, hn1]
      simp [Nom.has, Nom.neg]
    constructor
    · intro h; obtain ⟨h1, h2⟩ := hA.sub _ h; exact ⟨hx.1 h1, h2⟩
    · intro h; exact hA.sup _ trivial ⟨hx.2 h.1, h.2⟩
  cases V with
  | empty => exact .inl ⟨rfl, fun x hx h => by simpa using (hstr x).2 ⟨hx, h⟩⟩
  | un u => exact .inr (.inr ⟨u, rfl⟩)
  | pc q =>
    have hnum : ∀ y : EReal, Val.num y ∉ q.den := fun y hy => by
      have := (hA.sub _ hy).1
      simp at this
    cases q with
    | ivl i =>
      obtain ⟨v, hv⟩ := Piece.WF.nonempty (p := .ivl i) hA.wf
      cases v with
      | num y => exact absurd hv (hnum y)
      | str y => simp at hv
    | fin t =>
      obtain ⟨v, hv⟩ := Piece.WF.nonempty (p := .fin t) hA.wf
      cases v with
      | num y => exact absurd hv (hnum y)
      | str y => simp at hv
    | nom m =>
      refine .inr (.inl ⟨m, rfl, ?_⟩)
      have hneg : m.b ≠ some true := by
        intro hb
        obtain ⟨x, hx⟩ := exists_str_not_mem (m.vals ∪ (dist.map Prod.fst).toFinset)
        simp only [Finset.mem_union, not_or, List.mem_toFinset] at hx
        have : (Val.str x : Val EReal) ∈ (SSet.pc (.nom m)).den := by
          rw [SSet.den_pc, Piece.str_mem_den_nom]; simp [Nom.has, Nom.neg, hb, hx.1]
        exact hx.2 ((hstr x).1 this).1
      constructor
      · exact (show m.vals.Nonempty ∨ m.b = some true from hA.wf).resolve_right hneg
      · intro x
        rw [← hstr x, SSet.den_pc, Piece.str_mem_den_nom]
        simp [Nom.has, Nom.neg, hneg]

theorem nominal_real {c : Ctx} {L : Lib} {μ : Dist → Measure ℝ} {X : String} {dist : List (String × ℚ)} (h0 : ∀ p ∈ dist, 0 ≤ p.2)
    {A : Set Asg} (hA : MeasurableSet A) :
    ((Spe.nominal X dist).den μ).real A = (dist.map (fun q => if baseAsg X (.str q.1) ∈ A then (q.2 : ℝ) else 0)).sum := by
  simp only [Spe.den]
  rw [mixture_real]
  · have : ∀ l : List (String × ℚ), mixSum (l.map (fun p => (p.2 : ℝ))) ((l.map (fun p => Measure.dirac (baseAsg X (.str p.1)))).map (fun m => m.real A)) =
        (l.map (fun q => if baseAsg X (.str q.1) ∈ A then (q.2 : ℝ) else 0)).sum := by
      intro l
      induction l with
      | nil => simp [mixSum]
      | cons q l ih =>
        simp only [List.map_cons, mixSum, List.zipWith_cons_cons, List.sum_cons] at ih ⊢
        rw [ih, dirac_real _ hA]
        split <;> simp
    exact this dist
  · intro w hw
    obtain ⟨p, hp, rfl⟩ := List.mem_map.1 hw
    exact_mod_cast h0 p hp
  · intro m hm
    obtain ⟨p, hp, rfl⟩ := List.mem_map.1 hm
    infer_instance

/-- The probability computed at a leaf is the probability of the event. -/
theorem leafProb_ok {c : Ctx} {L : Lib} {μ : Dist → Measure ℝ} (hc : c.Correct) {n : ℕ} {s : Spe} {e : Ev} (hs : s.WF c L μ)
    (he : LeafEvOK c s e) (hr : ∀ᵐ ω ∂(s.den μ), e.Regular ω) {p : ℝ} (h : leafProb c L n s e = .ok p) : p = (s.den μ).real e.set := by
  unfold leafProb at h
  cases s with
  | sum | prod => exact absurd he id
  | real k X d supp cond env =>
    simp only [Spe.leafEnv, bind, Except.bind] at h
    split at h; · cases h
    rename_i r hsub
    split at h; · cases h
    rename_i S hS
    simp only [leafProbSet, bind, Except.bind] at h
    split at h; · cases h
    rename_i V hV
    obtain ⟨hl, hE, hz, hreg⟩ := hs.rleaf
    obtain ⟨w1, w2, w3⟩ := leaf_solve hc hE he hsub hS
    have hp := realLeaf_prob (c := c) hl hz w1 w2 hV h
    simp only [Spe.den] at hr ⊢
    rw [map_measureReal_apply (measurable_leafAsg X env) e.measurable_set, hp]
    have hr' := ae_of_ae_map (measurable_leafAsg X env).aemeasurable hr
    refine measureReal_congr' ?_
    filter_upwards [hr', hreg] with x h1 h2
    exact w3 x h2 h1
  | atomic X v env =>
    simp only [Spe.leafEnv, bind, Except.bind] at h
    split at h; · cases h
    rename_i r hsub
    split at h; · cases h
    rename_i S hS
    simp only [leafProbSet, bind, Except.bind] at h
    split at h; · cases h
    rename_i b hb
    cases h
    cases hs with
    | atomic hE hno hreg =>
      obtain ⟨w1, w2, w3⟩ := leaf_solve hc hE he.1 hsub hS
      have hr' : e.Regular (env.extend (baseAsg X (.num v))) := by
        simp only [Spe.den] at hr
        rw [ae_dirac_eq] at hr
        exact hr
      have hv := w3 v hreg hr'
      have hstr := noNom_solve hc ((substitute_keep n e r (leafSubst_ok hsub).1).made (Env.get_made hE.made) he.1)
        (noNom_substitute (Env.get_noNom hno) n e r (leafSubst_ok hsub).1 he.2) (leafSubst_ok hsub).2 hS
      obtain ⟨b', h1, h2⟩ := C06_contains_num (s := S) (v : EReal) (by
        intro m hm
        obtain ⟨x, hx⟩ := exists_str_not_mem m.vals
        have hx' : (Val.str x : Val EReal) ∈ (Piece.nom m : Piece EReal).den := by
          rw [Piece.str_mem_den_nom]; simp [Nom.has, Nom.neg, hm, hx]
        constructor
        · rintro rfl; exact hstr x hx'
        · rintro u rfl hu; exact hstr x ⟨_, hu, hx'⟩)
      rw [hb] at h1; cases h1
      simp only [Spe.den]
      rw [dirac_real _ e.measurable_set]
      have : (b = true) ↔ env.extend (baseAsg X (.num v)) ∈ e.set := h2.trans hv
      by_cases hb' : b = true
      · simp [hb', this.1 hb']
      · have h3 : env.extend (baseAsg X (.num v)) ∉ e.set := fun h => hb' (this.2 h)
        simp [hb', h3]
  | nominal X dist =>
    simp only [Spe.leafEnv, bind, Except.bind] at h
    split at h; · cases h
    rename_i r hsub
    split at h; · cases h
    rename_i S hS
    simp only [leafProbSet, bind, Except.bind] at h
    split at h; · cases h
    rename_i V hV
    obtain ⟨w1, w2, w3⟩ := nominal_solve hc he hsub hS
    cases hs with
    | nominal hn h0 h1 =>
    rw [nominal_real (c := c) (L := L) h0 e.measurable_set]
    rcases nominalValues_ok w1 w2 hV with ⟨rfl, hx⟩ | ⟨m, rfl, hne, hm⟩ | ⟨u, rfl⟩
    · simp only at h
      cases h
      symm
      apply List.sum_eq_zero
      intro y hy
      obtain ⟨q, hq, rfl⟩ := List.mem_map.1 hy
      have : baseAsg X (.str q.1) ∉ e.set := fun h => hx q.1 (List.mem_map.2 ⟨q, hq, rfl⟩) ((w3 q.1).2 h)
      simp [this]
    · simp only at h
      split at h
      · rename_i hm'; rw [hm'] at hne; simp at hne
      · split at h; · cases h
        rename_i p' hp'
        cases h
        rw [(nominalMass_ok hn hp').1]
        rw [show (((dist.map (fun q => if q.1 ∈ m.vals then q.2 else 0)).sum : ℚ) : ℝ) =
          ((dist.map (fun q => if q.1 ∈ m.vals then q.2 else 0)).map (Rat.cast : ℚ → ℝ)).sum from map_list_sum (Rat.castHom ℝ) _, List.map_map]
        congr 1
        refine List.map_congr_left ?_
        intro q hq
        have : q.1 ∈ m.vals ↔ baseAsg X (.str q.1) ∈ e.set := by
          rw [hm, w3]; exact ⟨fun h => h.2, fun h => ⟨List.mem_map.2 ⟨q, hq, rfl⟩, h⟩⟩
        simp only [Function.comp, this]
        split <;> simp
    · cases h

end Sppl
