import Verif.Interp.ScopeLemmas

set_option linter.all false

/-!
# Events of branches (helper lemmas)
-/

namespace Sppl
open Classical MeasureTheory
open scoped ENNReal ProbabilityTheory

variable {c : Ctx} {L : Lib} {μ : Dist → Measure ℝ}

/-- Events that an SPE with the distribution `m` can be asked about and conditioned on. -/
structure Usable (c : Ctx) (m : Measure Asg) (e : Ev) : Prop where
  made : e.Made c
  nomId : e.All NomId
  regular : ∀ᵐ ω ∂m, e.Regular ω
  suits : ∀ᵐ ω ∂m, e.Suits ω

theorem Ev.Fits.usable {m : Measure Asg} {e : Ev} (h : e.Fits c m) : Usable c m e :=
  ⟨h.made, h.nomId, h.regular, by filter_upwards [h.typed] with ω hω using suits_typed h.made h.nomId hω⟩

theorem Ev.Fits.not {m : Measure Asg} {e g : Ev} (h : e.Fits c m) (hg : e.not c = .ok g) : Usable c m g ∧ ∀ᵐ ω ∂m, g.holds ω ↔ ¬ e.holds ω := by
  have := Ev.not_made h.made h.nomId hg
  have hv := Ev.Made.valid _ h.made
  refine ⟨⟨this.1, this.2, ?_, ?_⟩, ?_⟩
  · filter_upwards [h.regular] with ω hω using Ev.not_regular hv hg hω
  · filter_upwards [h.typed] with ω hω using suits_not h.made h.nomId hω hg
  · filter_upwards [h.typed] with ω hω using (Ev.not_spec e hv hg).2 ω hω

theorem Usable.land {m : Measure Asg} {e f g : Ev} (he : Usable c m e) (hf : Usable c m f) (h : e.land c f = .ok g) :
    Usable c m g ∧ ∀ ω, g.holds ω ↔ e.holds ω ∧ f.holds ω := by
  have ve := Ev.Made.valid _ he.made
  have vf := Ev.Made.valid _ hf.made
  refine ⟨⟨Ev.land_made he.made hf.made h, Ev.land_nomId ve vf he.nomId hf.nomId h, ?_, ?_⟩, (Ev.land_spec ve vf h).2⟩
  · filter_upwards [he.regular, hf.regular] with ω h1 h2 using Ev.land_regular h h1 h2
  · filter_upwards [he.suits, hf.suits] with ω h1 h2 using suits_land ve vf h1 h2 h

theorem Ev.Fits.lor {m : Measure Asg} {e f g : Ev} (he : e.Fits c m) (hf : f.Fits c m) (h : e.lor c f = .ok g) :
    g.Fits c m ∧ ∀ ω, g.holds ω ↔ e.holds ω ∨ f.holds ω := by
  have ve := Ev.Made.valid _ he.made
  have vf := Ev.Made.valid _ hf.made
  have hs : g.All NomSome := by
    have := Ev.lor_all (P := fun l => l.Valid ∧ NomSome l) (c := c) ?_ ((Ev.valid_all ve).and' he.some) ((Ev.valid_all vf).and' hf.some) h
    · exact this.mono (fun _ _ _ h => h.2)
    · rintro e f g ⟨ve, -⟩ ⟨vf, -⟩ h
      obtain ⟨t, r, h1, h2, h3, h4, h5⟩ := Ev.simplify_some h
      have ok := SSet.or_spec c.σ _ _ ((Ev.valid_basic h1).1 ve) (Ev.values_disj h1) ((Ev.valid_basic h2).1 vf) (Ev.values_disj h2) h3
      have hv : g.Valid := (Ev.valid_basic h4).2 (h5 ▸ ok.wf)
      obtain ⟨-, -, -, -, -, h7⟩ := simplify_kind h hv (fun v hv => by rw [h5] at hv; exact ok.sub _ hv)
      exact ⟨hv, h7⟩
  refine ⟨⟨Ev.lor_made he.made hf.made h, Ev.lor_nomId ve vf he.nomId hf.nomId h, hs, ?_, ?_⟩, (Ev.lor_spec ve vf h).2⟩
  · filter_upwards [he.regular, hf.regular] with ω h1 h2 using Ev.lor_regular h h1 h2
  · filter_upwards [he.typed, hf.typed] with ω h1 h2 using (typed_lor ve vf h1 h2 he.some hf.some h).1

theorem suits_defined {ω : Asg} {e : Ev} (h : e.Suits ω) : ∀ k ∈ e.symbols, ω k ≠ none := (Ev.suits_wk h).2

/-- Normalizing keeps usable events usable. -/
theorem Usable.normalize (hc : c.Correct) {n : ℕ} {m : Measure Asg} {e : Ev} (he : Usable c m e) {r : Option Ev} (h : dnfNormalize c n e = .ok r) :
    (r = none → ∀ᵐ ω ∂m, ¬ e.holds ω) ∧ ∀ r', r = some r' → Usable c m r' ∧ ∀ᵐ ω ∂m, r'.holds ω ↔ e.holds ω := by
  have h0 := dnfNormalize_ok hc he.made h
  refine ⟨fun hr => ?_, fun r' hr => ?_⟩
  · filter_upwards [he.regular] with ω hω using h0.1 hr ω hω
  · obtain ⟨hN, -⟩ := h0.2 r' hr
    have hv := vars_made (c := c) (Ev.Made.valid _ hN.made) hN.vars
    refine ⟨⟨hN.made, hN.nomId, Filter.Eventually.of_forall hv.2.2, ?_⟩, ?_⟩
    · unfold dnfNormalize at h
      split at h
      · cases h; cases hr; exact he.suits
      · subst hr
        filter_upwards [he.suits] with ω hω
        obtain ⟨w1, w2⟩ := Ev.suits_wk hω
        exact suits_typed hN.made hN.nomId (normalizeBody_typed hc he.made h w1 w2)
    · filter_upwards [he.regular] with ω hω using hN.holds ω hω

/-! ## The state of the interpreter -/

theorem Usable.symbols {m : Measure Asg} {s : Spe} (hs : Rep c L μ m s) {e : Ev} (he : Usable c m e) : e.symbols ⊆ s.symbols := by
  intro k hk
  by_contra hn
  have := hs.wf.prob
  have h1 := hs.wf.none
  have h2 := he.suits
  rw [← hs.den] at h2
  obtain ⟨ω, w1, w2⟩ := (h1.and h2).exists
  exact suits_defined w2 k hk (w1 k hn)

theorem Usable.asks {m : Measure Asg} {s : Spe} (hs : Rep c L μ m s) {e : Ev} (he : Usable c m e) : Asks c μ s e := by
  refine Ev.Proper.asks (A := ∅) ⟨he.made, he.nomId, ?_⟩ (by rw [hs.atoms]) (he.symbols hs) (by rw [hs.den]; exact he.regular)
  exact he.nomId.mono (fun l t _ _ h => by obtain ⟨k, -, hk⟩ := h; simp at hk)

theorem Usable.prob (hc : c.Correct) {n : ℕ} {m : Measure Asg} {s : Spe} (hs : Rep c L μ m s) {e : Ev} (he : Usable c m e) {p : ℝ} (h : s.prob c L n e = .ok p) :
    p = m.real {ω | e.holds ω} := by
  rw [← hs.den]; exact (he.asks hs).prob hc hs.wf h

theorem Usable.condition (hc : c.Correct) {hash : Spe → ℤ} {n : ℕ} {m : Measure Asg} {s s' : Spe} (hs : Rep c L μ m s) {e : Ev} (he : Usable c m e)
    (h : s.condition c L hash n e = .ok s') : Rep c L μ (m[|{ω | e.holds ω}]) s' ∧ m {ω | e.holds ω} ≠ 0 := by
  have a := he.asks hs
  have k := condition_ok hc hs.wf (hs.ready (fun _ => [])) a.can a.vars a.regular (.inr (by rw [hs.den]; exact he.suits)) h
  refine ⟨⟨k.wf, fun E => k.ready E (hs.ready E), Finset.subset_empty.1 (hs.atoms ▸ k.atoms), ?_⟩, ?_⟩
  · rw [k.den, hs.den]; rfl
  · have := k.mass; rwa [hs.den] at this

/-! ## The events of `IfElse` -/

/-- `e` stands for the set `E` of assignments. -/
structure Stands (c : Ctx) (m : Measure Asg) (e : Ev) (E : Set Asg) : Prop where
  usable : Usable c m e
  ae : ∀ᵐ ω ∂m, e.holds ω ↔ ω ∈ E

theorem branchEvent_ok {m : Measure Asg} : ∀ {before : List Ev} {e g : Ev} {E : Set Asg}, (∀ f ∈ before, f.Fits c m) → Stands c m e E → branchEvent c before e = .ok g →
    Stands c m g (E ∩ {ω | ∀ f ∈ before, ¬ f.holds ω})
  | [], e, g, E, _, he, h => by
    simp [branchEvent, pure, Except.pure] at h; subst h
    simpa using he
  | f :: before, e, g, E, hb, he, h => by
    simp only [branchEvent, List.foldlM_cons, bind, Except.bind] at h
    split at h; · cases h
    rename_i x hx
    split at hx; · cases hx
    rename_i f' hf'
    obtain ⟨n1, n2⟩ := (hb f (by simp)).not hf'
    obtain ⟨l1, l2⟩ := he.usable.land n1 hx
    have : Stands c m x (E ∩ {ω | ¬ f.holds ω}) := ⟨l1, by filter_upwards [n2, he.ae] with ω w1 w2; rw [l2, w1, w2]; rfl⟩
    have := branchEvent_ok (before := before) (fun f hf => hb f (by simp [hf])) this h
    refine ⟨this.usable, ?_⟩
    filter_upwards [this.ae] with ω hω
    rw [hω]; simp [and_assoc]

theorem firsts_congr {A B : Set Asg} (h : A = B) (Es : List (Set Asg)) : firsts A Es = firsts B Es := by rw [h]

theorem branchEvents_ok {m : Measure Asg} : ∀ {conds before gs : List Ev}, (∀ f ∈ before, f.Fits c m) → (∀ f ∈ conds, f.Fits c m) → branchEvents c before conds = .ok gs →
    List.Forall₂ (Stands c m) gs (firsts {ω | ∃ f ∈ before, f.holds ω} (conds.map (fun e => {ω | e.holds ω})))
  | [], before, gs, _, _, h => by
    simp [branchEvents] at h; subst h; simp [firsts]
  | e :: conds, before, gs, hb, hcd, h => by
    simp only [branchEvents, bind, Except.bind] at h
    split at h; · cases h
    rename_i x hx
    split at h; · cases h
    rename_i xs hxs
    cases h
    have he := hcd e (by simp)
    have h1 := branchEvent_ok hb (E := {ω | e.holds ω}) ⟨he.usable, Filter.Eventually.of_forall fun ω => Iff.rfl⟩ hx
    have h2 := branchEvents_ok (before := before ++ [e]) (conds := conds) (by
      intro f hf; simp at hf; rcases hf with hf | rfl
      · exact hb f hf
      · exact he) (fun f hf => hcd f (by simp [hf])) hxs
    simp only [List.map_cons, firsts]
    refine .cons ?_ ?_
    · convert h1 using 1
      ext ω; simp
    · convert h2 using 2
      ext ω; simp [or_and_right, exists_or]

theorem lors_ok {m : Measure Asg} : ∀ {es : List Ev} {e u : Ev}, e.Fits c m → (∀ f ∈ es, f.Fits c m) → es.foldlM (fun x f => x.lor c f) e = .ok u →
    u.Fits c m ∧ ∀ ω, u.holds ω ↔ ∃ f ∈ e :: es, f.holds ω
  | [], e, u, he, _, h => by
    simp [pure, Except.pure] at h; subst h; simpa using he
  | f :: es, e, u, he, hes, h => by
    simp only [List.foldlM_cons, bind, Except.bind] at h
    split at h; · cases h
    rename_i x hx
    obtain ⟨k1, k2⟩ := he.lor (hes f (by simp)) hx
    obtain ⟨k3, k4⟩ := lors_ok k1 (fun f hf => hes f (by simp [hf])) h
    refine ⟨k3, fun ω => ?_⟩
    rw [k4]; simp [k2, or_assoc]

theorem firsts_append (A : Set Asg) (Es Fs : List (Set Asg)) : firsts A (Es ++ Fs) = firsts A Es ++ firsts (A ∪ {ω | ∃ E ∈ Es, ω ∈ E}) Fs := by
  induction Es generalizing A with
  | nil => simp [firsts]
  | cons E Es ih =>
    simp only [List.cons_append, firsts, ih, List.cons.injEq, true_and]
    congr 2
    ext ω; simp [or_assoc]

theorem ifEvents_ok {m : Measure Asg} {conds : List Ev} {els : Bool} {gs : List Ev} (hcd : ∀ f ∈ conds, f.Fits c m) (h : ifEvents c conds els = .ok gs) :
    List.Forall₂ (Stands c m) gs (firsts ∅ (condSets conds els)) := by
  unfold ifEvents at h
  split at h
  · rename_i hels
    simp only [bind, Except.bind] at h
    split at h; · cases h
    rename_i xs hxs
    cases conds with
    | nil => cases h
    | cons e es =>
      simp only at h
      split at h; · cases h
      rename_i u hu
      split at h; · cases h
      rename_i v hv
      cases h
      have h1 := branchEvents_ok (by simp) hcd hxs
      obtain ⟨h2, h3⟩ := lors_ok (hcd e (by simp)) (fun f hf => hcd f (by simp [hf])) hu
      obtain ⟨h4, h5⟩ := h2.not hv
      simp only [condSets, hels, if_true]
      rw [firsts_append]
      refine List.rel_append (by simpa using h1) ?_
      simp only [firsts]
      refine .cons ⟨h4, ?_⟩ .nil
      filter_upwards [h5] with ω hω
      rw [hω, h3]; simp
  · rename_i hels
    split at h; · cases h
    have h1 := branchEvents_ok (by simp) hcd h
    simpa [condSets, hels] using h1

end Sppl
