import Verif.Dnf.Total2Lemmas

set_option linter.all false

/-!
# `dnf_to_disjoint_union` on events about plain variables never raises (helper lemmas)
-/

namespace Sppl
open Classical

variable {Q : String → EReal → Prop} {c : Ctx}

/-! ## Overlapping clauses -/

theorem filterMapM_total {α β : Type} {f : α → Res (Option β)} : ∀ {l : List α}, (∀ a ∈ l, ∃ o, f a = .ok o) → ∃ r, l.filterMapM f = .ok r := by
  intro l
  induction l with
  | nil => intro _; exact ⟨[], rfl⟩
  | cons a l ih =>
    intro h
    obtain ⟨o, ho⟩ := h a (by simp)
    obtain ⟨r, hr⟩ := ih (fun a ha => h a (by simp [ha]))
    rw [List.filterMapM_cons]
    simp only [ho, hr, bind, Except.bind]
    cases o <;> exact ⟨_, rfl⟩

/-- The sets of a solved clause are well-formed and are not unions. -/
def SolPieces (s : Sol) : Prop := ∀ q ∈ s, q.2.WF ∧ ∀ u, q.2 ≠ .un u

theorem anyEmptyInter_total {b : Sol} (hb : SolPieces b) : ∀ {a : Sol}, SolPieces a → ∃ r, anyEmptyInter c b a = .ok r := by
  intro a
  induction a with
  | nil => intro _; exact ⟨_, rfl⟩
  | cons p a ih =>
    intro ha
    obtain ⟨s, A⟩ := p
    obtain ⟨r, hr⟩ := ih (fun q hq => ha q (by simp [hq]))
    have h1 : ∃ x, interWith c b s A = .ok x := by
      unfold interWith
      cases hl : b.lookup s with
      | none => exact ⟨_, rfl⟩
      | some B =>
        have h2 := ha (s, A) (by simp)
        have h3 := hb (s, B) (lookup_mem_sol hl)
        exact pieces_and_total c.σ h2.1 h3.1 h2.2 h3.2
    obtain ⟨x, hx⟩ := h1
    simp only [anyEmptyInter, hx, bind, Except.bind]
    split
    · exact ⟨_, rfl⟩
    · exact ⟨r, hr⟩

theorem nonDisjoint_total {sols : List Sol} (h : ∀ s ∈ sols, SolPieces s) : ∃ ov, nonDisjoint c sols = .ok ov := by
  unfold nonDisjoint
  obtain ⟨ov, hov, -⟩ := mapM_total (P := fun _ => True) (l := sols.zipIdx) (f := fun p => ((sols.take p.2).zipIdx).filterMapM (fun q => do
      let d ← anyEmptyInter c p.1 q.1
      .ok (if d then none else some q.2))) (by
    intro p hp
    have hp1 := h p.1 (List.fst_mem_of_mem_zipIdx hp)
    obtain ⟨r, hr⟩ := filterMapM_total (l := (sols.take p.2).zipIdx) (f := fun q => do
      let d ← anyEmptyInter c p.1 q.1
      .ok (if d then none else some q.2)) (by
      intro q hq
      have hq1 := h q.1 (List.mem_of_mem_take (List.fst_mem_of_mem_zipIdx hq))
      obtain ⟨d, hd⟩ := anyEmptyInter_total (c := c) hp1 hq1
      simp only [hd, bind, Except.bind]
      exact ⟨_, rfl⟩)
    exact ⟨r, hr, trivial⟩)
  exact ⟨ov, hov⟩

/-- The first clause overlaps no earlier one. -/
theorem nonDisjoint_head {sols : List Sol} {ov : List (List ℕ)} (h : nonDisjoint c sols = .ok ov) (hi : 0 < ov.length) : ov[0] = [] := by
  unfold nonDisjoint at h
  have hF := mapM_ok h
  have hl := hF.length_eq
  have := hF.get (i := 0) (by omega) hi
  simp only [List.get_eq_getElem, List.getElem_zipIdx, Nat.zero_add, List.take_zero, List.zipIdx_nil, List.filterMapM_nil, pure, Except.pure] at this
  injection this with this
  exact this.symm

/-! ## Negation -/

theorem fullLit_not {l : Ev} (h : FullLit Q l) : ∃ g, l.not c = .ok g :=
  not_lit_total c h.1 (by rintro t rfl; exact h.2 rfl)

theorem notL_total : ∀ {es : List Ev}, (∀ e ∈ es, ∃ g, e.not c = .ok g) → ∃ fs, Ev.notL c es = .ok fs := by
  intro es
  induction es with
  | nil => intro _; exact ⟨_, rfl⟩
  | cons e es ih =>
    intro h
    obtain ⟨g, hg⟩ := h e (by simp)
    obtain ⟨fs, hfs⟩ := ih (fun e he => h e (by simp [he]))
    simp only [Ev.notL, hg, hfs, bind, Except.bind]
    exact ⟨_, rfl⟩

/-- `~` of an event whose basic events can be negated. -/
theorem not_total : ∀ e : Ev, e.Valid → e.All (fun l => ∃ g, l.not c = .ok g) → ∃ g, e.not c = .ok g := by
  refine Ev.ind ?_ ?_ ?_
  · intro e t ht hv ha
    exact (Ev.all_lit ht).1 ha
  · intro es ih hv ha
    cases hv with
    | or hne hes =>
      obtain ⟨fs, hfs⟩ := notL_total (c := c) (fun e he => ih e he (hes e he) (Ev.all_or.1 ha e he))
      have hF := Ev.notL_ok hfs
      obtain ⟨g, hg, -⟩ := reduceM_land_total c (l := fs) (by rintro rfl; cases hF; exact hne rfl) (fun f hf => by
        obtain ⟨e, he, hef⟩ := forall₂_mem_right hF hf
        exact (Ev.not_spec e (hes e he) hef).1)
      simp only [Ev.not, hfs, bind, Except.bind]
      exact ⟨g, hg⟩
  · intro es ih hv ha
    cases hv with
    | and hne hes =>
      obtain ⟨fs, hfs⟩ := notL_total (c := c) (fun e he => ih e he (hes e he) (Ev.all_and.1 ha e he))
      have hF := Ev.notL_ok hfs
      obtain ⟨g, hg, -⟩ := reduceM_lor_total c (l := fs) (by rintro rfl; cases hF; exact hne rfl) (fun f hf => by
        obtain ⟨e, he, hef⟩ := forall₂_mem_right hF hf
        exact (Ev.not_spec e (hes e he) hef).1)
      simp only [Ev.not, hfs, bind, Except.bind]
      exact ⟨g, hg⟩

theorem full_plain {e : Ev} (h : e.All (FullLit Q)) : e.All (PlainLit Q) := h.mono (fun _ _ _ h => h.1)

theorem not_plain {e g : Ev} (h : e.All (PlainLit Q)) (hg : e.not c = .ok g) : g.All (PlainLit Q) :=
  Ev.not_all plainLit_and plainLit_or (fun e g t _ he h => plainLit_not he h) e h hg

theorem cascade_total {es : List Ev} (hes : ∀ e ∈ es, e.Valid ∧ e.All (FullLit Q)) : ∀ (js : List ℕ) {e : Ev}, (∀ j ∈ js, j < es.length) → e.Valid → e.All (PlainLit Q) →
    ∃ g, cascade c es e js = .ok g ∧ g.Valid ∧ g.All (PlainLit Q) := by
  intro js
  induction js with
  | nil => intro e _ hv ha; exact ⟨e, rfl, hv, ha⟩
  | cons j js ih =>
    intro e hj hv ha
    have hjl := hj j (by simp)
    have hf := hes es[j] (List.getElem_mem _)
    obtain ⟨nf, hnf⟩ := not_total (c := c) es[j] hf.1 (hf.2.mono (fun _ _ _ h => fullLit_not h))
    have hnv := (Ev.not_spec _ hf.1 hnf).1
    obtain ⟨st, hst⟩ := Ev.land_total c hv hnv
    obtain ⟨g, hg, h1⟩ := ih (fun j hj' => hj j (by simp [hj'])) (Ev.land_spec hv hnv hst).1 (Ev.land_all plainLit_and ha (not_plain (full_plain hf.2) hnf) hst)
    refine ⟨g, ?_, h1⟩
    simp only [cascade, List.foldlM_cons, List.getElem?_eq_getElem hjl, hnf, hst, bind, Except.bind]
    simpa [cascade, bind, Except.bind] using hg

/-! ## `dnf_to_disjoint_union` -/

theorem toDisjointOr_total (hc : c.Correct) (n : ℕ) : ∀ (d : ℕ) {e : Ev}, e.Valid → e.All (PlainLit Q) → (NormTotal Q e ∨ ∀ es, e ≠ .or es) →
    ∃ g, toDisjointOr (fun e => .ok e) c n d e = .ok g ∧ g.Valid ∧ g.All (PlainLit Q) := by
  intro d
  induction d with
  | zero => intro e hv ha _; cases e <;> exact ⟨_, rfl, hv, ha⟩
  | succ d ih =>
    intro e hv ha hN
    cases e with
    | or es =>
      obtain hN | hN := hN
      swap; · exact absurd rfl (hN es)
      have hves : ∀ e ∈ es, e.Valid := by cases hv with | or _ h => exact h
      have hfes := Ev.all_or.1 hN.full
      obtain ⟨fs, hfs, hF⟩ := dnfFactor1_total (c := c) hN.dnf hv ha
      have hpc : ∀ m ∈ fs, PlainClause Q (Ev.or es).symbols m := fun m hm => by obtain ⟨e, -, h⟩ := forall₂_mem_right hF hm; exact h.2.1
      have hsols := solveClauses_plain (c := c) n hpc
      have hlen : fs.length = es.length := by simpa [Ev.disjuncts] using hF.length_eq.symm
      obtain ⟨ov, hov⟩ := nonDisjoint_total (c := c) (sols := fs.map (fun m => m.map (fun p => (p.1, p.2.values)))) (by
        intro s hs q hq
        obtain ⟨m, hm, rfl⟩ := List.mem_map.1 hs
        obtain ⟨p, hp, rfl⟩ := List.mem_map.1 hq
        exact ⟨(Ev.valid_basic ((hpc m hm).lit p hp)).1 ((hpc m hm).valid hp), Ev.values_not_un _⟩)
      obtain ⟨hol, hover⟩ := nonDisjoint_overlap hov
      simp only [List.length_map] at hol
      simp only [toDisjointOr, hfs, hsols, hov, bind, Except.bind]
      split
      · exact ⟨_, rfl, hv, ha⟩
      · obtain ⟨cl, hcl, hcll, hclp⟩ := mapM_total (l := es.zip ov) (f := fun p => cascade c es p.1 p.2) (P := fun g => g.Valid ∧ g.All (PlainLit Q)) (by
          intro p hp
          obtain ⟨i, hi, rfl⟩ := List.mem_iff_getElem.1 hp
          simp only [List.length_zip] at hi
          simp only [List.getElem_zip]
          have hei : es[i]'(by omega) ∈ es := List.getElem_mem _
          refine cascade_total (fun e he => ⟨hves e he, hfes e he⟩) _ ?_ (hves _ hei) (full_plain (hfes _ hei))
          intro j hj
          obtain ⟨hj', -⟩ := hover i (by simp; omega) (by omega) j hj
          simp at hj'; omega)
        simp only [hcl]
        obtain ⟨norm, hnorm, hnl, hnp⟩ := mapM_total (l := cl) (f := dnfNormalize c n) (P := fun o => ∀ r, o = some r → r.Valid ∧ r.All (PlainLit Q) ∧ (NormTotal Q r ∨ ∀ es, r ≠ .or es)) (by
          intro x hx
          obtain ⟨o, ho, hor⟩ := dnfNormalize_total (Q := Q) hc (hclp x hx).1 (hclp x hx).2
          refine ⟨o, ho n, fun r hr => ?_⟩
          rcases hor r hr with h | ⟨rfl, h⟩
          · exact ⟨h.valid, full_plain h.full, Or.inl h⟩
          · refine ⟨(hclp r hx).1, (hclp r hx).2, Or.inr ?_⟩
            rintro es rfl
            simp [Ev.isIdLit, Ev.basic?] at h)
        simp only [hnorm]
        obtain ⟨ss, hss, hssl, hssp⟩ := mapM_total (l := norm.filterMap id) (f := toDisjointOr (fun e => .ok e) c n d) (P := fun g => g.Valid ∧ g.All (PlainLit Q)) (by
          intro r hr
          obtain ⟨o, ho, hor⟩ := List.mem_filterMap.1 hr
          simp at hor; subst hor
          obtain ⟨h1, h2, h3⟩ := hnp _ ho r rfl
          exact ih h1 h2 h3)
        simp only [hss]
        have hne : ss ≠ [] := by
          have hes0 : 0 < es.length := List.length_pos_iff.2 hN.dnf.1
          have hcl0 : 0 < cl.length := by rw [hcll]; simp; omega
          have h0 : es[0] = cl[0] := by
            have := (mapM_ok hcl).get (i := 0) (by simp; omega) hcl0
            simp only [List.get_eq_getElem, List.getElem_zip] at this
            rw [nonDisjoint_head hov (by omega)] at this
            simpa [cascade, pure, Except.pure] using this
          obtain ⟨ω, hω⟩ := hN.sat es[0] (by simp [Ev.disjuncts])
          have hn0 : 0 < norm.length := by omega
          have h1 : dnfNormalize c n es[0] = .ok norm[0] := by
            have := (mapM_ok hnorm).get (i := 0) hcl0 hn0
            simp only [List.get_eq_getElem] at this
            rw [h0]; exact this
          have hm := vars_made (c := c) (hves es[0] (List.getElem_mem _)) (A := es[0].symbols) ((((full_plain (hfes es[0] (List.getElem_mem _)))).and' (Ev.symbols_all.1 (le_refl _))).mono (by
            rintro l t - ⟨⟨_, k, hk, _⟩, hs⟩
            refine ⟨k, hs ?_, hk⟩
            rw [symbols_of_basic hk]; simp [Tr.symbols]))
          cases hr : norm[0] with
          | none =>
            rw [hr] at h1
            exact absurd hω ((dnfNormalize_ok hc hm.1 h1).1 rfl ω (hm.2.2 ω))
          | some r =>
            intro e
            rw [e] at hssl
            have : r ∈ norm.filterMap id := List.mem_filterMap.2 ⟨some r, by rw [← hr]; exact List.getElem_mem _, rfl⟩
            have := List.length_pos_of_mem this
            simp at hssl
            simp [hssl] at this
        obtain ⟨g, hg, hgv⟩ := reduceM_lor_total c hne (fun e he => (hssp e he).1)
        refine ⟨g, hg, hgv, ?_⟩
        exact reduceM_ind (Q := fun e => e.All (PlainLit Q)) (f := Ev.lor c) (fun x y z hx hy hz => Ev.lor_all plainLit_or hx hy hz) (fun e he => (hssp e he).2) hg
    | _ => exact ⟨_, rfl, hv, ha⟩

/-- `dnf_to_disjoint_union` of a normalised event about plain variables returns. -/
theorem toDisjoint_total (hc : c.Correct) {e : Ev} (hd : e.IsDnf) (hv : e.Valid) (ha : e.All (PlainLit Q)) (hN : NormTotal Q e ∨ ∀ es, e ≠ .or es) :
    ∃ D, ∀ n d, D ≤ d → ∃ g, toDisjoint c n d e = .ok g ∧ g.Valid ∧ g.All (PlainLit Q) := by
  obtain ⟨V, A, B, hE⟩ := exists_ends e hv (plain_vars ha)
  refine ⟨weight V (insert ⊥ (insert ⊤ A)) B e + 2, fun n d hd' => ?_⟩
  obtain ⟨v, hv'⟩ := settles_ends hc (n := n) (A := insert ⊥ (insert ⊤ A)) (by simp) (by simp) _ hd hv
    (hE.mono (fun l _ _ h => h.mono (Finset.Subset.refl V) (by intro x hx; simp [hx]) (Finset.Subset.refl B))) le_rfl
  obtain ⟨g, hg, h1⟩ := toDisjointOr_total hc n d hv ha hN
  refine ⟨g, ?_, h1⟩
  rw [toDisjoint_eq, hv' _ d hd', ← hg, hv' _ d hd']

end Sppl
