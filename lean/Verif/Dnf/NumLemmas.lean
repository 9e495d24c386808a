import Verif.Dnf.DisjLemmas

set_option linter.all false

/-!
# Normal forms introduce no string comparisons (helper lemmas)
-/

namespace Sppl
open Classical

/-- The literal does not compare a variable in `A` with strings. -/
def NumOn (A : String → Prop) (l : Ev) : Prop := l.isNom = true → ∀ k ∈ l.symbols, ¬ A k

theorem num_combine {A : String → Prop} {op : SSet EReal → SSet EReal → Res (SSet EReal)} {e f g : Ev} (he' : NumOn A e) (hf' : NumOn A f)
    (h : Ev.simplify op e f = .ok (some g)) (hv : g.Valid) (hsub : ∀ v ∈ g.values.den, v ∈ e.values.den ∨ v ∈ f.values.den) : NumOn A g := by
  obtain ⟨t, r, h1, h2, h3, h4, h5⟩ := Ev.simplify_some h
  obtain ⟨t', r', h6⟩ := Ev.simplify_ofSet h
  cases g with
  | nom t' v =>
    intro _
    simp [Ev.basic?] at h4; subst h4
    cases v with
    | none => exact absurd h6 Ev.ofSet_ne_none
    | some n =>
      cases hv with
      | nom hn =>
        obtain ⟨x, hx⟩ := nom_has_str (hn n rfl)
        have e1 : (Ev.nom t' (some n)).symbols = t'.symbols := rfl
        rw [e1]
        rcases hsub _ (by simpa [Ev.values] using hx) with hx' | hx'
        · obtain ⟨m, rfl, -⟩ := Ev.isNom_of_str h1 hx'
          exact he' rfl
        · obtain ⟨m, rfl, -⟩ := Ev.isNom_of_str h2 hx'
          exact hf' rfl
  | _ => intro h; simp [Ev.isNom] at h

theorem num_and {c : Ctx} {A : String → Prop} : ∀ e f g : Ev, (e.Valid ∧ NumOn A e) → (f.Valid ∧ NumOn A f) →
    Ev.simplify (SSet.and c.σ) e f = .ok (some g) → g.Valid ∧ NumOn A g := by
  rintro e f g ⟨he, he'⟩ ⟨hf, hf'⟩ h
  obtain ⟨t, r, h1, h2, h3, h4, h5⟩ := Ev.simplify_some h
  have := SSet.and_spec c.σ _ _ ((Ev.valid_basic h1).1 he) (Ev.values_disj h1) ((Ev.valid_basic h2).1 hf) (Ev.values_disj h2) h3
  have hv : g.Valid := (Ev.valid_basic h4).2 (h5 ▸ this.wf)
  exact ⟨hv, num_combine he' hf' h hv (fun v hv => by rw [h5] at hv; exact .inl (this.sub _ hv).1)⟩

theorem num_or {c : Ctx} {A : String → Prop} : ∀ e f g : Ev, (e.Valid ∧ NumOn A e) → (f.Valid ∧ NumOn A f) →
    Ev.simplify (SSet.or c.σ) e f = .ok (some g) → g.Valid ∧ NumOn A g := by
  rintro e f g ⟨he, he'⟩ ⟨hf, hf'⟩ h
  obtain ⟨t, r, h1, h2, h3, h4, h5⟩ := Ev.simplify_some h
  have := SSet.or_spec c.σ _ _ ((Ev.valid_basic h1).1 he) (Ev.values_disj h1) ((Ev.valid_basic h2).1 hf) (Ev.values_disj h2) h3
  have hv : g.Valid := (Ev.valid_basic h4).2 (h5 ▸ this.wf)
  exact ⟨hv, num_combine he' hf' h hv (fun v hv => by rw [h5] at hv; exact this.sub _ hv)⟩

theorem not_num {c : Ctx} {A : String → Prop} {e g : Ev} (hv : e.Valid) (hA : e.All (NumOn A)) (h : e.not c = .ok g) :
    g.All (fun l => l.Valid ∧ NumOn A l) := by
  refine Ev.not_all' (Q := fun l => l.Valid ∧ NumOn A l) num_and num_or ?_ e ((Ev.valid_all hv).and' hA) h
  rintro e g t ht ⟨h1, h2⟩ h
  refine ((Ev.not_lit ht h1 h).and' (Ev.valid_all (Ev.not_spec e h1 h).1)).mono ?_
  rintro l u - ⟨⟨h6, h7⟩, h8⟩
  refine ⟨h8, fun hl => ?_⟩
  rw [symbols_of_basic h6, ← symbols_of_basic ht]
  exact h2 (h7 ▸ hl)

theorem land_num {c : Ctx} {A : String → Prop} {e f g : Ev} (he : e.Valid) (hf : f.Valid) (hA : e.All (NumOn A)) (hB : f.All (NumOn A))
    (h : e.land c f = .ok g) : g.All (NumOn A) :=
  (Ev.land_all (P := fun l => l.Valid ∧ NumOn A l) num_and ((Ev.valid_all he).and' hA) ((Ev.valid_all hf).and' hB) h).mono (fun _ _ _ h => h.2)

theorem lor_num {c : Ctx} {A : String → Prop} {e f g : Ev} (he : e.Valid) (hf : f.Valid) (hA : e.All (NumOn A)) (hB : f.All (NumOn A))
    (h : e.lor c f = .ok g) : g.All (NumOn A) :=
  (Ev.lor_all (P := fun l => l.Valid ∧ NumOn A l) num_or ((Ev.valid_all he).and' hA) ((Ev.valid_all hf).and' hB) h).mono (fun _ _ _ h => h.2)

/-- The solution set of an event without string comparisons has no string. -/
theorem solve_no_str {c : Ctx} (hc : c.Correct) {n : ℕ} {ev : Ev} (hm : ev.Made c) {k : String} (hk : ev.symbols = {k})
    (hw : ev.All (fun l => l.isNom = false)) {S : SSet EReal} (h : ev.solve c n = .ok S) (x : String) : Val.str x ∉ S.den := by
  intro hx
  have hno : ∀ s y, (fun _ => some (.str x) : Asg) s ≠ some (.num y) := by simp
  have := ((Ev.solve_exact hc hm h).2.2 (fun _ => some (.str x)) k (.str x) hk rfl (by simp) ((regular_str hno).2 ev)).1 hx
  obtain ⟨l, t, ht, h1, h3⟩ := Ev.holds_lit ev (Ev.Made.valid _ hm) hw this
  rw [Ev.holds_basic ht] at h3
  obtain ⟨v, hv1, hv2⟩ := h3
  cases v with
  | num y => obtain ⟨s, -, z, hz⟩ := (Tr.eval_sym t).1 y hv1; exact hno s z hz
  | str y => exact no_str ht h1 y hv2

theorem normalizeBody_num {c : Ctx} (hc : c.Correct) {n : ℕ} {A : String → Prop} {e r : Ev} (hm : e.Made c) (h : normalizeBody c n e = .ok (some r))
    (hA : e.All (NumOn A)) : r.All (NumOn A) := by
  obtain ⟨-, h2⟩ := normalizeBody_ok hc hm h
  obtain ⟨-, -, -, -, h3⟩ := h2 r rfl
  have hv := Ev.Made.valid _ hm
  refine (h3 (fun l => l.Valid ∧ NumOn A l) num_or ?_).mono (fun _ _ _ h => h.2)
  intro d R sols hd hR hsols sol hsol q hq hne p hp l hl1 hl2
  obtain ⟨d', hd1, hd2, hd3, hd4, hd5⟩ := Ev.toDnf_spec hv
  rw [hd] at hd1; cases hd1
  have hdm : d.Made c := Ev.made_all.2 ⟨hd3, hd5 _ (Ev.made_all.1 hm).2⟩
  obtain ⟨-, hF⟩ := dnfFactor_ok (P := fun l => l.Made c ∧ (l.Valid ∧ NumOn A l)) (by
    rintro e f g ⟨a1, a2⟩ ⟨b1, b2⟩ hs
    exact ⟨made_and _ _ _ a1 b1 hs, num_and _ _ _ a2 b2 hs⟩) hd3
    ((Ev.made_all.1 hdm).2.and' ((Ev.valid_all hd3).and' (hd5 _ hA))) hR
  obtain ⟨m, hm1, hm2⟩ := forall₂_mem_right (mapM_ok hsols) hsol
  obtain ⟨cl, -, hf, -, -⟩ := forall₂_mem_right hF hm1
  obtain ⟨pe, hpe, hq1, hq2⟩ := forall₂_mem_right (solveClause_ok hm2) hq
  have hpm : pe.2.Made c := Ev.made_all.2 ⟨hf.valid pe hpe, (hf.allP pe hpe).mono (fun _ _ _ h => h.1)⟩
  have hwf := (Ev.solve_exact hc hpm hq2).1
  have hpwf := SSet.pieces_wf hwf p hp
  refine ⟨(Ev.valid_basic hl1).2 (by rw [hl2]; exact hpwf), fun hl k hk hAk => ?_⟩
  have hkq : k = q.1 := by rw [symbols_of_basic hl1] at hk; simpa [Tr.symbols] using hk
  subst hkq
  have hall : pe.2.All (fun l => l.isNom = false) := by
    refine ((hf.allP pe hpe).and' (hf.lk pe hpe)).mono ?_
    rintro l t ht ⟨⟨-, -, h2⟩, s, hs, hs'⟩
    by_contra hno
    have hno' : l.isNom = true := by simpa using hno
    refine h2 hno' q.1 ?_ hAk
    rw [hs, hq1, (selfLookup_ok hs').1]; simp
  have hno := solve_no_str hc hpm (hf.symbols hpe).1 hall hq2
  cases l with
  | nom t v =>
    cases v with
    | none => simp [Ev.values] at hl2
    | some n' =>
      simp [Ev.values] at hl2; subst hl2
      obtain ⟨z, hz⟩ := nom_has_str hpwf
      exact hno z (SSet.mem_den_pieces hp hz)
  | _ => simp [Ev.isNom] at hl

theorem dnfNormalize_num {c : Ctx} (hc : c.Correct) {n : ℕ} {A : String → Prop} {e r : Ev} (hm : e.Made c) (h : dnfNormalize c n e = .ok (some r))
    (hA : e.All (NumOn A)) : r.All (NumOn A) := by
  unfold dnfNormalize at h
  split at h
  · cases h; exact hA
  · exact normalizeBody_num hc hm h hA

/-- A literal about a plain variable. -/
def VarLit (l : Ev) : Prop := ∃ k, l.basic? = some (.id k)

theorem cascade_num {c : Ctx} {A : String → Prop} {es : List Ev} (hes : ∀ e ∈ es, e.Made c ∧ e.All NomId ∧ e.All (NumOn A)) :
    ∀ (js : List ℕ) {e g : Ev}, e.Made c → e.All NomId → e.All (NumOn A) → cascade c es e js = .ok g → g.All (NumOn A) := by
  intro js
  induction js with
  | nil =>
    intro e g he hn hA h
    simp [cascade, pure, Except.pure] at h; subst h
    exact hA
  | cons j js ih =>
    intro e g he hn hA h
    simp only [cascade, List.foldlM_cons, bind, Except.bind] at h
    split at h; · cases h
    rename_i st hst
    split at hst; · cases hst
    rename_i f hf
    split at hst; · cases hst
    rename_i nf hnf
    have hfm : f ∈ es := List.mem_of_getElem? hf
    obtain ⟨hf1, hf2, hf3⟩ := hes f hfm
    obtain ⟨hn1, hn2⟩ := Ev.not_made hf1 hf2 hnf
    have hst1 := Ev.land_made he hn1 hst
    have hst2 := Ev.land_nomId (Ev.Made.valid _ he) (Ev.Made.valid _ hn1) hn hn2 hst
    refine ih hst1 hst2 ?_ (by simpa [cascade, bind, Except.bind] using h)
    exact land_num (Ev.Made.valid _ he) (Ev.Made.valid _ hn1) hA ((not_num (Ev.Made.valid _ hf1) hf3 hnf).mono (fun _ _ _ h => h.2)) hst

theorem varLit_simp {op : SSet EReal → SSet EReal → Res (SSet EReal)} : ∀ e f g : Ev, VarLit e → VarLit f →
    Ev.simplify op e f = .ok (some g) → VarLit g := by
  rintro e f g ⟨k, hk⟩ - h
  obtain ⟨t, r, h1, h2, h3, h4, h5⟩ := Ev.simplify_some h
  rw [hk] at h1; cases h1
  exact ⟨k, h4⟩

theorem toDisjoint_num {c : Ctx} (hc : c.Correct) {n : ℕ} {A : String → Prop} : ∀ (d : ℕ) {e g : Ev}, e.Made c → e.All NomId →
    e.All VarLit → e.All (NumOn A) → toDisjoint c n d e = .ok g → g.Valid ∧ g.All VarLit ∧ g.All (NumOn A) := by
  intro d
  induction d with
  | zero => intro e g _ _ _ _ h; simp [toDisjoint] at h
  | succ d ih =>
    intro e g hm hn hv hA h
    cases e with
    | ivl => simp [toDisjoint] at h; subst h; exact ⟨Ev.Made.valid _ hm, hv, hA⟩
    | fin => simp [toDisjoint] at h; subst h; exact ⟨Ev.Made.valid _ hm, hv, hA⟩
    | nom => simp [toDisjoint] at h; subst h; exact ⟨Ev.Made.valid _ hm, hv, hA⟩
    | and => simp [toDisjoint] at h; subst h; exact ⟨Ev.Made.valid _ hm, hv, hA⟩
    | or es =>
      simp only [toDisjoint, bind, Except.bind] at h
      split at h; · cases h
      split at h; · cases h
      split at h; · cases h
      rename_i ov hov
      have hes : ∀ e ∈ es, e.Made c ∧ e.All NomId ∧ e.All (NumOn A) := by
        intro e he
        have h1 := Ev.made_all.1 hm
        refine ⟨Ev.made_all.2 ⟨?_, Ev.all_or.1 h1.2 e he⟩, Ev.all_or.1 hn e he, Ev.all_or.1 hA e he⟩
        cases h1.1 with
        | or _ hv => exact hv e he
      split at h
      · cases h
        exact ⟨Ev.Made.valid _ hm, hv, hA⟩
      · split at h; · cases h
        rename_i cl hcl
        split at h; · cases h
        rename_i norm hnorm
        split at h; · cases h
        rename_i ss hss
        have hC := mapM_ok hcl
        have hN := mapM_ok hnorm
        have hS := mapM_ok hss
        have hss' : ∀ s ∈ ss, s.Valid ∧ s.All VarLit ∧ s.All (NumOn A) := by
          intro s hs
          obtain ⟨r, hr, hrs⟩ := forall₂_mem_right hS hs
          obtain ⟨o, ho, hor⟩ := List.mem_filterMap.1 hr
          simp at hor; subst hor
          obtain ⟨x, hx, hxo⟩ := forall₂_mem_right hN ho
          obtain ⟨p, hp, hpx⟩ := forall₂_mem_right hC hx
          obtain ⟨e, js⟩ := p
          have he := hes e (List.of_mem_zip hp).1
          obtain ⟨h1, h2, -⟩ := cascade_ok (fun e he => ⟨(hes e he).1, (hes e he).2.1⟩) js he.1 he.2.1 hpx
          have h3 := cascade_num hes js he.1 he.2.1 he.2.2 hpx
          have hno := ((dnfNormalize_ok hc h1 hxo).2 r rfl).1
          exact ih hno.made hno.nomId (hno.vars.mono (fun _ _ _ ⟨k, _, hk⟩ => ⟨k, hk⟩)) (dnfNormalize_num hc h1 hxo h3) hrs
        exact reduceM_ind (Q := fun x => x.Valid ∧ x.All VarLit ∧ x.All (NumOn A)) (fun x y z hx hy hz =>
          ⟨(Ev.lor_spec hx.1 hy.1 hz).1, Ev.lor_all varLit_simp hx.2.1 hy.2.1 hz, lor_num hx.1 hy.1 hx.2.2 hy.2.2 hz⟩) hss' h

end Sppl
