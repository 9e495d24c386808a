import Verif.Dnf.TermLemmas

set_option linter.all false

/-!
# The recursion of `dnf_to_disjoint_union` is well-founded (helper lemmas, continued)
-/

namespace Sppl
open Classical

variable {V : Finset String} {A : Finset EReal} {B : Finset String}

theorem varLit_of_endLit {l : Ev} (h : EndLit V A B l) : VarLit l := by
  obtain ⟨-, k, -, hk, -⟩ := h; exact ⟨k, hk⟩

/-- Made events from basic events about variables. -/
theorem made_endLit {c : Ctx} {e : Ev} (hv : e.Valid) (h : e.All (EndLit V A B)) : e.Made c ∧ e.All NomId ∧ ∀ ω, e.Regular ω :=
  vars_made (A := V) hv (h.mono (fun l t _ ⟨_, k, hk, hl, _⟩ => ⟨k, hk, hl⟩))

/-! ## `dnf_normalize` -/

/-- `dnf_normalize` keeps the end points. -/
theorem dnfNormalize_endLit {c : Ctx} (hc : c.Correct) {n : ℕ} {e r : Ev} (hv : e.Valid) (he : e.All (EndLit V A B))
    (h : dnfNormalize c n e = .ok (some r)) : r.All (EndLit V A B) := by
  have hm := (made_endLit (c := c) hv he).1
  unfold dnfNormalize at h
  split at h
  · cases h; exact he
  · obtain ⟨-, h2⟩ := normalizeBody_ok hc hm h
    obtain ⟨-, -, -, -, h3⟩ := h2 r rfl
    refine h3 (EndLit V A B) endLit_or ?_
    intro d R sols hd hR hsols sol hsol q hq hne p hp l hl1 hl2
    obtain ⟨d', hd1, hd2, hd3, hd4, hd5⟩ := Ev.toDnf_spec hv
    rw [hd] at hd1; cases hd1
    have hdE := hd5 _ he
    obtain ⟨-, hF⟩ := dnfFactor_ok (P := EndLit V A B) endLit_and hd3 hdE hR
    obtain ⟨m, hm1, hm2⟩ := forall₂_mem_right (mapM_ok hsols) hsol
    obtain ⟨cl, hcl, hf, -, -⟩ := forall₂_mem_right hF hm1
    have hlit : LitFac m := by
      have key : ∀ {x : Ev} {m : Clause String}, x.Valid → x.All (EndLit V A B) → factorClause c (selfLookup d) x = .ok m → LitFac m :=
        fun hv hx h => factorClause_lit hv (hx.mono (fun _ _ _ h => varLit_of_endLit h)) h
      unfold dnfFactor1 dnfFactor at hR
      split at hR
      · rename_i es
        split at hR
        · obtain ⟨x, hx, hxm⟩ := forall₂_mem_right (mapM_ok hR) hm1
          cases hd3 with
          | or _ hes => exact key (hes x hx) (Ev.all_or.1 hdE x hx) hxm
        · cases hR
      · simp only [bind, Except.bind] at hR
        split at hR; · cases hR
        rename_i m' hm'
        cases hR
        simp at hm1; subst hm1
        exact key hd3 hdE hm'
    obtain ⟨pe, hpe, hq1⟩ := forall₂_mem_right (solveClause_var hlit hm2) hq
    obtain ⟨-, k, hk, hk1, hk2⟩ := (Ev.all_lit (hlit pe hpe)).1 (hf.allP pe hpe)
    have hq2 : q.2 = pe.2.values := by rw [hq1]
    have hq3 : q.1 = pe.1 := by rw [hq1]
    rw [hlit pe hpe] at hk1
    have hkk : pe.1 = k := by injection hk1 with h; injection h
    have hpv : pe.2.values = .pc p := by
      rw [hq2] at hp
      have := Ev.values_not_un pe.2
      cases hS : pe.2.values with
      | empty => rw [hS] at hp; simp [SSet.pieces] at hp
      | pc p' => rw [hS] at hp; simp [SSet.pieces] at hp; subst hp; rfl
      | un u => exact absurd hS (this u)
    refine ⟨(Ev.valid_basic hl1).2 ?_, q.1, by rw [hq3, hkk]; exact hk, hl1, by rw [hl2, ← hpv]; exact hk2⟩
    rw [hl2, ← hpv]
    exact (Ev.valid_basic (hlit pe hpe)).1 (hf.valid pe hpe)

theorem toDnf_clause {e r : Ev} (hc : e.IsClause) (h : e.toDnf = .ok r) : r.IsClause := by
  have key : ∀ {ls : List Ev}, (∀ l ∈ ls, l.IsLit) → e.toDnfList = [ls] → r.IsClause := by
    intro ls hl he
    unfold Ev.toDnf at h
    rw [he] at h
    match ls, hl with
    | [], _ => simp [simplifyEvent, bind, Except.bind] at h
    | [x], hl => simp [simplifyEvent, bind, Except.bind, pure, Except.pure] at h; subst h; exact (hl x (by simp)).clause
    | x :: y :: l, hl => simp [simplifyEvent, bind, Except.bind, pure, Except.pure] at h; subst h; exact ⟨by simp, hl⟩
  cases e with
  | or => exact False.elim hc
  | ivl t i => exact key (ls := [.ivl t i]) (by simp [Ev.IsLit]) (by simp [Ev.toDnfList])
  | fin t i => exact key (ls := [.fin t i]) (by simp [Ev.IsLit]) (by simp [Ev.toDnfList])
  | nom t i => exact key (ls := [.nom t i]) (by simp [Ev.IsLit]) (by simp [Ev.toDnfList])
  | and es =>
    refine key hc.2 ?_
    rw [Ev.toDnfList, Ev.toDnfListL_eq]
    have : ∀ l : List Ev, (∀ x ∈ l, x.IsLit) → cross (l.map Ev.toDnfList) = [l.map (fun x => [x])] := by
      intro l
      induction l with
      | nil => simp [cross]
      | cons x l ih =>
        intro hl
        obtain ⟨t, ht⟩ := Ev.isLit_iff.1 (hl x (by simp))
        simp [cross, ih (fun x hx => hl x (by simp [hx])), Ev.toDnfList_lit ht]
    rw [this es hc.2]
    have h2 : ∀ l : List Ev, (l.map (fun x => [x])).flatten = l := by
      intro l; induction l <;> simp_all
    simp [h2]

theorem land_lits_clause {c : Ctx} {l : List Ev} (hl : ∀ e ∈ l, e.IsClause) {g : Ev} (h : reduceM (Ev.land c) l = .ok g) : g.IsClause :=
  reduceM_ind (Q := Ev.IsClause) (fun _ _ _ hx hy hz => Ev.land_clause hx hy hz) hl h

/-- `dnf_normalize` of a clause about variables is a clause. -/
theorem dnfNormalize_clause {c : Ctx} {n : ℕ} {e r : Ev} (hv : e.Valid) (he : e.All VarLit) (hcl : e.IsClause)
    (h : dnfNormalize c n e = .ok (some r)) : r.IsClause := by
  unfold dnfNormalize at h
  split at h
  · cases h; exact hcl
  · unfold normalizeBody at h
    obtain ⟨d, hd1, hd2, hd3, hd4, hd5⟩ := Ev.toDnf_spec hv
    have hdc := toDnf_clause hcl hd1
    simp only [hd1, bind, Except.bind] at h
    split at h; · cases h
    rename_i fs hfs
    split at h; · cases h
    rename_i sols hsols
    split at h; · cases h
    split at h; · cases h
    rename_i conjs hconjs
    split at h; · cases h
    rename_i disj hdisj
    split at h; · cases h
    rename_i r' hr'
    cases h
    refine toDnf_clause ?_ hr'
    -- there is one clause
    have hone : ∃ m, factorClause c (selfLookup d) d = .ok m ∧ fs = [m] := by
      unfold dnfFactor1 dnfFactor at hfs
      split at hfs
      · exact False.elim hdc
      · simp only [bind, Except.bind] at hfs
        split at hfs; · cases hfs
        rename_i m hm
        cases hfs; exact ⟨m, hm, rfl⟩
    obtain ⟨m, hm, rfl⟩ := hone
    have hlit := factorClause_lit hd3 (hd5 _ he) hm
    have hsF := mapM_ok hsols
    cases hsF with
    | @cons _ sol _ _ h1 h2 =>
      cases h2
      have hsv := solveClause_var hlit h1
      have hded : ∀ x ∈ dedupSols ([sol].filter (fun s => s.all (fun p => !p.2.isEmpty))), x = sol := by
        intro x hx
        have := (List.mem_filter.1 (mem_dedupSols hx)).1
        simpa using this
      have hcon : ∀ g ∈ conjs, g.IsClause := by
        intro g hg
        obtain ⟨s, hs, hsg⟩ := forall₂_mem_right (mapM_ok hconjs) hg
        have := hded s hs; subst this
        unfold solConj at hsg
        simp only [bind, Except.bind] at hsg
        split at hsg; · cases hsg
        rename_i es hes
        refine land_lits_clause (fun x hx => ?_) hsg
        obtain ⟨q, hq, hqx⟩ := forall₂_mem_right (mapM_ok hes) hx
        obtain ⟨p, hp, rfl⟩ := forall₂_mem_right hsv hq
        have := Ev.values_not_un p.2
        simp only at hqx
        cases hS : p.2.values with
        | empty => rw [hS] at hqx; simp [Tr.inSet] at hqx; subst hqx; trivial
        | pc pp => rw [hS] at hqx; cases pp <;> (simp [Tr.inSet] at hqx; subst hqx; trivial)
        | un u => exact absurd hS (this u)
      have hlen : conjs.length ≤ 1 := by
        rw [← (mapM_ok hconjs).length_eq]
        unfold dedupSols
        rw [List.length_map]
        refine (List.length_filter_le _ _).trans ?_
        rw [List.length_zipIdx]
        exact (List.length_filter_le _ _).trans (by simp)
      match conjs, hlen, hdisj, hcon with
      | [], _, hdisj, _ => simp [reduceM] at hdisj
      | [x], _, hdisj, hcon => simp [reduceM, pure, Except.pure] at hdisj; subst hdisj; exact hcon x (by simp)

/-! ## Signatures -/

/-- The tests that a literal with end points in `A` and `B` can make on a variable. -/
abbrev Tests (V : Finset String) (A : Finset EReal) (B : Finset String) := V × (A ⊕ A ⊕ B ⊕ Bool)

/-- The tests that an assignment passes. -/
def sig (V : Finset String) (A : Finset EReal) (B : Finset String) (ω : Asg) : Set (Tests V A B) :=
  {p | match p.2 with
    | .inl a => ∃ x : ℝ, ω p.1 = some (.num x) ∧ (a : EReal) < x
    | .inr (.inl a) => ∃ x : ℝ, ω p.1 = some (.num x) ∧ (a : EReal) ≤ x
    | .inr (.inr (.inl t)) => ω p.1 = some (.str t)
    | .inr (.inr (.inr true)) => ∃ x : ℝ, ω p.1 = some (.num x)
    | .inr (.inr (.inr false)) => ∃ t, ω p.1 = some (.str t)}

theorem sig_lt {ω ω' : Asg} (h : sig V A B ω = sig V A B ω') {k : String} (hk : k ∈ V) {a : EReal} (ha : a ∈ A) :
    (∃ x : ℝ, ω k = some (.num x) ∧ a < x) ↔ ∃ x : ℝ, ω' k = some (.num x) ∧ a < x := by
  have := Set.ext_iff.1 h (⟨k, hk⟩, .inl ⟨a, ha⟩)
  exact this
theorem sig_le {ω ω' : Asg} (h : sig V A B ω = sig V A B ω') {k : String} (hk : k ∈ V) {a : EReal} (ha : a ∈ A) :
    (∃ x : ℝ, ω k = some (.num x) ∧ a ≤ x) ↔ ∃ x : ℝ, ω' k = some (.num x) ∧ a ≤ x := by
  have := Set.ext_iff.1 h (⟨k, hk⟩, .inr (.inl ⟨a, ha⟩))
  exact this
theorem sig_str {ω ω' : Asg} (h : sig V A B ω = sig V A B ω') {k : String} (hk : k ∈ V) {t : String} (ht : t ∈ B) :
    ω k = some (.str t) ↔ ω' k = some (.str t) := by
  have := Set.ext_iff.1 h (⟨k, hk⟩, .inr (.inr (.inl ⟨t, ht⟩)))
  exact this
theorem sig_num {ω ω' : Asg} (h : sig V A B ω = sig V A B ω') {k : String} (hk : k ∈ V) :
    (∃ x : ℝ, ω k = some (.num x)) ↔ ∃ x : ℝ, ω' k = some (.num x) := by
  have := Set.ext_iff.1 h (⟨k, hk⟩, .inr (.inr (.inr true)))
  exact this
theorem sig_isStr {ω ω' : Asg} (h : sig V A B ω = sig V A B ω') {k : String} (hk : k ∈ V) :
    (∃ t, ω k = some (.str t)) ↔ ∃ t, ω' k = some (.str t) := by
  have := Set.ext_iff.1 h (⟨k, hk⟩, .inr (.inr (.inr false)))
  exact this

theorem holds_of_sig {l : Ev} (hl : EndLit V A B l) {ω ω' : Asg} (h : sig V A B ω = sig V A B ω') (hh : l.holds ω) : l.holds ω' := by
  obtain ⟨-, k, hk, hb, hE⟩ := hl
  rw [Ev.holds_basic hb] at hh ⊢
  obtain ⟨v, hv, hm⟩ := hh
  simp only [Tr.eval] at hv ⊢
  cases hS : l.values with
  | empty => rw [hS] at hm; simp at hm
  | un u => exact absurd hS (Ev.values_not_un l u)
  | pc p =>
    rw [hS] at hm hE
    cases p with
    | nom n =>
      obtain ⟨s, hs, hn⟩ := hm
      cases v with
      | num x => cases hs
      | str t =>
        have hts : t = s := by simpa [Val.lift] using hs
        subst hts
        by_cases ht : t ∈ B
        · exact ⟨.str t, (sig_str h hk ht).1 hv, t, rfl, hn⟩
        · obtain ⟨t', ht'⟩ := (sig_isStr h hk).1 ⟨t, hv⟩
          have ht'B : t' ∉ B := by
            intro hB
            have := (sig_str h hk hB).2 ht'
            rw [hv] at this; cases this; exact ht hB
          refine ⟨.str t', ht', t', rfl, ?_⟩
          have hE' : n.vals ⊆ B := hE
          split at hn
          · rename_i hneg; rw [if_pos hneg]; exact fun h => ht'B (hE' h)
          · exact absurd (hE' hn) ht
    | fin s =>
      obtain ⟨y, hy, hys⟩ := hm
      cases v with
      | str t => cases hy
      | num x =>
        have hxy : ((x : ℝ) : EReal) = y := by simpa [Val.lift] using hy
        subst hxy
        have hA : ((x : ℝ) : EReal) ∈ A := hE hys
        obtain ⟨x', hx', h1⟩ := (sig_le h hk hA).1 ⟨x, hv, le_rfl⟩
        have h2 : ((x' : ℝ) : EReal) = x := by
          refine le_antisymm ?_ h1
          by_contra hlt
          push Not at hlt
          obtain ⟨z, hz, hlt'⟩ := (sig_lt h hk hA).2 ⟨x', hx', hlt⟩
          rw [hv] at hz; cases hz; exact lt_irrefl _ hlt'
        exact ⟨.num x', hx', x', rfl, by rw [h2]; exact hys⟩
    | ivl i =>
      obtain ⟨y, hy, hys⟩ := hm
      cases v with
      | str t => cases hy
      | num x =>
        have hxy : ((x : ℝ) : EReal) = y := by simpa [Val.lift] using hy
        subst hxy
        obtain ⟨hA1, hA2⟩ : i.a ∈ A ∧ i.b ∈ A := hE
        obtain ⟨x', hx'⟩ := (sig_num h hk).1 ⟨x, hv⟩
        have lt_iff : ∀ a ∈ A, (a < ((x : ℝ) : EReal) ↔ a < ((x' : ℝ) : EReal)) := by
          intro a ha
          have := sig_lt h hk ha
          simpa [hv, hx'] using this
        have le_iff : ∀ a ∈ A, (a ≤ ((x : ℝ) : EReal) ↔ a ≤ ((x' : ℝ) : EReal)) := by
          intro a ha
          have := sig_le h hk ha
          simpa [hv, hx'] using this
        refine ⟨.num x', hx', x', rfl, ?_⟩
        unfold Ivl.Mem at hys ⊢
        have b1 : (((x' : ℝ) : EReal) < i.b) = (((x : ℝ) : EReal) < i.b) := by
          rw [← not_le, ← not_le, le_iff _ hA2]
        have b2 : (((x' : ℝ) : EReal) ≤ i.b) = (((x : ℝ) : EReal) ≤ i.b) := by
          rw [← not_lt, ← not_lt, lt_iff _ hA2]
        rw [b1, b2, ← lt_iff _ hA1, ← le_iff _ hA1]
        exact hys

theorem Ev.holds_sig {ω ω' : Asg} (h : sig V A B ω = sig V A B ω') : ∀ e : Ev, e.All (EndLit V A B) → (e.holds ω ↔ e.holds ω') := by
  refine Ev.ind ?_ ?_ ?_
  · intro e t ht he
    have := (Ev.all_lit ht).1 he
    exact ⟨holds_of_sig this h, holds_of_sig this h.symm⟩
  · intro es ih he
    rw [Ev.holds_or, Ev.holds_or]
    constructor
    · rintro ⟨e, hm, hh⟩; exact ⟨e, hm, (ih e hm (Ev.all_or.1 he e hm)).1 hh⟩
    · rintro ⟨e, hm, hh⟩; exact ⟨e, hm, (ih e hm (Ev.all_or.1 he e hm)).2 hh⟩
  · intro es ih he
    rw [Ev.holds_and, Ev.holds_and]
    exact forall₂_congr (fun e hm => ih e hm (Ev.all_and.1 he e hm))

/-- The number of signatures where the event holds. -/
noncomputable def weight (V : Finset String) (A : Finset EReal) (B : Finset String) (e : Ev) : ℕ := (sig V A B '' {ω | e.holds ω}).ncard

theorem weight_lt {e r : Ev} (hr : r.All (EndLit V A B)) (himp : ∀ ω, r.holds ω → e.holds ω) (hex : ∃ ω, e.holds ω ∧ ¬ r.holds ω) :
    weight V A B r < weight V A B e := by
  unfold weight
  refine Set.ncard_lt_ncard ?_ (Set.toFinite _)
  refine ⟨Set.image_mono (fun ω h => himp ω h), fun hsub => ?_⟩
  obtain ⟨ω, h1, h2⟩ := hex
  obtain ⟨ω', h3, h4⟩ := hsub ⟨ω, h1, rfl⟩
  exact h2 ((Ev.holds_sig h4 r hr).1 h3)

end Sppl
