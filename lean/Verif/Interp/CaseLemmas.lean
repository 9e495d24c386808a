import Verif.Interp.EventLemmas

set_option linter.all false

/-!
# Events of the cases of `Switch` (helper lemmas)
-/

namespace Sppl
open Classical MeasureTheory
open scoped ENNReal ProbabilityTheory

variable {c : Ctx} {L : Lib} {μ : Dist → Measure ℝ}

/-- A set of numbers (`true`) or of strings (`false`). -/
structure SetKind (k : Bool) (S : SSet EReal) : Prop where
  built : Built S
  real : k = true → ∀ x, Val.str x ∉ S.den
  nominal : k = false → ∀ x, Val.num x ∉ S.den

/-- A value of that kind. -/
def OfKind (k : Bool) : Val ℝ → Prop
  | .num _ => k = true
  | .str _ => k = false

theorem lift_proper (v : Val ℝ) : v.lift.Proper := by
  cases v <;> simp [Val.lift, Val.Proper, Fin']

theorem invert_kind {k : Bool} {T r : SSet EReal} (hT : SetKind k T) (hn : k = false → ∃ n, T = .pc (.nom n)) (h : SSet.invert c.σ T = .ok r) :
    SetKind k r ∧ ∀ v, OfKind k v → (v.lift ∈ r.den ↔ v.lift ∉ T.den) := by
  have hb : Built r := .invert hT.built h
  cases k with
  | true =>
    obtain ⟨h1, h2⟩ := C03_invert_real c.σ hT.built (hT.real rfl) h
    refine ⟨⟨hb, fun _ => h2, by simp⟩, ?_⟩
    intro v hv
    cases v with
    | num x => simp only [Val.lift]; rw [h1]; simp
    | str x => simp [OfKind] at hv
  | false =>
    obtain ⟨n, rfl⟩ := hn rfl
    obtain ⟨r', h0, h1, h2⟩ := C03_invert_nominal c.σ hT.built
    rw [h0] at h; cases h
    refine ⟨⟨hb, by simp, fun _ => h1⟩, ?_⟩
    intro v hv
    cases v with
    | num x => simp [OfKind] at hv
    | str x => simp only [Val.lift]; rw [h2]

theorem caseSet_ok {k : Bool} : ∀ {before : List (SSet EReal)} {S r : SSet EReal}, (∀ T ∈ before, SetKind k T ∧ (k = false → ∃ n, T = .pc (.nom n))) → SetKind k S →
    caseSet c before S = .ok r → SetKind k r ∧ ∀ v, OfKind k v → (v.lift ∈ r.den ↔ v.lift ∈ S.den ∧ ∀ T ∈ before, v.lift ∉ T.den)
  | [], S, r, _, hS, h => by
    simp [caseSet, pure, Except.pure] at h; subst h; simpa using hS
  | T :: before, S, r, hb, hS, h => by
    simp only [caseSet, List.foldlM_cons, bind, Except.bind] at h
    split at h; · cases h
    rename_i x hx
    split at hx; · cases hx
    rename_i y hy
    obtain ⟨h1, h2⟩ := invert_kind (hb T (by simp)).1 (hb T (by simp)).2 hy
    obtain ⟨a1, a2⟩ := C04_built_disjoint hS.built
    obtain ⟨a3, a4⟩ := C04_built_disjoint h1.built
    have ok := SSet.and_spec c.σ _ _ a1 a2 a3 a4 hx
    have hx' : SetKind k x := ⟨.and hS.built h1.built hx, fun hk z hz => hS.real hk z (ok.sub _ hz).1, fun hk z hz => hS.nominal hk z (ok.sub _ hz).1⟩
    obtain ⟨h3, h4⟩ := caseSet_ok (before := before) (fun T hT => hb T (by simp [hT])) hx' h
    refine ⟨h3, fun v hv => ?_⟩
    rw [h4 v hv]
    have : v.lift ∈ x.den ↔ v.lift ∈ S.den ∧ v.lift ∉ T.den := by
      rw [← h2 v hv]
      exact ⟨ok.sub _, ok.sup _ (lift_proper v)⟩
    rw [this]; simp [and_assoc]

/-- What the events of `t << S` are made of, for sets of one kind. -/
theorem inSet_lits {k : Bool} {t : Tr} {S : SSet EReal} (hS : SetKind k S) {e : Ev} (h : t.inSet c S = .ok e) :
    e.All (fun l => l.Valid ∧ l.basic? = some t ∧ ((k = true ∨ l = .fin t none) ∧ l.isNom = false ∨ k = false ∧ l.isNom = true)) := by
  obtain ⟨w, -⟩ := C04_built_disjoint hS.built
  by_cases hne : S = .empty
  · subst hne
    simp [Tr.inSet] at h; subst h
    exact .lit rfl ⟨.fin (by simp), rfl, .inl ⟨.inr rfl, rfl⟩⟩
  have key : e.All (fun l => l.Valid ∧ l.basic? = some t ∧ (k = true ∧ l.isNom = false ∨ k = false ∧ l.isNom = true ∧ NomSome l)) := by
    refine inSet_all ?_ w h hne ?_
    · rintro e f g ⟨ve, be, he⟩ ⟨vf, bf, hf⟩ h
      obtain ⟨t', r, h1, h2, h3, h4, h5⟩ := Ev.simplify_some h
      rw [be] at h1; cases h1
      have ok := SSet.or_spec c.σ _ _ ((Ev.valid_basic be).1 ve) (Ev.values_disj be) ((Ev.valid_basic bf).1 vf) (Ev.values_disj bf) h3
      have hv : g.Valid := (Ev.valid_basic h4).2 (h5 ▸ ok.wf)
      obtain ⟨-, -, -, -, h6, h7⟩ := simplify_kind h hv (fun v hv => by rw [h5] at hv; exact ok.sub _ hv)
      refine ⟨hv, h4, ?_⟩
      rcases he with ⟨rfl, he⟩ | ⟨rfl, he, hes⟩
      · refine .inl ⟨rfl, ?_⟩
        by_contra hg
        rcases h6 (by simpa using hg) with hh | hh
        · simp [he] at hh
        · simp [hh] at hf
      · refine .inr ⟨rfl, ?_, h7⟩
        cases e with
        | nom t1 v1 =>
          cases v1 with
          | none => exact hes.elim
          | some n1 =>
            cases ve with
            | nom hn =>
              obtain ⟨x, hx⟩ := nom_has_str (hn n1 rfl)
              have : Val.str x ∈ r.den := ok.sup _ trivial (.inl (by simpa [Ev.values] using hx))
              obtain ⟨m, rfl, -⟩ := Ev.isNom_of_str h4 (x := x) (by rw [h5]; exact this)
              rfl
        | _ => simp [Ev.isNom] at he
    · intro p hp l hl hv
      have hpw := SSet.pieces_wf w p hp
      refine ⟨(Ev.valid_basic hl).2 (by rw [hv]; exact hpw), hl, ?_⟩
      cases k with
      | true =>
        refine .inl ⟨rfl, ?_⟩
        cases l with
        | nom t' v =>
          cases v with
          | none => simp [Ev.values] at hv
          | some n =>
            simp [Ev.values] at hv; subst hv
            obtain ⟨x, hx⟩ := nom_has_str hpw
            exact absurd (SSet.mem_den_pieces hp hx) (hS.real rfl x)
        | _ => rfl
      | false =>
        refine .inr ⟨rfl, ?_⟩
        obtain ⟨v, hpv⟩ := Piece.WF.nonempty hpw
        cases v with
        | num x => exact absurd (SSet.mem_den_pieces hp hpv) (hS.nominal rfl x)
        | str x =>
          obtain ⟨n, rfl, -⟩ := Ev.isNom_of_str hl (x := x) (by rw [hv]; exact hpv)
          exact ⟨rfl, trivial⟩
  exact key.mono (fun l t _ h => ⟨h.1, h.2.1, h.2.2.imp (fun h => ⟨.inl h.1, h.2⟩) (fun h => ⟨h.1, h.2.1⟩)⟩)

/-- `t << S` is usable if `t` almost surely has a value of the kind of `S`. -/
theorem inSet_usable {k : Bool} {t : Tr} {S : SSet EReal} {m : Measure Asg} (hS : SetKind k S) (ht : t.Made c) (hid : k = false → t.isId = true)
    (hr : ∀ᵐ ω ∂m, t.Regular ω) (hk : ∀ᵐ ω ∂m, ∃ v, t.eval ω = some v ∧ OfKind k v) {e : Ev} (h : t.inSet c S = .ok e) :
    Usable c m e ∧ ∀ ω, e.holds ω ↔ ∃ v, t.eval ω = some v ∧ v.lift ∈ S.den := by
  obtain ⟨v1, v2⟩ := C11_in_set (C04_built_disjoint hS.built).1 h
  have hl := inSet_lits hS h
  have hn : e.All NomId := hl.mono (by
    rintro l t' - ⟨h1, h2, ⟨-, h3⟩ | ⟨h3, h4⟩⟩
    · cases l <;> simp [Ev.isNom] at h3 <;> trivial
    · exact nomId_of_basic h2 (hid h3))
  refine ⟨⟨Ev.made_all.2 ⟨v1, (hl.and' hn).mono (fun l t' _ h => made_lit h.1.2.1 ht h.1.1 h.2)⟩, hn, ?_, ?_⟩, v2⟩
  · filter_upwards [hr] with ω hω
    exact Ev.regular_all.2 (hl.mono (fun l t' _ h => (regular_of_basic h.2.1).2 hω))
  · filter_upwards [hk] with ω hω
    obtain ⟨v, hv, hvk⟩ := hω
    rw [suits_iff]
    obtain ⟨s, hs⟩ := made_symbols ht
    have hw : ∃ w, ω s = some w ∧ OfKind k w := by
      cases v with
      | num y =>
        obtain ⟨s', hs', x, hx⟩ := (Tr.eval_sym t).1 y hv
        rw [hs, Finset.mem_singleton] at hs'; subst hs'
        exact ⟨_, hx, hvk⟩
      | str y =>
        obtain ⟨s', hs', x, hx⟩ := (Tr.eval_sym t).2 y hv
        rw [hs, Finset.mem_singleton] at hs'; subst hs'
        exact ⟨_, hx, hvk⟩
    obtain ⟨w, hw, hwk⟩ := hw
    have hdef : ∀ z ∈ t.symbols, ω z ≠ none := by
      intro z hz
      rw [hs, Finset.mem_singleton] at hz; subst hz
      simp [hw]
    refine hl.mono ?_
    rintro l t' - ⟨h1, h2, h3⟩
    refine ⟨?_, by rw [symbols_of_basic h2]; exact hdef⟩
    have hnum : k = true → ∀ z ∈ t.symbols, ∃ x, ω z = some (.num x) := by
      intro hkt z hz
      rw [hs, Finset.mem_singleton] at hz; subst hz
      cases w with
      | num x => exact ⟨x, hw⟩
      | str x => simp [OfKind, hkt] at hwk
    rcases h3 with ⟨h3 | rfl, h4⟩ | ⟨h3, h4⟩
    · exact wk_of_kind h2 (fun _ => hnum h3) (by simp [h4])
    · trivial
    · refine wk_of_kind h2 (by simp [h4]) (fun _ => ?_)
      have h5 := hid h3
      cases t with
      | id X =>
        simp [Tr.symbols] at hs; subst hs
        cases w with
        | num x => simp [OfKind, h3] at hwk
        | str x => exact ⟨X, x, rfl, hw⟩
      | _ => simp [Tr.isId] at h5

theorem caseEvents_ok {k : Bool} {t : Tr} {m : Measure Asg} (ht : t.Made c) (hid : k = false → t.isId = true)
    (hr : ∀ᵐ ω ∂m, t.Regular ω) (hk : ∀ᵐ ω ∂m, ∃ v, t.eval ω = some v ∧ OfKind k v) : ∀ {Ss before : List (SSet EReal)} {es : List Ev},
    (∀ T ∈ before, SetKind k T ∧ (k = false → ∃ n, T = .pc (.nom n))) → (∀ T ∈ Ss, SetKind k T ∧ (k = false → ∃ n, T = .pc (.nom n))) →
    caseEvents c t before Ss = .ok es →
    List.Forall₂ (Stands c m) es (firsts {ω | ∃ T ∈ before, ∃ v, t.eval ω = some v ∧ v.lift ∈ T.den} (Ss.map (fun S => {ω | ∃ v, t.eval ω = some v ∧ v.lift ∈ S.den})))
  | [], before, es, _, _, h => by
    simp [caseEvents] at h; subst h; simp [firsts]
  | S :: Ss, before, es, hb, hS, h => by
    simp only [caseEvents, bind, Except.bind] at h
    split at h; · cases h
    rename_i x hx
    split at h; · cases h
    rename_i e he
    split at h; · cases h
    rename_i es' hes
    cases h
    obtain ⟨h1, h2⟩ := caseSet_ok hb (hS S (by simp)).1 hx
    obtain ⟨h3, h4⟩ := inSet_usable h1 ht hid hr hk he
    have ih := caseEvents_ok ht hid hr hk (before := before ++ [S]) (Ss := Ss) (by
      intro f hf; simp at hf; rcases hf with hf | rfl
      · exact hb f hf
      · exact hS _ (by simp)) (fun f hf => hS f (by simp [hf])) hes
    simp only [List.map_cons, firsts]
    refine .cons ⟨h3, ?_⟩ ?_
    · filter_upwards [hk] with ω hω
      obtain ⟨v, hv, hvk⟩ := hω
      rw [h4]
      simp only [hv, Option.some.injEq, exists_eq_left', h2 v hvk, Set.mem_diff, Set.mem_setOf_eq, not_exists, not_and]
    · convert ih using 2
      ext ω; simp [or_and_right, exists_or]

theorem holds_toSet (t : Tr) (ω : Asg) (v : SwVal) : v.Holds t ω ↔ ∃ x, t.eval ω = some x ∧ x.lift ∈ v.toSet.den := by
  cases v with
  | set S => rfl
  | str x =>
    simp only [SwVal.Holds, SwVal.toSet]
    constructor
    · intro h; exact ⟨_, h, by simp [Val.lift, SSet.den, Piece.str_mem_den_nom, Nom.has, Nom.neg]⟩
    · rintro ⟨y, hy, hm⟩
      cases y with
      | num y => simp [Val.lift, SSet.den] at hm
      | str y =>
        simp [Val.lift, SSet.den, Piece.str_mem_den_nom, Nom.has, Nom.neg] at hm
        rw [hy, hm]
  | num x =>
    simp only [SwVal.Holds, SwVal.toSet]
    constructor
    · intro h; exact ⟨_, h, by simp [Val.lift, SSet.den]⟩
    · rintro ⟨y, hy, hm⟩
      cases y with
      | num y => simp [Val.lift, SSet.den] at hm; rw [hy, hm]
      | str y => simp [Val.lift, SSet.den] at hm

theorem switchEvents_ok {t : Tr} {vals : List SwVal} {m : Measure Asg} (hf : CasesFit c m t vals) {es : List Ev} (h : caseEvents c t [] (vals.map SwVal.toSet) = .ok es) :
    List.Forall₂ (Stands c m) es (firsts ∅ (caseSets t vals)) := by
  have e : caseSets t vals = (vals.map SwVal.toSet).map (fun S => {ω | ∃ v, t.eval ω = some v ∧ v.lift ∈ S.den}) := by
    simp only [caseSets, List.map_map]
    refine List.map_congr_left (fun v _ => ?_)
    ext ω; exact holds_toSet t ω v
  rw [e]
  cases hf with
  | real h1 h2 h3 h4 =>
    have := caseEvents_ok (k := true) (m := m) h1 (by simp) h3 (by filter_upwards [h4] with ω ⟨x, hx⟩ using ⟨_, hx, rfl⟩) (before := []) (by simp) (by
      intro T hT
      obtain ⟨v, hv, rfl⟩ := List.mem_map.1 hT
      exact ⟨⟨(h2 v hv).1, fun _ => (h2 v hv).2, by simp⟩, by simp⟩) h
    simpa using this
  | @nominal X h1 h2 h3 =>
    subst h1
    have := caseEvents_ok (k := false) (m := m) (c := c) (t := .id X) (.id X) (by simp [Tr.isId]) (Filter.Eventually.of_forall fun ω => by simp [Tr.Regular])
      (by filter_upwards [h3] with ω ⟨x, hx⟩ using ⟨.str x, by simpa [Tr.eval] using hx, rfl⟩) (before := []) (by simp) (by
      intro T hT
      obtain ⟨v, hv, rfl⟩ := List.mem_map.1 hT
      obtain ⟨b, n, hn⟩ := h2 v hv
      refine ⟨⟨b, by simp, fun _ x => ?_⟩, fun _ => ⟨n, hn⟩⟩
      rw [hn]; simp [SSet.den]) h
    simpa using this

end Sppl
