import Verif.Dnf.Total3Lemmas
import Verif.Dnf.Props

/-!
# C07, C14, C16: operations on events about plain variables do not raise

`Ev.Simple Q e` (`Verif/Dnf/TotalSpec.lean`): `e` is a Boolean combination of events `X in S` about plain
variables, where the numbers that describe `S` are finite and satisfy `Q X`.
-/

namespace Sppl

/-- The literals of a simple event, and back. -/
theorem Ev.simple_iff {Q : String → EReal → Prop} : ∀ e : Ev, e.Simple Q ↔ e.Valid ∧ e.All (PlainLit Q) := by
  intro e
  refine ⟨fun h => h.all, ?_⟩
  revert e
  refine Ev.ind ?_ ?_ ?_
  · rintro e t ht ⟨hv, ha⟩
    obtain ⟨-, k, hk, hw⟩ := (Ev.all_lit ht).1 ha
    cases e with
    | or => simp [Ev.basic?] at hk
    | and => simp [Ev.basic?] at hk
    | ivl t i => simp [Ev.basic?] at hk; subst hk; cases hv with | ivl h => exact .ivl h hw
    | fin t v =>
      simp [Ev.basic?] at hk; subst hk
      cases hv with
      | fin h => cases v with
        | none => exact .finEmpty
        | some s => exact .fin (h s rfl) hw
    | nom t v =>
      simp [Ev.basic?] at hk; subst hk
      cases hv with
      | nom h => cases v with
        | none => exact .nomEmpty
        | some s => exact .nom (h s rfl)
  · rintro es ih ⟨hv, ha⟩
    cases hv with
    | or hne hes => exact .or hne (fun e he => ih e he ⟨hes e he, Ev.all_or.1 ha e he⟩)
  · rintro es ih ⟨hv, ha⟩
    cases hv with
    | and hne hes => exact .and hne (fun e he => ih e he ⟨hes e he, Ev.all_and.1 ha e he⟩)

/-- **C07 (`e & f` and `e | f` return).** For simple events the operators `&` and `|` return, and the result is
simple with respect to the same requirement on numbers. -/
theorem C07_total (c : Ctx) {Q : String → EReal → Prop} {e f : Ev} (he : e.Simple Q) (hf : f.Simple Q) :
    (∃ g, e.land c f = .ok g ∧ g.Simple Q) ∧ ∃ g, e.lor c f = .ok g ∧ g.Simple Q := by
  obtain ⟨ev, ea⟩ := he.all
  obtain ⟨fv, fa⟩ := hf.all
  constructor
  · obtain ⟨g, hg⟩ := Ev.land_total c ev fv
    exact ⟨g, hg, (Ev.simple_iff g).2 ⟨(Ev.land_spec ev fv hg).1, Ev.land_all plainLit_and ea fa hg⟩⟩
  · obtain ⟨g, hg⟩ := Ev.lor_total c ev fv
    exact ⟨g, hg, (Ev.simple_iff g).2 ⟨(Ev.lor_spec ev fv hg).1, Ev.lor_all plainLit_or ea fa hg⟩⟩

/-- **C07 (`~e` returns).** For a simple event without a basic event `X in {}` over strings, `~e` returns a simple
event. -/
theorem C07_not_total (c : Ctx) {Q : String → EReal → Prop} {e : Ev} (he : e.Simple Q) (hn : e.All (fun l => ∀ t, l ≠ .nom t none)) :
    ∃ g, e.not c = .ok g ∧ g.Simple Q := by
  obtain ⟨ev, ea⟩ := he.all
  obtain ⟨g, hg⟩ := not_total (c := c) e ev ((ea.and' hn).mono (fun l t _ h => not_lit_total c h.1 h.2))
  exact ⟨g, hg, (Ev.simple_iff g).2 ⟨(Ev.not_spec e ev hg).1, not_plain ea hg⟩⟩

/-- `~` raises on the event `X in {}` over strings, which `~` itself returns for `X in {all strings}`. -/
theorem C07_not_not_raises (c : Ctx) : (Ev.nom (.id "X") (some ⟨∅, some true⟩)).not c = .ok (.nom (.id "X") none) ∧
    (Ev.nom (.id "X") none).not c = .error .assertion := ⟨rfl, rfl⟩

/-- **C14 (`dnf_normalize` returns).** For a simple event `dnf_normalize` returns, the result does not depend on the
step bound of the model, and is a simple event when there is one. -/
theorem C14_total {c : Ctx} (hc : c.Correct) {Q : String → EReal → Prop} {e : Ev} (he : e.Simple Q) :
    ∃ o, (∀ n, dnfNormalize c n e = .ok o) ∧ ∀ r, o = some r → r.Simple Q := by
  obtain ⟨ev, ea⟩ := he.all
  obtain ⟨o, h1, h2⟩ := dnfNormalize_total hc ev ea
  refine ⟨o, h1, fun r hr => ?_⟩
  rcases h2 r hr with h | ⟨rfl, -⟩
  · exact (Ev.simple_iff r).2 ⟨h.valid, full_plain h.full⟩
  · exact he

/-- **C16 (`dnf_to_disjoint_union` returns).** What `dnf_normalize` returns for a simple event can be cut into disjoint
clauses: from some recursion depth on, the function returns a simple event. -/
theorem C16_total {c : Ctx} (hc : c.Correct) {Q : String → EReal → Prop} {e r : Ev} (he : e.Simple Q) {n : ℕ} (hr : dnfNormalize c n e = .ok (some r)) :
    ∃ D, ∀ n d, D ≤ d → ∃ g, toDisjoint c n d r = .ok g ∧ g.Simple Q := by
  obtain ⟨ev, ea⟩ := he.all
  obtain ⟨o, h1, h2⟩ := dnfNormalize_total hc ev ea
  rw [h1 n] at hr; cases hr
  have key : ∀ {r : Ev}, r.IsDnf → r.Valid → r.All (PlainLit Q) → (NormTotal Q r ∨ ∀ es, r ≠ .or es) → ∃ D, ∀ n d, D ≤ d → ∃ g, toDisjoint c n d r = .ok g ∧ g.Simple Q := by
    intro r a1 a2 a3 a4
    obtain ⟨D, hD⟩ := toDisjoint_total hc a1 a2 a3 a4
    refine ⟨D, fun n d hd => ?_⟩
    obtain ⟨g, hg, h⟩ := hD n d hd
    exact ⟨g, hg, (Ev.simple_iff g).2 h⟩
  rcases h2 r rfl with h | ⟨rfl, h⟩
  · exact key h.dnf h.valid (full_plain h.full) (Or.inl h)
  · refine key ?_ ev ea (Or.inr ?_)
    · cases r <;> trivial
    · rintro es rfl; simp [Ev.isIdLit, Ev.basic?] at h

/-- The hypotheses are met: `((X < 1/2) | (Y in {3})) & ~(Z in {'a'})`, with the requirement that `Y` is only compared
with whole numbers. -/
example : (Ev.and [.or [.ivl (.id "X") ⟨⊥, ((1 / 2 : ℝ) : EReal), true, true⟩, .fin (.id "Y") (some {((3 : ℝ) : EReal)})],
    .nom (.id "Z") (some ⟨{"a"}, some true⟩)]).Simple (fun k x => k = "Y" → ∃ m : ℤ, x = ((m : ℝ) : EReal)) ∧
    (Ev.and [.or [.ivl (.id "X") ⟨⊥, ((1 / 2 : ℝ) : EReal), true, true⟩, .fin (.id "Y") (some {((3 : ℝ) : EReal)})],
      .nom (.id "Z") (some ⟨{"a"}, some true⟩)]).All (fun l => ∀ t, l ≠ .nom t none) := by
  refine ⟨.and (by simp) ?_, Ev.all_and.2 ?_⟩
  · intro e he
    simp only [List.mem_cons, List.not_mem_nil, or_false] at he
    rcases he with rfl | rfl
    · refine .or (by simp) ?_
      intro e he
      simp only [List.mem_cons, List.not_mem_nil, or_false] at he
      rcases he with rfl | rfl
      · exact .ivl ⟨EReal.bot_lt_coe _, by simp, by simp⟩ ⟨by simp, by simp⟩
      · refine .fin (by simp) ?_
        intro x hx
        simp only [Finset.mem_singleton] at hx
        subst hx
        exact ⟨EReal.coe_ne_bot _, EReal.coe_ne_top _, fun _ => ⟨3, by norm_num⟩⟩
    · exact .nom (by simp [Nom.WF])
  · intro e he
    simp only [List.mem_cons, List.not_mem_nil, or_false] at he
    rcases he with rfl | rfl
    · refine Ev.all_or.2 ?_
      intro e he
      simp only [List.mem_cons, List.not_mem_nil, or_false] at he
      rcases he with rfl | rfl <;> exact .lit rfl (by simp)
    · exact .lit rfl (by simp)

end Sppl
