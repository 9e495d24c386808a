import Verif.Dnf.Term3Lemmas
import Verif.Dnf.Props

/-!
# Property C16: the recursion of `dnf_to_disjoint_union` terminates
-/

namespace Sppl
open Classical

/-- dnf.py 119-143 `dnf_to_disjoint_union` again, with `bot` as the outcome of a call at the bound on the
depth of the recursion (`toDisjoint` has `RecursionError` there, see `toDisjoint_eq`).  An outcome that does
not depend on `bot` is reached without a call at the bound. -/
noncomputable def toDisjointOr (bot : Ev → Res Ev) (c : Ctx) (n : ℕ) : ℕ → Ev → Res Ev
  | 0, e => bot e
  | d + 1, .or es => do
    let fs ← dnfFactor1 c (.or es)
    let sols ← fs.mapM (solveClause c n)
    let ov ← nonDisjoint c sols
    if ov.all (fun l => l.isEmpty) then .ok (.or es)
    else do
      let cl ← (es.zip ov).mapM (fun p => cascade c es p.1 p.2)
      let norm ← cl.mapM (dnfNormalize c n)
      let ss ← (norm.filterMap id).mapM (toDisjointOr bot c n d)
      reduceM (Ev.lor c) ss
  | _ + 1, e => .ok e

theorem toDisjoint_eq (c : Ctx) (n : ℕ) : ∀ (d : ℕ) (e : Ev), toDisjoint c n d e = toDisjointOr (fun _ => .error .recursion) c n d e := by
  intro d
  induction d with
  | zero => intro e; cases e <;> rfl
  | succ d ih =>
    intro e
    have : toDisjoint c n d = toDisjointOr (fun _ => .error .recursion) c n d := funext ih
    cases e <;> simp only [toDisjoint, toDisjointOr, this]

theorem mapM_congr_mem {α β : Type} {f g : α → Res β} : ∀ {l : List α}, (∀ a ∈ l, f a = g a) → l.mapM f = l.mapM g := by
  intro l
  induction l with
  | nil => intro _; rfl
  | cons a l ih =>
    intro h
    rw [List.mapM_cons, List.mapM_cons, h a (by simp), ih (fun a ha => h a (by simp [ha]))]

/-- The outcome does not depend on what happens at the bound on the depth, once the bound is at least `D`. -/
def Settles (c : Ctx) (n D : ℕ) (e : Ev) : Prop := ∃ v, ∀ bot d, D ≤ d → toDisjointOr bot c n d e = v

theorem Settles.mono {c : Ctx} {n D D' : ℕ} {e : Ev} (h : Settles c n D e) (hD : D ≤ D') : Settles c n D' e := by
  obtain ⟨v, hv⟩ := h
  exact ⟨v, fun bot d hd => hv bot d (hD.trans hd)⟩

theorem settles_nonor {c : Ctx} {n : ℕ} {e : Ev} (he : ∀ es, e ≠ .or es) : Settles c n 1 e := by
  refine ⟨.ok e, fun bot d hd => ?_⟩
  obtain ⟨d, rfl⟩ : ∃ d', d = d' + 1 := ⟨d - 1, by omega⟩
  cases e with
  | or es => exact absurd rfl (he es)
  | _ => rfl

/-- One level of the recursion. -/
theorem settles_or {c : Ctx} {n D : ℕ} {es : List Ev} (h : ∀ fs sols ov cl, dnfFactor1 c (.or es) = .ok fs → fs.mapM (solveClause c n) = .ok sols →
    nonDisjoint c sols = .ok ov → (es.zip ov).mapM (fun p => cascade c es p.1 p.2) = .ok cl → ∀ x ∈ cl, ∀ r, dnfNormalize c n x = .ok (some r) →
      Settles c n D r) : Settles c n (D + 1) (.or es) := by
  suffices hs : ∃ v, ∀ bot d, D ≤ d → toDisjointOr bot c n (d + 1) (.or es) = v by
    obtain ⟨v, hv⟩ := hs
    refine ⟨v, fun bot d hd => ?_⟩
    obtain ⟨d, rfl⟩ : ∃ d', d = d' + 1 := ⟨d - 1, by omega⟩
    exact hv bot d (by omega)
  simp only [toDisjointOr, bind, Except.bind]
  cases hfs : dnfFactor1 c (.or es) with
  | error e => exact ⟨_, fun _ _ _ => rfl⟩
  | ok fs =>
    simp only
    cases hsols : fs.mapM (solveClause c n) with
    | error e => exact ⟨_, fun _ _ _ => rfl⟩
    | ok sols =>
      simp only
      cases hov : nonDisjoint c sols with
      | error e => exact ⟨_, fun _ _ _ => rfl⟩
      | ok ov =>
        simp only
        by_cases hall : (ov.all fun l => l.isEmpty) = true
        · simp only [hall, if_true]; exact ⟨_, fun _ _ _ => rfl⟩
        · simp only [hall, Bool.false_eq_true, if_false]
          cases hcl : (es.zip ov).mapM (fun p => cascade c es p.1 p.2) with
          | error e => exact ⟨_, fun _ _ _ => rfl⟩
          | ok cl =>
            simp only
            cases hnorm : cl.mapM (dnfNormalize c n) with
            | error e => exact ⟨_, fun _ _ _ => rfl⟩
            | ok norm =>
              simp only
              have hr : ∀ r ∈ norm.filterMap id, Settles c n D r := by
                intro r hr
                obtain ⟨o, ho, hor⟩ := List.mem_filterMap.1 hr
                simp at hor; subst hor
                obtain ⟨x, hx, hxo⟩ := forall₂_mem_right (mapM_ok hnorm) ho
                exact h fs sols ov cl hfs hsols hov hcl x hx r hxo
              let f : Ev → Res Ev := fun r => if h : Settles c n D r then h.choose else .error .recursion
              have hf : ∀ bot d, D ≤ d → (norm.filterMap id).mapM (toDisjointOr bot c n d) = (norm.filterMap id).mapM f := by
                intro bot d hd
                refine mapM_congr_mem (fun r hr' => ?_)
                have hS := hr r hr'
                simp only [f, dif_pos hS]
                exact hS.choose_spec bot d hd
              refine ⟨match (norm.filterMap id).mapM f with
                | .error e => .error e
                | .ok ss => reduceM (Ev.lor c) ss, fun bot d hd => ?_⟩
              rw [hf bot d hd]
              cases (norm.filterMap id).mapM f <;> rfl

/-- Events about plain variables: a bound on the depth is the number of distinguishable cells. -/
theorem settles_ends {c : Ctx} (hc : c.Correct) {n : ℕ} {V : Finset String} {A : Finset EReal} {B : Finset String} (hb : ⊥ ∈ A) (ht : ⊤ ∈ A) :
    ∀ (k : ℕ) {e : Ev}, e.IsDnf → e.Valid → e.All (EndLit V A B) → weight V A B e ≤ k → Settles c n (k + 2) e := by
  intro k
  induction k with
  | zero =>
    intro e hd hv hE hw
    cases e with
    | or es =>
      refine settles_or (fun fs sols ov cl hfs hsols hov hcl x hx r hxr => ?_)
      obtain ⟨h1, h2, h3, h4 | h4⟩ := disj_step hc hb ht hd hv hE hfs hsols hov hcl hx hxr
      · exact settles_nonor (by rintro es rfl; exact h4)
      · omega
    | _ => exact (settles_nonor (by simp)).mono (by omega)
  | succ k ih =>
    intro e hd hv hE hw
    cases e with
    | or es =>
      refine settles_or (fun fs sols ov cl hfs hsols hov hcl x hx r hxr => ?_)
      obtain ⟨h1, h2, h3, h4 | h4⟩ := disj_step hc hb ht hd hv hE hfs hsols hov hcl hx hxr
      · exact (settles_nonor (by rintro es rfl; exact h4)).mono (by omega)
      · exact ih h1 h2 h3 (by omega)
    | _ => exact (settles_nonor (by simp)).mono (by omega)

theorem EndLit.mono {V V' : Finset String} {A A' : Finset EReal} {B B' : Finset String} (hV : V ⊆ V') (hA : A ⊆ A') (hB : B ⊆ B') {l : Ev}
    (h : EndLit V A B l) : EndLit V' A' B' l := by
  obtain ⟨h1, k, hk, h2, h3⟩ := h
  refine ⟨h1, k, hV hk, h2, ?_⟩
  cases hS : l.values with
  | empty => trivial
  | un u => exact absurd hS (Ev.values_not_un l u)
  | pc p =>
    rw [hS] at h3
    cases p with
    | nom n => exact Finset.Subset.trans h3 hB
    | fin s => exact Finset.Subset.trans h3 hA
    | ivl i => exact ⟨hA h3.1, hA h3.2⟩

theorem all_list {P : ℕ → Ev → Prop} (hmono : ∀ i j l, i ≤ j → P i l → P j l) : ∀ es : List Ev, (∀ e ∈ es, ∃ i, e.All (P i)) → ∃ i, ∀ e ∈ es, e.All (P i) := by
  intro es
  induction es with
  | nil => intro _; exact ⟨0, by simp⟩
  | cons e es ih =>
    intro h
    obtain ⟨i, hi⟩ := h e (by simp)
    obtain ⟨j, hj⟩ := ih (fun e he => h e (by simp [he]))
    refine ⟨max i j, fun x hx => ?_⟩
    rcases List.mem_cons.1 hx with rfl | hx
    · exact hi.mono (fun l _ _ h => hmono _ _ _ (le_max_left _ _) h)
    · exact (hj x hx).mono (fun l _ _ h => hmono _ _ _ (le_max_right _ _) h)

/-- Every event about plain variables has finitely many variables, end points and strings. -/
theorem exists_ends : ∀ e : Ev, e.Valid → e.All VarLit → ∃ V A B, e.All (EndLit V A B) := by
  have lst : ∀ es : List Ev, (∀ e ∈ es, ∃ V A B, e.All (EndLit V A B)) → ∃ V A B, ∀ e ∈ es, e.All (EndLit V A B) := by
    intro es
    induction es with
    | nil => intro _; exact ⟨∅, ∅, ∅, by simp⟩
    | cons e es ih =>
      intro h
      obtain ⟨V, A, B, h1⟩ := h e (by simp)
      obtain ⟨V', A', B', h2⟩ := ih (fun e he => h e (by simp [he]))
      refine ⟨V ∪ V', A ∪ A', B ∪ B', fun x hx => ?_⟩
      rcases List.mem_cons.1 hx with rfl | hx
      · exact h1.mono (fun l _ _ h => h.mono Finset.subset_union_left Finset.subset_union_left Finset.subset_union_left)
      · exact (h2 x hx).mono (fun l _ _ h => h.mono Finset.subset_union_right Finset.subset_union_right Finset.subset_union_right)
  refine Ev.ind ?_ ?_ ?_
  · intro e t ht hv he
    obtain ⟨k, hk⟩ := (Ev.all_lit ht).1 he
    have key : ∃ A B, e.values.Ends A B := by
      cases hS : e.values with
      | empty => exact ⟨∅, ∅, trivial⟩
      | un u => exact absurd hS (Ev.values_not_un e u)
      | pc p =>
        cases p with
        | nom n => exact ⟨∅, n.vals, Finset.Subset.refl _⟩
        | fin s => exact ⟨s, ∅, Finset.Subset.refl _⟩
        | ivl i => exact ⟨{i.a, i.b}, ∅, by simp [SSet.Ends, Piece.Ends]⟩
    obtain ⟨A, B, hAB⟩ := key
    exact ⟨{k}, A, B, .lit ht ⟨hv, k, by simp, hk, hAB⟩⟩
  · intro es ih hv he
    cases hv with
    | or _ hes =>
      obtain ⟨V, A, B, h⟩ := lst es (fun e hm => ih e hm (hes e hm) (Ev.all_or.1 he e hm))
      exact ⟨V, A, B, Ev.all_or.2 h⟩
  · intro es ih hv he
    cases hv with
    | and _ hes =>
      obtain ⟨V, A, B, h⟩ := lst es (fun e hm => ih e hm (hes e hm) (Ev.all_and.1 he e hm))
      exact ⟨V, A, B, Ev.all_and.2 h⟩

theorem settles_vars {c : Ctx} (hc : c.Correct) {n : ℕ} {e : Ev} (hd : e.IsDnf) (hv : e.Valid) (he : e.All VarLit) : ∃ D, Settles c n D e := by
  obtain ⟨V, A, B, h⟩ := exists_ends e hv he
  exact ⟨_, settles_ends hc (A := insert ⊥ (insert ⊤ A)) (by simp) (by simp) _ hd hv
    (h.mono (fun l _ _ h => h.mono (Finset.Subset.refl V) (by intro x hx; simp [hx]) (Finset.Subset.refl B))) le_rfl⟩

/-- C16, termination: for every event in DNF, in any number of variables, transformed or not, the recursion of
`dnf_to_disjoint_union` ends: from some depth on, the outcome does not depend on the bound on the depth, nor
on what a call at the bound would do. -/
theorem C16_terminates {c : Ctx} (hc : c.Correct) {n : ℕ} {e : Ev} (he : e.IsDnf) (hm : e.Made c) (hn : e.All NomId) :
    ∃ D v, ∀ bot d, D ≤ d → toDisjointOr bot c n d e = v ∧ toDisjoint c n d e = v := by
  suffices hs : ∃ D, Settles c n D e by
    obtain ⟨D, v, hv⟩ := hs
    exact ⟨D, v, fun bot d hd => ⟨hv bot d hd, by rw [toDisjoint_eq]; exact hv _ d hd⟩⟩
  cases e with
  | or es =>
    -- the recursive calls are on events about plain variables
    have hes : ∀ e ∈ es, e.Made c ∧ e.All NomId := by
      intro e he
      have h1 := Ev.made_all.1 hm
      refine ⟨Ev.made_all.2 ⟨?_, Ev.all_or.1 h1.2 e he⟩, Ev.all_or.1 hn e he⟩
      cases h1.1 with
      | or _ hv => exact hv e he
    have key : ∀ ov cl, (es.zip ov).mapM (fun p => cascade c es p.1 p.2) = .ok cl → ∃ D, ∀ x ∈ cl, ∀ r, dnfNormalize c n x = .ok (some r) → Settles c n D r := by
      intro ov cl hcl
      have hx : ∀ x ∈ cl, ∃ D, ∀ r, dnfNormalize c n x = .ok (some r) → Settles c n D r := by
        intro x hx
        obtain ⟨p, hp, hpx⟩ := forall₂_mem_right (mapM_ok hcl) hx
        have he' := hes p.1 (List.of_mem_zip (a := p.1) (b := p.2) hp).1
        obtain ⟨h1, h2, -⟩ := cascade_ok hes p.2 he'.1 he'.2 hpx
        cases hr : dnfNormalize c n x with
        | error e => exact ⟨0, by simp⟩
        | ok o =>
          cases o with
          | none => exact ⟨0, by simp⟩
          | some r =>
            have hno := ((dnfNormalize_ok hc h1 hr).2 r rfl).1
            obtain ⟨D, hD⟩ := settles_vars hc (n := n) hno.dnf (Ev.Made.valid _ hno.made) (hno.vars.mono (fun _ _ _ ⟨k, _, hk⟩ => ⟨k, hk⟩))
            refine ⟨D, fun r' hr' => ?_⟩
            cases hr'; exact hD
      clear hcl
      induction cl with
      | nil => exact ⟨0, by simp⟩
      | cons x cl ih =>
        obtain ⟨D, hD⟩ := hx x (by simp)
        obtain ⟨D', hD'⟩ := ih (fun x hx' => hx x (by simp [hx']))
        refine ⟨max D D', fun y hy r hr => ?_⟩
        rcases List.mem_cons.1 hy with rfl | hy
        · exact (hD r hr).mono (le_max_left _ _)
        · exact (hD' y hy r hr).mono (le_max_right _ _)
    by_cases hok : ∃ fs sols ov cl, dnfFactor1 c (.or es) = .ok fs ∧ fs.mapM (solveClause c n) = .ok sols ∧ nonDisjoint c sols = .ok ov ∧
        (es.zip ov).mapM (fun p => cascade c es p.1 p.2) = .ok cl
    · obtain ⟨fs, sols, ov, cl, h1, h2, h3, h4⟩ := hok
      obtain ⟨D, hD⟩ := key ov cl h4
      refine ⟨D + 1, settles_or (fun fs' sols' ov' cl' h1' h2' h3' h4' => ?_)⟩
      rw [h1] at h1'; cases h1'
      rw [h2] at h2'; cases h2'
      rw [h3] at h3'; cases h3'
      rw [h4] at h4'; cases h4'
      exact hD
    · exact ⟨1, settles_or (D := 0) (fun fs sols ov cl h1 h2 h3 h4 => absurd ⟨fs, sols, ov, cl, h1, h2, h3, h4⟩ hok)⟩
  | _ => exact ⟨1, settles_nonor (by simp)⟩

/-- C16, termination on normalized events: the outcome at any large enough depth is the same. -/
theorem C16_terminates_normalized {c : Ctx} (hc : c.Correct) {n : ℕ} {e : Ev} (he : e.IsDnf) (hv : e.Valid) (hvars : e.VarsOnly) :
    ∃ D v, ∀ bot d, D ≤ d → toDisjointOr bot c n d e = v ∧ toDisjoint c n d e = v :=
  C16_terminates hc he (varsOnly_made hv hvars).1 (varsOnly_made (c := c) hv hvars).2.1

/-- C16 non-vacuity: an event with overlapping clauses, with the same outcome at every depth from two on. -/
example : overlapE.IsDnf ∧ overlapE.Valid ∧ overlapE.VarsOnly ∧ ∀ d, 2 ≤ d → toDisjoint ctx0 5 d overlapE = .ok overlapR := by
  refine ⟨by simp [overlapE, Ev.IsDnf, Ev.IsClause, nomE], .or (by simp) ?_, by simp [overlapE, nomE, Ev.VarsOnly, Ev.VarsOnlyL, Ev.OnVar], fun d hd => ?_⟩
  · intro e he
    simp at he
    rcases he with rfl | rfl <;> exact nomE_valid _ _
  · obtain ⟨d, rfl⟩ : ∃ d', d = d' + 2 := ⟨d - 2, by omega⟩
    exact overlap_disjoint d

end Sppl
