import Verif.Interp.AgainModel
import Verif.Interp.Lemmas

set_option linter.all false

/-!
# Commands that are interpreted more than once: lemmas
-/

namespace Sppl
open Classical

/-- The subcommands on the SPEs of their branches. -/
def runSlots : List Run → List (Option Spe) → Res (List Spe)
  | [], _ => .ok []
  | _ :: _, [] => .ok []
  | _ :: rs, none :: ss => runSlots rs ss
  | r :: rs, some s :: ss => do
    let t ← runSome r s
    let ts ← runSlots rs ss
    .ok (t :: ts)

/-- The branches of positive probability. -/
noncomputable def goodOf (events : List (Option Ev)) (rs : List Run) (ps : List ℝ) : List ((Option Ev × Run) × ℝ) := ((events.zip rs).zip ps).filter (fun q => q.2 ≠ 0)

theorem goodOf_snd : ∀ (events : List (Option Ev)) (rs : List Run) (ps : List ℝ), events.length = rs.length → events.length = ps.length →
    (goodOf events rs ps).map Prod.snd = ps.filter (fun p => p ≠ 0)
  | [], _, [], _, _ => by simp [goodOf]
  | e :: events, r :: rs, p :: ps, h1, h2 => by
    have ih := goodOf_snd events rs ps (by simpa using h1) (by simpa using h2)
    simp only [goodOf, List.zip_cons_cons] at ih ⊢
    by_cases hp : p = 0
    · rw [List.filter_cons_of_neg (by simp [hp]), List.filter_cons_of_neg (by simp [hp]), ih]
    · rw [List.filter_cons_of_pos (by simp [hp]), List.filter_cons_of_pos (by simp [hp]), List.map_cons, ih]

theorem goodOf_cond (o : Opts) (s : Spe) : ∀ (events : List (Option Ev)) (rs : List Run) (ps : List ℝ), events.length = rs.length → events.length = ps.length →
    (goodOf events rs ps).mapM (fun q => optCond o s q.1.1) = ((events.zip ps).mapM (branchSlot o s)).map (List.filterMap id)
  | [], _, [], _, _ => by simp [goodOf, pure, Except.pure, Except.map]
  | e :: events, r :: rs, p :: ps, h1, h2 => by
    have ih := goodOf_cond o s events rs ps (by simpa using h1) (by simpa using h2)
    simp only [goodOf, List.zip_cons_cons] at ih ⊢
    by_cases hp : p = 0
    · rw [List.filter_cons_of_neg (by simp [hp]), ih, List.mapM_cons]
      simp only [branchSlot, hp, if_true, bind, Except.bind, pure, Except.pure]
      cases (events.zip ps).mapM (branchSlot o s) <;> simp_all [Except.map, branchSlot, bind, Except.bind]
    · rw [List.filter_cons_of_pos (by simp [hp]), List.mapM_cons, ih, List.mapM_cons]
      have hb : branchSlot o s (e, p) = (optCond o s e).map some := by
        simp only [branchSlot, hp, if_false, bind, Except.bind, Except.map]
      rw [hb]
      cases optCond o s e <;> cases (events.zip ps).mapM (branchSlot o s) <;> simp [Except.map, bind, Except.bind, pure, Except.pure]

theorem goodOf_run (o : Opts) (s : Spe) : ∀ (events : List (Option Ev)) (rs : List Run) (ps : List ℝ) (slots : List (Option Spe)), events.length = rs.length → events.length = ps.length →
    (events.zip ps).mapM (branchSlot o s) = .ok slots →
    ((goodOf events rs ps).zip (slots.filterMap id)).mapM (fun q => runSome q.1.1.2 q.2) = runSlots rs slots
  | [], [], [], slots, _, _, h => by simp [goodOf, runSlots, pure, Except.pure]
  | e :: events, r :: rs, p :: ps, slots, h1, h2, h => by
    rw [List.zip_cons_cons, List.mapM_cons] at h
    cases hb : branchSlot o s (e, p) with
    | error x => simp [hb, bind, Except.bind] at h
    | ok u =>
      cases hm : (events.zip ps).mapM (branchSlot o s) with
      | error x => simp [hb, hm, bind, Except.bind] at h
      | ok slots' =>
        simp [hb, hm, bind, Except.bind, pure, Except.pure] at h
        subst h
        have ih := goodOf_run o s events rs ps slots' (by simpa using h1) (by simpa using h2) hm
        simp only [goodOf, List.zip_cons_cons] at ih ⊢
        by_cases hp : p = 0
        · have : u = none := by simp [branchSlot, hp] at hb; exact hb.symm
          subst this
          rw [List.filter_cons_of_neg (by simp [hp])]
          simpa [runSlots] using ih
        · obtain ⟨t, rfl⟩ : ∃ t, u = some t := by
            simp only [branchSlot, hp, if_false, bind, Except.bind] at hb
            cases hq : optCond o s e <;> simp [hq] at hb
            exact ⟨_, hb.symm⟩
          rw [List.filter_cons_of_pos (by simp [hp])]
          have hf : (some t :: slots').filterMap id = t :: slots'.filterMap id := by simp
          rw [hf, List.zip_cons_cons, List.mapM_cons, ih]
          rfl

theorem mapM_len {α β : Type} {f : α → Res β} : ∀ {l : List α} {r : List β}, l.mapM f = .ok r → l.length = r.length
  | [], r, h => by simp [pure, Except.pure] at h; simp [h]
  | a :: l, r, h => by
    rw [List.mapM_cons] at h
    cases h1 : f a with
    | error x => simp [h1, bind, Except.bind] at h
    | ok b =>
      cases h2 : l.mapM f with
      | error x => simp [h1, h2, bind, Except.bind] at h
      | ok r' =>
        simp [h1, h2, bind, Except.bind, pure, Except.pure] at h
        simp [← h, mapM_len h2]

/-- `interpret_if_block` in two steps. -/
theorem ifBlock_slots (o : Opts) (s : Spe) (events : List (Option Ev)) (rs : List Run) :
    ifBlock o s events rs = (match branchSlots o s events rs.length with
      | .error x => .error x
      | .ok q => match runSlots rs q.2 with
        | .error x => .error x
        | .ok ts => mergeBranches o q.1 ts) := by
  unfold ifBlock branchSlots
  by_cases hlen : events.length = rs.length
  · simp only [ne_eq, hlen, not_true_eq_false, if_false]
    cases hps : events.mapM (optProb o s) with
    | error x => simp [bind, Except.bind]
    | ok ps =>
      have hl := mapM_len hps
      have e1 := goodOf_snd events rs ps hlen hl
      have e2 := goodOf_cond o s events rs ps hlen hl
      have hnil : goodOf events rs ps = [] ↔ ps.filter (fun p => p ≠ 0) = [] := by rw [← e1]; simp
      simp only [bind, Except.bind]
      have hgd : List.filter (fun q => decide ¬q.2 = 0) ((events.zip rs).zip ps) = goodOf events rs ps := rfl
      have hfd : List.filter (fun p => decide (p ≠ 0)) ps = List.filter (fun p => decide ¬p = 0) ps := rfl
      rw [hgd, e1, hfd]
      rw [hfd] at hnil
      by_cases hg : goodOf events rs ps = []
      · rw [if_pos hg, if_pos (hnil.1 hg)]
      · rw [if_neg hg, if_neg (fun h => hg (hnil.2 h)), e2]
        cases hm : (events.zip ps).mapM (branchSlot o s) with
        | error x => simp [Except.map]
        | ok slots =>
          have e3 := goodOf_run o s events rs ps slots hlen hl hm
          simp only [Except.map]
          rw [e3]
          by_cases hs : (ps.filter (fun p => ¬p = 0)).sum = 1
          · rw [if_neg (not_not.2 hs), if_neg (not_not.2 hs)]
            dsimp only
            cases runSlots rs slots <;> rfl
          · rw [if_pos hs, if_pos hs]
  · simp only [ne_eq, hlen, not_false_eq_true, if_true]

theorem plainL_length : ∀ cmds : List CmdO, (CmdO.plainL cmds).length = cmds.length
  | [] => rfl
  | m :: ms => by simp [CmdO.plainL, plainL_length ms]

theorem interpL_length (o : Opts) : ∀ cmds : List Cmd, (Cmd.interpL o cmds).length = cmds.length
  | [] => rfl
  | m :: ms => by simp [Cmd.interpL, interpL_length o ms]

mutual
/-- A new object gives what `Cmd.interp` says. -/
theorem run_first (o : Opts) : ∀ (m : CmdO) (s : Option Spe), (m.run o s).1 = m.plain.interp o s
  | .base m, s => by simp [CmdO.run, CmdO.plain]
  | .ifelse conds els cmds, none => by simp [CmdO.run, CmdO.plain, Cmd.interp, needSpe]
  | .ifelse conds els cmds, some s => by
    simp only [CmdO.run, CmdO.plain, Cmd.interp, needSpe, ifPlan, bind, Except.bind]
    cases ifEvents o.c conds els with
    | error x => rfl
    | ok es =>
      dsimp only
      cases es.mapM (dnfNormalize o.c o.n) with
      | error x => rfl
      | ok ds =>
        dsimp only
        rw [ifBlock_slots, interpL_length, plainL_length]
        cases branchSlots o s ds cmds.length with
        | error x => rfl
        | ok q =>
          dsimp only
          rw [branches_first o cmds q.2]
          cases runSlots (Cmd.interpL o (CmdO.plainL cmds)) q.2 <;> rfl
  | .forr n0 n1 f, s => by
    simp only [CmdO.run, CmdO.plain, Cmd.interp]
    congr 1
    funext s i
    exact run_first o (f i) s
  | .switch k t vals cmds, s => by
    have hlen : (Cmd.interpL o (k.calls (CmdO.plainL cmds))).length = (k.calls cmds).length := by
      cases k <;> simp [interpL_length, plainL_length, Given.calls, Cmd.interpL]
    have hlen' : (k.calls (CmdO.plainL cmds)).length = (k.calls cmds).length := by rw [← hlen, interpL_length]
    simp only [CmdO.run, CmdO.plain, Cmd.interp, switchPlan, bind, Except.bind]
    cases caseEvents o.c t [] (vals.map SwVal.toSet) with
    | error x => rfl
    | ok es =>
      dsimp only
      cases s with
      | none => simp only [hlen']
      | some s =>
        dsimp only
        rw [ifBlock_slots, hlen]
        cases hb : branchSlots o s (es.map some) (k.calls cmds).length with
        | error x => rfl
        | ok q =>
          dsimp only
          cases k with
          | list =>
            simp only [Given.calls]
            rw [branches_first o cmds q.2]
            cases runSlots (Cmd.interpL o (CmdO.plainL cmds)) q.2 <;> rfl
          | enum =>
            simp only [Given.calls]
            rw [branches_first o cmds q.2]
            cases runSlots (Cmd.interpL o (CmdO.plainL cmds)) q.2 <;> rfl
          | iter =>
            simp only [Given.calls, Cmd.interpL, runSlots]
            rfl
  | .seq cmds, s => by
    simp only [CmdO.run, CmdO.plain, Cmd.interp]
    exact seq_first o cmds s
theorem branches_first (o : Opts) : ∀ (ms : List CmdO) (ss : List (Option Spe)), (CmdO.runBranches o ms ss).1 = runSlots (Cmd.interpL o (CmdO.plainL ms)) ss
  | [], ss => by simp [CmdO.runBranches, CmdO.plainL, Cmd.interpL, runSlots]
  | m :: ms, [] => by simp [CmdO.runBranches, CmdO.plainL, Cmd.interpL, runSlots]
  | m :: ms, none :: ss => by simp [CmdO.runBranches, CmdO.plainL, Cmd.interpL, runSlots, branches_first o ms ss]
  | m :: ms, some s :: ss => by
    have h1 := run_first o m (some s)
    have h2 := branches_first o ms ss
    simp only [CmdO.runBranches, CmdO.plainL, Cmd.interpL, runSlots, runSome, bind, Except.bind]
    rw [← h1, ← h2]
    cases (CmdO.run o m (some s)).1 with
    | error x => rfl
    | ok r => cases r <;> cases (CmdO.runBranches o ms ss).1 <;> rfl
theorem seq_first (o : Opts) : ∀ (ms : List CmdO) (s : Option Spe), (CmdO.runSeq o ms s).1 = (Cmd.interpL o (CmdO.plainL ms)).foldlM (fun s r => r s) s
  | [], s => by simp [CmdO.runSeq, CmdO.plainL, Cmd.interpL, pure, Except.pure]
  | m :: ms, s => by
    have h1 := run_first o m s
    simp only [CmdO.runSeq, CmdO.plainL, Cmd.interpL, List.foldlM_cons, bind, Except.bind]
    rw [← h1]
    cases (CmdO.run o m s).1 with
    | error x => rfl
    | ok r => exact seq_first o ms r
end

end Sppl
