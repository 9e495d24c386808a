import Verif.Interp.AgainLemmas
import Verif.Interp.BinProps

set_option linter.all false

/-!
# C62: interpreting a command again
-/

namespace Sppl
open Classical MeasureTheory

mutual
/-- No iterator is given to a `Switch` as its values, except in commands that the function of a `For` or of a `Switch` makes. -/
def CmdO.Reusable : CmdO → Prop
  | .base _ => True
  | .ifelse _ _ cmds => CmdO.ReusableL cmds
  | .forr _ _ _ => True
  | .switch k _ _ _ => k = .list
  | .seq cmds => CmdO.ReusableL cmds
/-- See `CmdO.Reusable`. -/
def CmdO.ReusableL : List CmdO → Prop
  | [] => True
  | m :: ms => m.Reusable ∧ CmdO.ReusableL ms
end

/-- **C62 (the first time).** A new object does what `Cmd.interp`, about which C28-C31 and C52 are, says; an iterator that is not `enumerate` counts as one without subcommands. -/
theorem C62_first (o : Opts) (m : CmdO) (s : Option Spe) : (m.run o s).1 = m.plain.interp o s := run_first o m s

mutual
/-- **C62 (nothing changes).** A command without iterators is the same object after it was interpreted, also if that raised. -/
theorem C62_unchanged (o : Opts) : ∀ (m : CmdO), m.Reusable → ∀ s, (m.run o s).2 = m
  | .base m, _, s => by simp [CmdO.run]
  | .ifelse conds els cmds, h, none => by simp [CmdO.run]
  | .ifelse conds els cmds, h, some s => by
    simp only [CmdO.run]
    cases ifPlan o s conds els cmds.length with
    | error x => rfl
    | ok q =>
      dsimp only
      rw [branches_unchanged o cmds (by simpa [CmdO.Reusable] using h) q.2]
  | .forr n0 n1 f, _, s => by simp [CmdO.run]
  | .switch k t vals cmds, h, s => by
    have hk : k = .list := by simpa [CmdO.Reusable] using h
    subst hk
    simp only [CmdO.run, CmdO.afterwards]
    cases switchPlan o s t vals (Given.list.calls cmds).length <;> rfl
  | .seq cmds, h, s => by
    simp only [CmdO.run]
    rw [seq_unchanged o cmds (by simpa [CmdO.Reusable] using h) s]
/-- The subcommands do not change. -/
theorem branches_unchanged (o : Opts) : ∀ (ms : List CmdO), CmdO.ReusableL ms → ∀ ss, (CmdO.runBranches o ms ss).2 = ms
  | [], _, ss => by simp [CmdO.runBranches]
  | m :: ms, _, [] => by simp [CmdO.runBranches]
  | m :: ms, h, none :: ss => by
    simp only [CmdO.runBranches]
    rw [branches_unchanged o ms (by simp [CmdO.ReusableL] at h; exact h.2) ss]
  | m :: ms, h, some s :: ss => by
    simp only [CmdO.ReusableL] at h
    have h1 := C62_unchanged o m h.1 (some s)
    have h2 := branches_unchanged o ms h.2 ss
    simp only [CmdO.runBranches]
    cases (CmdO.run o m (some s)).1 with
    | error x => dsimp only; rw [h1]
    | ok r => cases r <;> dsimp only <;> simp only [h1, h2]
/-- The commands of a sequence do not change. -/
theorem seq_unchanged (o : Opts) : ∀ (ms : List CmdO), CmdO.ReusableL ms → ∀ s, (CmdO.runSeq o ms s).2 = ms
  | [], _, s => by simp [CmdO.runSeq]
  | m :: ms, h, s => by
    simp only [CmdO.ReusableL] at h
    have h1 := C62_unchanged o m h.1 s
    simp only [CmdO.runSeq]
    cases (CmdO.run o m s).1 with
    | error x => dsimp only; rw [h1]
    | ok r => dsimp only; rw [h1, seq_unchanged o ms h.2 r]
end

/-- **C62 (again).** A command without iterators can be interpreted any number of times: each time it does with its state what it would do as a new object. -/
theorem C62_again_partial (o : Opts) {m : CmdO} (h : m.Reusable) : ∀ ss : List (Option Spe), m.runs o ss = ss.map (m.plain.interp o)
  | [] => by simp [CmdO.runs]
  | s :: ss => by
    simp only [CmdO.runs, List.map_cons]
    rw [C62_unchanged o m h s, C62_first, C62_again_partial o h ss]

/-- After the iterator was read there are no cases left. -/
theorem spent_raises (o : Opts) (k : Given) (t : Tr) (s : Option Spe) : ((CmdO.switch k t [] []).run o s).1 = .error .assertion := by
  have h : (k.calls ([] : List CmdO)).length = 0 := by cases k <;> rfl
  have hp : switchPlan o s t [] (k.calls ([] : List CmdO)).length = .error .assertion := by
    cases s <;> simp [switchPlan, caseEvents, branchSlots, h, bind, Except.bind, pure, Except.pure]
  simp only [CmdO.run, hp]

theorem runSeq_append (o : Opts) : ∀ (cs ds : List CmdO) (s s' : Option Spe), (CmdO.runSeq o cs s).1 = .ok s' →
    CmdO.runSeq o (cs ++ ds) s = ((CmdO.runSeq o ds s').1, (CmdO.runSeq o cs s).2 ++ (CmdO.runSeq o ds s').2)
  | [], ds, s, s', h => by simp [CmdO.runSeq] at h ⊢; rw [h]
  | c :: cs, ds, s, s', h => by
    simp only [CmdO.runSeq, List.cons_append] at h ⊢
    cases hc : (CmdO.run o c s).1 with
    | error x => simp [hc] at h
    | ok r =>
      simp only [hc] at h ⊢
      rw [runSeq_append o cs ds r s' h]
      rfl

theorem runSeq_append_err (o : Opts) : ∀ (cs ds : List CmdO) (s : Option Spe) (x : Err), (CmdO.runSeq o cs s).1 = .error x → (CmdO.runSeq o (cs ++ ds) s).1 = .error x
  | [], ds, s, x, h => by simp [CmdO.runSeq] at h
  | c :: cs, ds, s, x, h => by
    simp only [CmdO.runSeq, List.cons_append] at h ⊢
    cases hc : (CmdO.run o c s).1 with
    | error y => simpa [hc] using h
    | ok r =>
      simp only [hc] at h ⊢
      exact runSeq_append_err o cs ds r x h

/-- C62: **a program with `switch ... enumerate` cannot be interpreted again**: if it returns, then the second time, with the same state, it raises `AssertionError`. -/
theorem C62_enumerate_raises (o : Opts) {cs ds : List CmdO} (hcs : CmdO.ReusableL cs) (t : Tr) (vals : List SwVal) (cmds : List CmdO) {s r : Option Spe}
    (h : ((CmdO.seq (cs ++ .switch .enum t vals cmds :: ds)).run o s).1 = .ok r) :
    (CmdO.seq (cs ++ .switch .enum t vals cmds :: ds)).runs o [s, s] = [.ok r, .error .assertion] := by
  simp only [CmdO.run] at h
  cases hc : (CmdO.runSeq o cs s).1 with
  | error x => rw [runSeq_append_err o cs _ s x hc] at h; cases h
  | ok s' =>
    have h1 := runSeq_append o cs (.switch .enum t vals cmds :: ds) s s' hc
    have hsw : ∀ q, (CmdO.run o (.switch .enum t vals cmds) q).2 = .switch .enum t [] [] := by
      intro q
      simp only [CmdO.run, CmdO.afterwards]
      cases switchPlan o q t vals (Given.enum.calls cmds).length <;> rfl
    obtain ⟨es, h2⟩ : ∃ es, (CmdO.runSeq o (.switch .enum t vals cmds :: ds) s').2 = .switch .enum t [] [] :: es := by
      simp only [CmdO.runSeq]
      cases (CmdO.run o (.switch .enum t vals cmds) s').1 with
      | error x => exact ⟨ds, by simp [hsw]⟩
      | ok u => exact ⟨(CmdO.runSeq o ds u).2, by simp [hsw]⟩
    have h3 : (CmdO.runSeq o (cs ++ .switch .enum t vals cmds :: ds) s).2 = cs ++ .switch .enum t [] [] :: es := by rw [h1, seq_unchanged o cs hcs s, h2]
    simp only [CmdO.runs, CmdO.run, h, h3]
    rw [runSeq_append o cs _ s s' hc]
    simp only [CmdO.runSeq, spent_raises]

/-- C62: **any other iterator raises the first time**: it was read to its end when the subcommands are made. -/
theorem C62_iterator_raises (o : Opts) (t : Tr) (vals : List SwVal) (cmds : List CmdO) (s : Option Spe) : ∃ x, ((CmdO.switch .iter t vals cmds).run o s).1 = .error x := by
  have hp : ∃ x, switchPlan o s t vals (Given.iter.calls cmds).length = .error x := by
    simp only [switchPlan, bind, Except.bind, Given.calls, List.length_nil]
    cases caseEvents o.c t [] (vals.map SwVal.toSet) with
    | error x => exact ⟨x, rfl⟩
    | ok es =>
      cases s with
      | none => exact ⟨_, rfl⟩
      | some s =>
        dsimp only
        cases es with
        | nil => exact ⟨.assertion, by simp [branchSlots, bind, Except.bind, pure, Except.pure]⟩
        | cons e es => exact ⟨.assertion, by simp [branchSlots]⟩
  obtain ⟨x, hx⟩ := hp
  exact ⟨x, by simp only [CmdO.run, hx]⟩

/-! ## Examples -/

theorem plainL_map {α : Type} (f : α → Cmd) : ∀ l : List α, CmdO.plainL (l.map (fun i => .base (f i))) = l.map f
  | [] => rfl
  | a :: l => by simp [CmdO.plainL, CmdO.plain, plainL_map f l]

/-- C62 non-vacuity: `switch X cases (i, b in enumerate(binspace(0, 1, 5))): Y ~= coin` with `X` uniform returns the first time, and raises the second time; with the list of the bins it returns both times. -/
theorem C62_enumerate_wrong : ∃ l r, binspace 0 1 5 = .ok l ∧
    (CmdO.seq [.switch .enum (.id "X") (l.map .set) ((List.range 4).map (fun _ => .base (.sample "Y" (.one coinD))))]).runs opts0 [some (leafX "X"), some (leafX "X")] =
      [.ok (some r), .error .assertion] ∧
    (CmdO.seq [.switch .list (.id "X") (l.map .set) ((List.range 4).map (fun _ => .base (.sample "Y" (.one coinD))))]).runs opts0 [some (leafX "X"), some (leafX "X")] =
      [.ok (some r), .ok (some r)] := by
  obtain ⟨l, r, h1, h2⟩ := bins_return
  have hp : ∀ k : Given, k ≠ .iter → (CmdO.seq [.switch k (.id "X") (l.map .set) ((List.range 4).map (fun _ => .base (.sample "Y" (.one coinD))))]).plain.interp opts0 (some (leafX "X")) = .ok (some r) := by
    intro k hk
    have : k.calls ((List.range 4).map (fun _ => Cmd.sample "Y" (.one coinD))) = (List.range 4).map (fun _ => Cmd.sample "Y" (.one coinD)) := by cases k <;> simp [Given.calls] at hk ⊢
    simp only [CmdO.plain, CmdO.plainL, Cmd.interp, Cmd.interpL, List.foldlM_cons, List.foldlM_nil, plainL_map, this]
    simp only [Cmd.interp] at h2
    rw [h2]
    rfl
  refine ⟨l, r, h1, ?_, ?_⟩
  · exact C62_enumerate_raises opts0 (cs := []) (ds := []) trivial _ _ _ (by rw [List.nil_append, C62_first]; exact hp .enum (by simp))
  · rw [C62_again_partial opts0 (by simp [CmdO.Reusable, CmdO.ReusableL])]
    simp only [List.map_cons, List.map_nil, hp .list (by simp)]

end Sppl
