import Verif.Comp.AgainLemmas
import Verif.Comp.AgainSpec
import Verif.Comp.Example

set_option linter.all false

/-!
# Compiled modules that are interpreted more than once: what the compiler writes
-/

namespace Sppl
open Classical

mutual
def Tgt.Again : Tgt → Prop
  | .seq args => Tgt.AgainL args
  | .ifelse args => Tgt.AgainL args
  | .switch _ _ i _ _ => i = none
  | _ => True
def Tgt.AgainL : List Tgt → Prop
  | [] => True
  | t :: ts => t.Again ∧ Tgt.AgainL ts
end

theorem Tgt.againL_iff : ∀ ts : List Tgt, Tgt.AgainL ts ↔ ∀ t ∈ ts, t.Again
  | [] => by simp [Tgt.AgainL]
  | t :: ts => by simp [Tgt.AgainL, Tgt.againL_iff ts]

theorem Stmt.againL_iff : ∀ ts : List Stmt, Stmt.AgainL ts ↔ ∀ t ∈ ts, t.Again
  | [] => by simp [Stmt.AgainL]
  | t :: ts => by simp [Stmt.AgainL, Stmt.againL_iff ts]

theorem reusableL_iff : ∀ ts : List CmdO, CmdO.ReusableL ts ↔ ∀ t ∈ ts, t.Reusable
  | [] => by simp [CmdO.ReusableL]
  | t :: ts => by simp [CmdO.ReusableL, reusableL_iff ts]

/-! ## What is written -/

theorem visitItems_again {f : Stmt → VS → Res (List Tgt × VS)} : ∀ (ss : List Stmt) (st : VS) {r}, (∀ s ∈ ss, ∀ st r, f s st = .ok r → Tgt.AgainL r.1) →
    visitItems f ss st = .ok r → Tgt.AgainL r.1
  | [], st, r, _, h => by simp [visitItems] at h; subst h; simp [Tgt.AgainL]
  | s :: ss, st, r, hf, h => by
    simp only [visitItems, bind, Except.bind] at h
    cases ha : f s st with
    | error x => simp [ha] at h
    | ok a =>
      simp only [ha] at h
      cases hb : visitItems f ss a.2 with
      | error x => simp [hb] at h
      | ok b =>
        simp only [hb, Except.ok.injEq] at h
        subst h
        have h1 := (Tgt.againL_iff _).1 (hf s (by simp) _ _ ha)
        have h2 := (Tgt.againL_iff _).1 (visitItems_again ss _ (fun t ht => hf t (by simp [ht])) hb)
        rw [Tgt.againL_iff]
        simpa [or_imp, forall_and] using ⟨h1, h2⟩

theorem visitModule_again {f : Stmt → VS → Res (List Tgt × VS)} {ss : List Stmt} {st : VS} {r} (hf : ∀ s ∈ ss, ∀ st r, f s st = .ok r → Tgt.AgainL r.1)
    (h : visitModule f ss st = .ok r) : Tgt.AgainL r.1 := by
  simp only [visitModule, bind, Except.bind] at h
  cases ha : visitItems f ss { st with first := false } with
  | error x => simp [ha] at h
  | ok a =>
    simp only [ha, Except.ok.injEq] at h
    subst h
    have := visitItems_again ss _ hf ha
    simp only [sequenceBlock]
    split <;> simpa [Tgt.AgainL, Tgt.Again] using this

theorem visitBranches_again {block : List String → List Stmt → VS → Res (List Tgt × VS)} (ctx : List String) :
    ∀ (bs : List (PE × List Stmt)) (first : Bool) (st : VS) {r}, (∀ b ∈ bs, ∀ ctx st r, block ctx b.2 st = .ok r → Tgt.AgainL r.1) →
    visitBranches block ctx first bs st = .ok r → Tgt.AgainL r.1
  | [], first, st, r, _, h => by simp [visitBranches] at h; subst h; simp [Tgt.AgainL]
  | (t, body) :: bs, first, st, r, hf, h => by
    simp only [visitBranches, bind, Except.bind] at h
    cases ha : block (if first = true then ctx else ctx ++ ["elif"]) body st with
    | error x => simp [ha] at h
    | ok a =>
      simp only [ha] at h
      cases hb : visitBranches block ctx false bs a.2 with
      | error x => simp [hb] at h
      | ok b =>
        simp only [hb, Except.ok.injEq] at h
        subst h
        have h1 := (Tgt.againL_iff _).1 (hf (t, body) (by simp) _ _ _ ha)
        have h2 := (Tgt.againL_iff _).1 (visitBranches_again ctx bs _ _ (fun t ht => hf t (by simp [ht])) hb)
        rw [Tgt.againL_iff]
        simpa [or_imp, forall_and, Tgt.Again] using ⟨h1, h2⟩

theorem unrollIf_again (test : PE) (body : List Stmt) (orelse : List Stmt) (h1 : Stmt.AgainL body) (h2 : Stmt.AgainL orelse) :
    ∀ b ∈ unrollIf test body orelse, Stmt.AgainL b.2 := by
  fun_induction unrollIf test body orelse with
  | case1 => simpa using h1
  | case2 test body t b o ih =>
    simp only [Stmt.AgainL, Stmt.Again, and_true] at h2
    have := ih h2.1 h2.2
    simpa [h1] using this
  | case3 => simp [h1, h2]

theorem unrollIfExp_again (target : Target) (test body : PE) (orelse : PE) : (unrollIfExp target test body orelse).Again := by
  fun_induction unrollIfExp target test body orelse with
  | case1 test body t a b ih => simpa [Stmt.Again, Stmt.AgainL] using ih
  | case2 => simp [Stmt.Again, Stmt.AgainL]

theorem visitAssign_again (D ctx : List String) (target : Target) (value : PE) (st : VS) {r} (h : visitAssign D ctx target value st = .ok r) : Tgt.AgainL r.1 := by
  have hr : ∀ (sample : Bool) (value : PE) (st : VS) {r}, visitRandom ctx sample target value st = .ok r → Tgt.AgainL r.1 := by
    intro sample value st r h
    simp only [visitRandom, bind, Except.bind] at h
    cases hd : declare ctx target st with
    | error x => simp [hd] at h
    | ok s =>
      simp only [hd, Except.ok.injEq] at h
      subst h
      cases sample <;> simp [Tgt.AgainL, Tgt.Again]
  have hp : ∀ (value : PE) (st : VS) {r}, visitPy ctx target value st = .ok r → Tgt.AgainL r.1 := by
    intro value st r h
    simp only [visitPy] at h
    split_ifs at h <;> (simp at h; subst h; simp [Tgt.AgainL])
  have ha : ∀ (args : List PE) (st : VS) {r}, visitArray ctx target args st = .ok r → Tgt.AgainL r.1 := by
    intro args st r h
    simp only [visitArray] at h
    repeat' split at h
    all_goals first | (simp at h; done) | (simp only [Except.ok.injEq] at h; subst h; simp [Tgt.AgainL])
  simp only [visitAssign] at h
  repeat' split at h
  all_goals first | exact ha _ _ h | exact hr _ _ _ h | exact hp _ _ h | cases h

theorem visit_again (D : List String) : ∀ (n : ℕ) (ctx : List String) (s : Stmt) (st : VS) {r}, s.Again → visit D n ctx s st = .ok r → Tgt.AgainL r.1
  | 0, _, _, _, _, _, h => by simp [visit] at h
  | n + 1, ctx, s, st, r, hs, h => by
    have ih := visit_again D n
    have hm : ∀ (ss : List Stmt) ctx st r, Stmt.AgainL ss → visitModule (visit D n ctx) ss st = .ok r → Tgt.AgainL r.1 := fun ss ctx st r h1 h2 =>
      visitModule_again (fun s hs st r hr => ih ctx s st ((Stmt.againL_iff _).1 h1 s hs) hr) h2
    unfold visit at h
    split at h
    · exact ih _ _ _ (unrollIfExp_again _ _ _ _) h
    · exact visitAssign_again _ _ _ _ _ h
    · next t b o =>
      simp only [Stmt.Again] at hs
      dsimp only at h
      split_ifs at h
      simp only [bind, Except.bind] at h
      cases ha : visitBranches (fun ctx => visitModule (visit D n ctx)) (ctx ++ ["if"]) true (unrollIf t b o) st with
      | error x => simp [ha] at h
      | ok a =>
        simp only [ha, Except.ok.injEq] at h
        subst h
        have := visitBranches_again _ _ _ _ (fun b' hb' ctx st r hr => hm _ _ _ _ (unrollIf_again t b o hs.1 hs.2 b' hb') hr) ha
        simpa [Tgt.AgainL, Tgt.Again] using this
    · next x n0 n1 body =>
      simp only [bind, Except.bind] at h
      cases ha : visitModule (visit D n (ctx ++ ["for"])) body st with
      | error x => simp [ha] at h
      | ok a => simp only [ha, Except.ok.injEq] at h; subst h; simp [Tgt.AgainL, Tgt.Again]
    · next i x symbol values body =>
      simp only [bind, Except.bind] at h
      cases ha : visitModule (visit D n (ctx ++ ["switch"])) body st with
      | error x => simp [ha] at h
      | ok a => simp only [ha, Except.ok.injEq] at h; subst h; simpa [Tgt.AgainL, Tgt.Again, Stmt.Again] using hs
    · simp only [Except.ok.injEq] at h; subst h; simp [Tgt.AgainL, Tgt.Again]
    · simp only [Except.ok.injEq] at h; subst h; simp [Tgt.AgainL, Tgt.Again]
    · split_ifs at h; simp only [Except.ok.injEq] at h; subst h; simp [Tgt.AgainL, Tgt.Again]
    · exact hm _ _ _ _ (by simpa [Stmt.Again] using hs) h
    · simp only [Except.ok.injEq] at h; subst h; simp [Tgt.AgainL, Tgt.Again]

/-! ## The object -/

def ArgO.Reusable : ArgO → Prop
  | .test _ => True
  | .cmd m => m.Reusable

theorem allCmdsO_reusable : ∀ (as : List ArgO) {ms}, (∀ a ∈ as, a.Reusable) → allCmdsO as = .ok ms → CmdO.ReusableL ms
  | [], ms, _, h => by simp [allCmdsO] at h; subst h; simp [CmdO.ReusableL]
  | .test o :: as, ms, _, h => by simp [allCmdsO] at h
  | .cmd m :: as, ms, ha, h => by
    simp only [allCmdsO, bind, Except.bind] at h
    cases hq : allCmdsO as with
    | error x => simp [hq] at h
    | ok q =>
      simp only [hq, Except.ok.injEq] at h
      subst h
      exact ⟨ha (.cmd m) (by simp), allCmdsO_reusable as (fun a h => ha a (by simp [h])) hq⟩

theorem splitArgsO_reusable : ∀ (as : List ArgO) {r}, (∀ a ∈ as, a.Reusable) → splitArgsO as = .ok r → CmdO.ReusableL r.2
  | [], ms, _, h => by simp [splitArgsO] at h; subst h; simp [CmdO.ReusableL]
  | [.test o], ms, _, h => by simp [splitArgsO] at h
  | .test o :: .test o' :: as, ms, _, h => by simp [splitArgsO] at h
  | .cmd m :: as, ms, _, h => by simp [splitArgsO] at h
  | .test o :: .cmd m :: as, ms, ha, h => by
    simp only [splitArgsO, bind, Except.bind] at h
    cases hq : splitArgsO as with
    | error x => simp [hq] at h
    | ok q =>
      simp only [hq, Except.ok.injEq] at h
      subst h
      exact ⟨ha (.cmd m) (by simp), splitArgsO_reusable as (fun a h => ha a (by simp [h])) hq⟩

mutual
theorem runO_reusable (H : PyHost) (c : Ctx) (ρ : NS) : ∀ (t : Tgt) {a}, t.Again → Tgt.runO H c ρ t = .ok a → a.Reusable
  | .seq args, a, ht, h => by
    simp only [Tgt.runO, bind, Except.bind] at h
    cases h1 : Tgt.runOL H c ρ args with
    | error x => simp [h1] at h
    | ok as =>
      simp only [h1] at h
      cases h2 : allCmdsO as with
      | error x => simp [h2] at h
      | ok ms =>
        simp only [h2, Except.ok.injEq] at h
        subst h
        exact allCmdsO_reusable as (runOL_reusable H c ρ args (by simpa [Tgt.Again] using ht) h1) h2
  | .ifelse args, a, ht, h => by
    simp only [Tgt.runO, bind, Except.bind] at h
    cases h1 : Tgt.runOL H c ρ args with
    | error x => simp [h1] at h
    | ok as =>
      simp only [h1, mkIfElseO, bind, Except.bind] at h
      cases h2 : splitArgsO as with
      | error x => simp [h2] at h
      | ok r =>
        simp only [h2] at h
        cases h3 : splitConds r.1 with
        | error x => simp [h3] at h
        | ok q =>
          simp only [h3, Except.ok.injEq] at h
          subst h
          exact splitArgsO_reusable as (runOL_reusable H c ρ args (by simpa [Tgt.Again] using ht) h1) h2
  | .sample target value, a, ht, h => by
    simp only [Tgt.runO, bind, Except.bind] at h
    repeat' split at h
    all_goals first | (simp at h; done) | (simp only [Except.ok.injEq] at h; subst h; simp [ArgO.Reusable, CmdO.Reusable])
  | .transform target value, a, ht, h => by
    simp only [Tgt.runO, bind, Except.bind] at h
    repeat' split at h
    all_goals first | (simp at h; done) | (simp only [Except.ok.injEq] at h; subst h; simp [ArgO.Reusable, CmdO.Reusable])
  | .condition e, a, ht, h => by
    simp only [Tgt.runO, bind, Except.bind] at h
    repeat' split at h
    all_goals first | (simp at h; done) | (simp only [Except.ok.injEq] at h; subst h; simp [ArgO.Reusable, CmdO.Reusable])
  | .constrain e, a, ht, h => by
    simp only [Tgt.runO, bind, Except.bind] at h
    repeat' split at h
    all_goals first | (simp at h; done) | (simp only [Except.ok.injEq] at h; subst h; simp [ArgO.Reusable, CmdO.Reusable])
  | .test e, a, ht, h => by
    simp only [Tgt.runO, bind, Except.bind] at h
    repeat' split at h
    all_goals first | (simp at h; done) | (simp only [Except.ok.injEq] at h; subst h; simp [ArgO.Reusable, CmdO.Reusable])
  | .forr n0 n1 x body, a, ht, h => by
    simp only [Tgt.runO, bind, Except.bind] at h
    repeat' split at h
    all_goals first | (simp at h; done) | (simp only [Except.ok.injEq] at h; subst h; simp [ArgO.Reusable, CmdO.Reusable])
  | .switch symbol values i x body, a, ht, h => by
    simp only [Tgt.Again] at ht
    subst ht
    simp only [Tgt.runO, bind, Except.bind] at h
    repeat' split at h
    all_goals first | (simp at h; done) | (simp only [Except.ok.injEq] at h; subst h; simp [ArgO.Reusable, CmdO.Reusable, givenBy])
theorem runOL_reusable (H : PyHost) (c : Ctx) (ρ : NS) : ∀ (ts : List Tgt) {as}, Tgt.AgainL ts → Tgt.runOL H c ρ ts = .ok as → ∀ a ∈ as, a.Reusable
  | [], as, _, h => by simp [Tgt.runOL] at h; subst h; simp
  | t :: ts, as, ht, h => by
    simp only [Tgt.runOL, bind, Except.bind] at h
    cases h1 : Tgt.runO H c ρ t with
    | error x => simp [h1] at h
    | ok a =>
      simp only [h1] at h
      cases h2 : Tgt.runOL H c ρ ts with
      | error x => simp [h2] at h
      | ok bs =>
        simp only [h2, Except.ok.injEq] at h
        subst h
        simp only [Tgt.AgainL] at ht
        intro b hb
        rcases List.mem_cons.1 hb with rfl | hb
        · exact runO_reusable H c ρ t ht.1 h1
        · exact runOL_reusable H c ρ ts ht.2 h2 b hb
end

/-! ## A `switch` over `enumerate` -/

theorem visitItems_split {f : Stmt → VS → Res (List Tgt × VS)} : ∀ (as bs : List Stmt) (st : VS) {r}, visitItems f (as ++ bs) st = .ok r →
    ∃ a b, visitItems f as st = .ok a ∧ visitItems f bs a.2 = .ok b ∧ r = (a.1 ++ b.1, b.2)
  | [], bs, st, r, h => ⟨([], st), r, rfl, h, by simp⟩
  | s :: as, bs, st, r, h => by
    simp only [List.cons_append, visitItems, bind, Except.bind] at h
    cases ha : f s st with
    | error x => simp [ha] at h
    | ok a =>
      simp only [ha] at h
      cases hb : visitItems f (as ++ bs) a.2 with
      | error x => simp [hb] at h
      | ok b =>
        simp only [hb, Except.ok.injEq] at h
        subst h
        obtain ⟨c, d, h1, h2, h3⟩ := visitItems_split as bs _ hb
        subst h3
        exact ⟨(a.1 ++ c.1, c.2), d, by simp [visitItems, ha, h1, bind, Except.bind], h2, by simp⟩

theorem runOL_append (H : PyHost) (c : Ctx) (ρ : NS) : ∀ (as bs : List Tgt) {r}, Tgt.runOL H c ρ (as ++ bs) = .ok r →
    ∃ a b, Tgt.runOL H c ρ as = .ok a ∧ Tgt.runOL H c ρ bs = .ok b ∧ r = a ++ b
  | [], bs, r, h => ⟨[], r, rfl, h, rfl⟩
  | t :: as, bs, r, h => by
    simp only [List.cons_append, Tgt.runOL, bind, Except.bind] at h
    cases ha : Tgt.runO H c ρ t with
    | error x => simp [ha] at h
    | ok a =>
      simp only [ha] at h
      cases hb : Tgt.runOL H c ρ (as ++ bs) with
      | error x => simp [hb] at h
      | ok b =>
        simp only [hb, Except.ok.injEq] at h
        subst h
        obtain ⟨p, q, h1, h2, h3⟩ := runOL_append H c ρ as bs hb
        subst h3
        exact ⟨a :: p, q, by simp [Tgt.runOL, ha, h1, bind, Except.bind], h2, by simp⟩

theorem allCmdsO_append : ∀ (as bs : List ArgO) {r}, allCmdsO (as ++ bs) = .ok r → ∃ a b, allCmdsO as = .ok a ∧ allCmdsO bs = .ok b ∧ r = a ++ b
  | [], bs, r, h => ⟨[], r, rfl, h, rfl⟩
  | .test o :: as, bs, r, h => by simp [allCmdsO] at h
  | .cmd m :: as, bs, r, h => by
    simp only [List.cons_append, allCmdsO, bind, Except.bind] at h
    cases hb : allCmdsO (as ++ bs) with
    | error x => simp [hb] at h
    | ok b =>
      simp only [hb, Except.ok.injEq] at h
      subst h
      obtain ⟨p, q, h1, h2, h3⟩ := allCmdsO_append as bs hb
      subst h3
      exact ⟨m :: p, q, by simp [allCmdsO, h1, bind, Except.bind], h2, by simp⟩

theorem visit_switch {D : List String} {n : ℕ} {ctx : List String} {i : Option String} {x : String} {symbol values : PE} {body : List Stmt} {st : VS} {r}
    (h : visit D n ctx (.switch i x symbol values body) st = .ok r) : ∃ b, r.1 = [.switch symbol values i x b] := by
  cases n with
  | zero => simp [visit] at h
  | succ n =>
    simp only [visit, bind, Except.bind] at h
    cases ha : visitModule (visit D n (ctx ++ ["switch"])) body st with
    | error x => simp [ha] at h
    | ok a => simp only [ha, Except.ok.injEq] at h; subst h; exact ⟨_, rfl⟩

theorem runO_switch {H : PyHost} {c : Ctx} {ρ : NS} {i : Option String} {x : String} {symbol values : PE} {body : List Tgt} {a}
    (h : Tgt.runO H c ρ (.switch symbol values i x body) = .ok a) : ∃ t ss ms, a = .cmd (.switch (givenBy i) t ss ms) := by
  simp only [Tgt.runO, bind, Except.bind] at h
  repeat' split at h
  all_goals first | (simp at h; done) | (simp only [Except.ok.injEq] at h; exact ⟨_, _, _, h.symm⟩)

/-- The object of a compiled source is a `Sequence`. -/
theorem runO_seq {D : List String} {n : ℕ} {source : List Stmt} {p : Prog} {H : PyHost} {c : Ctx} {ρ : NS} {m : CmdO} (hp : compile D n source = .ok p) (hm : p.runO H c ρ = .ok m) :
    ∃ r ρ' as ms, visitItems (visit D n ["global"]) source ⟨false, [], [], []⟩ = .ok r ∧ Tgt.runOL H c ρ' r.1 = .ok as ∧ allCmdsO as = .ok ms ∧ m = .seq ms := by
  simp only [compile, visitModule, bind, Except.bind] at hp
  cases hr : visitItems (visit D n ["global"]) source ⟨false, [], [], []⟩ with
  | error x => simp [hr] at hp
  | ok r =>
    simp only [hr, Except.ok.injEq] at hp
    subst hp
    simp only [Prog.runO, bind, Except.bind] at hm
    split at hm
    · cases hm
    · next ρ' _ =>
      simp only [sequenceBlock, Bool.or_true, if_true, Tgt.runOL, Tgt.runO, bind, Except.bind] at hm
      cases h1 : Tgt.runOL H c ρ' r.1 with
      | error x => simp [h1] at hm
      | ok as =>
        simp only [h1] at hm
        cases h2 : allCmdsO as with
        | error x => simp [h2] at hm
        | ok ms =>
          simp only [h2, oneCmdO, Except.ok.injEq] at hm
          exact ⟨r, ρ', as, ms, rfl, h1, h2, hm.symm⟩

end Sppl
