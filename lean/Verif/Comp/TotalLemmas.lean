import Verif.Comp.TotalSpec
import Verif.Comp.BlockLemmas

set_option linter.all false

/-!
# Lemmas on the programs that compile and run
-/

namespace Sppl
open Classical MeasureTheory

section
variable {D : List String} {H : PyHost} {c : Ctx}

/-- The state of the visitor says what has been introduced. -/
structure DeclRel (d : Decl) (st : VS) : Prop where
  first : st.first = false
  constants : st.constants = d.constants
  vars : st.vars = d.vars
  random : d.random = true ↔ st.distributions ≠ []

/-- The context of the visitor says where it is. -/
structure AtPlace (ctx : List String) (p : Place) : Prop where
  loop : "for" ∈ ctx ↔ p.loop = true
  later : "elif" ∈ ctx ↔ p.later = true
  top : ctx = ["global"] ↔ p.top = true

theorem AtPlace.push {ctx : List String} {p : Place} (h : AtPlace ctx p) {x : String} (h1 : x ≠ "for") (h2 : x ≠ "elif") (h3 : x ≠ "global") : AtPlace (ctx ++ [x]) { p with top := false } := by
  refine ⟨?_, ?_, ?_⟩
  · simp [h.loop, h1.symm]
  · simp [h.later, h2.symm]
  · simp only [Bool.false_eq_true, iff_false]
    intro e
    have := congrArg List.getLast? e
    simp at this
    exact h3 this

theorem AtPlace.for {ctx : List String} {p : Place} (h : AtPlace ctx p) : AtPlace (ctx ++ ["for"]) { p with loop := true, top := false } := by
  refine ⟨by simp, by simp [h.later], ?_⟩
  simp only [Bool.false_eq_true, iff_false]
  intro e
  have := congrArg List.getLast? e
  simp at this

theorem AtPlace.elif {ctx : List String} {p : Place} (h : AtPlace ctx p) : AtPlace (ctx ++ ["if"] ++ ["elif"]) { p with later := true, top := false } := by
  refine ⟨by simp [h.loop], by simp, ?_⟩
  simp only [Bool.false_eq_true, iff_false]
  intro e
  have := congrArg List.getLast? e
  simp at this

/-- All large enough bounds of the recursion give the same result, which runs. -/
def Compiles (H : PyHost) (c : Ctx) (R : NS → Prop) (F : ℕ → Res (List Tgt × VS)) (d : Decl) (P : List Tgt → Prop) : Prop :=
  ∃ N ts st, DeclRel d st ∧ (∀ n, N ≤ n → F n = .ok (ts, st)) ∧ (∀ ρ, R ρ → ∃ ms : List Cmd, Tgt.runL H c ρ ts = .ok (ms.map Arg.cmd)) ∧ P ts

/-- The arguments of an `IfElse`. -/
def ArmsOK (as : List Arg) : Prop := ∃ os ms q, splitArgs as = .ok (os, ms) ∧ splitConds os = .ok q

/-- The same for the branches after the first. -/
def CompilesArms (H : PyHost) (c : Ctx) (R : NS → Prop) (F : ℕ → Res (List Tgt × VS)) (d : Decl) : Prop :=
  ∃ N ts st, DeclRel d st ∧ (∀ n, N ≤ n → F n = .ok (ts, st)) ∧ ∀ ρ, R ρ → ∃ as, Tgt.runL H c ρ ts = .ok as ∧ ArmsOK as

/-- The branches after the first. -/
def restOf : List Stmt → List (PE × List Stmt)
  | [] => []
  | [.ifs t b o] => unrollIf t b o
  | o => [(PE.yes, o)]

theorem unrollIf_rest (t : PE) (b o : List Stmt) : unrollIf t b o = (t, b) :: restOf o := by
  unfold restOf
  split
  · simp [unrollIf]
  · simp [unrollIf]
  · rename_i h1 h2
    unfold unrollIf
    split
    · exact absurd rfl h1
    · rename_i t' b' o'; exact absurd rfl (h2 t' b' o')
    · rfl

/-- The statement for the rest of a conditional expression. -/
def altStmt (target : Target) : PE → Stmt
  | .ifexp t a b => unrollIfExp target t a b
  | e => .assign target e

theorem unrollIfExp_alt (target : Target) (t a e : PE) : unrollIfExp target t a e = .ifs t [.assign target a] [altStmt target e] := by
  cases e <;> simp [unrollIfExp, altStmt]

/-- What is shown of each part of a program. -/
def Claim (D : List String) (H : PyHost) (c : Ctx) (p : Place) (R : NS → Prop) (d : Decl) (w : Work) (d' : Decl) : Prop :=
  match w with
  | .stmt s => ∀ ctx st, AtPlace ctx p → DeclRel d st → Compiles H c R (fun n => visit D n ctx s st) d' (fun ts => p.top = false → s ≠ .pass → ts.length = 1)
  | .chain l => ∀ ctx st, AtPlace ctx p → DeclRel d st → Compiles H c R (fun n => visitItems (visit D n ctx) l st) d'
      (fun ts => p.top = false → l.length = 1 → l ≠ [.pass] → ts.length = 1)
  | .body l => ∀ ctx st, AtPlace ctx p → DeclRel d st → Compiles H c R (fun n => visitModule (visit D n ctx) l st) d' (fun ts => p.top = false → ts.length = 1)
  | .rest o => ∀ ctx st, AtPlace (ctx ++ ["elif"]) p → DeclRel d st → CompilesArms H c R (fun n => visitBranches (fun ctx => visitModule (visit D n ctx)) ctx false (restOf o) st) d'
  | .alt target e => ∀ ctx st, AtPlace (ctx ++ ["elif"]) p → DeclRel d st →
      CompilesArms H c R (fun n => visitBranches (fun ctx => visitModule (visit D n ctx)) ctx false (restOf [altStmt target e]) st) d'

theorem declare_total {ctx : List String} {p : Place} {d : Decl} {target : Target} {vars : List (String × VarKind)} {st : VS} (hc : AtPlace ctx p) (hv : st.vars = d.vars)
    (h : Introduces p d target vars) : declare ctx target st = .ok { st with vars := vars } := by
  cases h with
  | @fresh x h1 h2 h3 =>
    have a1 : "for" ∉ ctx := fun h => by rw [hc.loop.1 h] at h1; cases h1
    have a2 : "elif" ∉ ctx := fun h => by rw [hc.later.1 h] at h2; cases h2
    simp [declare, a1, a2, hv, h3]
  | @again x k h1 h2 h3 =>
    have a1 : "for" ∉ ctx := fun h => by rw [hc.loop.1 h] at h1; cases h1
    have a2 : "elif" ∈ ctx := hc.later.2 h2
    simp [declare, a1, a2, hv, h3]
    cases st; simp_all
  | @elem x i n h1 =>
    simp only [declare, hv, h1]
    cases st; simp_all

theorem run_sample {ρ : NS} {target value : PE} {s : Source} (h1 : target.IsVar H c ρ) (h2 : value.eval H c ρ = .ok (.dist s)) :
    ∃ ms : List Cmd, Tgt.runL H c ρ [.sample target value] = .ok (ms.map Arg.cmd) := by
  obtain ⟨X, hX⟩ := h1
  exact ⟨[.sample X s], by simp [Tgt.runL, Tgt.run, hX, h2, Obj.var, bind, Except.bind]⟩

theorem run_transform {ρ : NS} {target value : PE} {t : Tr} (h1 : target.IsVar H c ρ) (h2 : value.eval H c ρ = .ok (.tr t)) :
    ∃ ms : List Cmd, Tgt.runL H c ρ [.transform target value] = .ok (ms.map Arg.cmd) := by
  obtain ⟨X, hX⟩ := h1
  exact ⟨[.transform X t], by simp [Tgt.runL, Tgt.run, hX, h2, Obj.var, bind, Except.bind]⟩

theorem runL_append_ok {ρ : NS} {ts us : List Tgt} {as bs : List Arg} (h1 : Tgt.runL H c ρ ts = .ok as) (h2 : Tgt.runL H c ρ us = .ok bs) :
    Tgt.runL H c ρ (ts ++ us) = .ok (as ++ bs) := by
  induction ts generalizing as with
  | nil => simp only [Tgt.runL] at h1; injection h1 with h1; subst h1; exact h2
  | cons t ts ih =>
    simp only [Tgt.runL, bind, Except.bind] at h1
    split at h1; · cases h1
    rename_i a ha
    split at h1; · cases h1
    rename_i b hb
    injection h1 with h1; subst h1
    simp only [List.cons_append, Tgt.runL, ha, ih hb, bind, Except.bind]

theorem runItems_total {ρ : NS} : ∀ {items : List (PE × PE)}, (∀ it ∈ items, IsItem H c ρ it) → ∀ a : Point, ∃ b, runItems H c ρ items a = .ok b
  | [], _, a => ⟨a, rfl⟩
  | (k, v) :: items, h, a => by
    obtain ⟨⟨X, hX⟩, o, ho, hv⟩ := h (k, v) (by simp)
    obtain ⟨w, hw⟩ : ∃ w, o.pointVal = .ok w := by
      rcases hv with ⟨s, rfl⟩ | ⟨y, hy⟩
      · exact ⟨_, rfl⟩
      · cases o <;> simp_all [Obj.pointVal, Obj.num?]
    obtain ⟨b, hb⟩ := runItems_total (items := items) (fun it hit => h it (by simp [hit])) (dictPut a X w)
    refine ⟨b, ?_⟩
    simp only at hX ho
    simp only [runItems, hX, Obj.var, ho, hw, hb, bind, Except.bind]

theorem filter_ne_nil {α : Type} {q : α → Bool} {l : List α} {x : α} (h : x ∈ l) (hq : q x = true) : l.filter q ≠ [] := by
  intro e
  have : x ∈ l.filter q := List.mem_filter.2 ⟨h, hq⟩
  rw [e] at this; cases this

/-- A visit that succeeds with every positive bound. -/
theorem compiles_of {R : NS → Prop} {F : ℕ → Res (List Tgt × VS)} {d : Decl} {P : List Tgt → Prop} {ts : List Tgt} {st : VS} (N : ℕ) (h1 : DeclRel d st)
    (h2 : ∀ n, N ≤ n → F n = .ok (ts, st)) (h3 : ∀ ρ, R ρ → ∃ ms : List Cmd, Tgt.runL H c ρ ts = .ok (ms.map Arg.cmd)) (h4 : P ts) : Compiles H c R F d P :=
  ⟨N, ts, st, h1, h2, h3, h4⟩

theorem visit_assign {n : ℕ} {ctx : List String} {target : Target} {e : PE} {st : VS} (h : ∀ t a b, e ≠ .ifexp t a b) :
    visit D (n + 1) ctx (.assign target e) st = visitAssign D ctx target e st := by
  rw [visit]
  exact h

theorem visitAssign_plain {ctx : List String} {target : Target} {e : PE} {st : VS} (har : ∀ as, e ≠ .call "array" as) (hds : e.names.filter (· ∈ D) = []) :
    visitAssign D ctx target e st = if e.names.filter (fun x => (st.vars.lookup x).isSome) ≠ [] then visitRandom ctx false target e st else visitPy ctx target e st := by
  have hst : ({ st with distributions := st.distributions ++ [] } : VS) = st := by cases st; simp
  unfold visitAssign
  generalize hl : e.names.filter (fun x => (st.vars.lookup x).isSome) = vs
  simp only [hds, hst]
  split
  · rename_i h; exact absurd rfl h
  · split
    · rfl
    · rfl

theorem visitAssign_call {ctx : List String} {target : Target} {f : String} {args : List PE} {st : VS} (hf : f ∈ D) (hfa : f ≠ "array") :
    visitAssign D ctx target (.call f args) st = visitRandom ctx true target (.call f args) { st with distributions := st.distributions ++ (PE.call f args).names.filter (· ∈ D) } := by
  have : (PE.call f args).names.filter (· ∈ D) ≠ [] := filter_ne_nil (x := f) (by simp [PE.names]) (by simpa using hf)
  generalize hl : (PE.call f args).names.filter (· ∈ D) = l at this
  unfold visitAssign
  simp only [hl]
  split
  · rename_i h; injection h with h; exact absurd h hfa
  · rw [if_pos this]
    exact if_pos hf

theorem claim_sample {p : Place} {R : NS → Prop} {d : Decl} {target : Target} {value : PE} {vars : List (String × VarKind)}
    (hv : ∀ ctx st, visitAssign D ctx target value st = visitRandom ctx true target value { st with distributions := st.distributions ++ value.names.filter (· ∈ D) })
    (hif : ∀ t a b, value ≠ .ifexp t a b) (hD : ∃ f ∈ value.names, f ∈ D) (hi : Introduces p d target vars) (hn : value.NoEq)
    (he : ∀ ρ, R ρ → target.expr.IsVar H c ρ ∧ ∃ s, value.eval H c ρ = .ok (.dist s)) :
    Claim D H c p R d (.stmt (.assign target value)) ⟨d.constants, vars, true⟩ := by
  intro ctx st hc hr
  obtain ⟨f, hf, hfD⟩ := hD
  refine compiles_of (ts := [.sample target.expr value]) (st := { st with distributions := st.distributions ++ value.names.filter (· ∈ D), vars := vars }) 1 ?_ ?_ ?_ ?_
  · refine ⟨hr.first, hr.constants, rfl, ?_⟩
    simp only [true_iff, ne_eq, List.append_eq_nil_iff, not_and]
    intro _
    exact filter_ne_nil hf (by simpa using hfD)
  · intro n hn'
    obtain ⟨n, rfl⟩ := Nat.exists_eq_add_of_le' hn'
    rw [visit_assign hif, hv]
    simp only [visitRandom, bind, Except.bind]
    rw [declare_total (d := d) hc (by exact hr.vars) hi]
    simp [PE.rewrite_noEq value hn]
  · intro ρ hρ
    obtain ⟨h1, s, h2⟩ := he ρ hρ
    exact run_sample h1 h2
  · intro _ _; rfl

theorem mapM_total_of {α β : Type} {f : α → Res β} {l : List α} (h : ∀ x ∈ l, ∃ y, f x = .ok y) : ∃ ys, l.mapM f = .ok ys := by
  induction l with
  | nil => exact ⟨[], rfl⟩
  | cons x l ih =>
    obtain ⟨y, hy⟩ := h x (by simp)
    obtain ⟨ys, hys⟩ := ih (fun z hz => h z (by simp [hz]))
    exact ⟨y :: ys, by simp [List.mapM_cons, hy, hys, bind, Except.bind, pure, Except.pure]⟩

theorem intRange_mem {a b i : ℤ} (h : i ∈ intRange a b) : a ≤ i ∧ i < b := by
  simp only [intRange, List.mem_map, List.mem_range] at h
  omega

theorem allCmds_ok (ms : List Cmd) : allCmds (ms.map Arg.cmd) = .ok ms := by
  induction ms with
  | nil => rfl
  | cons m ms ih => simp [allCmds, ih, bind, Except.bind]

theorem length_one {ts : List Tgt} {ρ : NS} {ms : List Cmd} (h : Tgt.runL H c ρ ts = .ok (ms.map Arg.cmd)) (hl : ts.length = 1) : ∃ m, ms = [m] := by
  have := runL_length h
  rw [hl, List.length_map] at this
  exact List.length_eq_one_iff.1 this

/-- A test and a body before branches. -/
theorem run_arm {ρ : NS} {t : PE} {ts us : List Tgt} {ms : List Cmd} {as : List Arg} {v : Ev} (ht : t.rewrite.eval H c ρ = .ok (.ev v)) (h1 : Tgt.runL H c ρ ts = .ok (ms.map Arg.cmd))
    (hl : ts.length = 1) (h2 : Tgt.runL H c ρ us = .ok as) (ha : ArmsOK as) : ∃ bs, Tgt.runL H c ρ (.test t.rewrite :: ts ++ us) = .ok bs ∧ ArmsOK bs := by
  obtain ⟨m, rfl⟩ := length_one h1 hl
  obtain ⟨os, ms', q, e1, e2⟩ := ha
  refine ⟨.test (.ev v) :: .cmd m :: as, ?_, .ev v :: os, m :: ms', (v :: q.1, q.2), ?_, ?_⟩
  · have := runL_append_ok h1 h2
    simp only [List.map_cons, List.map_nil, List.cons_append, List.nil_append] at this
    simp only [List.cons_append, Tgt.runL, Tgt.run, ht, this, bind, Except.bind]
  · simp only [splitArgs, e1, bind, Except.bind]
  · simp only [splitConds, e2, bind, Except.bind]

/-- `else`. -/
theorem run_else {ρ : NS} {ts : List Tgt} {ms : List Cmd} (h1 : Tgt.runL H c ρ ts = .ok (ms.map Arg.cmd)) (hl : ts.length = 1) :
    ∃ bs, Tgt.runL H c ρ (.test PE.yes.rewrite :: ts) = .ok bs ∧ ArmsOK bs := by
  obtain ⟨m, rfl⟩ := length_one h1 hl
  refine ⟨[.test (.bool true), .cmd m], ?_, [.bool true], [m], ([], true), ?_, ?_⟩
  · simp only [Tgt.runL, Tgt.run, PE.yes, PE.rewrite, PE.eval, h1, bind, Except.bind]; rfl
  · rfl
  · rfl

theorem arms_cons {R : NS → Prop} {ctx : List String} {first : Bool} {t : PE} {b : List Stmt} {bs : List (PE × List Stmt)} {st : VS} {d1 d2 : Decl} {P : List Tgt → Prop}
    (ht : ∀ ρ, R ρ → t.IsEvent H c ρ) (hP : ∀ ts, P ts → ts.length = 1)
    (h1 : Compiles H c R (fun n => visitModule (visit D n (if first = true then ctx else ctx ++ ["elif"])) b st) d1 P)
    (h2 : ∀ st1, DeclRel d1 st1 → CompilesArms H c R (fun n => visitBranches (fun ctx => visitModule (visit D n ctx)) ctx false bs st1) d2) :
    CompilesArms H c R (fun n => visitBranches (fun ctx => visitModule (visit D n ctx)) ctx first ((t, b) :: bs) st) d2 := by
  obtain ⟨N1, ts, st1, r1, v1, e1, l1⟩ := h1
  obtain ⟨N2, us, st2, r2, v2, e2⟩ := h2 st1 r1
  refine ⟨max N1 N2, .test t.rewrite :: ts ++ us, st2, r2, ?_, ?_⟩
  · intro n hn
    have a1 := v1 n (le_trans (le_max_left _ _) hn)
    have a2 := v2 n (le_trans (le_max_right _ _) hn)
    simp only [visitBranches, bind, Except.bind]
    simp only at a1 a2
    rw [a1]
    simp only
    rw [a2]
  · intro ρ hρ
    obtain ⟨v, hv⟩ := ht ρ hρ
    obtain ⟨ms, hms⟩ := e1 ρ hρ
    obtain ⟨as, has, hok⟩ := e2 ρ hρ
    exact run_arm hv hms (hP _ l1) has hok

theorem arms_nil {R : NS → Prop} {ctx : List String} {st : VS} {d : Decl} (hr : DeclRel d st) :
    CompilesArms H c R (fun n => visitBranches (fun ctx => visitModule (visit D n ctx)) ctx false [] st) d :=
  ⟨0, [], st, hr, fun n _ => rfl, fun ρ _ => ⟨[], rfl, [], [], ([], false), rfl, rfl⟩⟩

theorem arms_else {R : NS → Prop} {ctx : List String} {o : List Stmt} {st : VS} {d : Decl} {P : List Tgt → Prop} (hP : ∀ ts, P ts → ts.length = 1)
    (h1 : Compiles H c R (fun n => visitModule (visit D n (ctx ++ ["elif"])) o st) d P) :
    CompilesArms H c R (fun n => visitBranches (fun ctx => visitModule (visit D n ctx)) ctx false [(PE.yes, o)] st) d := by
  obtain ⟨N1, ts, st1, r1, v1, e1, l1⟩ := h1
  refine ⟨N1, .test PE.yes.rewrite :: ts, st1, r1, ?_, ?_⟩
  · intro n hn
    have a1 := v1 n hn
    simp only [visitBranches, bind, Except.bind]
    simp only at a1
    simp only [Bool.false_eq_true, if_false, a1, List.append_nil]
  · intro ρ hρ
    obtain ⟨ms, hms⟩ := e1 ρ hρ
    exact run_else hms (hP _ l1)

theorem AtPlace.not_top {ctx : List String} {p : Place} (h : AtPlace (ctx ++ ["elif"]) p) : p.top = false := by
  cases hp : p.top
  · rfl
  · have e := h.top.2 hp
    have := congrArg List.getLast? e
    simp at this

/-- The branches of an `if` make a command. -/
theorem compiles_if {R : NS → Prop} {ctx : List String} {t : PE} {b o : List Stmt} {st : VS} {d : Decl} {P : List Tgt → Prop} (hP : ∀ x, P [x]) (ho : restOf o ≠ [])
    (h : CompilesArms H c R (fun n => visitBranches (fun ctx => visitModule (visit D n ctx)) (ctx ++ ["if"]) true ((t, b) :: restOf o) st) d) :
    Compiles H c R (fun n => visit D n ctx (.ifs t b o) st) d P := by
  obtain ⟨N, ts, st', r, v, e⟩ := h
  refine ⟨N + 1, [.ifelse ts], st', r, ?_, ?_, hP _⟩
  · intro n hn
    obtain ⟨n, rfl⟩ := Nat.exists_eq_add_of_le' (le_trans (Nat.le_add_left 1 N) hn)
    have a := v n (by omega)
    simp only [visit, unrollIf_rest, bind, Except.bind]
    simp only at a
    rw [if_neg (by
      have := List.length_pos_iff.2 ho
      simp only [List.length_cons]; omega), a]
  · intro ρ hρ
    obtain ⟨as, has, os, ms, q, e1, e2⟩ := e ρ hρ
    exact ⟨[.ifelse q.1 q.2 ms], by simp [Tgt.runL, Tgt.run, has, mkIfElse, e1, e2, bind, Except.bind]⟩

theorem restOf_ne {o : List Stmt} (h : o ≠ []) : restOf o ≠ [] := by
  unfold restOf
  split
  · exact absurd rfl h
  · rw [unrollIf_rest]; simp
  · simp

theorem good_claim {p : Place} {R : NS → Prop} {d : Decl} {w : Work} {d' : Decl} (h : Good D H c p R d w d') : Claim D H c p R d w d' := by
  induction h with
  | @sample p R d target f args vars hf hfa hi hn he =>
    exact claim_sample (fun ctx st => visitAssign_call hf hfa) (by simp) ⟨f, by simp [PE.names], hf⟩ hi hn he
  | @mixture p R d target l r vars hD hi hn he =>
    refine claim_sample (fun ctx st => ?_) (by simp) hD hi hn he
    obtain ⟨f, hf, hfD⟩ := hD
    have : (PE.bin .bitOr l r).names.filter (· ∈ D) ≠ [] := filter_ne_nil hf (by simpa using hfD)
    unfold visitAssign
    simp only
    rw [if_pos this]
  | @transform p R d target e vars hif har hD hvar hi hn he =>
    intro ctx st hc hr
    have hds : e.names.filter (· ∈ D) = [] := by simpa using hD
    obtain ⟨x, hx, hxv⟩ := hvar
    have hvs : e.names.filter (fun x => (st.vars.lookup x).isSome) ≠ [] := filter_ne_nil hx (by rw [hr.vars]; exact hxv)
    refine compiles_of (ts := [.transform target.expr e]) (st := { st with vars := vars }) 1 ⟨hr.first, hr.constants, rfl, hr.random⟩ ?_ ?_ (by intro _ _; rfl)
    · intro n hn'
      obtain ⟨n, rfl⟩ := Nat.exists_eq_add_of_le' hn'
      rw [visit_assign hif]
      rw [visitAssign_plain har hds, if_pos hvs]
      simp only [visitRandom, bind, Except.bind]
      rw [declare_total (d := d) hc (by exact hr.vars) hi]
      simp [PE.rewrite_noEq e hn]
    · intro ρ hρ
      obtain ⟨h1, s, h2⟩ := he ρ hρ
      exact run_transform h1 h2
  | @const p R d target e hif har hN htop hrand hfresh =>
    intro ctx st hc hr
    have hds : e.names.filter (· ∈ D) = [] := by simpa using fun x hx => (hN x hx).1
    have hvs : e.names.filter (fun x => (st.vars.lookup x).isSome) = [] := by
      simp only [List.filter_eq_nil_iff]
      intro x hx
      rw [hr.vars, (hN x hx).2]; simp
    have hdist : st.distributions = [] := by
      by_contra h
      rw [hr.random.2 h] at hrand; cases hrand
    refine compiles_of (ts := []) (st := { st with constants := st.constants ++ [(target, e)] }) 1 ⟨hr.first, by simp [hr.constants], hr.vars, hr.random⟩ ?_ ?_ ?_
    · intro n hn'
      obtain ⟨n, rfl⟩ := Nat.exists_eq_add_of_le' hn'
      rw [visit_assign hif]
      rw [visitAssign_plain har hds, if_neg (by simpa using hvs)]
      simp only [visitPy, hc.top.2 htop, hdist]
      simp [hr.constants, hfresh]
    · intro ρ hρ; exact ⟨[], by simp [Tgt.runL]⟩
    · intro h; rw [htop] at h; cases h
  | @array p R d x n hD htop hx =>
    intro ctx st hc hr
    have hds : (PE.call "array" [n]).names.filter (· ∈ D) = [] := by simpa using hD
    refine compiles_of (ts := []) (st := { st with vars := st.vars ++ [(x, .array n)] }) 1 ⟨hr.first, hr.constants, by simp [hr.vars], hr.random⟩ ?_ ?_ ?_
    · intro m hm
      obtain ⟨m, rfl⟩ := Nat.exists_eq_add_of_le' hm
      rw [visit_assign (by simp)]
      unfold visitAssign
      simp only [hds]
      simp [visitArray, hc.top.2 htop, hr.vars, hx]
    · intro ρ hρ; exact ⟨[], by simp [Tgt.runL]⟩
    · intro h; rw [htop] at h; cases h
  | @ifexp p R d target t a e d1 d2 ht _ _ ih1 ih2 =>
    intro ctx st hc hr
    have h : Compiles H c R (fun n => visit D n ctx (.ifs t [.assign target a] [altStmt target e]) st) d2 (fun ts => p.top = false → Stmt.assign target (.ifexp t a e) ≠ .pass → ts.length = 1) := by
      refine compiles_if (by simp) (restOf_ne (by simp)) ?_
      refine arms_cons ht (fun ts h => h rfl) (ih1 (ctx ++ ["if"]) st (hc.push (by decide) (by decide) (by decide)) hr) ?_
      intro st1 hr1
      exact ih2 (ctx ++ ["if"]) st1 hc.elif hr1
    obtain ⟨N, ts, st', r, v, e1, l⟩ := h
    refine ⟨N + 1, ts, st', r, ?_, e1, l⟩
    intro n hn
    obtain ⟨n, rfl⟩ := Nat.exists_eq_add_of_le' (le_trans (Nat.le_add_left 1 N) hn)
    have := v n (by omega)
    simp only [visit, unrollIfExp_alt]
    exact this
  | @altLeaf p R d target e d' hif _ ih =>
    intro ctx st hc hr
    have h0 : altStmt target e = .assign target e := by
      unfold altStmt
      split
      · exact absurd rfl (hif _ _ _)
      · rfl
    rw [h0]
    exact arms_else (fun ts h => h hc.not_top) (ih (ctx ++ ["elif"]) st hc hr)
  | @altIf p R d target t a e d1 d2 ht _ _ ih1 ih2 =>
    intro ctx st hc hr
    have h0 : restOf [altStmt target (.ifexp t a e)] = (t, [.assign target a]) :: restOf [altStmt target e] := by
      rw [altStmt, unrollIfExp_alt, restOf, unrollIf_rest]
    rw [h0]
    refine arms_cons ht (fun ts h => h hc.not_top) (ih1 (ctx ++ ["elif"]) st hc hr) ?_
    intro st1 hr1
    exact ih2 ctx st1 hc hr1
  | @ifs p R d t b o d1 d2 ht ho _ _ ih1 ih2 =>
    intro ctx st hc hr
    refine compiles_if (by simp) (restOf_ne ho) ?_
    refine arms_cons ht (fun ts h => h rfl) (ih1 (ctx ++ ["if"]) st (hc.push (by decide) (by decide) (by decide)) hr) ?_
    intro st1 hr1
    exact ih2 (ctx ++ ["if"]) st1 hc.elif hr1
  | @restNone p R d =>
    intro ctx st hc hr
    exact arms_nil hr
  | @restElif p R d t b o d1 d2 ht _ _ ih1 ih2 =>
    intro ctx st hc hr
    rw [restOf, unrollIf_rest]
    refine arms_cons ht (fun ts h => h hc.not_top) (ih1 (ctx ++ ["elif"]) st hc hr) ?_
    intro st1 hr1
    exact ih2 ctx st1 hc hr1
  | @restElse p R d o d' ho hb ih =>
    intro ctx st hc hr
    have h0 : restOf o = [(PE.yes, o)] := by
      unfold restOf
      split
      · cases hb; rename_i h _ _; exact absurd rfl h
      · exact absurd rfl (ho _ _ _)
      · rfl
    rw [h0]
    exact arms_else (fun ts h => h hc.not_top) (ih (ctx ++ ["elif"]) st hc hr)
  | @forr p R d x n0 n1 body d' hn _ ih =>
    intro ctx st hc hr
    obtain ⟨N, ts, st', r, v, e, l⟩ := ih (ctx ++ ["for"]) st hc.for hr
    refine ⟨N + 1, [.forr n0 n1 x ts], st', r, ?_, ?_, fun _ _ => rfl⟩
    · intro n hn
      obtain ⟨n, rfl⟩ := Nat.exists_eq_add_of_le' (le_trans (Nat.le_add_left 1 N) hn)
      have a := v n (by omega)
      simp only at a
      simp only [visit, a, bind, Except.bind]
    · intro ρ hρ
      obtain ⟨⟨a, ha⟩, b, hb⟩ := hn ρ hρ
      have : ∃ ms, (intRange a b).mapM (fun i => do
          let as ← Tgt.runL H c (ρ.bind x (.int i)) ts
          oneCmd as) = .ok ms := by
        refine mapM_total_of (fun i hi => ?_)
        obtain ⟨ms, hms⟩ := e (ρ.bind x (.int i)) ⟨ρ, hρ, a, b, ha, hb, i, (intRange_mem hi).1, (intRange_mem hi).2, rfl⟩
        obtain ⟨m, rfl⟩ := length_one hms (l rfl)
        exact ⟨m, by simp [hms, oneCmd, bind, Except.bind]⟩
      obtain ⟨ms, hms⟩ := this
      exact ⟨[.forr a b (tabulate a ms)], by
        simp only [Tgt.runL, Tgt.run, ha, hb]
        simp only [bind, Except.bind] at hms ⊢
        simp only [hms, List.map_cons, List.map_nil]⟩
  | @switch p R d i x sym vals body d' hn _ ih =>
    intro ctx st hc hr
    obtain ⟨N, ts, st', r, v, e, l⟩ := ih (ctx ++ ["switch"]) st (hc.push (by decide) (by decide) (by decide)) hr
    refine ⟨N + 1, [.switch sym vals i x ts], st', r, ?_, ?_, fun _ _ => rfl⟩
    · intro n hn
      obtain ⟨n, rfl⟩ := Nat.exists_eq_add_of_le' (le_trans (Nat.le_add_left 1 N) hn)
      have a := v n (by omega)
      simp only at a
      simp only [visit, a, bind, Except.bind]
    · intro ρ hρ
      obtain ⟨⟨t, ha⟩, vs, hb, hv⟩ := hn ρ hρ
      have h1 : ∃ ss, vs.mapM Obj.swVal = .ok ss := by
        refine mapM_total_of (fun v hi => ?_)
        rcases hv v hi with ⟨S, rfl⟩ | ⟨s, rfl⟩ | ⟨y, hy⟩
        · exact ⟨_, rfl⟩
        · exact ⟨_, rfl⟩
        · cases v <;> simp_all [Obj.swVal, Obj.num?]
      have h2 : ∃ ms, vs.zipIdx.mapM (fun v => do
          let as ← Tgt.runL H c (bindCase ρ i x v.2 v.1) ts
          oneCmd as) = .ok ms := by
        refine mapM_total_of (fun v hi => ?_)
        obtain ⟨ms, hms⟩ := e (bindCase ρ i x v.2 v.1) ⟨ρ, hρ, vs, hb, v.2, v.1, by
          obtain ⟨v, k⟩ := v; exact List.mem_zipIdx_iff_getElem?.1 hi, bindCase_eq _ _ _ _ _⟩
        obtain ⟨m, rfl⟩ := length_one hms (l rfl)
        exact ⟨m, by simp [hms, oneCmd, bind, Except.bind]⟩
      obtain ⟨ss, hss⟩ := h1
      obtain ⟨ms, hms⟩ := h2
      exact ⟨[.switch t ss ms], by
        simp only [Tgt.runL, Tgt.run, ha, hb]
        simp only [bind, Except.bind] at hms ⊢
        simp only [hss, hms, List.map_cons, List.map_nil]⟩
  | @condition p R d e he =>
    intro ctx st hc hr
    refine compiles_of (ts := [.condition e.rewrite]) (st := st) 1 hr ?_ ?_ (by intro _ _; rfl)
    · intro n hn
      obtain ⟨n, rfl⟩ := Nat.exists_eq_add_of_le' hn
      simp only [visit]
    · intro ρ hρ
      obtain ⟨v, hv⟩ := he ρ hρ
      exact ⟨[.condition v], by simp [Tgt.runL, Tgt.run, hv, bind, Except.bind]⟩
  | @constrain p R d items he =>
    intro ctx st hc hr
    refine compiles_of (ts := [.constrain items]) (st := st) 1 hr ?_ ?_ (by intro _ _; rfl)
    · intro n hn
      obtain ⟨n, rfl⟩ := Nat.exists_eq_add_of_le' hn
      simp only [visit]
    · intro ρ hρ
      obtain ⟨a, ha⟩ := runItems_total (he ρ hρ) []
      exact ⟨[.constrain a], by simp [Tgt.runL, Tgt.run, ha, bind, Except.bind]⟩
  | @pass p R d =>
    intro ctx st hc hr
    refine compiles_of (ts := []) (st := st) 1 hr ?_ (fun ρ _ => ⟨[], rfl⟩) (by intro _ h; exact absurd rfl h)
    intro n hn
    obtain ⟨n, rfl⟩ := Nat.exists_eq_add_of_le' hn
    simp only [visit]
  | @nil p R d =>
    intro ctx st hc hr
    exact compiles_of (ts := []) (st := st) 0 hr (fun n _ => rfl) (fun ρ _ => ⟨[], rfl⟩) (by intro _ h; cases h)
  | @cons p R d s l d1 d2 _ _ ih1 ih2 =>
    intro ctx st hc hr
    obtain ⟨N1, ts, st1, r1, v1, e1, l1⟩ := ih1 ctx st hc hr
    obtain ⟨N2, us, st2, r2, v2, e2, l2⟩ := ih2 ctx st1 hc r1
    refine ⟨max N1 N2, ts ++ us, st2, r2, ?_, ?_, ?_⟩
    · intro n hn
      have a1 := v1 n (le_trans (le_max_left _ _) hn)
      have a2 := v2 n (le_trans (le_max_right _ _) hn)
      simp only at a1 a2
      simp only [visitItems, a1, a2, bind, Except.bind]
    · intro ρ hρ
      obtain ⟨ms, hms⟩ := e1 ρ hρ
      obtain ⟨ms', hms'⟩ := e2 ρ hρ
      exact ⟨ms ++ ms', by rw [runL_append_ok hms hms', List.map_append]⟩
    · intro hp hl hne
      have hnil : l = [] := by simpa using hl
      subst hnil
      have := l1 hp (by simpa using hne)
      have h3 := v2 N2 le_rfl
      simp only [visitItems] at h3
      injection h3 with h3; injection h3 with h3 _
      simp [← h3, this]
  | @body p R d l d' hne hpass _ ih =>
    intro ctx st hc hr
    obtain ⟨N, ts, st', r, v, e, hl⟩ := ih ctx st hc hr
    have hst : ({ st with first := false } : VS) = st := by cases st; have := hr.first; simp_all
    by_cases h2 : 1 < l.length
    · refine ⟨N, [.seq ts], st', r, ?_, ?_, by intro _; rfl⟩
      · intro n hn
        have a := v n hn
        simp only at a
        simp [visitModule, hst, a, bind, Except.bind, sequenceBlock, h2]
      · intro ρ hρ
        obtain ⟨ms, hms⟩ := e ρ hρ
        exact ⟨[.seq ms], by simp [Tgt.runL, Tgt.run, hms, allCmds_ok, bind, Except.bind]⟩
    · refine ⟨N, ts, st', r, ?_, e, ?_⟩
      · intro n hn
        have a := v n hn
        simp only at a
        simp [visitModule, hst, a, bind, Except.bind, sequenceBlock, h2, hr.first]
      · intro hp
        have := List.length_pos_iff.2 hne
        exact hl hp (by omega) hpass

end

end Sppl
