import Verif.Comp.VisitLemmas

set_option linter.all false

/-!
# Lemmas on the visitor: blocks and branches
-/

namespace Sppl
open Classical MeasureTheory
open scoped ENNReal ProbabilityTheory

section
variable {H : PyHost} {c : Ctx} {L : Lib} {μ : Dist → Measure ℝ} {D : List String}

/-- What is shown of the visit of a statement. -/
def VisitsStmt (H : PyHost) (c : Ctx) (L : Lib) (μ : Dist → Measure ℝ) (ctx : List String) (f : Stmt → VS → Res (List Tgt × VS)) : Prop :=
  ∀ s st r, f s st = .ok r → r.1.length ≤ 1 ∧ VisitOK H c μ ctx st r (fun ρ => s.sem H c μ ρ) (fun ρ => s.Safe H c L μ ρ)

theorem items_ok {ctx : List String} {f : Stmt → VS → Res (List Tgt × VS)} (hf : VisitsStmt H c L μ ctx f) : ∀ (ss : List Stmt) (st : VS) (r : List Tgt × VS),
    visitItems f ss st = .ok r → r.1.length ≤ ss.length ∧ VisitOK H c μ ctx st r (fun ρ => Stmt.semL H c μ ρ ss) (fun ρ => Stmt.SafeL H c L μ ρ ss) := by
  intro ss
  induction ss with
  | nil =>
    intro st r h
    simp only [visitItems] at h
    injection h with h; subst h
    exact ⟨by simp, fun p hp => hp, fun ρ _ _ => runsAs_nil fun m _ => by simp only [Stmt.semL]⟩
  | cons s ss ih =>
    intro st r h
    simp only [visitItems, bind, Except.bind] at h
    split at h; · cases h
    rename_i a ha
    split at h; · cases h
    rename_i b hb
    injection h with h; subst h
    obtain ⟨k1, k2⟩ := hf s st a ha
    obtain ⟨l1, l2⟩ := ih a.2 b hb
    refine ⟨by simp; omega, fun p hp => l2.mono p (k2.mono p hp), fun ρ hρ hc as has => ?_⟩
    obtain ⟨as1, as2, h1, h2, rfl⟩ := runL_append has
    obtain ⟨ms1, rfl, q1⟩ := k2.runs ρ hρ (fun hg p hp => hc hg p (l2.mono p hp)) as1 h1
    obtain ⟨ms2, rfl, q2⟩ := l2.runs ρ hρ hc as2 h2
    refine ⟨ms1 ++ ms2, by simp, fun m _ hm => ?_⟩
    simp only [Stmt.SafeL] at hm
    have := Stmt.sem_finite s ρ m hm.1
    rw [semL_append, List.foldl_append, q1 m hm.1, q2 _ hm.2]
    simp only [Stmt.semL]

theorem module_ok {ctx : List String} {f : Stmt → VS → Res (List Tgt × VS)} (hf : VisitsStmt H c L μ ctx f) {ss : List Stmt} {st : VS} {r : List Tgt × VS}
    (h : visitModule f ss st = .ok r) : r.1.length ≤ 1 ∧ VisitOK H c μ ctx st r (fun ρ => Stmt.semL H c μ ρ ss) (fun ρ => Stmt.SafeL H c L μ ρ ss) := by
  simp only [visitModule, bind, Except.bind] at h
  split at h; · cases h
  rename_i a ha
  injection h with h; subst h
  obtain ⟨k1, k2⟩ := items_ok hf ss _ a ha
  simp only [sequenceBlock]
  by_cases hs : (decide (1 < ss.length) || st.first) = true
  · rw [if_pos hs]
    refine ⟨le_rfl, k2.mono, fun ρ hρ hc => ?_⟩
    refine runsAs_one fun x hx => ?_
    simp only [Tgt.run, bind, Except.bind] at hx
    split at hx; · cases hx
    rename_i as has
    obtain ⟨ms, rfl, q⟩ := k2.runs ρ hρ hc as has
    rw [allCmds_map] at hx
    injection hx with hx; subst hx
    refine ⟨_, rfl, fun m _ hm => ?_⟩
    simp only [Cmd.sem]
    exact q m hm
  · rw [if_neg hs]
    refine ⟨?_, k2.mono, k2.runs⟩
    simp at hs
    show a.1.length ≤ 1
    omega

/-! ## Branches -/

/-- The value of the test and the command of a branch. -/
structure BranchRun (H : PyHost) (c : Ctx) (L : Lib) (μ : Dist → Measure ℝ) (ρ : NS) (b : PE × List Stmt) (q : Obj × Cmd) : Prop where
  test : b.1.rewrite.eval H c ρ = .ok q.1
  body : ∀ (m : Measure Asg) [IsFiniteMeasure m], Stmt.SafeL H c L μ ρ b.2 m → q.2.sem μ m = Stmt.semL H c μ ρ b.2 m

theorem visitBranches_ok {block : List String → List Stmt → VS → Res (List Tgt × VS)} {ctx : List String}
    (hb : ∀ ctx', ctx' = ctx ∨ ctx' = ctx ++ ["elif"] → ∀ ss st r, block ctx' ss st = .ok r →
      r.1.length ≤ 1 ∧ VisitOK H c μ ctx' st r (fun ρ => Stmt.semL H c μ ρ ss) (fun ρ => Stmt.SafeL H c L μ ρ ss)) (hg : ctx ≠ ["global"]) :
    ∀ (bs : List (PE × List Stmt)) (first : Bool) (st : VS) (r : List Tgt × VS), visitBranches block ctx first bs st = .ok r →
    (∀ p ∈ st.constants, p ∈ r.2.constants) ∧ ∀ ρ : NS, ρ.Canonical → ∀ as q, Tgt.runL H c ρ r.1 = .ok as → splitArgs as = .ok q →
      ∃ qs : List (Obj × Cmd), q.1 = qs.map Prod.fst ∧ q.2 = qs.map Prod.snd ∧ List.Forall₂ (BranchRun H c L μ ρ) bs qs := by
  intro bs
  induction bs with
  | nil =>
    intro first st r h
    simp only [visitBranches] at h
    injection h with h; subst h
    refine ⟨fun p hp => hp, fun ρ _ as q has hq => ?_⟩
    simp only [Tgt.runL] at has
    injection has with has; subst has
    simp only [splitArgs] at hq
    injection hq with hq; subst hq
    exact ⟨[], rfl, rfl, .nil⟩
  | cons b bs ih =>
    obtain ⟨test, body⟩ := b
    intro first st r h
    simp only [visitBranches, bind, Except.bind] at h
    split at h; · cases h
    rename_i a ha
    split at h; · cases h
    rename_i b hb'
    injection h with h; subst h
    obtain ⟨k1, k2⟩ := hb _ (by cases first <;> simp) body st a ha
    obtain ⟨l1, l2⟩ := ih false a.2 b hb'
    refine ⟨fun p hp => l1 p (k2.mono p hp), fun ρ hρ as q has hq => ?_⟩
    simp only [List.cons_append, Tgt.runL, Tgt.run, bind, Except.bind] at has
    split at has; · cases has
    rename_i x hx
    split at hx; · cases hx
    rename_i o ho
    injection hx with hx; subst hx
    split at has; · cases has
    rename_i ys hys
    injection has with has; subst has
    obtain ⟨as1, as2, h1, h2, rfl⟩ := runL_append hys
    obtain ⟨ms, rfl, q1⟩ := k2.runs ρ hρ (by
      intro hgl
      cases first
      · simp only [Bool.false_eq_true, if_false] at hgl
        have := congrArg List.getLast? hgl
        simp at this
      · exact absurd hgl hg) as1 h1
    have hlen : ms.length ≤ 1 := by have := (runL_length h1).le.trans k1; rwa [List.length_map] at this
    -- exactly one command
    obtain ⟨m, rfl⟩ : ∃ m, ms = [m] := by
      match ms, hlen with
      | [m], _ => exact ⟨m, rfl⟩
      | [], _ =>
        exfalso
        -- the next entry is another test, or there is none
        simp only [List.map_nil, List.nil_append] at hq
        have : ∀ as2, Tgt.runL H c ρ b.1 = .ok as2 → ∀ m r, as2 ≠ .cmd m :: r := by
          intro as2 h2 m r
          cases bs with
          | nil =>
            simp only [visitBranches] at hb'
            injection hb' with hb'; subst hb'
            simp only [Tgt.runL] at h2
            injection h2 with h2; subst h2
            simp
          | cons b' bs' =>
            obtain ⟨t', b'⟩ := b'
            simp only [visitBranches, bind, Except.bind] at hb'
            split at hb'; · cases hb'
            split at hb'; · cases hb'
            injection hb' with hb'; subst hb'
            simp only [List.cons_append, Tgt.runL, Tgt.run, bind, Except.bind] at h2
            split at h2; · cases h2
            rename_i x hx
            split at hx; · cases hx
            injection hx with hx; subst hx
            split at h2; · cases h2
            injection h2 with h2; subst h2
            simp
        unfold splitArgs at hq
        split at hq
        · simp at *
        · rename_i o' m as' he
          rw [List.cons.injEq] at he
          exact this as2 h2 m as' he.2
        · cases hq
    simp only [List.map_cons, List.map_nil, List.cons_append, List.nil_append, splitArgs, bind, Except.bind] at hq
    split at hq; · cases hq
    rename_i q' hq'
    injection hq with hq; subst hq
    obtain ⟨qs, e1, e2, e3⟩ := l2 ρ hρ as2 q' h2 hq'
    refine ⟨(o, m) :: qs, by simp [e1], by simp [e2], .cons ⟨ho, fun μ' _ hm => ?_⟩ e3⟩
    simpa [Cmd.semL] using q1 μ' hm

theorem splitConds_sets {bs : List (PE × List Stmt)} {ρ : NS} {qs : List (Obj × Cmd)} (h : List.Forall₂ (BranchRun H c L μ ρ) bs qs) : ∀ {q : List Ev × Bool}, splitConds (qs.map Prod.fst) = .ok q →
    ∃ ps : List (Set Asg × (Measure Asg → Measure Asg)), condSets q.1 q.2 = ps.map Prod.fst ∧ Cmd.semL μ (qs.map Prod.snd) = ps.map Prod.snd ∧
      List.Forall₂ (BranchRel H c L μ ρ) bs ps := by
  induction h with
  | nil =>
    intro q hq
    simp only [List.map_nil, splitConds] at hq
    injection hq with hq; subst hq
    exact ⟨[], by simp [condSets], by simp [Cmd.semL], .nil⟩
  | @cons b x bs qs hb hbs ih =>
    intro q hq
    obtain ⟨o, p⟩ := x
    simp only [List.map_cons] at hq
    unfold splitConds at hq
    split at hq
    · cases ‹_ :: _ = []›
    · rename_i he
      rw [List.cons.injEq] at he
      obtain ⟨ho, hn⟩ := he
      have hn : qs = [] := by simpa using hn
      subst hn
      cases hbs
      injection hq with hq; subst hq
      refine ⟨[(Set.univ, p.sem μ)], by simp [condSets], by simp [Cmd.semL], .cons ⟨MeasurableSet.univ, fun _ => rfl, ?_, hb.body⟩ .nil⟩
      intro hpl
      obtain ⟨e, he, -⟩ := plain_ok hpl hb.test
      dsimp only at ho he
      rw [ho] at he; cases he
    · rename_i e os he
      rw [List.cons.injEq] at he
      obtain ⟨ho, rfl⟩ := he
      subst ho
      simp only [bind, Except.bind] at hq
      split at hq; · cases hq
      rename_i q' hq'
      injection hq with hq; subst hq
      obtain ⟨ps, e1, e2, e3⟩ := ih hq'
      refine ⟨({ω | e.holds ω}, p.sem μ) :: ps, by simpa [condSets] using e1, by simp [Cmd.semL, e2], .cons ⟨Ev.measurable_set e, ?_, ?_, hb.body⟩ e3⟩
      · intro hy
        have := hb.test
        rw [hy] at this
        simp only [PE.yes, PE.rewrite, PE.eval] at this
        cases this
      · intro hpl ω hω
        obtain ⟨e', he', -, h2⟩ := plain_ok hpl hb.test
        injection he' with he'; subst he'
        exact h2 ω hω
    · cases hq

theorem ifelse_ok {ctx : List String} {f : List String → Stmt → VS → Res (List Tgt × VS)} (hf : ∀ ctx', VisitsStmt H c L μ ctx' (f ctx')) {t : PE} {b o : List Stmt} {st : VS} {r : List Tgt × VS}
    (h : visitBranches (fun ctx => visitModule (f ctx)) (ctx ++ ["if"]) true (unrollIf t b o) st = .ok r) :
    VisitOK H c μ ctx st ([.ifelse r.1], r.2) (fun ρ => (Stmt.ifs t b o).sem H c μ ρ) (fun ρ => (Stmt.ifs t b o).Safe H c L μ ρ) := by
  obtain ⟨k1, k2⟩ := visitBranches_ok (H := H) (c := c) (L := L) (μ := μ) (block := fun ctx => visitModule (f ctx)) (fun ctx' _ ss st r h => module_ok (hf ctx') h)
    (by intro h; have := congrArg List.getLast? h; simp at this) _ _ _ _ h
  refine ⟨k1, fun ρ hρ _ => runsAs_one fun a ha => ?_⟩
  simp only [Tgt.run, bind, Except.bind] at ha
  split at ha; · cases ha
  rename_i as has
  split at ha; · cases ha
  rename_i m hm
  injection ha with ha; subst ha
  refine ⟨m, rfl, fun ν _ hν => ?_⟩
  simp only [mkIfElse, bind, Except.bind] at hm
  split at hm; · cases hm
  rename_i q hq
  split at hm; · cases hm
  rename_i cs hcs
  injection hm with hm; subst hm
  obtain ⟨qs, e1, e2, e3⟩ := k2 ρ hρ as q has hq
  rw [e1] at hcs
  obtain ⟨ps, d1, d2, d3⟩ := splitConds_sets e3 hcs
  simp only [Cmd.sem]
  rw [d1, e2, d2, branches_nest (fun p hp => by
    obtain ⟨b, _, hb⟩ := forall₂_mem_right d3 hp
    exact hb.meas), nest_unroll d3 ν hν]

/-! ## Loops and cases -/

theorem canonical_bind {ρ : NS} (hρ : ρ.Canonical) {x : String} {o : Obj} (h1 : ∀ t, o ≠ .tr t) (h2 : ∀ vs, o ≠ .coll vs) : (ρ.bind x o).Canonical := by
  refine ⟨fun y X h => ?_, fun y vs i X h hi => ?_⟩
  · unfold NS.bind at h
    split at h
    · injection h with h; exact absurd h (h1 _)
    · exact hρ.name y X h
  · unfold NS.bind at h
    split at h
    · injection h with h; exact absurd h (h2 _)
    · exact hρ.elem y vs i X h hi

theorem oneCmd_ok {as : List Arg} {m : Cmd} (h : oneCmd as = .ok m) : as = [.cmd m] := by
  unfold oneCmd at h
  split at h
  · injection h with h; subst h; rfl
  · cases h

/-- The body of a `lambda`. -/
theorem RunsAs.one {ρ : NS} {ts : List Tgt} {f : Measure Asg → Measure Asg} {S : Measure Asg → Prop} (h : RunsAs H c μ ρ ts f S) {as : List Arg} {p : Cmd}
    (h1 : Tgt.runL H c ρ ts = .ok as) (h2 : oneCmd as = .ok p) : ∀ (m : Measure Asg) [IsFiniteMeasure m], S m → p.sem μ m = f m := by
  obtain ⟨ms, e, hm⟩ := h as h1
  rw [oneCmd_ok h2] at e
  cases ms with
  | nil => simp at e
  | cons q ms =>
    simp only [List.map_cons, List.cons.injEq, Arg.cmd.injEq] at e
    obtain ⟨rfl, e⟩ := e
    have : ms = [] := by simpa using e.symm
    subst this
    intro m _ hS
    simpa [Cmd.semL] using hm m hS

theorem for_body {ρ : NS} {ts : List Tgt} {x : String} {a b : ℤ} {ms : List Cmd}
    (h : (intRange a b).mapM (fun i => do
        let as ← Tgt.runL H c (ρ.bind x (.int i)) ts
        oneCmd as) = .ok ms) {k : ℕ} (hk : k < (b - a).toNat) :
    ∃ as, Tgt.runL H c (ρ.bind x (.int (a + (k : ℤ)))) ts = .ok as ∧ oneCmd as = .ok (tabulate a ms (a + (k : ℤ))) := by
  replace h := mapM_ok h
  have hl := h.length_eq
  simp only [intRange, List.length_map, List.length_range] at hl
  have := (List.forall₂_iff_get.1 h).2 k (by simp [intRange]; omega) (by omega)
  simp only [intRange, List.get_eq_getElem, List.getElem_map, List.getElem_range, bind, Except.bind] at this
  split at this; · cases this
  rename_i as has
  refine ⟨as, has, ?_⟩
  rw [this]
  simp [tabulate, List.getElem?_eq_getElem (show k < ms.length by omega)]

theorem for_ok' {ctx : List String} {body : List Stmt} {st : VS} {r : List Tgt × VS} {x : String} {n0 n1 : PE} (hg : ctx ≠ ["global"])
    (h : VisitOK H c μ ctx st r (fun ρ => Stmt.semL H c μ ρ body) (fun ρ => Stmt.SafeL H c L μ ρ body)) :
    ∀ ctx', VisitOK H c μ ctx' st ([.forr n0 n1 x r.1], r.2) (fun ρ => (Stmt.forr x n0 n1 body).sem H c μ ρ) (fun ρ => (Stmt.forr x n0 n1 body).Safe H c L μ ρ) := by
  intro ctx'
  refine ⟨h.mono, fun ρ hρ _ => runsAs_one fun y hy => ?_⟩
  simp only [Tgt.run, bind, Except.bind] at hy
  split at hy; · cases hy
  rename_i o0 h0
  split at hy; · cases hy
  rename_i o1 h1
  split at hy
  · rename_i a b
    split at hy; · cases hy
    rename_i ms hms
    injection hy with hy; subst hy
    refine ⟨_, rfl, fun m _ hm => ?_⟩
    simp only [Stmt.Safe] at hm
    replace hm := hm a b h0 h1
    simp only [Stmt.sem, h0, h1, Cmd.sem]
    have key : ∀ k : ℕ, k ≤ (b - a).toNat → IsFiniteMeasure ((List.range k).foldl (fun m (k : ℕ) => Stmt.semL H c μ (ρ.bind x (.int (a + (k : ℤ)))) body m) m) ∧
        (List.range k).foldl (fun m (k : ℕ) => Cmd.sem μ (tabulate a ms (a + (k : ℤ))) m) m =
        (List.range k).foldl (fun m (k : ℕ) => Stmt.semL H c μ (ρ.bind x (.int (a + (k : ℤ)))) body m) m := by
      intro k
      induction k with
      | zero => intro _; exact ⟨by simpa, rfl⟩
      | succ k ih =>
        intro hk
        obtain ⟨i1, i2⟩ := ih (by omega)
        have hsafe := hm k (by omega)
        rw [List.range_succ, List.foldl_append, List.foldl_append, i2]
        refine ⟨Stmt.semL_finite body _ _ hsafe, ?_⟩
        obtain ⟨as, p1, p2⟩ := for_body hms (k := k) (by omega)
        exact (h.runs _ (canonical_bind hρ (by simp) (by simp)) (fun hh => absurd hh hg)).one p1 p2 _ hsafe
    exact (key _ le_rfl).2
  · cases hy

theorem swVal_holds {v : Obj} {s : SwVal} (h : v.swVal = .ok s) (t : Tr) (ω : Asg) : s.Holds t ω ↔ CaseHolds ω t v := by
  unfold Obj.swVal at h
  split at h
  · injection h with h; subst h; simp [SwVal.Holds, CaseHolds]
  · injection h with h; subst h; simp [SwVal.Holds, CaseHolds, Obj.at]
  · rename_i h1 h2
    split at h
    · rename_i x hx
      injection h with h; subst h
      have := num_at hx ω
      cases v <;> simp [Obj.num?] at hx <;> simp [SwVal.Holds, CaseHolds, this]
    · cases h

theorem swVal_closed {v : Obj} {s : SwVal} (h : v.swVal = .ok s) : (∀ t, v ≠ .tr t) ∧ ∀ vs, v ≠ .coll vs := by
  constructor <;> rintro _ rfl <;> simp [Obj.swVal, Obj.num?] at h

theorem bindCase_eq (ρ : NS) (i : Option String) (x : String) (k : ℕ) (v : Obj) : bindCase ρ i x k v = ρ.case i x k v := by
  funext y
  cases i with
  | none => simp [bindCase, NS.case, NS.bind]
  | some i => simp only [bindCase, NS.case, NS.bind, Option.some.injEq]

theorem bindCase_canonical {ρ : NS} (hρ : ρ.Canonical) {i : Option String} {x : String} {k : ℕ} {v : Obj} (h1 : ∀ t, v ≠ .tr t) (h2 : ∀ vs, v ≠ .coll vs) :
    (ρ.case i x k v).Canonical := by
  rw [← bindCase_eq]
  cases i with
  | none => exact canonical_bind hρ h1 h2
  | some i => exact canonical_bind (canonical_bind hρ (by simp) (by simp)) h1 h2

theorem pointVal_at {o : Obj} {w : Val ℝ} (h : o.pointVal = .ok w) (ω : Asg) : o.at ω = some w := by
  unfold Obj.pointVal at h
  split at h
  · injection h with h; subst h; rfl
  · split at h
    · rename_i x hx; injection h with h; subst h; exact num_at hx ω
    · cases h

theorem runItems_ok {ρ : NS} : ∀ (items : List (PE × PE)) (a b : Point), runItems H c ρ items a = .ok b →
    ∀ ω : Asg, (∀ p ∈ b, ω p.1 = some p.2) ↔ (∀ p ∈ a, (∀ it ∈ items, it.1.eval H c ρ ≠ .ok (.tr (.id p.1))) → ω p.1 = some p.2) ∧ ItemsHold H c ρ items ω
  | [], a, b, h, ω => by
    simp only [runItems] at h; cases h
    simp [ItemsHold]
  | (k, v) :: items, a, b, h, ω => by
    simp only [runItems, bind, Except.bind] at h
    split at h; · cases h
    rename_i x hx
    split at h; · cases h
    rename_i X hX
    split at h; · cases h
    rename_i o ho
    split at h; · cases h
    rename_i w hw
    have hx' : x = .tr (.id X) := by
      unfold Obj.var at hX
      split at hX
      · injection hX with hX; subst hX; rfl
      · cases hX
    subst hx'
    rw [runItems_ok items _ b h ω]
    have e : ItemsHold H c ρ ((k, v) :: items) ω ↔ ((∀ it ∈ items, it.1.eval H c ρ ≠ .ok (.tr (.id X))) → ω X = some w) ∧ ItemsHold H c ρ items ω := by
      simp only [ItemsHold, hx]
      refine and_congr_left (fun _ => forall_congr' fun _ => ?_)
      constructor
      · rintro ⟨t, o', u, h1, h2, h3, h4⟩
        cases h1
        rw [ho] at h2; cases h2
        rw [pointVal_at hw ω] at h4; cases h4
        simpa [Tr.eval] using h3
      · intro h; exact ⟨.id X, o, w, rfl, ho, by simpa [Tr.eval] using h, pointVal_at hw ω⟩
    have e' : (∀ p ∈ dictPut a X w, (∀ it ∈ items, it.1.eval H c ρ ≠ .ok (.tr (.id p.1))) → ω p.1 = some p.2) ↔
        (∀ p ∈ a, (∀ it ∈ (k, v) :: items, it.1.eval H c ρ ≠ .ok (.tr (.id p.1))) → ω p.1 = some p.2) ∧
          ((∀ it ∈ items, it.1.eval H c ρ ≠ .ok (.tr (.id X))) → ω X = some w) := by
      have hXw : (X, w) ∈ dictPut a X w := by
        unfold dictPut
        split
        · rename_i hm
          obtain ⟨p, hp, rfl⟩ := List.mem_map.1 hm
          exact List.mem_map.2 ⟨p, hp, by simp⟩
        · simp
      have hmem : ∀ p ∈ dictPut a X w, p = (X, w) ∨ p ∈ a ∧ p.1 ≠ X := by
        intro p hp
        unfold dictPut at hp
        split at hp
        · obtain ⟨q, hq, rfl⟩ := List.mem_map.1 hp
          split
          · exact .inl rfl
          · rename_i hne; exact .inr ⟨hq, hne⟩
        · rename_i hm
          rcases List.mem_append.1 hp with hp | hp
          · exact .inr ⟨hp, fun he => hm (List.mem_map.2 ⟨p, hp, he⟩)⟩
          · exact .inl (by simpa using hp)
      have hkeep : ∀ p ∈ a, p.1 ≠ X → p ∈ dictPut a X w := by
        intro p hp hne
        unfold dictPut
        split
        · exact List.mem_map.2 ⟨p, hp, by rw [if_neg hne]⟩
        · simp [hp]
      constructor
      · intro h1
        refine ⟨fun p hp h2 => ?_, fun h2 => h1 _ hXw h2⟩
        have hne : p.1 ≠ X := fun he => h2 (k, v) (by simp) (by rw [he]; exact hx)
        exact h1 p (hkeep p hp hne) (fun it hit => h2 it (by simp [hit]))
      · rintro ⟨h1, h2⟩ p hp h3
        rcases hmem p hp with rfl | ⟨hp', hne⟩
        · exact h2 h3
        · refine h1 p hp' (fun it hit => ?_)
          rcases List.mem_cons.1 hit with rfl | hit
          · simp only [hx, ne_eq, Except.ok.injEq, Obj.tr.injEq, Tr.id.injEq]; exact fun he => hne he.symm
          · exact h3 it hit
    rw [e, e', and_assoc]

theorem switch_ok {ctx : List String} {body : List Stmt} {st : VS} {r : List Tgt × VS} {i : Option String} {x : String} {sym vals : PE} (hg : ctx ≠ ["global"])
    (h : VisitOK H c μ ctx st r (fun ρ => Stmt.semL H c μ ρ body) (fun ρ => Stmt.SafeL H c L μ ρ body)) :
    ∀ ctx', VisitOK H c μ ctx' st ([.switch sym vals i x r.1], r.2) (fun ρ => (Stmt.switch i x sym vals body).sem H c μ ρ)
      (fun ρ => (Stmt.switch i x sym vals body).Safe H c L μ ρ) := by
  intro ctx'
  refine ⟨h.mono, fun ρ hρ _ => runsAs_one fun y hy => ?_⟩
  simp only [Tgt.run, bind, Except.bind] at hy
  split at hy; · cases hy
  rename_i o0 h0
  split at hy; · cases hy
  rename_i o1 h1
  split at hy
  · rename_i t vs
    split at hy; · cases hy
    rename_i ss hss
    split at hy; · cases hy
    rename_i ms hms
    injection hy with hy; subst hy
    refine ⟨_, rfl, fun m _ hm => ?_⟩
    simp only [Stmt.Safe] at hm
    replace hm := hm t vs h0 h1
    simp only [Stmt.sem, h0, h1, Cmd.sem]
    replace hss := mapM_ok hss
    replace hms := mapM_ok hms
    have e1 : caseSets t ss = vs.map (fun v => {ω | CaseHolds ω t v}) := by
      clear hm hms h1
      induction hss with
      | nil => rfl
      | cons h1 _ ih =>
        simp only [caseSets, List.map_cons] at ih ⊢
        rw [ih]
        congr 1
        ext ω
        exact swVal_holds h1 t ω
    rw [e1]
    unfold branches
    congr 1
    refine List.ext_getElem? fun k => ?_
    rw [List.getElem?_zipWith, List.getElem?_zipWith]
    cases hE : (firsts ∅ (vs.map (fun v => {ω | CaseHolds ω t v})))[k]? with
    | none => rfl
    | some E =>
      have hl : k < vs.length := by
        have := (List.getElem?_eq_some_iff.1 hE).1
        simpa [firsts_length] using this
      have hl2 : k < ms.length := by rw [← hms.length_eq]; simpa using hl
      have hl4 : k < vs.zipIdx.length := by simpa using hl
      have hl3 : k < ss.length := by rw [← hss.length_eq]; exact hl
      have hsem : ∀ ms : List Cmd, Cmd.semL μ ms = ms.map (Cmd.sem μ) := by
        intro ms; induction ms with
        | nil => rfl
        | cons m ms ih => simp only [Cmd.semL, List.map_cons, ih]
      rw [hsem, List.getElem?_map, List.getElem?_map, List.getElem?_eq_getElem hl4, List.getElem?_eq_getElem hl2]
      simp only [Option.map_some]
      have hv := hm k vs[k] (List.getElem?_eq_getElem hl) E hE
      have q1 := (List.forall₂_iff_get.1 hms).2 k hl4 hl2
      have q2 := (List.forall₂_iff_get.1 hss).2 k hl hl3
      simp only [List.get_eq_getElem, List.getElem_zipIdx, Nat.zero_add, bindCase_eq, bind, Except.bind] at q1 q2
      split at q1; · cases q1
      rename_i as has
      obtain ⟨c1, c2⟩ := swVal_closed q2
      simp only [List.getElem_zipIdx, Nat.zero_add]
      rw [(h.runs _ (bindCase_canonical hρ c1 c2) (fun hh => absurd hh hg)).one has q1 _ hv]
  · cases hy

/-- **The visitor.** -/
theorem visit_ok : ∀ (n : ℕ) (ctx : List String), VisitsStmt H c L μ ctx (visit D n ctx) := by
  intro n
  induction n with
  | zero => intro ctx s st r h; simp only [visit] at h; cases h
  | succ n ih =>
    intro ctx s st r h
    have happ : ∀ w : String, w ≠ "global" → ctx ++ [w] ≠ ["global"] := by
      intro w hw h
      have := congrArg List.getLast? h
      simp at this
      exact hw this
    cases s with
    | assign target e =>
      by_cases h1 : e.isIf = true
      · cases e <;> simp [PE.isIf] at h1
        rename_i t a b
        simp only [visit] at h
        obtain ⟨k1, k2⟩ := ih ctx _ _ _ h
        refine ⟨k1, k2.mono, fun ρ hρ hcon as has => ?_⟩
        obtain ⟨ms, e1, e2⟩ := k2.runs ρ hρ hcon as has
        refine ⟨ms, e1, fun m _ hm => ?_⟩
        simp only [Stmt.Safe] at hm
        rw [e2 m (unrollIfExp_safe target t a b m hm), unrollIfExp_sem]
        simp only [Stmt.sem]
      · have h2 : visit D (n + 1) ctx (.assign target e) st = visitAssign D ctx target e st := by
          cases e <;> first | (simp [PE.isIf] at h1; done) | simp only [visit]
        rw [h2] at h
        exact assign_ok (by simpa using h1) h
    | ifs t b o =>
      simp only [visit, bind, Except.bind] at h
      split at h; · cases h
      split at h; · cases h
      rename_i q hq
      injection h with h; subst h
      exact ⟨le_rfl, ifelse_ok ih hq⟩
    | forr x n0 n1 body =>
      simp only [visit, bind, Except.bind] at h
      split at h; · cases h
      rename_i q hq
      injection h with h; subst h
      exact ⟨le_rfl, for_ok' (happ "for" (by decide)) (module_ok (ih _) hq).2 ctx⟩
    | switch i x sym vals body =>
      simp only [visit, bind, Except.bind] at h
      split at h; · cases h
      rename_i q hq
      injection h with h; subst h
      exact ⟨le_rfl, switch_ok (happ "switch" (by decide)) (module_ok (ih _) hq).2 ctx⟩
    | condition e =>
      simp only [visit] at h
      injection h with h; subst h
      refine ⟨le_rfl, fun p hp => hp, fun ρ hρ _ => runsAs_one fun y hy => ?_⟩
      simp only [Tgt.run, bind, Except.bind] at hy
      split at hy; · cases hy
      rename_i v hv
      split at hy
      · rename_i g
        injection hy with hy; subst hy
        refine ⟨_, rfl, fun m _ hm => ?_⟩
        simp only [Stmt.Safe] at hm
        simp only [Stmt.sem, Cmd.sem]
        obtain ⟨g', hg', -, h2⟩ := plain_ok hm.plain hv
        injection hg' with hg'; subst hg'
        refine cond_ae ?_
        filter_upwards [hm.typed] with ω hω
        exact h2 ω hω
      · cases hy
    | constrain items =>
      simp only [visit] at h
      injection h with h; subst h
      refine ⟨le_rfl, fun p hp => hp, fun ρ hρ _ => runsAs_one fun y hy => ?_⟩
      simp only [Tgt.run, bind, Except.bind] at hy
      split at hy; · cases hy
      rename_i a ha
      injection hy with hy; subst hy
      refine ⟨_, rfl, fun m _ hm => ?_⟩
      simp only [Stmt.sem, Cmd.sem]
      congr 1
      ext ω
      simpa using runItems_ok items [] a ha ω
    | call f args =>
      simp only [visit] at h
      split at h; · cases h
      injection h with h; subst h
      exact ⟨by simp, fun p hp => hp, fun ρ _ _ => runsAs_nil fun m _ => by simp only [Stmt.sem]⟩
    | other body =>
      simp only [visit] at h
      obtain ⟨k1, k2⟩ := module_ok (ih ctx) h
      refine ⟨k1, k2.mono, fun ρ hρ hc as has => ?_⟩
      obtain ⟨ms, q1, _⟩ := k2.runs ρ hρ hc as has
      exact ⟨ms, q1, fun m _ hm => absurd hm (by simp only [Stmt.Safe, not_false_eq_true])⟩
    | pass =>
      simp only [visit] at h
      injection h with h; subst h
      exact ⟨by simp, fun p hp => hp, fun ρ _ _ => runsAs_nil fun m _ => by simp only [Stmt.sem]⟩

end

end Sppl
