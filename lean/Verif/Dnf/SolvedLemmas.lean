import Verif.Dnf.SolvedSpec
import Verif.Dnf.Curve2Lemmas

set_option linter.all false

/-!
# `dnf_normalize` returns on conjunctions of solvable comparisons (helper lemmas)
-/

namespace Sppl
open Classical

variable {Q : String → EReal → Prop} {c : Ctx}

/-! ## Clauses of conjunctions -/

theorem mem_cross_append {α : Type} : ∀ (A B : List (List α)) {xs : List α}, xs ∈ cross (A ++ B) → ∃ ys ∈ cross A, ∃ zs ∈ cross B, xs = ys ++ zs
  | [], B, xs, h => ⟨[], by simp [cross], xs, by simpa using h, rfl⟩
  | l :: A, B, xs, h => by
    simp only [List.cons_append, cross, List.mem_flatMap, List.mem_map] at h
    obtain ⟨x, hx, ys, hys, rfl⟩ := h
    obtain ⟨y, hy, z, hz, rfl⟩ := mem_cross_append A B hys
    refine ⟨x :: y, ?_, z, hz, rfl⟩
    simp only [cross, List.mem_flatMap, List.mem_map]
    exact ⟨x, hx, y, hy, rfl⟩

theorem toDnfList_conjuncts (e : Ev) : e.toDnfList = (cross (e.conjuncts.map Ev.toDnfList)).map List.flatten := by
  have one : ∀ e : Ev, e.toDnfList = (cross ([e].map Ev.toDnfList)).map List.flatten := by
    intro e
    simp [cross, List.map_flatMap]
  cases e with
  | and es => rw [Ev.toDnfList, Ev.toDnfListL_eq]; rfl
  | _ => exact one _

/-- Every clause of the event has a solution, and compares variables in `K`. -/
def VarSat (K : List String) (e : Ev) : Prop := ∀ cl ∈ e.toDnfList, ∃ ω : Asg, ∀ l ∈ cl, (∃ k ∈ K, l.basic? = some (.id k)) ∧ l.holds ω

theorem VarSat.clauses {K : List String} {e : Ev} (h : VarSat K e) : ClausesSat e := fun cl hcl => by
  obtain ⟨ω, hω⟩ := h cl hcl
  exact ⟨ω, fun l hl => (hω l hl).2⟩

theorem VarSat.holds {K : List String} {e : Ev} (hv : e.Valid) (h : VarSat K e) : ∃ ω, e.holds ω := by
  obtain ⟨h1, -, h3⟩ := Ev.toDnfList_spec (P := fun _ => True) e hv
  obtain ⟨cl, hcl⟩ := List.exists_mem_of_ne_nil _ h1
  obtain ⟨ω, hω⟩ := h cl hcl
  exact ⟨ω, (h3 ω).2 ⟨cl, hcl, fun l hl => (hω l hl).2⟩⟩

theorem VarSat.land {K K' : List String} {e f g : Ev} (he : VarSat K e) (hf : VarSat K' f) (hd : ∀ k ∈ K, k ∉ K') (h : e.land c f = .ok g) : VarSat (K ++ K') g := by
  unfold Ev.land at h
  simp only [bind, Except.bind] at h
  split at h; · cases h
  rename_i o ho
  cases o with
  | some g' =>
    exfalso
    obtain ⟨t, r, a1, a2, -⟩ := Ev.simplify_some ho
    obtain ⟨ω, hω⟩ := he [e] (by rw [Ev.toDnfList_lit a1]; simp)
    obtain ⟨ω', hω'⟩ := hf [f] (by rw [Ev.toDnfList_lit a2]; simp)
    obtain ⟨⟨k, hk, hk'⟩, -⟩ := hω e (by simp)
    obtain ⟨⟨k2, hk2, hk2'⟩, -⟩ := hω' f (by simp)
    rw [a1] at hk'; rw [a2, hk'] at hk2'
    cases hk2'
    exact hd k hk hk2
  | none =>
    cases h
    simp only [Option.getD_none]
    intro cl hcl
    rw [Ev.toDnfList, Ev.toDnfListL_eq, List.map_append] at hcl
    obtain ⟨xs, hxs, rfl⟩ := List.mem_map.1 hcl
    obtain ⟨ys, hys, zs, hzs, rfl⟩ := mem_cross_append _ _ hxs
    obtain ⟨ω1, h1⟩ := he ys.flatten (by rw [toDnfList_conjuncts]; exact List.mem_map_of_mem hys)
    obtain ⟨ω2, h2⟩ := hf zs.flatten (by rw [toDnfList_conjuncts]; exact List.mem_map_of_mem hzs)
    refine ⟨fun s => if s ∈ K then ω1 s else ω2 s, fun l hl => ?_⟩
    rw [List.flatten_append, List.mem_append] at hl
    rcases hl with hl | hl
    · obtain ⟨⟨k, hk, hb⟩, hh⟩ := h1 l hl
      refine ⟨⟨k, by simp [hk], hb⟩, ?_⟩
      rw [Ev.holds_basic hb] at hh ⊢
      simpa [Tr.eval, hk] using hh
    · obtain ⟨⟨k, hk, hb⟩, hh⟩ := h2 l hl
      refine ⟨⟨k, by simp [hk], hb⟩, ?_⟩
      have hk' : k ∉ K := fun h => hd k h hk
      rw [Ev.holds_basic hb] at hh ⊢
      simpa [Tr.eval, hk'] using hh

/-! ## `symbol << S` -/

theorem lit_sat {k : String} {l : Ev} (hb : l.basic? = some (.id k)) (h : FullLit Q l) : ∃ ω, l.holds ω := by
  obtain ⟨ω, hω⟩ := FullClause.sat (Q := Q) (m := [(k, l)]) ⟨by simp, by simp, by simpa using hb, by simpa using h⟩
  exact ⟨ω, hω (k, l) (by simp)⟩

/-- What is needed of the solution of a comparison about `k`. -/
structure SolIn (Q : String → EReal → Prop) (k : String) (S : SSet EReal) : Prop where
  wf : S.WF
  within : S.Within (Q k)

theorem SolIn.piece {k : String} {S : SSet EReal} (h : SolIn Q k S) {p : Piece EReal} (hp : p ∈ S.pieces) {l : Ev} (hb : l.basic? = some (.id k)) (hv : l.values = .pc p) : FullLit Q l := by
  refine ⟨⟨(Ev.valid_basic hb).2 ?_, k, hb, ?_⟩, by rw [hv]; simp⟩
  · rw [hv]; exact SSet.pieces_wf h.wf p hp
  · rw [hv]
    have := h.within
    cases S with
    | empty => simp [SSet.pieces] at hp
    | pc q => simp [SSet.pieces] at hp; subst hp; exact this
    | un u => exact this p hp

/-- The comparison of a variable with a piece. -/
theorem pieceLit (k : String) (p : Piece EReal) : ∃ l : Ev, (match p with
      | .fin s => (Ev.fin (.id k) (some s))
      | .nom n => .nom (.id k) (some n)
      | .ivl i => .ivl (.id k) i) = l ∧ l.basic? = some (.id k) ∧ l.values = .pc p := by
  cases p <;> exact ⟨_, rfl, rfl, rfl⟩

theorem inSet_sat {k : String} {S : SSet EReal} (h : SolIn Q k S) (hne : S ≠ .empty) : ∃ e, (Tr.id k).inSet c S = .ok e ∧ e.Valid ∧ VarSat [k] e := by
  have base : ∀ p ∈ S.pieces, ∀ l : Ev, l.basic? = some (.id k) → l.values = .pc p → l.Valid ∧ VarSat [k] l ∧ ∃ ω, l.holds ω := by
    intro p hp l hb hv
    have hf := h.piece hp hb hv
    obtain ⟨ω, hω⟩ := lit_sat hb hf
    refine ⟨hf.1.1, ?_, ω, hω⟩
    intro cl hcl
    rw [Ev.toDnfList_lit hb] at hcl
    rw [List.mem_singleton.1 hcl]
    exact ⟨ω, fun x hx => by rw [List.mem_singleton.1 hx]; exact ⟨⟨k, by simp, hb⟩, hω⟩⟩
  cases S with
  | empty => exact absurd rfl hne
  | pc p =>
    cases p with
    | fin s => obtain ⟨a, b, -⟩ := base (.fin s) (by simp [SSet.pieces]) (.fin (.id k) (some s)) rfl rfl; exact ⟨_, rfl, a, b⟩
    | nom s => obtain ⟨a, b, -⟩ := base (.nom s) (by simp [SSet.pieces]) (.nom (.id k) (some s)) rfl rfl; exact ⟨_, rfl, a, b⟩
    | ivl s => obtain ⟨a, b, -⟩ := base (.ivl s) (by simp [SSet.pieces]) (.ivl (.id k) s) rfl rfl; exact ⟨_, rfl, a, b⟩
  | un u =>
    have hu : u.WF := h.wf
    simp only [Tr.inSet]
    set ls := u.args.map (fun p => match p with
      | .fin s => (Ev.fin (.id k) (some s))
      | .nom n => .nom (.id k) (some n)
      | .ivl i => .ivl (.id k) i) with hls
    have hl : ∀ l ∈ ls, l.basic? = some (.id k) ∧ l.Valid ∧ VarSat [k] l ∧ ∃ ω, l.holds ω := by
      intro l hl
      rw [hls] at hl
      obtain ⟨p, hp, rfl⟩ := List.mem_map.1 hl
      obtain ⟨l, e1, e2, e3⟩ := pieceLit k p
      rw [e1]
      exact ⟨e2, base p ((hu.mem_args p).1 hp) l e2 e3⟩
    have hne' : ls ≠ [] := by
      intro h0
      rw [hls, List.map_eq_nil_iff] at h0
      have h2 := hu.two_le
      obtain ⟨p, hp⟩ := List.exists_mem_of_length_pos (l := u.values) (by omega)
      have := (hu.mem_args p).2 hp
      rw [h0] at this; simp at this
    obtain ⟨g, hg, hgv⟩ := reduceM_lor_total c hne' (fun l hl' => (hl l hl').2.1)
    refine ⟨g, hg, hgv, ?_⟩
    have hall : g.All (fun l => l.basic? = some (.id k)) := by
      refine reduceM_ind (Q := fun e => e.All (fun l => l.basic? = some (.id k))) (f := Ev.lor c) (fun x y z hx hy hz => Ev.lor_all ?_ hx hy hz) (l := ls) ?_ hg
      · intro e f g he hf h
        obtain ⟨t, r, a1, -, -, a4, -⟩ := Ev.simplify_some h
        rw [a4, ← a1]; exact he
      · intro x hx
        exact .lit (hl x hx).1 (hl x hx).1
    have hsat := reduceM_ind (Q := fun e => e.Valid ∧ ClausesSat e ∧ ∃ ω, e.holds ω) (f := Ev.lor c) (by
        rintro x y z ⟨x1, x2, ω, x3⟩ ⟨y1, y2, -⟩ hz
        have := Ev.lor_spec x1 y1 hz
        exact ⟨this.1, clausesSat_lor x1 y1 (fun _ _ => ⟨ω, x3⟩) x2 y2 hz, ω, (this.2 ω).2 (Or.inl x3)⟩) (l := ls) (by
        intro x hx
        obtain ⟨-, h1, h2, h3⟩ := hl x hx
        exact ⟨h1, h2.clauses, h3⟩) hg
    obtain ⟨-, d2, -⟩ := Ev.toDnfList_spec (P := fun l => l.basic? = some (.id k)) g hgv
    intro cl hcl
    obtain ⟨ω, hω⟩ := hsat.2.1 cl hcl
    exact ⟨ω, fun l hl => ⟨⟨k, by simp, ((d2 cl hcl).2 l hl).2.2 hall⟩, hω l hl⟩⟩

/-! ## Solved clauses -/

/-- A solved clause. -/
structure SolClause (Q : String → EReal → Prop) (s : Sol) : Prop where
  ne : s ≠ []
  nodup : (s.map Prod.fst).Nodup
  ok : ∀ p ∈ s, SolIn Q p.1 p.2

theorem SolClause.solConj {s : Sol} (h : SolClause Q s) (hne : ∀ p ∈ s, p.2 ≠ .empty) : ∃ g, solConj c s = .ok g ∧ g.Valid ∧ VarSat (s.map Prod.fst) g := by
  have key : ∀ s : Sol, (∀ p ∈ s, SolIn Q p.1 p.2 ∧ p.2 ≠ .empty) → ∃ es, s.mapM (fun p => (Tr.id p.1).inSet c p.2) = .ok es ∧
      List.Forall₂ (fun p e => e.Valid ∧ VarSat [p.1] e) s es := by
    intro s
    induction s with
    | nil => intro _; exact ⟨[], rfl, .nil⟩
    | cons p s ih =>
      intro h
      obtain ⟨e, h1, h2⟩ := inSet_sat (c := c) (h p (by simp)).1 (h p (by simp)).2
      obtain ⟨es, h3, h4⟩ := ih (fun q hq => h q (by simp [hq]))
      exact ⟨e :: es, by rw [List.mapM_cons, h1, h3]; rfl, .cons h2 h4⟩
  obtain ⟨es, h1, h2⟩ := key s (fun p hp => ⟨h.ok p hp, hne p hp⟩)
  have fold : ∀ (s : Sol) (es : List Ev), List.Forall₂ (fun p e => e.Valid ∧ VarSat [p.1] e) s es → ∀ (K : List String) (a : Ev), a.Valid → VarSat K a → (K ++ s.map Prod.fst).Nodup →
      ∃ g, es.foldlM (Ev.land c) a = .ok g ∧ g.Valid ∧ VarSat (K ++ s.map Prod.fst) g := by
    intro s es hF
    induction hF with
    | nil => intro K a h1 h2 _; exact ⟨a, rfl, h1, by simpa using h2⟩
    | @cons p e s es hp _ ih =>
      intro K a h1 h2 hn
      obtain ⟨b, hb⟩ := Ev.land_total c h1 hp.1
      have hb2 : VarSat (K ++ [p.1]) b := h2.land hp.2 (fun k hk hk' => by
        rw [List.mem_singleton] at hk'; subst hk'
        simp only [List.map_cons] at hn
        exact (List.disjoint_of_nodup_append hn) hk (by simp)) hb
      obtain ⟨g, g1, g2, g3⟩ := ih (K ++ [p.1]) b (Ev.land_spec h1 hp.1 hb).1 hb2 (by simpa using hn)
      refine ⟨g, ?_, g2, by simpa using g3⟩
      rw [List.foldlM_cons, hb]; exact g1
  unfold Sppl.solConj
  simp only [h1, bind, Except.bind]
  cases h2 with
  | nil => exact absurd rfl h.ne
  | @cons p e s es hp hF =>
    obtain ⟨g, g1, g2, g3⟩ := fold s es hF [p.1] e hp.1 hp.2 (by simpa using h.nodup)
    exact ⟨g, g1, g2, by simpa using g3⟩

theorem normRest_solved {sols : List Sol} (hpc : ∀ s ∈ sols, SolClause Q s) :
    ∃ o, normRest c sols = .ok o ∧ ∀ r, o = some r → NormTotal Q r := by
  unfold normRest
  simp only [bind, Except.bind]
  set good := sols.filter (fun s => s.all (fun p => !p.2.isEmpty)) with hgood
  by_cases hg : good = []
  · rw [if_pos hg]
    exact ⟨none, rfl, by simp⟩
  · rw [if_neg hg]
    have hfull : ∀ s ∈ dedupSols good, SolClause Q s ∧ ∀ p ∈ s, p.2 ≠ .empty := by
      intro s hs
      have hs' := mem_dedupSols hs
      rw [hgood] at hs'
      obtain ⟨h1, h2⟩ := List.mem_filter.1 hs'
      refine ⟨hpc s h1, fun p hp he => ?_⟩
      simp only [List.all_eq_true] at h2
      have := h2 p hp
      rw [he] at this
      simp [SSet.isEmpty] at this
    have hne : dedupSols good ≠ [] := by
      obtain ⟨x, hx⟩ := List.exists_mem_of_ne_nil _ hg
      obtain ⟨y, hy, -⟩ := dedupSols_cover (fun _ => none) hx
      exact List.ne_nil_of_mem hy
    obtain ⟨conjs, hconjs, hlen, hcj⟩ := mapM_total (f := solConj c) (P := fun g => g.Valid ∧ ClausesSat g ∧ ∃ ω, g.holds ω) (l := dedupSols good) (by
      intro s hs
      obtain ⟨hm, hm'⟩ := hfull s hs
      obtain ⟨g, hg1, hg2, hg3⟩ := hm.solConj (c := c) hm'
      exact ⟨g, hg1, hg2, hg3.clauses, hg3.holds hg2⟩)
    simp only [hconjs]
    obtain ⟨disj, hdisj, hdv⟩ := reduceM_lor_total c (l := conjs) (by
      intro e; rw [e] at hlen; exact hne (List.length_eq_zero_iff.1 hlen.symm)) (fun e he => (hcj e he).1)
    simp only [hdisj]
    obtain ⟨r, hr1, hr2, hr3, hr4, hr5⟩ := Ev.toDnf_spec hdv
    simp only [hr1]
    refine ⟨some r, rfl, ?_⟩
    rintro r' h; cases h
    have hsat : ClausesSat disj := by
      have := reduceM_ind (Q := fun e => e.Valid ∧ ClausesSat e ∧ ∃ ω, e.holds ω) (f := Ev.lor c) (by
        rintro x y z ⟨x1, x2, ω, x3⟩ ⟨y1, y2, -⟩ hz
        have := Ev.lor_spec x1 y1 hz
        exact ⟨this.1, clausesSat_lor x1 y1 (fun _ _ => ⟨ω, x3⟩) x2 y2 hz, ω, (this.2 ω).2 (Or.inl x3)⟩) (l := conjs) hcj hdisj
      exact this.2.1
    refine ⟨hr2, hr3, hr5 _ ?_, clausesSat_toDnf hdv hsat hr1⟩
    refine reduceM_ind (Q := fun e => e.All (FullLit Q)) (f := Ev.lor c) (fun x y z hx hy hz => Ev.lor_all fullLit_or hx hy hz) (l := conjs) ?_ hdisj
    intro x hx
    obtain ⟨s, hs, hsx⟩ := forall₂_mem_right (mapM_ok hconjs) hx
    obtain ⟨hm, hm'⟩ := hfull s hs
    refine (solConj_all (P := FullLit Q) fullLit_or ?_ hm.nodup hm' ?_ hsx).mono (fun _ _ _ h => h.1)
    · intro q hq; exact (hm.ok q hq).wf
    · intro q hq pc hpc l hl1 hl2
      exact (hm.ok q hq).piece hpc hl1 hl2

/-! ## The factors -/

theorem addAnd_fresh {k : String} {ev : Ev} : ∀ {m : Clause String}, k ∉ m.map Prod.fst → Clause.addAnd c k ev m = .ok (m ++ [(k, ev)])
  | [], _ => rfl
  | (k', e) :: m, h => by
    simp only [List.map_cons, List.mem_cons, not_or] at h
    simp only [Clause.addAnd, if_neg (Ne.symm h.1), addAnd_fresh h.2, bind, Except.bind, List.cons_append]

theorem factorLoop_fresh {d : Ev} : ∀ (m : Clause String) {a : Clause String}, ((a ++ m).map Prod.fst).Nodup → (∀ p ∈ m, p.2.symbols = {p.1} ∧ p.1 ∈ d.symbols) →
    factorLoop c (selfLookup d) a (m.map Prod.snd) = .ok (a ++ m)
  | [], a, _, _ => by simp [factorLoop, pure, Except.pure]
  | p :: m, a, hn, hs => by
    obtain ⟨h1, h2⟩ := hs p (by simp)
    have hf := addAnd_fresh (c := c) (ev := p.2) (k := p.1) (m := a) (by
      intro h
      rw [List.map_append] at hn
      exact (List.disjoint_of_nodup_append hn) h (by simp))
    have ih := factorLoop_fresh (d := d) m (a := a ++ [p]) (by simpa using hn) (fun q hq => hs q (by simp [hq]))
    have hfl := factorLit_sym (d := d) h1 (by rw [h1]; simpa using h2)
    unfold factorLoop at ih ⊢
    rw [List.map_cons, List.foldlM_cons, hfl]
    simp only [bind, Except.bind] at ih ⊢
    rw [hf]
    simpa using ih

/-- The clause that a conjunction of solvable comparisons gives. -/
theorem solvedAnd_clause {e : Ev} (h : e.SolvedAnd c Q) : ∃ m : Clause String, m ≠ [] ∧ (m.map Prod.fst).Nodup ∧ (∀ p ∈ m, p.2.Solved c Q p.1) ∧ e.toDnfList = [m.map Prod.snd] := by
  cases h with
  | @lit k l h =>
    obtain ⟨t, ht⟩ := h.2.2.1
    exact ⟨[(k, e)], by simp, by simp, by simpa using h, by rw [Ev.toDnfList_lit ht]; rfl⟩
  | @and m h1 h2 h3 =>
    refine ⟨m, h1, h2, h3, ?_⟩
    rw [clause_toDnfList (e := .and (m.map Prod.snd)) ⟨by simpa using h1, fun x hx => by
      obtain ⟨p, hp, rfl⟩ := List.mem_map.1 hx
      exact Ev.isLit_iff.2 (h3 p hp).2.2.1⟩]
    rfl

/-- The event of a clause. -/
theorem clause_event {m : Clause String} (h1 : m ≠ []) (h2 : (m.map Prod.fst).Nodup) (h3 : ∀ p ∈ m, p.2.Solved c Q p.1) :
    ∃ g, simplifyEvent .and (m.map Prod.snd) = .ok g ∧ (∀ es, g ≠ .or es) ∧ (∀ p ∈ m, p.1 ∈ g.symbols) ∧ ∀ d : Ev, g.symbols ⊆ d.symbols → factorClause c (selfLookup d) g = .ok m := by
  match m, h1, h2, h3 with
  | [p], _, _, h3 =>
    obtain ⟨-, hs, ⟨t, ht⟩, -⟩ := h3 p (by simp)
    refine ⟨p.2, rfl, by intro es h; rw [h] at ht; simp [Ev.basic?] at ht, by intro q hq; rw [List.mem_singleton.1 hq, hs]; simp, fun d hd => ?_⟩
    have hfl := factorLit_sym hs hd
    obtain ⟨k, l⟩ := p
    cases l with
    | or => simp [Ev.basic?] at ht
    | and => simp [Ev.basic?] at ht
    | _ => simp only [factorClause]; simp only [hfl, bind, Except.bind]
  | p :: q :: m, _, h2, h3 =>
    refine ⟨.and ((p :: q :: m).map Prod.snd), rfl, by simp, ?_, fun d hd => ?_⟩
    · intro x hx
      have : x.2.symbols ⊆ (Ev.and ((p :: q :: m).map Prod.snd)).symbols :=
        Ev.symbols_all.2 (Ev.all_and.1 (Ev.symbols_all.1 (le_refl _)) x.2 (List.mem_map_of_mem hx))
      exact this (by rw [(h3 x hx).2.1]; simp)
    · simp only [factorClause]
      rw [if_pos (by
        simp only [List.all_eq_true]
        intro x hx
        obtain ⟨y, hy, rfl⟩ := List.mem_map.1 hx
        obtain ⟨t, ht⟩ := (h3 y hy).2.2.1
        simp [ht])]
      refine (factorLoop_fresh (p :: q :: m) (a := []) (by simpa using h2) (fun x hx => ⟨(h3 x hx).2.1, hd ?_⟩)).trans (by simp)
      have : x.2.symbols ⊆ (Ev.and ((p :: q :: m).map Prod.snd)).symbols :=
        Ev.symbols_all.2 (Ev.all_and.1 (Ev.symbols_all.1 (le_refl _)) x.2 (List.mem_map_of_mem hx))
      exact this (by rw [(h3 x hx).2.1]; simp)

theorem solveClause_solved (hc : c.Correct) : ∀ {m : Clause String}, (∀ p ∈ m, p.2.Solved c Q p.1) → ∃ N s, (∀ n, N ≤ n → solveClause c n m = .ok s) ∧ s.map Prod.fst = m.map Prod.fst ∧ ∀ p ∈ s, SolIn Q p.1 p.2
  | [], _ => ⟨0, [], fun _ _ => rfl, rfl, by simp⟩
  | p :: m, h => by
    obtain ⟨N1, s, h1, h2, h3⟩ := solveClause_solved hc (m := m) (fun q hq => h q (by simp [hq]))
    obtain ⟨hm, -, -, N2, S, h4, h5⟩ := h p (by simp)
    refine ⟨max N1 N2, (p.1, S) :: s, fun n hn => ?_, by simp [h2], ?_⟩
    · have e1 := Ev.solve_le (le_trans (le_max_right _ _) hn) p.2 _ h4
      have e2 := h1 n (le_trans (le_max_left _ _) hn)
      unfold solveClause at e2 ⊢
      rw [List.mapM_cons, e1, e2]
      rfl
    · intro q hq
      rcases List.mem_cons.1 hq with rfl | hq
      · exact ⟨(Ev.solve_exact hc hm h4).1, h5⟩
      · exact h3 q hq

theorem normalizeBody_solved (hc : c.Correct) {e : Ev} (he : e.SolvedDnf c Q) :
    ∃ N o, (∀ n, N ≤ n → normalizeBody c n e = .ok o) ∧ ∀ r, o = some r → NormTotal Q r := by
  obtain ⟨ms, hne, hms, hlist⟩ : ∃ ms : List (Clause String), ms ≠ [] ∧ (∀ m ∈ ms, m ≠ [] ∧ (m.map Prod.fst).Nodup ∧ ∀ p ∈ m, p.2.Solved c Q p.1) ∧
      e.toDnfList = ms.map (fun m => m.map Prod.snd) := by
    cases he with
    | conj h =>
      obtain ⟨m, h1, h2, h3, h4⟩ := solvedAnd_clause h
      exact ⟨[m], by simp, fun x hx => by rw [List.mem_singleton.1 hx]; exact ⟨h1, h2, h3⟩, h4⟩
    | @or es h1 h2 =>
      have key : ∀ es : List Ev, (∀ e ∈ es, e.SolvedAnd c Q) → ∃ ms : List (Clause String), ms.length = es.length ∧ (∀ m ∈ ms, m ≠ [] ∧ (m.map Prod.fst).Nodup ∧ ∀ p ∈ m, p.2.Solved c Q p.1) ∧
          (es.map Ev.toDnfList).flatten = ms.map (fun m => m.map Prod.snd) := by
        intro es
        induction es with
        | nil => intro _; exact ⟨[], rfl, by simp, rfl⟩
        | cons e es ih =>
          intro h
          obtain ⟨m, h1, h2, h3, h4⟩ := solvedAnd_clause (h e (by simp))
          obtain ⟨ms, h5, h6, h7⟩ := ih (fun e he => h e (by simp [he]))
          refine ⟨m :: ms, by simp [h5], ?_, by simp [h4, h7]⟩
          intro x hx
          rcases List.mem_cons.1 hx with rfl | hx
          · exact ⟨h1, h2, h3⟩
          · exact h6 x hx
      obtain ⟨ms, h5, h6, h7⟩ := key es h2
      refine ⟨ms, ?_, h6, by rw [Ev.toDnfList, Ev.toDnfListL_eq]; exact h7⟩
      rintro rfl; exact h1 (List.length_eq_zero_iff.1 h5.symm)
  have gsk : ∀ ms : List (Clause String), (∀ m ∈ ms, m ≠ [] ∧ (m.map Prod.fst).Nodup ∧ ∀ p ∈ m, p.2.Solved c Q p.1) → ∃ gs, (ms.map (fun m => m.map Prod.snd)).mapM (simplifyEvent .and) = .ok gs ∧
      List.Forall₂ (fun m g => (∀ es, g ≠ .or es) ∧ ∀ d : Ev, g.symbols ⊆ d.symbols → factorClause c (selfLookup d) g = .ok m) ms gs := by
    intro ms
    induction ms with
    | nil => intro _; exact ⟨[], rfl, .nil⟩
    | cons m ms ih =>
      intro h
      obtain ⟨h1, h2, h3⟩ := h m (by simp)
      obtain ⟨g, g1, g2, -, g3⟩ := clause_event h1 h2 h3
      obtain ⟨gs, g4, g5⟩ := ih (fun m hm => h m (by simp [hm]))
      exact ⟨g :: gs, by rw [List.map_cons, List.mapM_cons, g1, g4]; rfl, .cons ⟨g2, g3⟩ g5⟩
  obtain ⟨gs, hgs, hF⟩ := gsk ms hms
  have hdnf : ∃ d, e.toDnf = .ok d ∧ dnfFactor1 c d = .ok ms := by
    unfold Ev.toDnf
    rw [hlist]
    simp only [hgs, bind, Except.bind]
    match ms, gs, hne, hF with
    | [m], [g], _, .cons hg .nil =>
      refine ⟨g, rfl, ?_⟩
      unfold dnfFactor1 dnfFactor
      have hfc := hg.2 g (le_refl _)
      cases g with
      | or es => exact absurd rfl (hg.1 es)
      | _ => simp only [hfc, bind, Except.bind]
    | m :: m' :: ms, g :: g' :: gs, _, hF =>
      refine ⟨.or (g :: g' :: gs), rfl, ?_⟩
      unfold dnfFactor1 dnfFactor
      simp only
      have hall : ∀ x ∈ g :: g' :: gs, ∃ y, (∀ es, x ≠ .or es) := fun x hx => by
        obtain ⟨y, -, hy⟩ := forall₂_mem_right hF hx
        exact ⟨(), hy.1⟩
      rw [if_pos (by
        simp only [List.all_eq_true]
        intro x hx
        obtain ⟨y, -, hy⟩ := forall₂_mem_right hF hx
        cases x with
        | or es => exact absurd rfl (hy.1 es)
        | _ => rfl)]
      have hsub : ∀ x ∈ g :: g' :: gs, x.symbols ⊆ (Ev.or (g :: g' :: gs)).symbols := fun x hx =>
        Ev.symbols_all.2 (Ev.all_or.1 (Ev.symbols_all.1 (le_refl _)) x hx)
      have key : ∀ {ms : List (Clause String)} {gs : List Ev}, List.Forall₂ (fun m g => (∀ es, g ≠ .or es) ∧ ∀ d : Ev, g.symbols ⊆ d.symbols → factorClause c (selfLookup d) g = .ok m) ms gs →
          ∀ d : Ev, (∀ x ∈ gs, x.symbols ⊆ d.symbols) → gs.mapM (factorClause c (selfLookup d)) = .ok ms := by
        intro ms gs hF d
        induction hF with
        | nil => intro _; rfl
        | cons h _ ih =>
          intro hd
          rw [List.mapM_cons, h.2 d (hd _ (by simp)), ih (fun x hx => hd x (by simp [hx]))]; rfl
      exact key hF _ hsub
  obtain ⟨d, hd1, hd2⟩ := hdnf
  have sk : ∀ ms : List (Clause String), (∀ m ∈ ms, m ≠ [] ∧ (m.map Prod.fst).Nodup ∧ ∀ p ∈ m, p.2.Solved c Q p.1) → ∃ N sols, (∀ n, N ≤ n → ms.mapM (solveClause c n) = .ok sols) ∧ ∀ s ∈ sols, SolClause Q s := by
    intro ms
    induction ms with
    | nil => intro _; exact ⟨0, [], fun _ _ => rfl, by simp⟩
    | cons m ms ih =>
      intro h
      obtain ⟨h1, h2, h3⟩ := h m (by simp)
      obtain ⟨N1, s, s1, s2, s3⟩ := solveClause_solved hc h3
      obtain ⟨N2, sols, s4, s5⟩ := ih (fun m hm => h m (by simp [hm]))
      refine ⟨max N1 N2, s :: sols, fun n hn => ?_, ?_⟩
      · rw [List.mapM_cons, s1 n (le_trans (le_max_left _ _) hn), s4 n (le_trans (le_max_right _ _) hn)]; rfl
      · intro x hx
        rcases List.mem_cons.1 hx with rfl | hx
        · refine ⟨?_, by rw [s2]; exact h2, s3⟩
          rintro rfl
          simp at s2
          exact h1 s2
        · exact s5 x hx
  obtain ⟨N, sols, s1, s2⟩ := sk ms hms
  obtain ⟨o, h4, h5⟩ := normRest_solved (c := c) s2
  refine ⟨N, o, fun n hn => ?_, h5⟩
  rw [normalizeBody_rest]
  simp only [hd1, hd2, s1 n hn, bind, Except.bind, h4]

theorem Ev.SolvedAnd.made {e : Ev} (h : e.SolvedAnd c Q) : e.Made c := by
  cases h with
  | lit h => exact h.1
  | and h1 _ h3 =>
    refine .and (by simpa using h1) (fun x hx => ?_)
    obtain ⟨p, hp, rfl⟩ := List.mem_map.1 hx
    exact (h3 p hp).1

theorem Ev.SolvedDnf.made {e : Ev} (h : e.SolvedDnf c Q) : e.Made c := by
  cases h with
  | conj h => exact h.made
  | or h1 h2 => exact .or h1 (fun e he => (h2 e he).made)

theorem dnfNormalize_solved (hc : c.Correct) {e : Ev} (he : e.SolvedDnf c Q) :
    ∃ N o, (∀ n, N ≤ n → dnfNormalize c n e = .ok o) ∧ ∀ r, o = some r → r.IsDnf ∧ r.Valid ∧ r.All (PlainLit Q) ∧ (NormTotal Q r ∨ ∀ es, r ≠ .or es) := by
  unfold dnfNormalize
  by_cases h : e.isIdLit = true
  · simp only [h, if_true]
    refine ⟨0, some e, fun _ _ => rfl, ?_⟩
    rintro r h'; cases h'
    obtain ⟨h1, k, hk⟩ := isIdLit_spec h
    have hs : ∃ k', e.Solved c Q k' := by
      cases he with
      | conj he =>
        cases he with
        | lit h => exact ⟨_, h⟩
        | and => simp [Ev.basic?] at hk
      | or => simp [Ev.basic?] at hk
    obtain ⟨k', s1, s2, -, N, S, s3, s4⟩ := hs
    have hkk : k' = k := by
      rw [symbols_of_basic hk] at s2
      simpa [Tr.symbols] using s2.symm
    subst hkk
    have hSv : S = e.values := by
      rw [solve_var hk] at s3
      cases s3; rfl
    rw [hSv] at s4
    refine ⟨?_, Ev.Made.valid _ s1, .lit hk ⟨Ev.Made.valid _ s1, k', hk, s4⟩, Or.inr ?_⟩
    · cases e <;> first | trivial | simp [Ev.basic?] at hk
    · rintro es rfl; simp [Ev.basic?] at hk
  · simp only [h, if_false]
    obtain ⟨N, o, h1, h2⟩ := normalizeBody_solved hc he
    exact ⟨N, o, h1, fun r hr => ⟨(h2 r hr).dnf, (h2 r hr).valid, full_plain (h2 r hr).full, Or.inl (h2 r hr)⟩⟩

end Sppl
