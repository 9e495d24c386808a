import Verif.Dnf.Lemmas

set_option linter.all false

/-!
# Helper lemmas for `dnf_normalize`
-/

namespace Sppl
open Classical

theorem pick_mem : ∀ {vs : List (Option (Val ℝ))} {bs : List Bool} {v}, pick vs bs = some v → some v ∈ vs := by
  intro vs
  induction vs with
  | nil => intro bs v h; simp [pick] at h
  | cons a vs ihv =>
    intro bs v h
    cases bs with
    | nil => simp [pick] at h
    | cons b bs =>
      simp only [pick] at h
      split at h
      · simp [h]
      · exact List.mem_cons_of_mem _ (ihv h)

/-- Values come from values of the variables of the same kind. -/
theorem Tr.eval_sym {ω : Asg} (t : Tr) : (∀ y, t.eval ω = some (.num y) → ∃ s ∈ t.symbols, ∃ x, ω s = some (.num x)) ∧
    (∀ y, t.eval ω = some (.str y) → ∃ s ∈ t.symbols, ∃ x, ω s = some (.str x)) := by
  refine (sizeInd (P := fun t => (∀ y, t.eval ω = some (.num y) → ∃ s ∈ t.symbols, ∃ x, ω s = some (.num x)) ∧
    (∀ y, t.eval ω = some (.str y) → ∃ s ∈ t.symbols, ∃ x, ω s = some (.str x)))
    (Q := fun _ => True) ?_ (fun _ _ _ => trivial)).1 t
  intro t ih _
  by_cases hu : t.Unary
  · constructor
    · intro y hy
      obtain ⟨x, hx, -⟩ := (Tr.eval_unary_num hu).1 hy
      have := (ih t.sub (Tr.sizeOf_sub hu)).1 x hx
      cases t <;> first | exact False.elim hu | simpa [Tr.symbols, Tr.sub] using this
    · intro y hy
      rw [Tr.eval_unary hu] at hy
      unfold onNum at hy
      split at hy
      · simp at hy
      · cases hy
  · cases t with
    | id tok =>
      exact ⟨fun y hy => ⟨tok, by simp [Tr.symbols], y, hy⟩, fun y hy => ⟨tok, by simp [Tr.symbols], y, hy⟩⟩
    | pw ts es ds =>
      constructor
      · intro y hy
        rw [Tr.eval] at hy
        have h1 := pick_mem hy
        rw [Tr.evalL_eq] at h1
        obtain ⟨u, hu1, hu2⟩ := List.mem_map.1 h1
        obtain ⟨s, hs, hx⟩ := (ih u (Tr.sizeOf_pw_left hu1)).1 y hu2
        exact ⟨s, Tr.mem_symbolsL.2 ⟨u, hu1, hs⟩, hx⟩
      · intro y hy
        rw [Tr.eval] at hy
        have h1 := pick_mem hy
        rw [Tr.evalL_eq] at h1
        obtain ⟨u, hu1, hu2⟩ := List.mem_map.1 h1
        obtain ⟨s, hs, hx⟩ := (ih u (Tr.sizeOf_pw_left hu1)).2 y hu2
        exact ⟨s, Tr.mem_symbolsL.2 ⟨u, hu1, hs⟩, hx⟩
    | _ => exact absurd trivial hu

theorem Tr.eval_defined {ω : Asg} {t : Tr} {v : Val ℝ} (h : t.eval ω = some v) : ∃ s ∈ t.symbols, ∃ w, ω s = some w := by
  cases v with
  | num y => obtain ⟨s, hs, x, hx⟩ := (Tr.eval_sym t).1 y h; exact ⟨s, hs, _, hx⟩
  | str y => obtain ⟨s, hs, x, hx⟩ := (Tr.eval_sym t).2 y h; exact ⟨s, hs, _, hx⟩

/-- No singularity where all variables are strings. -/
theorem regular_str {ω : Asg} (hω : ∀ s x, ω s ≠ some (.num x)) : (∀ t : Tr, t.Regular ω) ∧ ∀ e : Ev, e.Regular ω := by
  apply sizeInd
  · intro t ihT ihE
    cases t with
    | id => trivial
    | radical t n => rw [Tr.Regular]; exact ihT t (by simp; omega)
    | exp t n => rw [Tr.Regular]; exact ihT t (by simp; omega)
    | log t n =>
      rw [Tr.Regular]
      refine ⟨ihT t (by simp; omega), fun h => ?_⟩
      obtain ⟨s, -, x, hx⟩ := (Tr.eval_sym t).1 _ h
      exact hω s x hx
    | abs t => rw [Tr.Regular]; exact ihT t (by simp)
    | recip t => rw [Tr.Regular]; exact ihT t (by simp)
    | poly t n => rw [Tr.Regular]; exact ihT t (by simp; omega)
    | pw ts es ds =>
      rw [Tr.Regular, Ev.regularL_iff, Tr.regularL_eq]
      refine ⟨fun e he => ihE e (Tr.sizeOf_pw_right he), ?_⟩
      have : ∀ (ps : List Prop) (bs : List Bool), (∀ p ∈ ps, p) → activeRegular ps bs := by
        intro ps
        induction ps with
        | nil => intro bs _; cases bs <;> trivial
        | cons p ps ih =>
          intro bs h
          cases bs with
          | nil => trivial
          | cons b bs => exact ⟨fun _ => h p (by simp), ih bs (fun q hq => h q (by simp [hq]))⟩
      refine this _ _ (fun p hp => ?_)
      obtain ⟨t, ht, rfl⟩ := List.mem_map.1 hp
      exact ihT t (Tr.sizeOf_pw_left ht)
  · intro e ihT ihE
    cases e with
    | ivl t i => rw [Ev.Regular]; exact ihT t (by simp; omega)
    | fin t i => rw [Ev.Regular]; exact ihT t (by simp; omega)
    | nom t i => rw [Ev.Regular]; exact ihT t (by simp; omega)
    | or es => rw [Ev.Regular, Ev.regularL_iff]; exact fun e he => ihE e (Ev.sizeOf_or he)
    | and es => rw [Ev.Regular, Ev.regularL_iff]; exact fun e he => ihE e (Ev.sizeOf_and he)

/-- An event that holds contains a basic event that holds. -/
theorem Ev.holds_lit {P : Ev → Prop} {ω : Asg} : ∀ e : Ev, e.Valid → e.All P → e.holds ω →
    ∃ l t, l.basic? = some t ∧ P l ∧ l.holds ω := by
  refine Ev.ind ?_ ?_ ?_
  · intro e t ht hv ha h; exact ⟨e, t, ht, (Ev.all_lit ht).1 ha, h⟩
  · intro es ih hv ha h
    cases hv with
    | or hne hes =>
      obtain ⟨e, he, hh⟩ := (Ev.holds_or ω es).1 h
      exact ih e he (hes e he) (Ev.all_or.1 ha e he) hh
  · intro es ih hv ha h
    cases hv with
    | and hne hes =>
      obtain ⟨e, he⟩ := List.exists_mem_of_ne_nil _ hne
      exact ih e he (hes e he) (Ev.all_and.1 ha e he) ((Ev.holds_and ω es).1 h e he)

/-- A valid event contains a basic event. -/
theorem Ev.exists_lit {P : Ev → Prop} : ∀ e : Ev, e.Valid → e.All P → ∃ l t, l.basic? = some t ∧ P l ∧ l.symbols ⊆ e.symbols := by
  refine Ev.ind ?_ ?_ ?_
  · intro e t ht hv ha; exact ⟨e, t, ht, (Ev.all_lit ht).1 ha, fun _ h => h⟩
  · intro es ih hv ha
    cases hv with
    | or hne hes =>
      obtain ⟨e, he⟩ := List.exists_mem_of_ne_nil _ hne
      obtain ⟨l, t, h1, h2, h3⟩ := ih e he (hes e he) (Ev.all_or.1 ha e he)
      exact ⟨l, t, h1, h2, fun s hs => Ev.mem_symbolsL.2 ⟨e, he, h3 hs⟩⟩
  · intro es ih hv ha
    cases hv with
    | and hne hes =>
      obtain ⟨e, he⟩ := List.exists_mem_of_ne_nil _ hne
      obtain ⟨l, t, h1, h2, h3⟩ := ih e he (hes e he) (Ev.all_and.1 ha e he)
      exact ⟨l, t, h1, h2, fun s hs => Ev.mem_symbolsL.2 ⟨e, he, h3 hs⟩⟩

/-- The value of the variable is in the set. -/
def InS (ω : Asg) (s : String) (S : SSet EReal) : Prop := ∃ v, ω s = some v ∧ v.lift ∈ S.den

/-- What is known of a solved clause. -/
structure SolOK (d cl : Ev) (sol : Sol) : Prop where
  ne : sol ≠ []
  nodup : (sol.map Prod.fst).Nodup
  keys : ∀ q ∈ sol, q.1 ∈ d.symbols
  wf : ∀ q ∈ sol, q.2.WF ∧ q.2.Disj
  holds : ∀ ω, d.Regular ω → ((∀ q ∈ sol, InS ω q.1 q.2) ↔ cl.holds ω)

theorem solveClause_ok {c : Ctx} {n : ℕ} {m : Clause String} {sol : Sol} (h : solveClause c n m = .ok sol) :
    List.Forall₂ (fun p q => q.1 = p.1 ∧ p.2.solve c n = .ok q.2) m sol := by
  refine (mapM_ok h).imp ?_
  intro p q hpq
  simp only [bind, Except.bind] at hpq
  split at hpq; · cases hpq
  cases hpq
  exact ⟨rfl, by assumption⟩

theorem selfLookup_ok {d : Ev} {k s : String} (h : selfLookup d s = some k) : s = k ∧ k ∈ d.symbols := by
  unfold selfLookup at h
  split at h
  · cases h; exact ⟨rfl, by assumption⟩
  · cases h

/-- The symbol of a factor is its key. -/
theorem FacOK.symbols {d : Ev} {P : Ev → Prop} {es : List Ev} {m : Clause String} (hm : FacOK (selfLookup d) P es m)
    {p : String × Ev} (hp : p ∈ m) : p.2.symbols = {p.1} ∧ p.1 ∈ d.symbols := by
  have h1 : p.2.All (fun l => l.symbols = {p.1}) := (hm.lk p hp).mono (by
    rintro l t - ⟨s, hs, hl⟩
    rw [hs, (selfLookup_ok hl).1])
  obtain ⟨l, t, -, h2, h3⟩ := Ev.exists_lit _ (hm.valid p hp) h1
  obtain ⟨l', t', -, ⟨s, -, h4⟩, -⟩ := Ev.exists_lit _ (hm.valid p hp) (hm.lk p hp)
  refine ⟨?_, (selfLookup_ok h4).2⟩
  apply Finset.Subset.antisymm
  · rw [Ev.symbols_all]; exact h1.mono (fun l _ _ h => by rw [h])
  · rw [← h2]; exact h3

theorem forall₂_map {α β γ : Type} {R : α → β → Prop} {l : List α} {r : List β} (h : List.Forall₂ R l r) (f : α → γ) (g : β → γ)
    (hfg : ∀ a b, R a b → g b = f a) : r.map g = l.map f := by
  induction h with
  | nil => rfl
  | cons h _ ih => simp [hfg _ _ h, ih]

/-- A solved factor is exact. -/
theorem solve_factor {c : Ctx} (hc : c.Correct) {n : ℕ} {ev : Ev} (hm : ev.Made c) {k : String} (hk : ev.symbols = {k})
    {S : SSet EReal} (h : ev.solve c n = .ok S) {ω : Asg} (hr : ev.Regular ω) : InS ω k S ↔ ev.holds ω := by
  obtain ⟨h1, h2, h3⟩ := Ev.solve_exact hc hm h
  constructor
  · rintro ⟨v, hv, hS⟩
    exact (h3 ω k v hk hv (by simp) hr).1 hS
  · intro hh
    obtain ⟨l, t, ht, hl, hlh⟩ := Ev.holds_lit ev (Ev.Made.valid _ hm) ((Ev.symbols_all (A := {k})).1 (by rw [hk])) hh
    rw [Ev.holds_basic ht] at hlh
    obtain ⟨v, hv, -⟩ := hlh
    obtain ⟨s, hs, w, hw⟩ := Tr.eval_defined hv
    rw [symbols_of_basic ht] at hl
    have := Finset.mem_singleton.1 (hl hs); subst this
    exact ⟨w, hw, (h3 ω s w hk hw (by simp) hr).2 hh⟩

theorem factor_solve {c : Ctx} (hc : c.Correct) {n : ℕ} {d : Ev} (hd : d.Made c) {R : List (Clause String)}
    (h : dnfFactor1 c d = .ok R) {sols : List Sol} (hs : R.mapM (solveClause c n) = .ok sols) :
    d.IsDnf ∧ List.Forall₂ (SolOK d) d.disjuncts sols := by
  have hv := Ev.Made.valid _ hd
  have hA := (Ev.made_all.1 hd).2
  obtain ⟨h1, h2⟩ := dnfFactor_ok made_and hv hA h
  have hS := mapM_ok hs
  refine ⟨h1, ?_⟩
  have hreg : ∀ ω, d.Regular ω → List.Forall₂ (fun cl m => FacOK (selfLookup d) (fun l => l.Made c ∧ l.Regular ω) cl.conjuncts m ∧ m ≠ [] ∧ cl.IsClause) d.disjuncts R := by
    intro ω hω
    refine (dnfFactor_ok (P := fun l => l.Made c ∧ l.Regular ω) ?_ hv (hA.and' (Ev.regular_all.1 hω)) h).2
    rintro e f g ⟨h1, h2⟩ ⟨h3, h4⟩ h5
    exact ⟨made_and _ _ _ h1 h3 h5, (trOnly_regular ω).and _ _ _ h2 h4 h5⟩
  have : ∀ {l : List Ev} {R : List (Clause String)} {sols : List Sol},
      List.Forall₂ (fun cl m => FacOK (selfLookup d) (fun l => l.Made c) cl.conjuncts m ∧ m ≠ [] ∧ cl.IsClause) l R →
      (∀ ω, d.Regular ω → List.Forall₂ (fun cl m => FacOK (selfLookup d) (fun l => l.Made c ∧ l.Regular ω) cl.conjuncts m ∧ m ≠ [] ∧ cl.IsClause) l R) →
      List.Forall₂ (fun a b => solveClause c n a = .ok b) R sols → List.Forall₂ (SolOK d) l sols := by
    clear h1 h2 hS hreg hs h
    intro l R sols hF hreg hS
    induction hF generalizing sols with
    | nil => cases hS; exact .nil
    | cons h1 h2 ih =>
      rename_i cl m l R
      cases hS with
      | cons hS1 hS2 =>
        rename_i sol sols
        refine .cons ?_ (ih (fun ω hω => by cases hreg ω hω; assumption) hS2)
        obtain ⟨hf, hne, hcl⟩ := h1
        have hq := solveClause_ok hS1
        have hmade : ∀ p ∈ m, p.2.Made c := fun p hp => Ev.made_all.2 ⟨hf.valid p hp, hf.allP p hp⟩
        refine ⟨?_, ?_, ?_, ?_, ?_⟩
        · rintro rfl; cases hq; exact hne rfl
        · rw [forall₂_map hq Prod.fst Prod.fst (fun a b h => h.1)]; exact hf.nodup
        · intro q hq'
          obtain ⟨p, hp, hpq⟩ := forall₂_mem_right hq hq'
          rw [hpq.1]; exact (hf.symbols hp).2
        · intro q hq'
          obtain ⟨p, hp, hpq⟩ := forall₂_mem_right hq hq'
          have := Ev.solve_exact hc (hmade p hp) hpq.2
          exact ⟨this.1, this.2.1⟩
        · intro ω hω
          have hr := hreg ω hω
          cases hr with
          | cons hr1 _ =>
            rw [← Ev.conjuncts_holds, ← hr1.1.holds]
            have key : ∀ (p : String × Ev) (q : String × SSet EReal), p ∈ m → (q.1 = p.1 ∧ p.2.solve c n = .ok q.2) → (InS ω q.1 q.2 ↔ p.2.holds ω) := by
              intro p q hp hpq
              rw [hpq.1]
              exact solve_factor hc (hmade p hp) (hf.symbols hp).1 hpq.2 (Ev.regular_all.2 ((hr1.1.allP p hp).mono (fun _ _ _ h => h.2)))
            constructor
            · intro h p hp
              obtain ⟨q, hq1, hpq⟩ := forall₂_mem_left hq hp
              exact (key p q hp hpq).1 (h q hq1)
            · intro h q hq1
              obtain ⟨p, hp, hpq⟩ := forall₂_mem_right hq hq1
              exact (key p q hp hpq).2 (h p hp)
  exact this h2 hreg hS

/-! ## Removal of duplicates -/

theorem Sol.eqPy_holds {a b : Sol} (h : Sol.eqPy a b = true) (ω : Asg) :
    (∀ q ∈ a, InS ω q.1 q.2) ↔ ∀ q ∈ b, InS ω q.1 q.2 := by
  induction a generalizing b with
  | nil => cases b <;> simp_all [Sol.eqPy]
  | cons p a ih =>
    cases b with
    | nil => simp [Sol.eqPy] at h
    | cons q b =>
      obtain ⟨s, A⟩ := p
      obtain ⟨t, B⟩ := q
      simp only [Sol.eqPy, Bool.and_eq_true, decide_eq_true_eq] at h
      obtain ⟨⟨rfl, h2⟩, h3⟩ := h
      have : InS ω s A ↔ InS ω s B := by unfold InS; rw [SSet.eqPy_den h2]
      simp only [List.mem_cons, forall_eq_or_imp, this, ih h3]

theorem mem_dedupSols {l : List Sol} {x : Sol} (h : x ∈ dedupSols l) : x ∈ l := by
  unfold dedupSols at h
  obtain ⟨p, hp, rfl⟩ := List.mem_map.1 h
  exact List.fst_mem_of_mem_zipIdx (List.mem_filter.1 hp).1

theorem dedupSols_cover {l : List Sol} (ω : Asg) {x : Sol} (hx : x ∈ l) :
    ∃ y ∈ dedupSols l, ((∀ q ∈ y, InS ω q.1 q.2) ↔ ∀ q ∈ x, InS ω q.1 q.2) := by
  obtain ⟨i, hi, rfl⟩ := List.mem_iff_getElem.1 hx
  clear hx
  induction i using Nat.strong_induction_on with
  | _ i ih =>
    by_cases hd : (l.take i).any (fun x => Sol.eqPy x l[i]) = true
    · obtain ⟨z, hz, hze⟩ := List.any_eq_true.1 hd
      obtain ⟨j, hj, rfl⟩ := List.mem_iff_getElem.1 hz
      have hji : j < i := by simp at hj; omega
      obtain ⟨y, hy, hyh⟩ := ih j hji (by omega)
      refine ⟨y, hy, hyh.trans ?_⟩
      rw [List.getElem_take] at hze
      exact Sol.eqPy_holds hze ω
    · refine ⟨l[i], ?_, Iff.rfl⟩
      unfold dedupSols
      refine List.mem_map.2 ⟨(l[i], i), List.mem_filter.2 ⟨?_, by simpa using hd⟩, rfl⟩
      exact List.mk_mem_zipIdx_iff_getElem?.2 (by simp [hi])

/-! ## `symbol << S` -/

/-- The pieces of a set. -/
def SSet.pieces : SSet EReal → List (Piece EReal)
  | .empty => []
  | .pc p => [p]
  | .un u => u.values

theorem SSet.pieces_wf {S : SSet EReal} (h : S.WF) : ∀ p ∈ S.pieces, p.WF := by
  cases S with
  | empty => simp [SSet.pieces]
  | pc p => simp [SSet.pieces]; exact h
  | un u => exact h.pieces

theorem SSet.mem_den_pieces {S : SSet EReal} {p : Piece EReal} (hp : p ∈ S.pieces) {v : Val EReal} (hv : v ∈ p.den) : v ∈ S.den := by
  cases S with
  | empty => simp [SSet.pieces] at hp
  | pc q => simp [SSet.pieces] at hp; subst hp; exact hv
  | un u => exact ⟨p, hp, hv⟩

theorem inSet_all {P : Ev → Prop} {c : Ctx} (hO : ∀ e f g, P e → P f → Ev.simplify (SSet.or c.σ) e f = .ok (some g) → P g)
    {t : Tr} {S : SSet EReal} (hS : S.WF) {e : Ev} (h : t.inSet c S = .ok e) (he : S ≠ .empty)
    (hp : ∀ p ∈ S.pieces, ∀ l : Ev, l.basic? = some t → l.values = .pc p → P l) : e.All P := by
  cases S with
  | empty => exact absurd rfl he
  | pc p =>
    have := hp p (by simp [SSet.pieces])
    cases p with
    | fin s => simp [Tr.inSet] at h; subst h; exact .lit rfl (this _ rfl rfl)
    | nom s => simp [Tr.inSet] at h; subst h; exact .lit rfl (this _ rfl rfl)
    | ivl s => simp [Tr.inSet] at h; subst h; exact .lit rfl (this _ rfl rfl)
  | un u =>
    simp only [Tr.inSet] at h
    refine reduceM_ind (Q := Ev.All P) (fun x y z hx hy hz => Ev.lor_all hO hx hy hz) ?_ h
    intro e he
    obtain ⟨p, hp1, rfl⟩ := List.mem_map.1 he
    have := hp p ((hS.mem_args p).1 hp1)
    cases p with
    | fin s => exact .lit rfl (this _ rfl rfl)
    | nom s => exact .lit rfl (this _ rfl rfl)
    | ivl s => exact .lit rfl (this _ rfl rfl)

theorem trOnly_basic (Q : Tr → Prop) : TrOnly (fun l => ∃ t, l.basic? = some t ∧ Q t) := by
  rintro e f t h1 h2 ⟨t', h3, h4⟩
  rw [h1] at h3; cases h3
  exact ⟨t, h2, h4⟩

theorem Ev.land_all_disj {P Q R : Ev → Prop} {c : Ctx} {e f g : Ev} (he : e.All (fun l => P l ∧ Q l)) (hf : f.All (fun l => P l ∧ R l))
    (hd : ∀ l l' t, Q l → R l' → l.basic? = some t → l'.basic? = some t → False) (h : e.land c f = .ok g) :
    g.All (fun l => P l ∧ (Q l ∨ R l)) := by
  unfold Ev.land at h
  simp only [bind, Except.bind] at h
  split at h; · cases h
  rename_i o ho
  cases o with
  | none =>
    cases h
    refine Ev.all_and.2 (fun x hx => ?_)
    rcases List.mem_append.1 hx with h | h
    · exact (Ev.all_conjuncts.2 he x h).mono (fun _ _ _ h => ⟨h.1, .inl h.2⟩)
    · exact (Ev.all_conjuncts.2 hf x h).mono (fun _ _ _ h => ⟨h.1, .inr h.2⟩)
  | some g' =>
    obtain ⟨t, r, h1, h2, -, h4, -⟩ := Ev.simplify_some ho
    exact (hd e f t ((Ev.all_lit h1).1 he).2 ((Ev.all_lit h2).1 hf).2 h1 h2).elim

/-- The basic event is about one of the variables. -/
def OnVars (ks : List String) (l : Ev) : Prop := ∃ k ∈ ks, l.basic? = some (.id k)

theorem reduce_land_disj {P : Ev → Prop} {c : Ctx} : ∀ (l : List (String × Ev)), (l.map Prod.fst).Nodup →
    (∀ p ∈ l, p.2.All (fun x => P x ∧ x.basic? = some (.id p.1))) → ∀ {g : Ev}, reduceM (Ev.land c) (l.map Prod.snd) = .ok g →
    g.All (fun x => P x ∧ OnVars (l.map Prod.fst) x) := by
  have key : ∀ (l : List (String × Ev)) (ks : List String) (s : Ev), (ks ++ l.map Prod.fst).Nodup →
      s.All (fun x => P x ∧ OnVars ks x) → (∀ p ∈ l, p.2.All (fun x => P x ∧ x.basic? = some (.id p.1))) → ∀ {g : Ev},
      (l.map Prod.snd).foldlM (Ev.land c) s = .ok g → g.All (fun x => P x ∧ OnVars (ks ++ l.map Prod.fst) x) := by
    intro l
    induction l with
    | nil => intro ks s _ hs _ g h; simp [pure, Except.pure] at h; subst h; simpa using hs
    | cons p l ih =>
      intro ks s hn hs hl g h
      simp only [List.map_cons, List.foldlM_cons, bind, Except.bind] at h
      split at h; · cases h
      rename_i s' hs'
      have h1 := Ev.land_all_disj hs (hl p (by simp)) (by
        rintro a b t ⟨k, hk, ha⟩ hb ha' hb'
        rw [ha] at ha'; rw [hb] at hb'; cases ha'; cases hb'
        rw [List.nodup_append] at hn
        exact hn.2.2 _ hk _ (by simp) rfl) hs'
      have := ih (ks ++ [p.1]) s' (by simpa using hn) (h1.mono (by
        rintro x t - ⟨hp, ⟨k, hk, hx⟩ | hx⟩
        · exact ⟨hp, k, by simp [hk], hx⟩
        · exact ⟨hp, p.1, by simp, hx⟩)) (fun p hp => hl p (by simp [hp])) h
      simpa using this
  intro l
  cases l with
  | nil => intro _ _ g h; simp [reduceM] at h
  | cons p l =>
    intro hn hl g h
    exact key l [p.1] p.2 (by simpa using hn) ((hl p (by simp)).mono (by
      rintro x t - ⟨hp, hx⟩; exact ⟨hp, p.1, by simp, hx⟩)) (fun p hp => hl p (by simp [hp])) h

/-- The conjunction built from a solved clause. -/
theorem solConj_ok {c : Ctx} {sol : Sol} (hwf : ∀ q ∈ sol, q.2.WF) {g : Ev} (h : solConj c sol = .ok g) :
    g.Valid ∧ (∀ ω, g.holds ω ↔ ∀ q ∈ sol, InS ω q.1 q.2) := by
  unfold solConj at h
  simp only [bind, Except.bind] at h
  split at h; · cases h
  rename_i es hes
  have hF := mapM_ok hes
  have hv : ∀ e ∈ es, e.Valid := by
    intro e he
    obtain ⟨q, hq, hqe⟩ := forall₂_mem_right hF he
    exact (C11_in_set (hwf q hq) hqe).1
  obtain ⟨h1, h2⟩ := reduce_land hv h
  refine ⟨h1, fun ω => ?_⟩
  rw [h2]
  constructor
  · intro hh q hq
    obtain ⟨e, he, hqe⟩ := forall₂_mem_left hF hq
    have := ((C11_in_set (hwf q hq) hqe).2 ω).1 (hh e he)
    simpa [Tr.eval, InS] using this
  · intro hh e he
    obtain ⟨q, hq, hqe⟩ := forall₂_mem_right hF he
    have := hh q hq
    exact ((C11_in_set (hwf q hq) hqe).2 ω).2 (by simpa [Tr.eval, InS] using this)

theorem solConj_all {c : Ctx} {P : Ev → Prop} (hO : ∀ e f g, P e → P f → Ev.simplify (SSet.or c.σ) e f = .ok (some g) → P g)
    {sol : Sol} (hwf : ∀ q ∈ sol, q.2.WF) (hn : (sol.map Prod.fst).Nodup) (hne : ∀ q ∈ sol, q.2 ≠ .empty)
    (hp : ∀ q ∈ sol, ∀ p ∈ q.2.pieces, ∀ l : Ev, l.basic? = some (.id q.1) → l.values = .pc p → P l)
    {g : Ev} (h : solConj c sol = .ok g) : g.All (fun x => P x ∧ OnVars (sol.map Prod.fst) x) := by
  unfold solConj at h
  simp only [bind, Except.bind] at h
  split at h; · cases h
  rename_i es hes
  have hF := mapM_ok hes
  have hlen := hF.length_eq
  have e1 : es = (List.zip (sol.map Prod.fst) es).map Prod.snd := by
    rw [List.map_snd_zip]; simp [hlen]
  have e2 : (List.zip (sol.map Prod.fst) es).map Prod.fst = sol.map Prod.fst := by
    rw [List.map_fst_zip]; simp [hlen]
  rw [e1] at h
  have := reduce_land_disj (P := P) _ (by rw [e2]; exact hn) ?_ h
  · rwa [e2] at this
  · clear h e1 e2 hn hlen hes
    induction hF with
    | nil => simp
    | @cons q e sol es h1 _ ih =>
      intro p hp'
      simp only [List.map_cons, List.zip_cons_cons, List.mem_cons] at hp'
      rcases hp' with rfl | hp'
      · have ha := inSet_all hO (hwf q (by simp)) h1 (hne q (by simp)) (hp q (by simp))
        have hb := inSet_all (trOnly_basic (· = .id q.1)).and (hwf q (by simp)) h1 (hne q (by simp)) (fun p _ l hl _ => ⟨_, hl, rfl⟩)
        exact (ha.and' hb).mono (by rintro l t - ⟨h1, t', h2, rfl⟩; exact ⟨h1, h2⟩)
      · exact ih (fun q hq => hwf q (by simp [hq])) (fun q hq => hne q (by simp [hq])) (fun q hq => hp q (by simp [hq])) p hp'

/-- `dnf_normalize` on events that are not about a plain variable. -/
theorem normalizeBody_ok {c : Ctx} (hc : c.Correct) {n : ℕ} {e : Ev} (hm : e.Made c) {r : Option Ev}
    (h : normalizeBody c n e = .ok r) :
    (r = none → ∀ ω, e.Regular ω → ¬ e.holds ω) ∧
    ∀ r', r = some r' → r'.IsDnf ∧ r'.Valid ∧ (∀ ω, e.Regular ω → (r'.holds ω ↔ e.holds ω)) ∧
      r'.All (fun l => ∃ k ∈ e.symbols, l.basic? = some (.id k)) ∧
      ∀ P : Ev → Prop, (∀ e f g, P e → P f → Ev.simplify (SSet.or c.σ) e f = .ok (some g) → P g) →
        (∀ d R sols, e.toDnf = .ok d → dnfFactor1 c d = .ok R → R.mapM (solveClause c n) = .ok sols →
          ∀ sol ∈ sols, ∀ q ∈ sol, q.2 ≠ .empty → ∀ p ∈ q.2.pieces, ∀ l : Ev, l.basic? = some (.id q.1) → l.values = .pc p → P l) → r'.All P := by
  unfold normalizeBody at h
  have hv := Ev.Made.valid _ hm
  obtain ⟨d, hd1, hd2, hd3, hd4, hd5⟩ := Ev.toDnf_spec hv
  have hdm : d.Made c := Ev.made_all.2 ⟨hd3, hd5 _ (Ev.made_all.1 hm).2⟩
  have hdr : ∀ ω, e.Regular ω → d.Regular ω := fun ω h => Ev.regular_all.2 (hd5 _ (Ev.regular_all.1 h))
  have hds : d.symbols ⊆ e.symbols := Ev.symbols_all.2 (hd5 _ (Ev.symbols_all.1 (le_refl _)))
  simp only [hd1, bind, Except.bind] at h
  split at h; · cases h
  rename_i fs hfs
  split at h; · cases h
  rename_i sols hsols
  obtain ⟨-, hF⟩ := factor_solve hc hdm hfs hsols
  set good := sols.filter (fun s => s.all (fun p => !p.2.isEmpty)) with hgood
  have hgm : ∀ s, s ∈ good ↔ s ∈ sols ∧ ∀ q ∈ s, q.2 ≠ .empty := by
    intro s
    rw [hgood, List.mem_filter]
    simp only [List.all_eq_true, Bool.not_eq_true', and_congr_right_iff]
    intro _
    refine forall₂_congr (fun q _ => ?_)
    cases q.2 <;> simp [SSet.isEmpty]
  have hgh : ∀ ω, e.Regular ω → (e.holds ω ↔ ∃ s ∈ good, ∀ q ∈ s, InS ω q.1 q.2) := by
    intro ω hω
    rw [← hd4, ← Ev.disjuncts_holds]
    constructor
    · rintro ⟨cl, hcl, hh⟩
      obtain ⟨s, hs, hok⟩ := forall₂_mem_left hF hcl
      have := (hok.holds ω (hdr ω hω)).2 hh
      refine ⟨s, (hgm s).2 ⟨hs, fun q hq he => ?_⟩, this⟩
      obtain ⟨v, -, hv⟩ := this q hq
      rw [he] at hv; simp at hv
    · rintro ⟨s, hs, hh⟩
      obtain ⟨cl, hcl, hok⟩ := forall₂_mem_right hF ((hgm s).1 hs).1
      exact ⟨cl, hcl, (hok.holds ω (hdr ω hω)).1 hh⟩
  split at h
  · rename_i hnil
    cases h
    refine ⟨fun _ ω hω hh => ?_, by simp⟩
    obtain ⟨s, hs, -⟩ := (hgh ω hω).1 hh
    rw [hnil] at hs; simp at hs
  · split at h; · cases h
    rename_i conjs hconjs
    split at h; · cases h
    rename_i disj hdisj
    have hCF := mapM_ok hconjs
    have hok : ∀ s ∈ dedupSols good, ∃ cl, SolOK d cl s ∧ s ∈ good := by
      intro s hs
      have hs' := mem_dedupSols hs
      obtain ⟨cl, -, hok⟩ := forall₂_mem_right hF ((hgm s).1 hs').1
      exact ⟨cl, hok, hs'⟩
    have hcv : ∀ g ∈ conjs, g.Valid := by
      intro g hg
      obtain ⟨s, hs, hsg⟩ := forall₂_mem_right hCF hg
      obtain ⟨cl, hok, -⟩ := hok s hs
      exact (solConj_ok (fun q hq => (hok.wf q hq).1) hsg).1
    obtain ⟨hD1, hD2⟩ := reduce_lor hcv hdisj
    obtain ⟨r', hr1, hr2, hr3, hr4, hr5⟩ := Ev.toDnf_spec hD1
    simp only [hr1] at h
    cases h
    refine ⟨by simp, fun r'' e' => ?_⟩
    cases e'
    have hallP : ∀ P : Ev → Prop, (∀ e f g, P e → P f → Ev.simplify (SSet.or c.σ) e f = .ok (some g) → P g) →
        (∀ s ∈ dedupSols good, ∀ g, solConj c s = .ok g → g.All P) → r'.All P := by
      intro P hO hs
      refine hr5 P (reduceM_ind (Q := Ev.All P) (fun x y z hx hy hz => Ev.lor_all hO hx hy hz) (fun g hg => ?_) hdisj)
      obtain ⟨s, hs', hsg⟩ := forall₂_mem_right hCF hg
      exact hs s hs' g hsg
    refine ⟨hr2, hr3, fun ω hω => ?_, ?_, ?_⟩
    · rw [hr4, hD2, hgh ω hω]
      constructor
      · rintro ⟨g, hg, hh⟩
        obtain ⟨s, hs, hsg⟩ := forall₂_mem_right hCF hg
        obtain ⟨cl, hok, hs'⟩ := hok s hs
        exact ⟨s, hs', ((solConj_ok (fun q hq => (hok.wf q hq).1) hsg).2 ω).1 hh⟩
      · rintro ⟨s, hs, hh⟩
        obtain ⟨y, hy, hyh⟩ := dedupSols_cover ω hs
        obtain ⟨g, hg, hsg⟩ := forall₂_mem_left hCF hy
        obtain ⟨cl, hok, hs'⟩ := hok y hy
        exact ⟨g, hg, ((solConj_ok (fun q hq => (hok.wf q hq).1) hsg).2 ω).2 (hyh.2 hh)⟩
    · have := hallP (fun l => ∃ t, l.basic? = some t ∧ ∃ k ∈ e.symbols, t = .id k) (trOnly_basic _).and (fun s hs g hsg => by
        obtain ⟨cl, hok, hs'⟩ := hok s hs
        refine (solConj_all (P := fun _ => True) (fun _ _ _ _ _ _ => trivial) (fun q hq => (hok.wf q hq).1) hok.nodup
          ((hgm s).1 hs').2 (fun _ _ _ _ _ _ _ => trivial) hsg).mono ?_
        rintro l t - ⟨-, k, hk, hl⟩
        obtain ⟨q, hq, rfl⟩ := List.mem_map.1 hk
        exact ⟨_, hl, q.1, hds (hok.keys q hq), rfl⟩)
      exact this.mono (by rintro l t - ⟨t', h1, k, hk, rfl⟩; exact ⟨k, hk, h1⟩)
    · intro P hO hp
      refine hallP P hO (fun s hs g hsg => ?_)
      obtain ⟨cl, hok, hs'⟩ := hok s hs
      refine (solConj_all hO (fun q hq => (hok.wf q hq).1) hok.nodup ((hgm s).1 hs').2 (fun q hq => ?_) hsg).mono (fun _ _ _ h => h.1)
      exact hp d fs sols hd1 hfs hsols s ((hgm s).1 hs').1 q hq (((hgm s).1 hs').2 q hq)

end Sppl
