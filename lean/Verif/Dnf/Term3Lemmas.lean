import Verif.Dnf.Term2Lemmas

set_option linter.all false

/-!
# The recursion of `dnf_to_disjoint_union` is well-founded (helper lemmas, end)
-/

namespace Sppl
open Classical

variable {V : Finset String} {A : Finset EReal} {B : Finset String}

/-- No infinite number is in the set. -/
def NoInf (S : SSet EReal) : Prop := ∀ v ∈ S.den, v.Proper

/-- A valid basic event whose set has no infinite number. -/
def NoInfLit (l : Ev) : Prop := l.Valid ∧ NoInf l.values

theorem noInf_and {c : Ctx} : ∀ e f g : Ev, NoInfLit e → NoInfLit f → Ev.simplify (SSet.and c.σ) e f = .ok (some g) → NoInfLit g := by
  rintro e f g ⟨he, h1⟩ ⟨hf, h2⟩ h
  obtain ⟨t, r, a1, a2, a3, a4, a5⟩ := Ev.simplify_some h
  have := SSet.and_spec c.σ _ _ ((Ev.valid_basic a1).1 he) (Ev.values_disj a1) ((Ev.valid_basic a2).1 hf) (Ev.values_disj a2) a3
  exact ⟨(Ev.valid_basic a4).2 (a5 ▸ this.wf), fun v hv => h1 v (this.sub v (a5 ▸ hv)).1⟩

theorem ivl_proper {i : Ivl EReal} (hi : i.WF) {x : EReal} (hx : i.Mem x) : (Val.num x).Proper := by
  obtain ⟨h1, h2, h3⟩ := hi
  unfold Ivl.Mem at hx
  constructor
  · rintro rfl
    have := hx.1
    split at this
    · simp at this
    · rename_i hlo
      have := le_bot_iff.1 this
      exact hlo (h2 this)
  · rintro rfl
    have := hx.2
    split at this
    · simp at this
    · rename_i hro
      have := top_le_iff.1 this
      exact hro (h3 this)

/-- A basic event that can be negated compares with no infinite number. -/
theorem noInf_of_not {c : Ctx} {e g : Ev} {t : Tr} (ht : e.basic? = some t) (hv : e.Valid) (h : e.not c = .ok g) : NoInfLit e := by
  refine ⟨hv, ?_⟩
  have hwf := (Ev.valid_basic ht).1 hv
  cases e with
  | or => simp [Ev.basic?] at ht
  | and => simp [Ev.basic?] at ht
  | ivl t i =>
    rintro v ⟨x, rfl, hx⟩
    exact ivl_proper hwf hx
  | fin t s =>
    cases s with
    | none => intro v hv; simp [Ev.values] at hv
    | some s =>
      simp only [Ev.not, bind, Except.bind] at h
      split at h; · cases h
      rename_i r hr
      have hr' : finInvert c.σ s = .ok r := by simpa [optFin, SSet.invert, Piece.invert] using hr
      rintro v ⟨x, rfl, hx⟩
      obtain ⟨-, h2, h3⟩ := finInvert_ends (A := insert ⊥ (insert ⊤ s)) (B := ∅) (by intro x hx; simp [hx]) (by simp) (by simp) hr'
      exact ⟨fun e => h2 (e ▸ hx), fun e => h3 (e ▸ hx)⟩
  | nom t s =>
    cases s with
    | none => intro v hv; simp [Ev.values] at hv
    | some s => rintro v ⟨x, rfl, hx⟩; trivial

theorem clause_noInf {c : Ctx} {e g : Ev} (hc : e.IsClause) (hv : e.Valid) (h : e.not c = .ok g) : e.All NoInfLit := by
  cases e with
  | or => exact False.elim hc
  | ivl t i => exact .lit rfl (noInf_of_not rfl hv h)
  | fin t i => exact .lit rfl (noInf_of_not rfl hv h)
  | nom t i => exact .lit rfl (noInf_of_not rfl hv h)
  | and es =>
    simp only [Ev.not, bind, Except.bind] at h
    split at h; · cases h
    rename_i fs hfs
    have hF := Ev.notL_ok hfs
    cases hv with
    | and hne hes =>
      refine Ev.all_and.2 (fun x hx => ?_)
      obtain ⟨f, -, hf⟩ := forall₂_mem_left hF hx
      obtain ⟨t, ht⟩ := Ev.isLit_iff.1 (hc.2 x hx)
      exact .lit ht (noInf_of_not ht (hes x hx) hf)

/-! ## Overlapping clauses have a common point -/

theorem piece_nonempty {p : Piece EReal} (hp : p.WF) : ∃ v, v ∈ p.den := by
  cases p with
  | nom n => obtain ⟨x, hx⟩ := nom_has_str hp; exact ⟨_, hx⟩
  | fin s => obtain ⟨x, hx⟩ := (show s.Nonempty from hp); exact ⟨.num x, x, rfl, hx⟩
  | ivl i =>
    obtain ⟨x, h1, h2⟩ := exists_between (show i.a < i.b from hp.1)
    refine ⟨.num x, x, rfl, ?_⟩
    unfold Ivl.Mem
    constructor
    · split
      · exact h1
      · exact h1.le
    · split
      · exact h2
      · exact h2.le

theorem set_nonempty {S : SSet EReal} (hw : S.WF) (hu : ∀ u, S ≠ .un u) (he : S.isEmpty = false) : ∃ v, v ∈ S.den := by
  cases S with
  | empty => simp [SSet.isEmpty] at he
  | pc p => exact piece_nonempty hw
  | un u => exact absurd rfl (hu u)

theorem proper_lift {v : Val EReal} (h : v.Proper) : ∃ w : Val ℝ, w.lift = v := by
  cases v with
  | str s => exact ⟨.str s, rfl⟩
  | num x => exact ⟨.num x.toReal, by simp only [Val.lift]; rw [EReal.coe_toReal h.2 h.1]⟩

theorem lookup_mem_sol {b : Sol} {s : String} {B : SSet EReal} (hl : b.lookup s = some B) : (s, B) ∈ b := by
  induction b with
  | nil => simp at hl
  | cons p b ih =>
    obtain ⟨k, C⟩ := p
    rw [List.lookup_cons] at hl
    split at hl
    · rename_i hk
      cases hl
      have := eq_of_beq hk; subst this; simp
    · exact List.mem_cons_of_mem _ (ih hl)

/-- The sets of a solved clause about variables. -/
def SolGood (s : Sol) : Prop := (s.map Prod.fst).Nodup ∧ ∀ q ∈ s, q.2.WF ∧ q.2.Disj ∧ ∀ u, q.2 ≠ .un u

theorem overlap_points {c : Ctx} {b : Sol} (hb : ∀ q ∈ b, q.2.WF ∧ q.2.Disj ∧ ∀ u, q.2 ≠ .un u) : ∀ {a : Sol},
    (∀ q ∈ a, (q.2.WF ∧ q.2.Disj ∧ ∀ u, q.2 ≠ .un u) ∧ NoInf q.2) → anyEmptyInter c b a = .ok false →
    ∀ q ∈ a, ∃ w : Val ℝ, w.lift ∈ q.2.den ∧ ∀ B, b.lookup q.1 = some B → w.lift ∈ B.den := by
  intro a
  induction a with
  | nil => simp
  | cons p a ih =>
    obtain ⟨s, A⟩ := p
    intro ha h
    simp only [anyEmptyInter, bind, Except.bind] at h
    split at h; · cases h
    rename_i x hx
    split at h
    · cases h
    · rename_i he
      have he' : x.isEmpty = false := by simpa using he
      intro q hq
      rcases List.mem_cons.1 hq with rfl | hq
      · obtain ⟨⟨h1, h2, h3⟩, h4⟩ := ha (s, A) (by simp)
        unfold interWith at hx
        cases hl : b.lookup s with
        | none =>
          rw [hl] at hx; cases hx
          obtain ⟨v, hv⟩ := set_nonempty h1 h3 he'
          obtain ⟨w, rfl⟩ := proper_lift (h4 v hv)
          exact ⟨w, hv, by simp⟩
        | some B =>
          rw [hl] at hx
          obtain ⟨g1, g2, g3⟩ := hb _ (lookup_mem_sol hl)
          have hA := SSet.and_spec c.σ A B h1 h2 g1 g2 hx
          have hnu : ∀ u, x ≠ .un u := by
            simp only at h3 g3
            cases A with
            | un u => exact absurd rfl (h3 u)
            | empty => simp [SSet.and] at hx; subst hx; simp
            | pc p =>
              cases B with
              | un u => exact absurd rfl (g3 u)
              | empty => simp [SSet.and] at hx; subst hx; simp
              | pc q =>
                simp only [SSet.and] at hx
                exact piece_and_not_un hx
          obtain ⟨v, hv⟩ := set_nonempty hA.wf hnu he'
          obtain ⟨v1, v2⟩ := hA.sub v hv
          obtain ⟨w, rfl⟩ := proper_lift (h4 v v1)
          refine ⟨w, v1, fun B' hB' => ?_⟩
          cases hB'; exact v2
      · exact ih (fun q hq => ha q (by simp [hq])) h q hq

/-- The earlier of two overlapping clauses holds somewhere. -/
theorem overlap_point {c : Ctx} {a b : Sol} (hb : SolGood b) (ha : SolGood a) (hno : ∀ q ∈ a, NoInf q.2) (h : anyEmptyInter c b a = .ok false) :
    ∃ ω : Asg, ∀ q ∈ a, InS ω q.1 q.2 := by
  have hp := overlap_points hb.2 (fun q hq => ⟨ha.2 q hq, hno q hq⟩) h
  choose w hw using hp
  let ω : Asg := fun s => if h : ∃ q ∈ a, q.1 = s then some (w h.choose h.choose_spec.1) else none
  have hω : ∀ q (hq : q ∈ a), ω q.1 = some (w q hq) := by
    intro q hq
    have hex : ∃ q' ∈ a, q'.1 = q.1 := ⟨q, hq, rfl⟩
    have e := List.inj_on_of_nodup_map ha.1 hex.choose_spec.1 hq hex.choose_spec.2
    simp only [ω, dif_pos hex]
    congr 2
  exact ⟨ω, fun q hq => ⟨_, hω q hq, (hw q hq).1⟩⟩

/-! ## One step of the recursion -/

theorem nonDisjoint_overlap {c : Ctx} {sols : List Sol} {ov : List (List ℕ)} (h : nonDisjoint c sols = .ok ov) :
    ov.length = sols.length ∧ ∀ i (hi : i < sols.length) (hi' : i < ov.length), ∀ j ∈ ov[i], ∃ hj : j < sols.length, anyEmptyInter c sols[i] sols[j] = .ok false := by
  unfold nonDisjoint at h
  have hF := mapM_ok h
  have hlen := hF.length_eq
  simp at hlen
  refine ⟨hlen.symm, fun i hi hi' j hj => ?_⟩
  have := hF.get (i := i) (by simpa using hi) hi'
  simp only [List.get_eq_getElem, List.getElem_zipIdx, Nat.zero_add] at this
  obtain ⟨-, h2⟩ := filterMapM_ok this
  obtain ⟨q, hq, hqj⟩ := h2 j hj
  simp only [bind, Except.bind] at hqj
  split at hqj; · cases hqj
  rename_i d hd
  split at hqj
  · cases hqj
  · rename_i hd'
    cases hqj
    have hq' := List.mem_zipIdx hq
    have hlt : q.2 < i ∧ q.2 < sols.length := by
      simp at hq'; omega
    refine ⟨hlt.2, ?_⟩
    have e : q.1 = sols[q.2] := by
      have := hq'.2.2
      rw [this, List.getElem_take]; simp
    rw [← e, hd]
    simp at hd'; rw [hd']

/-- What a factored and solved clause about variables satisfies. -/
theorem solGood_of {c : Ctx} {n : ℕ} {d e : Ev} (hv : e.Valid) (he : e.All VarLit) {m : Clause String} (hm : factorClause c (selfLookup d) e = .ok m)
    {sol : Sol} (hs : solveClause c n m = .ok sol) : SolGood sol ∧ (e.All NoInfLit → ∀ q ∈ sol, NoInf q.2) := by
  have hlit := factorClause_lit hv he hm
  have hsv := solveClause_var hlit hs
  have hf := (factorClause_ok (P := Ev.Valid) (by
    intro e f g h1 h2 h
    obtain ⟨t, r, a1, a2, a3, a4, a5⟩ := Ev.simplify_some h
    have := SSet.and_spec c.σ _ _ ((Ev.valid_basic a1).1 h1) (Ev.values_disj a1) ((Ev.valid_basic a2).1 h2) (Ev.values_disj a2) a3
    exact (Ev.valid_basic a4).2 (a5 ▸ this.wf)) hv (Ev.valid_all hv) hm).1
  refine ⟨⟨?_, fun q hq => ?_⟩, fun hno q hq => ?_⟩
  · rw [forall₂_map hsv Prod.fst Prod.fst (fun a b h => by rw [h])]; exact hf.nodup
  · obtain ⟨p, hp, rfl⟩ := forall₂_mem_right hsv hq
    exact ⟨(Ev.valid_basic (hlit p hp)).1 (hf.valid p hp), Ev.values_disj (hlit p hp), Ev.values_not_un _⟩
  · obtain ⟨p, hp, rfl⟩ := forall₂_mem_right hsv hq
    have hg := (factorClause_ok noInf_and hv hno hm).1
    exact ((Ev.all_lit (hlit p hp)).1 (hg.allP p hp)).2

/-- What a recursive call is made on. -/
theorem disj_step {c : Ctx} (hc : c.Correct) {n : ℕ} (hb : ⊥ ∈ A) (ht : ⊤ ∈ A) {es : List Ev} (hd : (Ev.or es).IsDnf) (hv : (Ev.or es).Valid)
    (hE : (Ev.or es).All (EndLit V A B)) {fs : List (Clause String)} (hfs : dnfFactor1 c (.or es) = .ok fs)
    {sols : List Sol} (hsols : fs.mapM (solveClause c n) = .ok sols) {ov : List (List ℕ)} (hov : nonDisjoint c sols = .ok ov)
    {cl : List Ev} (hcl : (es.zip ov).mapM (fun p => cascade c es p.1 p.2) = .ok cl)
    {x r : Ev} (hx : x ∈ cl) (hxr : dnfNormalize c n x = .ok (some r)) :
    r.IsDnf ∧ r.Valid ∧ r.All (EndLit V A B) ∧ (r.IsClause ∨ weight V A B r < weight V A B (.or es)) := by
  obtain ⟨hm, hn, hreg⟩ := made_endLit (c := c) hv hE
  have hves : ∀ e ∈ es, e.Valid := by cases hv with | or _ h => exact h
  have hEes : ∀ e ∈ es, e.All (EndLit V A B) := Ev.all_or.1 hE
  have hes : ∀ e ∈ es, e.Made c ∧ e.All NomId := fun e he =>
    ⟨(made_endLit (hves e he) (hEes e he)).1, (made_endLit (c := c) (hves e he) (hEes e he)).2.1⟩
  obtain ⟨-, hF⟩ := factor_solve hc hm hfs hsols
  simp only [Ev.disjuncts] at hF
  have hlen := hF.length_eq
  obtain ⟨hol, hover⟩ := nonDisjoint_overlap hov
  have hC := mapM_ok hcl
  obtain ⟨i, hi, rfl⟩ := List.mem_iff_getElem.1 hx
  have hcl_len : cl.length = es.length := by
    have := hC.length_eq
    simp at this; omega
  have hcas : cascade c es (es[i]'(by omega)) (ov[i]'(by omega)) = .ok cl[i] := by
    have := hC.get (i := i) (by simp; omega) hi
    simpa using this
  have hie : i < es.length := by omega
  have hiv : i < ov.length := by omega
  have hei : es[i] ∈ es := List.getElem_mem _
  obtain ⟨c1, c2, c3, -⟩ := cascade_ok hes _ (hes _ hei).1 (hes _ hei).2 hcas
  have c4 := cascade_endLit hb ht hEes _ (hEes _ hei) hcas
  have hno := ((dnfNormalize_ok hc c1 hxr).2 r rfl).1
  have hvx := Ev.Made.valid _ c1
  have hrE := dnfNormalize_endLit hc hvx c4 hxr
  have hxreg := (made_endLit (c := c) hvx c4).2.2
  refine ⟨hno.dnf, Ev.Made.valid _ hno.made, hrE, ?_⟩
  cases hjs : ov[i] with
  | nil =>
    left
    rw [hjs] at hcas
    simp [cascade, pure, Except.pure] at hcas
    rw [← hcas] at hxr
    exact dnfNormalize_clause (hves _ hei) ((hEes _ hei).mono (fun _ _ _ h => varLit_of_endLit h)) (hd.2 _ hei) hxr
  | cons j js =>
    right
    have hj : j ∈ ov[i] := by rw [hjs]; simp
    obtain ⟨hjs', hov0⟩ := hover i (by omega) hiv j hj
    have hje : j < es.length := by omega
    have hej : es[j] ∈ es := List.getElem_mem _
    obtain ⟨f, nf, hf, hnf⟩ := cascade_not _ hcas j hj
    rw [List.getElem?_eq_getElem hje] at hf; cases hf
    have hnoinf := clause_noInf (hd.2 _ hej) (hves _ hej) hnf
    -- the factored and solved clauses
    have hfm : es.mapM (factorClause c (selfLookup (.or es))) = .ok fs := by
      unfold dnfFactor1 dnfFactor at hfs
      simp only at hfs
      split at hfs
      · exact hfs
      · cases hfs
    have hFm := mapM_ok hfm
    have hSm := mapM_ok hsols
    have hfl : fs.length = es.length := hFm.length_eq.symm
    have good : ∀ k (hk : k < es.length) (hk' : k < sols.length), SolGood sols[k] ∧ (es[k].All NoInfLit → ∀ q ∈ sols[k], NoInf q.2) := by
      intro k hk hk'
      exact solGood_of (hves _ (List.getElem_mem _)) ((hEes _ (List.getElem_mem _)).mono (fun _ _ _ h => varLit_of_endLit h))
        (hFm.get (i := k) hk (by omega)) (hSm.get (i := k) (by omega) hk')
    have hsol : ∀ k (hk : k < es.length) (hk' : k < sols.length), ∀ ω, (∀ q ∈ sols[k], InS ω q.1 q.2) ↔ es[k].holds ω :=
      fun k hk hk' ω => (hF.get (i := k) hk hk').holds ω (hreg ω)
    have hri : ∀ ω, r.holds ω → es[i].holds ω ∧ ¬ es[j].holds ω := by
      intro ω hr
      obtain ⟨h1, h2⟩ := c3 ω ((hno.holds ω (hxreg ω)).1 hr)
      exact ⟨h1, h2 j hj _ (List.getElem?_eq_getElem hje)⟩
    refine weight_lt hrE (fun ω hr => (Ev.holds_or ω es).2 ⟨_, hei, (hri ω hr).1⟩) ?_
    obtain ⟨ω, h1⟩ := overlap_point (good i hie (by omega)).1 (good j hje hjs').1 ((good j hje hjs').2 hnoinf) hov0
    exact ⟨ω, (Ev.holds_or ω es).2 ⟨_, hej, (hsol j hje hjs' ω).1 h1⟩, fun hr => (hri ω hr).2 ((hsol j hje hjs' ω).1 h1)⟩

end Sppl
