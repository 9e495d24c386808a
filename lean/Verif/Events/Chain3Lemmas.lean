import Verif.Events.Chain2Lemmas

set_option linter.all false

/-!
# Inverting a chain of increasing and decreasing expressions (helper lemmas)
-/

namespace Sppl
open Classical

theorem fin_or_self (σ : Orders EReal) (s : Finset EReal) : SSet.or σ (.pc (.fin s)) (.pc (.fin s)) = .ok (.pc (.fin s)) := by
  simp [SSet.or, Piece.or]

theorem ivl_or_self (σ : Orders EReal) (i : Ivl EReal) : SSet.or σ (.pc (.ivl i)) (.pc (.ivl i)) = .ok (.pc (.ivl i)) := by
  simp [SSet.or, Piece.or, Ivl.or]

/-- The union of the images of the (repeated) elements of a set of one number. -/
theorem iterUnion_one {c : Ctx} {y : EReal} {f : EReal → Res (SSet EReal)} {X : SSet EReal} (hf : f y = .ok X) (hX : SSet.or c.σ X X = .ok X) :
    ∃ xs, (c.iter {y}).mapM f = .ok xs ∧ makeUnion c.σ xs = .ok X := by
  have h := c.mem_iter {y}
  have gen : ∀ l : List EReal, (∀ z ∈ l, z = y) → ∃ xs, l.mapM f = .ok xs ∧ (∀ z ∈ xs, z = X) ∧ xs.length = l.length := by
    intro l
    induction l with
    | nil => intro _; exact ⟨[], rfl, by simp, rfl⟩
    | cons a l ih =>
      intro hl
      obtain ⟨xs, h1, h2, h3⟩ := ih (fun z hz => hl z (by simp [hz]))
      have : a = y := hl a (by simp)
      subst this
      exact ⟨X :: xs, by simp [hf, h1, bind, Except.bind, pure, Except.pure], by simpa using h2, by simp [h3]⟩
  obtain ⟨xs, h1, h2, h3⟩ := gen (c.iter {y}) (fun z hz => by simpa using (h z).1 hz)
  refine ⟨xs, h1, ?_⟩
  cases xs with
  | nil =>
    exfalso
    have h4 := (h y).2 (by simp)
    have : c.iter {y} = [] := by rw [← List.length_eq_zero_iff, ← h3]; rfl
    rw [this] at h4; simp at h4
  | cons x xs =>
    have hx : x = X := h2 x (by simp)
    subst hx
    have gen2 : ∀ l : List (SSet EReal), (∀ z ∈ l, z = x) → l.foldlM (SSet.or c.σ) x = .ok x := by
      intro l
      induction l with
      | nil => intro _; rfl
      | cons a l ih =>
        intro hl
        have : a = x := hl a (by simp)
        subst this
        simp only [List.foldlM_cons, hX, bind, Except.bind]
        exact ih (fun z hz => hl z (by simp [hz]))
    exact gen2 xs (fun z hz => h2 z (by simp [hz]))

theorem Tr.invertStep_fin {c : Ctx} {t : Tr} (hu : t.Unary) (inv : Tr → SSet EReal → Res (SSet EReal)) (s : Finset EReal) :
    t.invertStep c inv (.pc (.fin s)) = (do let xs ← (c.iter s).mapM (fun y => t.finv c y); let u ← makeUnion c.σ xs; inv t.sub u) := by
  cases t <;> first | exact False.elim hu | rfl

theorem Tr.invertStep_ivl {c : Ctx} {t : Tr} (hu : t.Unary) (inv : Tr → SSet EReal → Res (SSet EReal)) (i : Ivl EReal) :
    t.invertStep c inv (.pc (.ivl i)) = (do let u ← t.intervalPre c i; inv t.sub u) := by
  cases t <;> first | exact False.elim hu | rfl

/-- What one step needs: the range, `finv`, and the interval computed for the subexpression. -/
structure StepOK (c : Ctx) (t : Tr) (j : Ivl EReal) : Prop where
  range : ∃ r, t.range c = .ok r ∧ Rng r j
  wf : j.WF
  finv : ∀ y : EReal, ∃ F, t.finv c y = .ok F ∧ F.Flat
  pre : ∀ k : Ivl EReal, k.WF → (∀ z, k.Mem z → j.Mem z) → ∃ m, t.intervalPre c k = .ok (.pc (.ivl m)) ∧ m.WF

theorem flat_or_self {V : SSet EReal} (h : V.Flat) (σ : Orders EReal) : SSet.or σ V V = .ok V := by
  cases h with
  | empty => rfl
  | ivl => exact ivl_or_self _ _
  | one => exact fin_or_self _ _

theorem Tr.step {c : Ctx} {t : Tr} (hu : t.Unary) {j : Ivl EReal} (ho : StepOK c t j) {V : SSet EReal} (hV : V.Flat) :
    (∀ n, t.invert c (n + 1) V = .ok .empty) ∨ ∃ V2, V2.Flat ∧ ∀ n, t.invert c (n + 1) V = t.sub.invert c n V2 := by
  obtain ⟨r, h1, h2⟩ := ho.range
  obtain ⟨V1, h3, h4, h5⟩ := rng_and_flat c.σ h2 ho.wf hV
  cases h4 with
  | empty =>
    left; intro n
    simp only [Tr.invert, h1, bind, Except.bind, h3]; rfl
  | @one y =>
    right
    obtain ⟨F, g1, g2⟩ := ho.finv y
    refine ⟨F, g2, fun n => ?_⟩
    obtain ⟨xs, h4, h5⟩ := iterUnion_one (c := c) (f := fun y => t.finv c y) g1 (flat_or_self g2 _)
    simp only [Tr.invert, h1, bind, Except.bind, h3]
    rw [Tr.invertStep_fin hu]
    simp only [h4, h5, bind, Except.bind]
  | @ivl k hk =>
    right
    obtain ⟨m, m1, m2⟩ := ho.pre k hk (h5 k rfl)
    refine ⟨_, .ivl m2, fun n => ?_⟩
    simp only [Tr.invert, h1, bind, Except.bind, h3]
    rw [Tr.invertStep_ivl hu]
    simp only [m1, bind, Except.bind]

/-! ## The four kinds of step -/

theorem real_mem_reals (u : ℝ) : (⟨⊥, ⊤, true, true⟩ : Ivl EReal).Mem u := by simp [Ivl.Mem, EReal.bot_lt_coe, EReal.coe_lt_top]

theorem pos_wf : (⟨0, ⊤, false, true⟩ : Ivl EReal).WF := ⟨EReal.zero_lt_top, by simp, by simp⟩

theorem pos_mem {z : EReal} : (⟨0, ⊤, false, true⟩ : Ivl EReal).Mem z ↔ 0 ≤ z ∧ z < ⊤ := by simp [Ivl.Mem]

theorem ifInRange_flat {r0 : Res (SSet EReal)} {r F : SSet EReal} {y : EReal} (h0 : r0 = .ok r) (hr : GoodR r) (hF : F.Flat) {k : Res (SSet EReal)}
    (hk : k = .ok F) : ∃ F, ifInRange r0 y k = .ok F ∧ F.Flat := by
  obtain ⟨b, h1, -⟩ := contains_goodR hr y
  subst h0; subst hk
  cases b with
  | true => exact ⟨F, by simp [ifInRange, h1, bind, Except.bind], hF⟩
  | false => exact ⟨.empty, by simp [ifInRange, h1, bind, Except.bind], .empty⟩

theorem stepOK_radical (c : Ctx) (t : Tr) {n : ℕ} (hn : n ≠ 0) : StepOK c (.radical t n) ⟨0, ⊤, false, true⟩ where
  range := extRealsPos_rng c
  wf := pos_wf
  finv y := by
    obtain ⟨r, h1, -⟩ := extRealsPos_rng c
    have g := (extRealsPos_spec h1).1
    rw [Tr.finv]
    split
    · exact ifInRange_flat h1 g .one rfl
    · exact ifInRange_flat h1 g .one rfl
  pre k hk hs := radical_total c t hn hk (fun z hz => (pos_mem.1 (hs z hz)).1)

theorem stepOK_exp (c : Ctx) (t : Tr) {b : ℝ} (hb : 1 < b) : StepOK c (.exp t b) ⟨0, ⊤, false, true⟩ where
  range := extRealsPos_rng c
  wf := pos_wf
  finv y := by
    obtain ⟨r, h1, -⟩ := extRealsPos_rng c
    have g := (extRealsPos_spec h1).1
    rw [Tr.finv, if_neg hb.ne']
    split
    · exact ifInRange_flat h1 g .one rfl
    split
    · exact ifInRange_flat h1 g .one rfl
    · exact ifInRange_flat h1 g .one rfl
  pre k hk hs := exp_total c t hb hk (fun z hz => (pos_mem.1 (hs z hz)).1)

theorem stepOK_log (c : Ctx) (t : Tr) {b : ℝ} (hb : 1 < b) : StepOK c (.log t b) ⟨⊥, ⊤, true, true⟩ where
  range := extReals_rng c
  wf := SSet.wf_reals
  finv y := by
    rw [Tr.finv, ifInRange_ext]
    split
    · exact ⟨_, rfl, .one⟩
    split
    · exact ⟨_, rfl, .one⟩
    · exact ⟨_, rfl, .one⟩
  pre k hk hs := log_total c t hb hk

theorem stepOK_poly {c : Ctx} (hc : c.Correct) (hl : c.Linear) (t : Tr) {p q : ℝ} (hq : q ≠ 0) : StepOK c (.poly t [p, q]) ⟨⊥, ⊤, true, true⟩ := by
  obtain ⟨r, h1, h2⟩ := hl.range p q hq
  obtain ⟨w, d, s, -⟩ := hc.range _ _ h1
  refine ⟨⟨r, h1, allReals_rng h2⟩, SSet.wf_reals, fun y => ?_, fun k hk _ => poly_total hc hl hq hk⟩
  rw [Tr.finv]
  unfold solvePolyEq
  split
  · have : (polyEqInf c [p, q] y).Flat := by
      unfold polyEqInf
      split
      · rename_i h; exact absurd (h.1.trans h.2.symm) (hl.lim p q hq)
      split
      · exact .one
      split
      · exact .one
      · exact .empty
    exact ifInRange_flat h1 ⟨w, d, s⟩ this rfl
  · exact ifInRange_flat h1 ⟨w, d, s⟩ .one (hl.eq _ _ _ hq)

theorem Tr.Chain.made {c : Ctx} {k : String} {t : Tr} (h : t.Chain k) : t.Made c := by
  induction h with
  | id => exact .id _
  | radical _ h ih => exact .radical ih h
  | exp _ h ih => exact .exp ih h
  | log _ h ih => exact .log ih h
  | poly _ h ih => exact .poly ih (by simp)

theorem Tr.Chain.symbols {k : String} {t : Tr} (h : t.Chain k) : t.symbols = {k} := by
  induction h <;> simp_all [Tr.symbols]

/-- Inversion of a chain on a flat set returns a flat set. -/
theorem Tr.Chain.invert {c : Ctx} (hc : c.Correct) (hl : c.Linear) {k : String} {t : Tr} (h : t.Chain k) :
    ∀ V : SSet EReal, V.Flat → ∃ N S, S.Flat ∧ t.invert c N V = .ok S := by
  have go : ∀ {t j}, t.Unary → StepOK c t j → (∀ V : SSet EReal, V.Flat → ∃ N S, S.Flat ∧ t.sub.invert c N V = .ok S) →
      ∀ V : SSet EReal, V.Flat → ∃ N S, S.Flat ∧ t.invert c N V = .ok S := by
    intro t j hu ho ih V hV
    rcases Tr.step hu ho hV with h | ⟨V2, h1, h2⟩
    · exact ⟨1, .empty, .empty, h 0⟩
    · obtain ⟨N, S, hS, h4⟩ := ih V2 h1
      exact ⟨N + 1, S, hS, by rw [h2]; exact h4⟩
  induction h with
  | id =>
    intro V hV
    obtain ⟨r, h1, h2⟩ := extReals_rng c
    obtain ⟨V1, h3, h4, -⟩ := rng_and_flat c.σ h2 SSet.wf_reals hV
    refine ⟨1, V1, h4, ?_⟩
    simp only [Tr.invert, Tr.range, h1, bind, Except.bind, h3]
    cases h4 <;> rfl
  | @radical t n ht hn ih => exact go (t := .radical t n) trivial (stepOK_radical c t hn) ih
  | @exp t b ht hb ih => exact go (t := .exp t b) trivial (stepOK_exp c t hb) ih
  | @log t b ht hb ih => exact go (t := .log t b) trivial (stepOK_log c t hb) ih
  | @poly t p q ht hq ih => exact go (t := .poly t [p, q]) trivial (stepOK_poly hc hl t hq) ih

/-- The event `t in V`. -/
inductive ChainOf (k : String) (t : Tr) : SSet EReal → Ev → Prop
  | ivl {i : Ivl EReal} : i.WF → ChainOf k t (.pc (.ivl i)) (.ivl t i)
  | one {y : EReal} : ChainOf k t (.pc (.fin {y})) (.fin t (some {y}))
  | empty : ChainOf k t .empty (.fin t none)

theorem ChainOf.flat {k : String} {t : Tr} {V : SSet EReal} {e : Ev} (h : ChainOf k t V e) : V.Flat := by
  cases h with
  | ivl h => exact .ivl h
  | one => exact .one
  | empty => exact .empty

/-- `{0, 1} & {1}`. -/
theorem bool_and_one (c : Ctx) : SSet.and c.σ (.pc (.fin {0, 1})) (.pc (.fin {(1 : EReal)})) = .ok (.pc (.fin {1})) := by
  have : ({0, 1} : Finset EReal) ∩ {1} = {1} := by simp
  simp [SSet.and, Piece.and, finOrEmpty, this]

theorem ChainOf.inv {c : Ctx} (hc : c.Correct) (hl : c.Linear) {k : String} {t : Tr} (ht : t.Chain k) {V : SSet EReal} {e : Ev} (h : ChainOf k t V e) :
    ∃ N S, S.Flat ∧ Ev.invert c N e (.pc (.fin {1})) = .ok S := by
  obtain ⟨N, S, hS, h1⟩ := ht.invert hc hl V h.flat
  have hand := bool_and_one c
  obtain ⟨xs, h4, h5⟩ := iterUnion_one (c := c) (y := 1) (f := fun y => Ev.finvReal c V y) (X := V) (by simp [Ev.finvReal]) (flat_or_self h.flat _)
  refine ⟨N + 1, S, hS, ?_⟩
  cases h with
  | ivl hi =>
    rw [Ev.invert]
    simp only [hand, bind, Except.bind, Ev.invertFinite, h4, h5]
    exact h1
  | one =>
    rw [Ev.invert]
    simp only [hand, bind, Except.bind, Ev.invertFinite, optFin, h4, h5]
    exact h1
  | empty =>
    rw [Ev.invert]
    simp only [hand, bind, Except.bind, Ev.invertFinite, optFin, h4, h5]
    exact h1

theorem ChainOf.solve {c : Ctx} (hc : c.Correct) (hl : c.Linear) {k : String} {t : Tr} (ht : t.Chain k) {V : SSet EReal} {e : Ev} (h : ChainOf k t V e) :
    ∃ N S, S.Flat ∧ e.solve c N = .ok S := by
  have hs := ht.symbols
  obtain ⟨M, S, hS, h2⟩ := h.inv hc hl ht
  cases h with
  | @ivl i hi =>
    by_cases hid : ∃ x, t = .id x
    · obtain ⟨x, rfl⟩ := hid
      exact ⟨0, _, .ivl hi, rfl⟩
    · refine ⟨M, S, hS, ?_⟩
      unfold Ev.solve
      split
      · exact absurd ⟨_, by injection ‹Ev.ivl _ _ = Ev.ivl _ _›⟩ hid
      · simp_all
      · simp_all
      · rw [if_neg (by simp [Ev.symbols, hs])]; exact h2
  | @one y =>
    by_cases hid : ∃ x, t = .id x
    · obtain ⟨x, rfl⟩ := hid
      exact ⟨0, _, .one, rfl⟩
    · refine ⟨M, S, hS, ?_⟩
      unfold Ev.solve
      split
      · simp_all
      · exact absurd ⟨_, by injection ‹Ev.fin _ _ = Ev.fin _ _›⟩ hid
      · simp_all
      · rw [if_neg (by simp [Ev.symbols, hs])]; exact h2
  | empty =>
    by_cases hid : ∃ x, t = .id x
    · obtain ⟨x, rfl⟩ := hid
      exact ⟨0, _, .empty, rfl⟩
    · refine ⟨M, S, hS, ?_⟩
      unfold Ev.solve
      split
      · simp_all
      · exact absurd ⟨_, by injection ‹Ev.fin _ _ = Ev.fin _ _›⟩ hid
      · simp_all
      · rw [if_neg (by simp [Ev.symbols, hs])]; exact h2

end Sppl
