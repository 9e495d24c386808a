import Verif.Events.IntervalLemmas
import Verif.Util.ExceptLemmas

set_option linter.all false

/-! Exactness of inversion of expressions and of the solution sets of events. -/

namespace Sppl
open Classical
variable {r0 : Bool}

/-- Simultaneous induction on the size of expressions and events. -/
theorem sizeInd {P : Tr → Prop} {Q : Ev → Prop}
    (hT : ∀ t, (∀ t', sizeOf t' < sizeOf t → P t') → (∀ e, sizeOf e < sizeOf t → Q e) → P t)
    (hE : ∀ e, (∀ t', sizeOf t' < sizeOf e → P t') → (∀ e', sizeOf e' < sizeOf e → Q e') → Q e) :
    (∀ t, P t) ∧ ∀ e, Q e := by
  have : ∀ k, (∀ t : Tr, sizeOf t < k → P t) ∧ ∀ e : Ev, sizeOf e < k → Q e := by
    intro k
    induction k with
    | zero => exact ⟨by simp, by simp⟩
    | succ k ih =>
      refine ⟨fun t ht => hT t (fun t' h => ih.1 t' (by omega)) (fun t' h => ih.2 t' (by omega)),
        fun t ht => hE t (fun t' h => ih.1 t' (by omega)) (fun t' h => ih.2 t' (by omega))⟩
  exact ⟨fun t => (this (sizeOf t + 1)).1 t (by omega), fun t => (this (sizeOf t + 1)).2 t (by omega)⟩

theorem Tr.sizeOf_pw_left {ts : List Tr} {es : List Ev} {ds t} (h : t ∈ ts) :
    sizeOf t < sizeOf (Tr.pw ts es ds) := by
  have := List.sizeOf_lt_of_mem h; simp; omega

theorem Tr.sizeOf_pw_right {ts : List Tr} {es : List Ev} {ds e} (h : e ∈ es) :
    sizeOf e < sizeOf (Tr.pw ts es ds) := by
  have := List.sizeOf_lt_of_mem h; simp; omega

theorem Ev.sizeOf_or {es : List Ev} {e} (h : e ∈ es) : sizeOf e < sizeOf (Ev.or es) := by
  have := List.sizeOf_lt_of_mem h; simp; omega

theorem Ev.sizeOf_and {es : List Ev} {e} (h : e ∈ es) : sizeOf e < sizeOf (Ev.and es) := by
  have := List.sizeOf_lt_of_mem h; simp; omega

theorem Tr.mem_symbolsL {ts : List Tr} {s : String} : s ∈ Tr.symbolsL ts ↔ ∃ t ∈ ts, s ∈ t.symbols := by
  induction ts with
  | nil => simp [Tr.symbolsL]
  | cons t ts ih => simp [Tr.symbolsL, ih]

theorem Ev.mem_symbolsL {ts : List Ev} {s : String} : s ∈ Ev.symbolsL ts ↔ ∃ t ∈ ts, s ∈ t.symbols := by
  induction ts with
  | nil => simp [Ev.symbolsL]
  | cons t ts ih => simp [Ev.symbolsL, ih]

/-- What `Piecewise.__init__` has checked. -/
theorem mkPiecewise_ok {c : Ctx} {n : ℕ} {ts es t} (h : mkPiecewise c n ts es = .ok t) :
    ts.length = es.length ∧ ts ≠ [] ∧ (Tr.symbolsL ts).card ≤ 1 ∧ Tr.symbolsL ts = Ev.symbolsL es ∧
    ∃ ds, es.mapM (fun e => e.solve c n) = .ok ds ∧ checkDisjoint c ds = .ok () ∧ t = .pw ts es ds := by
  unfold mkPiecewise at h
  split at h; · cases h
  split at h; · cases h
  split at h; · cases h
  split at h; · cases h
  simp only [bind, Except.bind] at h
  split at h; · cases h
  rename_i ds hds
  split at h; · cases h
  rename_i u hu
  cases h
  refine ⟨by omega, by assumption, by omega, by simpa using ‹¬ Tr.symbolsL ts ≠ _›, ds, hds, hu, rfl⟩

theorem Made.symbols_nonempty (c : Ctx) :
    (∀ t : Tr, t.MadeG r0 c → t.symbols.Nonempty) ∧ ∀ e : Ev, e.MadeG r0 c → e.symbols.Nonempty := by
  apply sizeInd
  · intro t ihT ihE hm
    cases hm with
    | id => simp [Tr.symbols]
    | pw h1 h2 h3 =>
      obtain ⟨-, hne, -⟩ := mkPiecewise_ok h3
      obtain ⟨t, ht⟩ := List.exists_mem_of_ne_nil _ hne
      obtain ⟨s, hs⟩ := ihT t (Tr.sizeOf_pw_left ht) (h1 t ht)
      exact ⟨s, by rw [Tr.symbols, Tr.mem_symbolsL]; exact ⟨t, ht, hs⟩⟩
    | _ => simp only [Tr.symbols]; exact ihT _ (by simp only [Tr.radical.sizeOf_spec, Tr.exp.sizeOf_spec, Tr.log.sizeOf_spec, Tr.abs.sizeOf_spec, Tr.recip.sizeOf_spec, Tr.poly.sizeOf_spec]; omega) (by assumption)
  · intro e ihT ihE hm
    cases hm with
    | ivl h1 => simp only [Ev.symbols]; exact ihT _ (by simp; omega) h1
    | fin h1 => simp only [Ev.symbols]; exact ihT _ (by simp; omega) h1
    | nom h1 => simp only [Ev.symbols]; exact ihT _ (by simp; omega) h1
    | or hne h =>
      obtain ⟨t, ht⟩ := List.exists_mem_of_ne_nil _ hne
      obtain ⟨s, hs⟩ := ihE t (Ev.sizeOf_or ht) (h t ht)
      exact ⟨s, by rw [Ev.symbols, Ev.mem_symbolsL]; exact ⟨t, ht, hs⟩⟩
    | and hne h =>
      obtain ⟨t, ht⟩ := List.exists_mem_of_ne_nil _ hne
      obtain ⟨s, hs⟩ := ihE t (Ev.sizeOf_and ht) (h t ht)
      exact ⟨s, by rw [Ev.symbols, Ev.mem_symbolsL]; exact ⟨t, ht, hs⟩⟩

theorem finset_eq_singleton {A B : Finset String} {s : String} (hA : A = {s}) (hB : B.Nonempty)
    (h : ∀ x ∈ B, x ∈ A) : B = {s} := by
  subst hA
  rcases Finset.subset_singleton_iff.1 (show B ⊆ {s} from h) with h | h
  · rw [h] at hB; exact absurd hB (by simp)
  · exact h

theorem pick_eq_some {vs : List (Option (Val ℝ))} {bs : List Bool}
    (hu : ∀ i j : ℕ, bs[i]? = some true → bs[j]? = some true → i = j) (v : Val ℝ) :
    pick vs bs = some v ↔ ∃ i : ℕ, bs[i]? = some true ∧ vs[i]? = some (some v) := by
  induction vs generalizing bs with
  | nil => cases bs <;> simp [pick]
  | cons w vs ih =>
    cases bs with
    | nil => simp [pick]
    | cons b bs =>
      have hu' : ∀ i j : ℕ, bs[i]? = some true → bs[j]? = some true → i = j := by
        intro i j hi hj
        have := hu (i+1) (j+1) (by simpa using hi) (by simpa using hj)
        omega
      simp only [pick]
      cases b with
      | true =>
        simp only [if_true]
        constructor
        · intro h; exact ⟨0, by simp, by simpa using h⟩
        · rintro ⟨i, h1, h2⟩
          have := hu i 0 h1 (by simp)
          subst this; simpa using h2
      | false =>
        simp only [Bool.false_eq_true, if_false]
        rw [ih hu']
        constructor
        · rintro ⟨i, h1, h2⟩; exact ⟨i+1, by simpa using h1, by simpa using h2⟩
        · rintro ⟨i, h1, h2⟩
          cases i with
          | zero => simp at h1
          | succ i => exact ⟨i, by simpa using h1, by simpa using h2⟩

theorem activeRegular_iff {ps : List Prop} {bs : List Bool} (h : activeRegular ps bs) :
    ∀ (i : ℕ) (p : Prop), ps[i]? = some p → bs[i]? = some true → p := by
  induction ps generalizing bs with
  | nil => simp
  | cons p ps ih =>
    cases bs with
    | nil => simp
    | cons b bs =>
      simp only [activeRegular] at h
      intro i q h1 h2
      cases i with
      | zero => simp at h1 h2; exact h1.1 (h.1 h2)
      | succ i => exact ih h.2 i q (by simpa using h1) (by simpa using h2)

theorem forM_ok {α : Type} {l : List α} {f : α → Res Unit} (h : l.forM f = .ok ()) : ∀ x ∈ l, f x = .ok () := by
  induction l with
  | nil => simp
  | cons a l ih =>
    simp only [List.forM, bind, Except.bind] at h
    split at h; · cases h
    rename_i u hu
    intro x hx
    rcases List.mem_cons.1 hx with rfl | hx
    · exact hu
    · exact ih h x hx

theorem checkDisjoint_ok {c : Ctx} {ds : List (SSet EReal)} (h : checkDisjoint c ds = .ok ())
    {i j : ℕ} (hij : i ≠ j) {a b : SSet EReal} (ha : ds[i]? = some a) (hb : ds[j]? = some b) :
    SSet.and c.σ a b = .ok .empty := by
  unfold checkDisjoint at h
  have := forM_ok h ((a, i), (b, j)) (by
    simp only [List.mem_flatMap, List.mem_map]
    exact ⟨(a, i), List.mem_zipIdx_iff_getElem?.2 ha, (b, j), List.mem_zipIdx_iff_getElem?.2 hb, rfl⟩)
  simp only [hij, if_false, bind, Except.bind] at this
  split at this
  · cases this
  rename_i r hr
  cases r with
  | empty => exact hr
  | pc p => simp [SSet.isEmpty] at this
  | un u => simp [SSet.isEmpty] at this

/-- `S` is the exact set of values of the variable where the (numeric) value of `t` lies in `V`. -/
def ExactT (r0 : Bool) (t : Tr) (V S : SSet EReal) : Prop :=
  GoodR S ∧ ∀ ω s v, t.symbols = {s} → ω s = some v → (r0 = true → v.isNum) → t.Regular ω →
    (v.lift ∈ S.den ↔ ∃ y : ℝ, t.eval ω = some (.num y) ∧ Val.num (y : EReal) ∈ V.den)

/-- `S` is the exact set of values of the variable where `e` holds. -/
def ExactE (r0 : Bool) (e : Ev) (S : SSet EReal) : Prop :=
  S.WF ∧ S.Disj ∧ ∀ ω s v, e.symbols = {s} → ω s = some v → (r0 = true → v.isNum) → e.Regular ω → (v.lift ∈ S.den ↔ e.holds ω)

theorem coe_proper (x : ℝ) : (Val.num (x : EReal)).Proper := ⟨EReal.coe_ne_bot _, EReal.coe_ne_top _⟩

theorem reduce_or_good {σ : Orders EReal} {l : List (SSet EReal)} (hl : ∀ s ∈ l, GoodR s) {r : SSet EReal}
    (h : makeUnion σ l = .ok r) : GoodR r ∧ ∀ v : Val ℝ, v.lift ∈ r.den ↔ ∃ s ∈ l, v.lift ∈ s.den := by
  obtain ⟨h1, h2, h3, h4⟩ := reduce_or_spec σ l (fun s hs => ⟨(hl s hs).wf, (hl s hs).disj⟩) h
  refine ⟨⟨h1, h2, fun s hs => ?_⟩, fun v => ⟨h3 _, h4 _ v.lift_proper⟩⟩
  obtain ⟨t, ht, h⟩ := h3 _ hs
  exact (hl t ht).str _ h

/-- The part of the range that matters: the range is a set of numbers containing every value. -/
theorem Tr.range_spec {c : Ctx} (hc : c.Correct) : (∀ t : Tr, t.MadeG r0 c → ∀ r, t.range c = .ok r → GoodR r ∧
    ∀ ω y, t.eval ω = some (.num y) → Val.num (y : EReal) ∈ r.den) ∧ ∀ e : Ev, True := by
  apply sizeInd
  · intro t ihT ihE hm r hr
    by_cases hu : t.Unary
    · obtain ⟨h1, h2⟩ := Tr.range_unary hc hu hm hr
      refine ⟨h1, fun ω y hy => ?_⟩
      rw [Tr.eval_unary hu] at hy
      unfold onNum at hy
      split at hy
      · simp at hy; exact h2 _ _ hy
      · cases hy
    · cases hm with
      | id =>
        obtain ⟨h1, h2⟩ := extReals_spec (by simpa [Tr.range] using hr)
        exact ⟨h1, fun _ _ _ => h2 _⟩
      | pw h1 h2 h3 =>
        rename_i ts es ds n
        have hL : ∀ (l : List Tr) rs, Tr.rangeL c l = .ok rs → List.Forall₂ (fun t r => t.range c = .ok r) l rs := by
          intro l
          induction l with
          | nil => intro rs h; simp [Tr.rangeL] at h; subst h; exact .nil
          | cons t l ih =>
            intro rs h
            simp only [Tr.rangeL, bind, Except.bind] at h
            split at h; · cases h
            split at h; · cases h
            cases h
            exact .cons (by assumption) (ih _ (by assumption))
        simp only [Tr.range, bind, Except.bind] at hr
        split at hr; · cases hr
        rename_i rs hrs
        have hF := hL _ _ hrs
        have hg : ∀ s ∈ rs, GoodR s := by
          intro s hs
          obtain ⟨t, ht, h⟩ := forall₂_mem_right hF hs
          exact (ihT t (Tr.sizeOf_pw_left ht) (h1 t ht) s h).1
        obtain ⟨g1, g2⟩ := reduce_or_good hg hr
        refine ⟨g1, fun ω y hy => ?_⟩
        rw [Tr.eval, Tr.evalL_eq] at hy
        have : ∃ t ∈ ts, t.eval ω = some (.num y) := by
          have gen : ∀ (vs : List (Option (Val ℝ))) bs v, pick vs bs = some v → some v ∈ vs := by
            intro vs
            induction vs with
            | nil => intro bs v h; cases bs <;> simp [pick] at h
            | cons w vs ih =>
              intro bs v h
              cases bs with
              | nil => simp [pick] at h
              | cons b bs =>
                simp only [pick] at h
                split at h
                · simp [h]
                · simp [ih _ _ h]
          simpa using gen _ _ _ hy
        obtain ⟨t, ht, hty⟩ := this
        obtain ⟨r', hr', h⟩ := forall₂_mem_left hF ht
        exact (g2 (.num y)).2 ⟨r', hr', (ihT t (Tr.sizeOf_pw_left ht) (h1 t ht) r' h).2 ω y hty⟩
      | _ => exact absurd trivial hu
  · intros; trivial

theorem Tr.eval_unary_num {t : Tr} (h : t.Unary) {ω : Asg} {y : ℝ} :
    t.eval ω = some (.num y) ↔ ∃ x, t.sub.eval ω = some (.num x) ∧ t.fn x = some y := by
  rw [Tr.eval_unary h]
  unfold onNum
  split
  · rename_i x hx; rw [hx]; simp
  · rename_i hx
    simp only [reduceCtorEq, false_iff]
    rintro ⟨x, h1, -⟩
    exact hx x h1

theorem Tr.sizeOf_sub {t : Tr} (h : t.Unary) : sizeOf t.sub < sizeOf t := by
  cases t <;> first | exact False.elim h | (simp [Tr.sub]; try omega)

/-- Expressions over real variables are never strings. -/
theorem Tr.eval_not_str {ω : Asg} (t : Tr) : (∀ s ∈ t.symbols, ∃ y, ω s = some (.num y)) →
    ∀ x, t.eval ω ≠ some (.str x) := by
  refine (sizeInd (P := fun t => (∀ s ∈ t.symbols, ∃ y, ω s = some (.num y)) → ∀ x, t.eval ω ≠ some (.str x))
    (Q := fun _ => True) ?_ (fun _ _ _ => trivial)).1 t
  intro t ih _ hs x hx
  by_cases hu : t.Unary
  · rw [Tr.eval_unary hu] at hx
    unfold onNum at hx
    split at hx
    · simp at hx
    · cases hx
  · cases t with
    | id tok =>
      obtain ⟨y, hy⟩ := hs tok (by simp [Tr.symbols])
      simp [Tr.eval, hy] at hx
    | pw ts es ds =>
      rw [Tr.eval] at hx
      have : ∀ (vs : List (Option (Val ℝ))) (bs : List Bool) v, pick vs bs = some v → some v ∈ vs := by
        intro vs
        induction vs with
        | nil => intro bs v h; simp [pick] at h
        | cons a vs ihv =>
          intro bs v h
          cases bs with
          | nil => simp [pick] at h
          | cons b bs =>
            simp only [pick] at h
            split at h
            · simp [h]
            · exact List.mem_cons_of_mem _ (ihv bs v h)
      have h1 := this _ _ _ hx
      rw [Tr.evalL_eq] at h1
      obtain ⟨u, hu1, hu2⟩ := List.mem_map.1 h1
      exact ih u (Tr.sizeOf_pw_left hu1) (fun s' hs' => hs s' (Tr.mem_symbolsL.2 ⟨u, hu1, hs'⟩)) x hu2
    | _ => exact absurd trivial hu

/-- From the preimage under the outer function to the preimage under the whole expression. -/
theorem ExactT.unary {t : Tr} (hu : t.Unary) {V U S : SSet EReal} (hS : ExactT r0 t.sub U S)
    (hUV : ∀ x : ℝ, ¬ t.Sing x → (Val.num (x : EReal) ∈ U.den ↔ ∃ z : ℝ, t.fn x = some z ∧ Val.num (z : EReal) ∈ V.den)) :
    ExactT r0 t V S := by
  refine ⟨hS.1, fun ω s w hs hw hn hr => ?_⟩
  obtain ⟨hr1, hr2⟩ := Tr.regular_unary hu ω hr
  rw [hS.2 ω s w (by rw [Tr.symbols_sub hu]; exact hs) hw hn hr1]
  constructor
  · rintro ⟨x, h1, h2⟩
    obtain ⟨z, h3, h4⟩ := (hUV x (hr2 x h1)).1 h2
    exact ⟨z, (Tr.eval_unary_num hu).2 ⟨x, h1, h3⟩, h4⟩
  · rintro ⟨z, h1, h4⟩
    obtain ⟨x, h2, h3⟩ := (Tr.eval_unary_num hu).1 h1
    exact ⟨x, h2, (hUV x (hr2 x h2)).2 ⟨z, h3, h4⟩⟩

theorem ExactT.congr {t : Tr} {V W S : SSet EReal} (h : ExactT r0 t V S)
    (hVW : ∀ ω (y : ℝ), t.eval ω = some (.num y) → (Val.num (y : EReal) ∈ V.den ↔ Val.num (y : EReal) ∈ W.den)) :
    ExactT r0 t W S := by
  refine ⟨h.1, fun ω s w hs hw hn hr => ?_⟩
  rw [h.2 ω s w hs hw hn hr]
  exact ⟨fun ⟨y, h1, h2⟩ => ⟨y, h1, (hVW ω y h1).1 h2⟩, fun ⟨y, h1, h2⟩ => ⟨y, h1, (hVW ω y h1).2 h2⟩⟩

/-- The piecewise case of inversion. -/
theorem pwInverse_exact {c : Ctx} {n m : ℕ} {ts : List Tr} {es : List Ev} {ds : List (SSet EReal)}
    {V S : SSet EReal} (hV : V.WF ∧ V.Disj) (h1 : ∀ t ∈ ts, Tr.MadeG r0 c t) (h2 : ∀ e ∈ es, Ev.MadeG r0 c e)
    (h3 : mkPiecewise c m ts es = .ok (.pw ts es ds))
    (ihT : ∀ t ∈ ts, ∀ S, Tr.invert c n t V = .ok S → ExactT r0 t V S)
    (ihE : ∀ e ∈ es, ∀ S, Ev.solve c m e = .ok S → ExactE r0 e S)
    (hS : pwInverse c (Tr.invert c n) ts ds V = .ok S) : ExactT r0 (.pw ts es ds) V S := by
  obtain ⟨hlen, hne, hcard, hsym, ds', hds, hdis, heq⟩ := mkPiecewise_ok h3
  obtain rfl : ds = ds' := by simpa using heq
  unfold pwInverse at hS
  simp only [bind, Except.bind] at hS
  split at hS; · cases hS
  rename_i invs hinvs
  split at hS; · cases hS
  rename_i inters hinters
  have F1 := mapM_ok hds
  have F2 := mapM_ok hinvs
  have F3 := mapM_ok hinters
  -- exactness of the ingredients
  have E1 : ∀ (i : ℕ) e d, es[i]? = some e → ds[i]? = some d → ExactE r0 e d := by
    intro i e d he hd
    obtain ⟨hi, rfl⟩ := List.getElem?_eq_some_iff.1 he
    obtain ⟨hi', rfl⟩ := List.getElem?_eq_some_iff.1 hd
    exact ihE _ (List.getElem_mem _) _ (F1.get hi hi')
  have E2 : ∀ (i : ℕ) t d, ts[i]? = some t → invs[i]? = some d → ExactT r0 t V d := by
    intro i t d he hd
    obtain ⟨hi, rfl⟩ := List.getElem?_eq_some_iff.1 he
    obtain ⟨hi', rfl⟩ := List.getElem?_eq_some_iff.1 hd
    exact ihT _ (List.getElem_mem _) _ (F2.get hi hi')
  have L1 := F1.length_eq
  have L2 := F2.length_eq
  have L3 := F3.length_eq
  have A : ∀ (i : ℕ) a d r, invs[i]? = some a → ds[i]? = some d → inters[i]? = some r → SSet.and c.σ a d = .ok r := by
    intro i a d r ha hd hr
    obtain ⟨hi, rfl⟩ := List.getElem?_eq_some_iff.1 ha
    obtain ⟨hi', rfl⟩ := List.getElem?_eq_some_iff.1 hd
    obtain ⟨hi'', rfl⟩ := List.getElem?_eq_some_iff.1 hr
    have := F3.get (i := i) (by simp; omega) hi''
    simpa using this
  -- every intersection
  have I : ∀ r ∈ inters, ∃ (i : ℕ) (t : Tr) (e : Ev) (a d : SSet EReal), ts[i]? = some t ∧ es[i]? = some e ∧
      invs[i]? = some a ∧ ds[i]? = some d ∧ ExactT r0 t V a ∧ ExactE r0 e d ∧ AndOK a.den d.den r := by
    intro r hr
    obtain ⟨i, hi, rfl⟩ := List.getElem_of_mem hr
    have hzip : (invs.zip ds).length = min invs.length ds.length := List.length_zip
    have hi1 : i < ts.length := by omega
    have hi2 : i < es.length := by omega
    have hi3 : i < invs.length := by omega
    have hi4 : i < ds.length := by omega
    have e2 := E2 i _ _ (List.getElem?_eq_getElem hi1) (List.getElem?_eq_getElem hi3)
    have e1 := E1 i _ _ (List.getElem?_eq_getElem hi2) (List.getElem?_eq_getElem hi4)
    exact ⟨i, ts[i], es[i], invs[i], ds[i], List.getElem?_eq_getElem hi1, List.getElem?_eq_getElem hi2,
      List.getElem?_eq_getElem hi3, List.getElem?_eq_getElem hi4, e2, e1,
      SSet.and_spec c.σ _ _ e2.1.wf e2.1.disj e1.1 e1.2.1
        (A i _ _ _ (List.getElem?_eq_getElem hi3) (List.getElem?_eq_getElem hi4) (List.getElem?_eq_getElem hi))⟩
  have G : ∀ r ∈ inters, GoodR r := by
    intro r hr
    obtain ⟨i, t, e, a, d, _, _, _, _, h5, h6, h7⟩ := I r hr
    exact ⟨h7.wf, h7.disj, fun s hs => h5.1.str s (h7.sub _ hs).1⟩
  obtain ⟨g1, g2⟩ := reduce_or_good G hS
  refine ⟨g1, fun ω s w hs hw hn hr => ?_⟩
  have hs' : Tr.symbolsL ts = {s} := by simpa [Tr.symbols] using hs
  have symT : ∀ t ∈ ts, t.symbols = {s} := fun t ht =>
    finset_eq_singleton hs' ((Made.symbols_nonempty c).1 t (h1 t ht)) (fun x hx => Tr.mem_symbolsL.2 ⟨t, ht, hx⟩)
  have symE : ∀ e ∈ es, e.symbols = {s} := fun t ht =>
    finset_eq_singleton (hsym ▸ hs') ((Made.symbols_nonempty c).2 t (h2 t ht)) (fun x hx => Ev.mem_symbolsL.2 ⟨t, ht, hx⟩)
  simp only [Tr.Regular] at hr
  obtain ⟨hrE, hrT⟩ := hr
  rw [Ev.regularL_iff] at hrE
  rw [Ev.holdsL_eq, Tr.regularL_eq] at hrT
  have hact := activeRegular_iff hrT
  have hd : ∀ (i : ℕ) e d, es[i]? = some e → ds[i]? = some d → (w.lift ∈ d.den ↔ e.holds ω) := by
    intro i e d he hd
    have hmem := List.mem_of_getElem? he
    exact (E1 i e d he hd).2.2 ω s w (symE e hmem) hw hn (hrE e hmem)
  have huniq : ∀ i j : ℕ, (es.map (fun e => e.holdsB ω))[i]? = some true →
      (es.map (fun e => e.holdsB ω))[j]? = some true → i = j := by
    intro i j hi hj
    by_contra hij
    simp only [List.getElem?_map, Option.map_eq_some_iff] at hi hj
    obtain ⟨e, he, hei⟩ := hi
    obtain ⟨f, hf, hfj⟩ := hj
    have hi1 : i < ds.length := by have := (List.getElem?_eq_some_iff.1 he).1; omega
    have hj1 : j < ds.length := by have := (List.getElem?_eq_some_iff.1 hf).1; omega
    have hdi := List.getElem?_eq_getElem hi1
    have hdj := List.getElem?_eq_getElem hj1
    have e1 := E1 i _ _ he hdi
    have e2 := E1 j _ _ hf hdj
    have := SSet.and_spec c.σ _ _ e1.1 e1.2.1 e2.1 e2.2.1 (checkDisjoint_ok hdis hij hdi hdj)
    have := this.sup w.lift w.lift_proper ⟨(hd i _ _ he hdi).2 hei, (hd j _ _ hf hdj).2 hfj⟩
    simp at this
  rw [g2, Tr.eval, Tr.evalL_eq, Ev.holdsL_eq]
  constructor
  · rintro ⟨r, hr, hm⟩
    obtain ⟨i, t, e, a, d, h3, h4, h5, h5', h6, h7, h8⟩ := I r hr
    obtain ⟨m1, m2⟩ := h8.sub _ hm
    have hmemE := List.mem_of_getElem? h4
    have hmemT := List.mem_of_getElem? h3
    have hh : e.holds ω := (hd i e d h4 h5').1 m2
    have hb : (es.map (fun e => e.holdsB ω))[i]? = some true := by
      rw [List.getElem?_map, h4]; simpa [Ev.holds] using hh
    have hreg : t.Regular ω := hact i _ (by rw [List.getElem?_map, h3]; rfl) hb
    obtain ⟨y, hy1, hy2⟩ := (h6.2 ω s w (symT t hmemT) hw hn hreg).1 m1
    refine ⟨y, (pick_eq_some huniq _).2 ⟨i, hb, ?_⟩, hy2⟩
    rw [List.getElem?_map, h3]; simpa using hy1
  · rintro ⟨y, hp, hy⟩
    obtain ⟨i, hb, ht⟩ := (pick_eq_some huniq _).1 hp
    simp only [List.getElem?_map, Option.map_eq_some_iff] at ht
    obtain ⟨t, ht1, ht2⟩ := ht
    have hb' := hb
    simp only [List.getElem?_map, Option.map_eq_some_iff] at hb'
    obtain ⟨e, he1, he2⟩ := hb'
    have hi : i < ts.length := (List.getElem?_eq_some_iff.1 ht1).1
    have hzip : (invs.zip ds).length = min invs.length ds.length := List.length_zip
    have hi1 : i < ds.length := by omega
    have hi2 : i < invs.length := by omega
    have hi3 : i < inters.length := by omega
    have hdi := List.getElem?_eq_getElem hi1
    have hai := List.getElem?_eq_getElem hi2
    have hri := List.getElem?_eq_getElem hi3
    have hreg : t.Regular ω := hact i _ (by rw [List.getElem?_map, ht1]; rfl) hb
    have e1 := E1 i _ _ he1 hdi
    have e2 := E2 i _ _ ht1 hai
    have hand := SSet.and_spec c.σ _ _ e2.1.wf e2.1.disj e1.1 e1.2.1 (A i _ _ _ hai hdi hri)
    refine ⟨_, List.getElem_mem hi3, hand.sup _ w.lift_proper ⟨?_, ?_⟩⟩
    · exact (e2.2 ω s w (symT t (List.mem_of_getElem? ht1)) hw hn hreg).2 ⟨y, ht2, hy⟩
    · exact (hd i _ _ he1 hdi).2 he2

theorem Ev.invert_one {c : Ctx} {n : ℕ} {e : Ev} {S : SSet EReal}
    (h : Ev.invert c n e (.pc (.fin {1})) = .ok S) :
    ∃ m, n = m + 1 ∧ e.invertFinite c (Tr.invert c m) (Ev.invert c m) {1} = .ok S := by
  cases n with
  | zero => simp [Ev.invert] at h
  | succ m =>
    refine ⟨m, rfl, ?_⟩
    have e1 : SSet.and c.σ (.pc (.fin {0, 1})) (.pc (.fin {1})) = .ok (.pc (.fin ({1} : Finset EReal))) := by
      have : ({0, 1} : Finset EReal) ∩ {1} = {1} := by ext x; simp
      simp [SSet.and, Piece.and, this, finOrEmpty]
    simpa [Ev.invert, e1, bind, Except.bind] using h

theorem makeUnion_same {c : Ctx} {s : Finset EReal} (hs : s = {1}) {v : SSet EReal} (hv : GoodR v) {u : SSet EReal}
    {f : EReal → Res (SSet EReal)} (hf : f 1 = .ok v) {xs : List (SSet EReal)}
    (hx : (c.iter s).mapM f = .ok xs) (h : makeUnion c.σ xs = .ok u) :
    GoodR u ∧ ∀ x : Val ℝ, x.lift ∈ u.den ↔ x.lift ∈ v.den := by
  subst hs
  have F := mapM_ok hx
  have hall : ∀ y ∈ xs, y = v := by
    intro y hy
    obtain ⟨a, ha, hfa⟩ := forall₂_mem_right F hy
    have : a = 1 := by simpa using (c.mem_iter {1} a).1 ha
    subst this
    rw [hf] at hfa; cases hfa; rfl
  obtain ⟨h1, h2⟩ := reduce_or_good (fun y hy => hall y hy ▸ hv) h
  refine ⟨h1, fun x => ?_⟩
  rw [h2]
  constructor
  · rintro ⟨y, hy, hm⟩; rwa [← hall y hy]
  · intro hm
    obtain ⟨b, hb, -⟩ := forall₂_mem_left F ((c.mem_iter {1} 1).2 (by simp))
    exact ⟨b, hb, by rw [hall b hb]; exact hm⟩

theorem ExactE.solve {c : Ctx} {e : Ev} (hm : e.MadeG r0 c) {n : ℕ} {S : SSet EReal}
    (ih : ∀ S, Ev.invert c n e (.pc (.fin {1})) = .ok S → ExactE r0 e S) (h : e.solve c n = .ok S) : ExactE r0 e S := by
  unfold Ev.solve at h
  split at h
  · cases h
    cases hm with
    | ivl _ hi =>
    rename_i tok i _
    refine ⟨hi, trivial, fun ω s w hs hw hn _ => ?_⟩
    have : tok = s := by simpa [Ev.symbols, Tr.symbols] using hs
    subst this
    rw [Ev.holds_ivl]
    simp only [Tr.eval, hw, Option.some.injEq]
    cases w <;> simp [Val.lift]
  · cases h
    cases hm with
    | fin _ hi =>
    rename_i tok v _
    refine ⟨?_, ?_, fun ω s w hs hw hn _ => ?_⟩
    · cases v with
      | none => trivial
      | some v => exact hi v rfl
    · cases v <;> trivial
    have : tok = s := by simpa [Ev.symbols, Tr.symbols] using hs
    subst this
    rw [Ev.holds_fin]
    simp only [Tr.eval, hw, Option.some.injEq]
    cases v <;> cases w <;> simp [Val.lift, optFin]
  · cases h
    cases hm with
    | nom _ _ hi =>
    rename_i tok v _ _
    refine ⟨?_, ?_, fun ω s w hs hw hn _ => ?_⟩
    · cases v with
      | none => trivial
      | some v => exact (hi v rfl).1
    · cases v <;> trivial
    have : tok = s := by simpa [Ev.symbols, Tr.symbols] using hs
    subst this
    rw [Ev.holds_nom]
    simp only [Tr.eval, hw, Option.some.injEq]
    cases v <;> cases w <;> simp [Val.lift, optNom, Piece.den]
  · split at h
    · cases h
    · exact ih S h

/-- Exactness of `Transform.invert` and of `Event.solve` on one-variable expressions. -/
theorem exact {c : Ctx} (hc : c.Correct) :
    (∀ t : Tr, t.MadeG r0 c → ∀ n V S, V.WF → V.Disj → Tr.invert c n t V = .ok S → ExactT r0 t V S) ∧
    ∀ e : Ev, e.MadeG r0 c → ∀ n S, Ev.invert c n e (.pc (.fin {1})) = .ok S → ExactE r0 e S := by
  apply sizeInd
  · intro t ihT ihE hm n
    induction n with
    | zero => intro V S _ _ h; simp [Tr.invert] at h
    | succ n ihn =>
      intro V S hV hVd h
      simp only [Tr.invert, bind, Except.bind] at h
      split at h; · cases h
      rename_i r hr
      split at h; · cases h
      rename_i W hW
      obtain ⟨gr, hrange⟩ := (Tr.range_spec hc).1 t hm r hr
      have hand := SSet.and_spec c.σ _ _ gr.wf gr.disj hV hVd hW
      have gW : GoodR W := ⟨hand.wf, hand.disj, fun s hs => gr.str s (hand.sub _ hs).1⟩
      suffices ExactT r0 t W S from this.congr (fun ω y hy => ⟨fun h => (hand.sub _ h).2,
        fun h => hand.sup _ (coe_proper y) ⟨hrange ω y hy, h⟩⟩)
      cases W with
      | empty =>
        simp [Tr.invertStep] at h; subst h
        exact ⟨goodR_empty, fun ω s v _ _ _ => by simp⟩
      | un u =>
        simp only [Tr.invertStep, bind, Except.bind] at h
        split at h; · cases h
        rename_i xs hxs
        have F := mapM_ok hxs
        have hargs : ∀ p, p ∈ u.args ↔ p ∈ u.values := fun p => gW.wf.mem_args p
        have E : ∀ p ∈ u.args, ∀ x, Tr.invert c n t (.pc p) = .ok x → ExactT r0 t (.pc p) x := fun p hp x hx =>
          ihn (.pc p) x (gW.wf.pieces p ((hargs p).1 hp)) trivial hx
        have G : ∀ x ∈ xs, GoodR x := by
          intro x hx
          obtain ⟨p, hp, hpx⟩ := forall₂_mem_right F hx
          exact (E p hp x hpx).1
        obtain ⟨g1, g2⟩ := reduce_or_good G h
        refine ⟨g1, fun ω s w hs hw hn hreg => ?_⟩
        rw [g2]
        constructor
        · rintro ⟨x, hx, hmem⟩
          obtain ⟨p, hp, hpx⟩ := forall₂_mem_right F hx
          obtain ⟨y, hy1, hy2⟩ := ((E p hp x hpx).2 ω s w hs hw hn hreg).1 hmem
          exact ⟨y, hy1, ⟨p, (hargs p).1 hp, hy2⟩⟩
        · rintro ⟨y, hy1, ⟨p, hp, hy2⟩⟩
          obtain ⟨x, hx, hpx⟩ := forall₂_mem_left F ((hargs p).2 hp)
          exact ⟨x, hx, ((E p ((hargs p).2 hp) x hpx).2 ω s w hs hw hn hreg).2 ⟨y, hy1, hy2⟩⟩
      | pc p =>
        cases p with
        | nom m => simp [Tr.invertStep] at h
        | fin A =>
          simp only [Tr.invertStep] at h
          by_cases hu : t.Unary
          · have h' : (do
                let xs ← (c.iter A).mapM (fun y => t.finv c y)
                let u ← makeUnion c.σ xs
                Tr.invert c n t.sub u : Res (SSet EReal)) = .ok S := by
              cases t <;> first | exact False.elim hu | exact h
            simp only [bind, Except.bind] at h'
            split at h'; · cases h'
            rename_i xs hxs
            split at h'; · cases h'
            rename_i U hU
            have F := mapM_ok hxs
            obtain ⟨g1, g2⟩ := reduce_or_good (fun x hx => by
              obtain ⟨y, hy, hyx⟩ := forall₂_mem_right F hx
              exact (Tr.finv_spec hc hu hm hyx).1) hU
            have := ihT t.sub (Tr.sizeOf_sub hu) (hm.sub hu) n U S g1.wf g1.disj h'
            refine this.unary hu (fun x hx => ?_)
            rw [show Val.num (x : EReal) = (Val.num x).lift from rfl, g2]
            constructor
            · rintro ⟨X, hX, hmem⟩
              obtain ⟨y, hy, hyX⟩ := forall₂_mem_right F hX
              obtain ⟨z, hz1, hz2⟩ := ((Tr.finv_spec hc hu hm hyX).2 x hx).1 hmem
              exact ⟨z, hz1, by simp [hz2]; exact (c.mem_iter A y).1 hy⟩
            · rintro ⟨z, hz1, hz2⟩
              obtain ⟨X, hX, hzX⟩ := forall₂_mem_left F ((c.mem_iter A z).2 (by simpa using hz2))
              exact ⟨X, hX, ((Tr.finv_spec hc hu hm hzX).2 x hx).2 ⟨z, hz1, rfl⟩⟩
          · cases hm with
            | id tok =>
              simp [Tr.invertFinite] at h; subst h
              refine ⟨gW, fun ω s w hs hw hn _ => ?_⟩
              have : tok = s := by simpa [Tr.symbols] using hs
              subst this
              simp only [Tr.eval, hw, Option.some.injEq]
              cases w <;> simp [Val.lift]
            | pw h1 h2 h3 =>
              exact pwInverse_exact ⟨gW.wf, gW.disj⟩ h1 h2 h3
                (fun t ht S hS => ihT t (Tr.sizeOf_pw_left ht) (h1 t ht) n _ S gW.wf gW.disj hS)
                (fun e he S hS => ExactE.solve (h2 e he) (ihE e (Tr.sizeOf_pw_right he) (h2 e he) _) hS) h
            | _ => exact absurd trivial hu
        | ivl i =>
          simp only [Tr.invertStep] at h
          by_cases hu : t.Unary
          · have h' : (do
                let u ← t.intervalPre c i
                Tr.invert c n t.sub u : Res (SSet EReal)) = .ok S := by
              cases t <;> first | exact False.elim hu | exact h
            simp only [bind, Except.bind] at h'
            split at h'; · cases h'
            rename_i U hU
            obtain ⟨g1, g2⟩ := Tr.intervalPre_spec hc hu hm gW.wf hr
              (fun x hx => (hand.sub (.num x) (by simpa using hx)).1) hU
            have := ihT t.sub (Tr.sizeOf_sub hu) (hm.sub hu) n U S g1.wf g1.disj h'
            refine this.unary hu (fun x hx => ?_)
            rw [g2 x hx]; simp
          · cases hm with
            | id tok =>
              simp [Tr.invertInterval] at h; subst h
              refine ⟨gW, fun ω s w hs hw hn _ => ?_⟩
              have : tok = s := by simpa [Tr.symbols] using hs
              subst this
              simp only [Tr.eval, hw, Option.some.injEq]
              cases w <;> simp [Val.lift]
            | pw h1 h2 h3 =>
              exact pwInverse_exact ⟨gW.wf, gW.disj⟩ h1 h2 h3
                (fun t ht S hS => ihT t (Tr.sizeOf_pw_left ht) (h1 t ht) n _ S gW.wf gW.disj hS)
                (fun e he S hS => ExactE.solve (h2 e he) (ihE e (Tr.sizeOf_pw_right he) (h2 e he) _) hS) h
            | _ => exact absurd trivial hu
  · intro e ihT ihE hm n S h0
    obtain ⟨n, rfl, h⟩ := Ev.invert_one h0
    clear h0
    cases hm with
    | ivl ht hi =>
      rename_i t i
      rw [Ev.invertFinite] at h; simp only [bind, Except.bind] at h
      split at h; · cases h
      rename_i xs hxs
      split at h; · cases h
      rename_i u hu
      obtain ⟨g1, g2⟩ := makeUnion_same rfl (goodR_ivl hi) (by simp [Ev.finvReal]) hxs hu
      have E := ihT t (by simp; omega) ht n u S g1.wf g1.disj h
      refine ⟨E.1.wf, E.1.disj, fun ω s w hs hw hn hr => ?_⟩
      rw [E.2 ω s w (by simpa [Ev.symbols] using hs) hw hn (by simpa [Ev.Regular] using hr), Ev.holds_ivl]
      exact ⟨fun ⟨y, h1, h2⟩ => ⟨y, h1, by simpa [Val.lift] using (g2 (.num y)).1 h2⟩,
        fun ⟨y, h1, h2⟩ => ⟨y, h1, (g2 (.num y)).2 (by simpa [Val.lift] using h2)⟩⟩
    | fin ht hi =>
      rename_i t v
      rw [Ev.invertFinite] at h; simp only [bind, Except.bind] at h
      split at h; · cases h
      rename_i xs hxs
      split at h; · cases h
      rename_i u hu
      have gv : GoodR (optFin v) := by
        cases v with
        | none => exact goodR_empty
        | some v => exact goodR_fin (hi v rfl)
      obtain ⟨g1, g2⟩ := makeUnion_same rfl gv (by simp [Ev.finvReal]) hxs hu
      have E := ihT t (by simp; omega) ht n u S g1.wf g1.disj h
      refine ⟨E.1.wf, E.1.disj, fun ω s w hs hw hn hr => ?_⟩
      rw [E.2 ω s w (by simpa [Ev.symbols] using hs) hw hn (by simpa [Ev.Regular] using hr), Ev.holds_fin]
      have key : ∀ y : ℝ, Val.num (y : EReal) ∈ u.den ↔ ∃ s, v = some s ∧ (y : EReal) ∈ s := by
        intro y
        rw [show Val.num (y : EReal) = (Val.num y).lift from rfl, g2]
        cases v <;> simp [optFin, Val.lift]
      exact ⟨fun ⟨y, h1, h2⟩ => by obtain ⟨s, h3, h4⟩ := (key y).1 h2; exact ⟨y, s, h1, h3, h4⟩,
        fun ⟨y, s, h1, h3, h4⟩ => ⟨y, h1, (key y).2 ⟨s, h3, h4⟩⟩⟩
    | nom ht hpw hv =>
      rename_i t v
      have h10 : ({1} : Finset EReal) ≠ {0} := by simp
      rw [Ev.invertFinite] at h; simp only [if_neg h10, if_true, Ev.finvNom] at h
      cases v with
      | none =>
        simp at h; subst h
        refine ⟨trivial, trivial, fun ω s w hs hw hn hr => ?_⟩
        simp
      | some m =>
        obtain ⟨h1, h2⟩ := hv m rfl
        by_cases hid : t.isId = true
        · simp [hid] at h; subst h
          refine ⟨h1, trivial, fun ω s w hs hw hn hr => ?_⟩
          cases t <;> simp [Tr.isId] at hid
          rename_i tok
          have : tok = s := by simpa [Ev.symbols, Tr.symbols] using hs
          subst this
          rw [Ev.holds_nom]
          simp only [Tr.eval, hw, Option.some.injEq]
          cases w <;> simp [Val.lift, Piece.den]
        · have hstr : ∀ ω s w, (Ev.nom t (some m)).symbols = {s} → ω s = some w → (r0 = true → w.isNum) →
              ¬ (Ev.nom t (some m)).holds ω := by
            intro ω s w hs hw hn
            rw [Ev.holds_nom]
            rintro ⟨x, n, hx, -⟩
            cases r0 with
            | true =>
              refine Tr.eval_not_str t (fun s' hs' => ?_) x hx
              have : s' = s := by
                have h3 : t.symbols = {s} := hs
                rw [h3] at hs'; simpa using hs'
              subst this
              cases w with
              | num y => exact ⟨y, hw⟩
              | str y => exact (hn rfl).elim
            | false =>
              have hpw' := hpw rfl
              have hu : t.Unary := by
                cases t <;> simp_all [Tr.Unary, Tr.isId]
              rw [Tr.eval_unary hu] at hx
              unfold onNum at hx
              split at hx
              · simp at hx
              · cases hx
          by_cases hneg : m.neg = true
          · have hr0 : r0 = true := by
              by_contra hc'
              exact hid (h2 (by simpa using hc') (by simpa [Nom.neg] using hneg))
            simp [hid, hneg] at h; subst h
            refine ⟨by simp [SSet.strings, SSet.WF, Piece.WF, Nom.WF], trivial, fun ω s w hs hw hn hr => ?_⟩
            refine iff_of_false ?_ (hstr ω s w hs hw hn)
            cases w with
            | num y => simp [SSet.strings, Val.lift]
            | str y => exact (hn hr0).elim
          · simp [hid, hneg] at h; subst h
            refine ⟨trivial, trivial, fun ω s w hs hw hn hr => ?_⟩
            exact iff_of_false (by simp) (hstr ω s w hs hw hn)
    | or hne hes =>
      rename_i es
      rw [Ev.invertFinite] at h; simp only [bind, Except.bind] at h
      split at h; · cases h
      rename_i xs hxs
      have F := mapM_ok hxs
      have E : ∀ e ∈ es, ∀ x, Ev.invert c n e (.pc (.fin {1})) = .ok x → ExactE r0 e x := fun e he x hx =>
        ihE e (Ev.sizeOf_or he) (hes e he) n x hx
      obtain ⟨r1, r2, r3, r4⟩ := reduce_or_spec c.σ xs (fun x hx => by
        obtain ⟨e, he, hex⟩ := forall₂_mem_right F hx
        exact ⟨(E e he x hex).1, (E e he x hex).2.1⟩) h
      refine ⟨r1, r2, fun ω s w hs hw hn hr => ?_⟩
      have symE : ∀ e ∈ es, e.symbols = {s} := fun t ht =>
        finset_eq_singleton (by simpa [Ev.symbols] using hs) ((Made.symbols_nonempty c).2 t (hes t ht))
          (fun x hx => Ev.mem_symbolsL.2 ⟨t, ht, hx⟩)
      simp only [Ev.Regular, Ev.regularL_iff] at hr
      rw [Ev.holds_or]
      constructor
      · intro hmem
        obtain ⟨x, hx, hmx⟩ := r3 _ hmem
        obtain ⟨e, he, hex⟩ := forall₂_mem_right F hx
        exact ⟨e, he, ((E e he x hex).2.2 ω s w (symE e he) hw hn (hr e he)).1 hmx⟩
      · rintro ⟨e, he, hh⟩
        obtain ⟨x, hx, hex⟩ := forall₂_mem_left F he
        exact r4 _ w.lift_proper ⟨x, hx, ((E e he x hex).2.2 ω s w (symE e he) hw hn (hr e he)).2 hh⟩
    | and hne hes =>
      rename_i es
      rw [Ev.invertFinite] at h; simp only [bind, Except.bind] at h
      split at h; · cases h
      rename_i xs hxs
      have F := mapM_ok hxs
      have E : ∀ e ∈ es, ∀ x, Ev.invert c n e (.pc (.fin {1})) = .ok x → ExactE r0 e x := fun e he x hx =>
        ihE e (Ev.sizeOf_and he) (hes e he) n x hx
      obtain ⟨r1, r2, r3, r4⟩ := reduce_and_spec c.σ xs (fun x hx => by
        obtain ⟨e, he, hex⟩ := forall₂_mem_right F hx
        exact ⟨(E e he x hex).1, (E e he x hex).2.1⟩) h
      refine ⟨r1, r2, fun ω s w hs hw hn hr => ?_⟩
      have symE : ∀ e ∈ es, e.symbols = {s} := fun t ht =>
        finset_eq_singleton (by simpa [Ev.symbols] using hs) ((Made.symbols_nonempty c).2 t (hes t ht))
          (fun x hx => Ev.mem_symbolsL.2 ⟨t, ht, hx⟩)
      simp only [Ev.Regular, Ev.regularL_iff] at hr
      rw [Ev.holds_and]
      constructor
      · intro hmem e he
        obtain ⟨x, hx, hex⟩ := forall₂_mem_left F he
        exact ((E e he x hex).2.2 ω s w (symE e he) hw hn (hr e he)).1 (r3 _ hmem x hx)
      · intro hh
        refine r4 _ w.lift_proper (fun x hx => ?_)
        obtain ⟨e, he, hex⟩ := forall₂_mem_right F hx
        exact ((E e he x hex).2.2 ω s w (symE e he) hw hn (hr e he)).2 (hh e he)

theorem Ev.solve_exact {c : Ctx} (hc : c.Correct) {e : Ev} (hm : e.MadeG r0 c) {n : ℕ} {S : SSet EReal}
    (h : e.solve c n = .ok S) : ExactE r0 e S :=
  ExactE.solve hm ((exact hc).2 e hm n) h

end Sppl
