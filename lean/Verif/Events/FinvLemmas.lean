import Verif.Events.Spec
import Verif.Sets.TotalLemmas

set_option linter.all false

/-! Lemmas on `range`, `finv` and interval inversion. -/

namespace Sppl
open Classical
variable {r0 : Bool}

theorem Val.lift_proper (v : Val ℝ) : v.lift.Proper := by
  cases v <;> simp [Val.lift, Val.Proper]

/-- Well-formed set of numbers with disjoint pieces. -/
structure GoodR (r : SSet EReal) : Prop where
  wf : r.WF
  disj : r.Disj
  str : ∀ s, Val.str s ∉ r.den

theorem goodR_fin {s : Finset EReal} (h : s.Nonempty) : GoodR (.pc (.fin s)) :=
  ⟨h, trivial, by simp [SSet.den]⟩

theorem goodR_empty : GoodR .empty := ⟨trivial, trivial, by simp [SSet.den]⟩

theorem goodR_ivl {i : Ivl EReal} (h : i.WF) : GoodR (.pc (.ivl i)) :=
  ⟨h, trivial, by simp [SSet.den]⟩

theorem mkIvl_wf {a b : EReal} {lo ro : Bool} {i : Ivl EReal} (h : mkIvl a b lo ro = .ok i) : i.WF := by
  obtain ⟨h1, rfl⟩ := mkIvl_ok h
  refine ⟨h1, ?_, ?_⟩ <;> simp <;> intro h <;> simp [h]

theorem SSet.wf_reals : (SSet.reals : SSet EReal).WF := by
  refine ⟨?_, ?_, ?_⟩ <;> simp

@[simp] theorem SSet.mem_reals (x : EReal) : Val.num x ∈ (SSet.reals : SSet EReal).den ↔ x ≠ ⊥ ∧ x ≠ ⊤ := by
  simp [SSet.reals, SSet.den, Ivl.Mem, bot_lt_iff_ne_bot, lt_top_iff_ne_top]

theorem extReals_spec {c : Ctx} {r : SSet EReal} (h : extReals c = .ok r) :
    GoodR r ∧ ∀ x, Val.num x ∈ r.den := by
  unfold extReals at h
  obtain ⟨u, rfl, h1, -, -, -, h2⟩ := mkUnion_ok h
  have hv : ∀ p, p ∈ u.values ↔ p = .fin {⊥, ⊤} ∨ p = .ivl ⟨⊥, ⊤, true, true⟩ := by
    intro p; rw [h1]; simp [SSet.reals]
  have hwf : u.WF := h2 (by
    intro p hp
    have : p = .fin {⊥, ⊤} ∨ p = .ivl ⟨⊥, ⊤, true, true⟩ := by simpa [SSet.reals] using hp
    rcases this with rfl | rfl
    · exact ⟨⊥, by simp⟩
    · exact SSet.wf_reals)
  refine ⟨⟨hwf, ?_, ?_⟩, ?_⟩
  · intro p hp q hq hne v
    rcases (hv p).1 hp with rfl | rfl <;> rcases (hv q).1 hq with rfl | rfl <;> simp at hne <;> cases v <;>
      simp [Ivl.Mem] <;> grind
  · rintro s ⟨p, hp, hm⟩
    rcases (hv p).1 hp with rfl | rfl <;> simp at hm
  · intro x
    by_cases hx : x = ⊥ ∨ x = ⊤
    · exact ⟨_, (hv _).2 (.inl rfl), by simpa using hx⟩
    · refine ⟨_, (hv _).2 (.inr rfl), ?_⟩
      push Not at hx
      simp [Ivl.Mem, bot_lt_iff_ne_bot, lt_top_iff_ne_top, hx]

theorem extRealsPos_spec {c : Ctx} {r : SSet EReal} (h : extRealsPos c = .ok r) :
    GoodR r ∧ ∀ x, Val.num x ∈ r.den ↔ 0 ≤ x := by
  unfold extRealsPos at h
  have e : mkIvl (0 : EReal) ⊤ false false = .ok ⟨0, ⊤, false, true⟩ := by simp [mkIvl]
  simp only [e, bind, Except.bind] at h
  obtain ⟨u, rfl, h1, -, -, -, h2⟩ := mkUnion_ok h
  have hv : ∀ p, p ∈ u.values ↔ p = .fin {⊤} ∨ p = .ivl ⟨0, ⊤, false, true⟩ := by
    intro p; rw [h1]; simp
  have hwf : u.WF := h2 (by
    intro p hp
    have : p = .fin {⊤} ∨ p = .ivl ⟨0, ⊤, false, true⟩ := by simpa using hp
    rcases this with rfl | rfl
    · exact ⟨⊤, by simp⟩
    · exact mkIvl_wf e)
  refine ⟨⟨hwf, ?_, ?_⟩, ?_⟩
  · intro p hp q hq hne v
    rcases (hv p).1 hp with rfl | rfl <;> rcases (hv q).1 hq with rfl | rfl <;> simp at hne <;> cases v <;>
      simp [Ivl.Mem] <;> grind
  · rintro s ⟨p, hp, hm⟩
    rcases (hv p).1 hp with rfl | rfl <;> simp at hm
  · intro x
    constructor
    · rintro ⟨p, hp, hm⟩
      rcases (hv p).1 hp with rfl | rfl
      · simp at hm; simp [hm]
      · simp [Ivl.Mem] at hm; exact hm.1
    · intro hx
      by_cases hx' : x = ⊤
      · exact ⟨_, (hv _).2 (.inl rfl), by simpa using hx'⟩
      · exact ⟨_, (hv _).2 (.inr rfl), by simp [Ivl.Mem, hx, lt_top_iff_ne_top, hx']⟩

theorem recipRange_spec {c : Ctx} {r : SSet EReal} (h : recipRange c = .ok r) :
    GoodR r ∧ ∀ x, Val.num x ∈ r.den ↔ x ≠ 0 ∧ x ≠ ⊥ ∧ x ≠ ⊤ := by
  unfold recipRange at h
  have e1 : mkIvl (⊥ : EReal) 0 false true = .ok ⟨⊥, 0, true, true⟩ := by simp [mkIvl]
  have e2 : mkIvl (0 : EReal) ⊤ true false = .ok ⟨0, ⊤, true, true⟩ := by simp [mkIvl]
  simp only [e1, e2, bind, Except.bind] at h
  have := SSet.or_spec c.σ (.pc (.ivl ⟨⊥, 0, true, true⟩)) (.pc (.ivl ⟨0, ⊤, true, true⟩))
    (mkIvl_wf e1) trivial (mkIvl_wf e2) trivial h
  have key : ∀ x : EReal, (Val.num x ∈ (SSet.pc (.ivl ⟨⊥, 0, true, true⟩) : SSet EReal).den ∨
      Val.num x ∈ (SSet.pc (.ivl ⟨0, ⊤, true, true⟩) : SSet EReal).den) ↔ x ≠ 0 ∧ x ≠ ⊥ ∧ x ≠ ⊤ := by
    intro x
    simp only [SSet.den_pc, Piece.mem_den_ivl, Ivl.Mem, if_true, bot_lt_iff_ne_bot, lt_top_iff_ne_top]
    constructor
    · rintro (⟨h1, h2⟩ | ⟨h1, h2⟩)
      · exact ⟨h2.ne, h1, (lt_trans h2 EReal.zero_lt_top).ne⟩
      · exact ⟨h1.ne', (lt_trans EReal.bot_lt_zero h1).ne', h2⟩
    · rintro ⟨h1, h2, h3⟩
      rcases lt_or_gt_of_ne h1 with h | h
      · exact .inl ⟨h2, h⟩
      · exact .inr ⟨h, h3⟩
  refine ⟨⟨this.wf, this.disj, ?_⟩, ?_⟩
  · intro s hs; have := this.sub _ hs; simp at this
  · intro x
    constructor
    · intro hx; exact (key x).1 (this.sub _ hx)
    · intro hx; exact this.sup _ ⟨hx.2.1, hx.2.2⟩ ((key x).2 hx)

theorem contains_goodR {r : SSet EReal} (hr : GoodR r) (y : EReal) :
    ∃ b, r.contains (.num y) = .ok b ∧ (b = true ↔ Val.num y ∈ r.den) := by
  have hp := SSet.pureReal_of_str hr.wf hr.str
  cases r with
  | empty => exact ⟨false, rfl, by simp⟩
  | pc p => exact Piece.contains_num p y (fun n hn => absurd hn (hp n))
  | un u => exact anyContains_num u.values y (fun n hn => absurd rfl (hp _ hn n))

theorem ifInRange_spec {r0 k : Res (SSet EReal)} {r F : SSet EReal} {y : EReal} (h0 : r0 = .ok r)
    (hr : GoodR r) (h : ifInRange r0 y k = .ok F) :
    (Val.num y ∈ r.den ∧ k = .ok F) ∨ (Val.num y ∉ r.den ∧ F = .empty) := by
  obtain ⟨b, h1, h2⟩ := contains_goodR hr y
  subst h0
  simp only [ifInRange, bind, Except.bind, h1] at h
  cases b with
  | true => left; exact ⟨h2.1 rfl, by simpa using h⟩
  | false =>
    right
    refine ⟨fun hm => by simpa using h2.2 hm, ?_⟩
    simp at h; exact h.symm

/-- The pointwise function of a unary transform. -/
noncomputable def Tr.fn : Tr → ℝ → Option ℝ
  | .radical _ n => radicalVal n
  | .exp _ b => expVal b
  | .log _ b => logVal b
  | .abs _ => fun x => some |x|
  | .recip _ => recipVal
  | .poly _ cs => fun x => some (polyVal cs x)
  | _ => fun _ => none

/-- The singular point of a logarithm. -/
def Tr.Sing : Tr → ℝ → Prop
  | .log _ _ => fun x => x = 0
  | _ => fun _ => False

/-- A transform other than a variable or a piecewise expression. -/
def Tr.Unary : Tr → Prop
  | .id _ => False
  | .pw _ _ _ => False
  | _ => True

theorem Tr.eval_unary {t : Tr} (h : t.Unary) (ω : Asg) :
    t.eval ω = onNum t.fn (t.sub.eval ω) := by
  cases t <;> first | exact False.elim h | simp [Tr.eval, Tr.fn, Tr.sub]

theorem Tr.regular_unary {t : Tr} (h : t.Unary) (ω : Asg) (hr : t.Regular ω) :
    t.sub.Regular ω ∧ ∀ x, t.sub.eval ω = some (.num x) → ¬ t.Sing x := by
  cases t <;> first | exact False.elim h | (simp [Tr.Regular, Tr.Sing, Tr.sub] at hr ⊢; try exact hr)
  refine ⟨hr.1, ?_⟩
  rintro x hx rfl
  exact hr.2 hx

theorem Tr.symbols_sub {t : Tr} (h : t.Unary) : t.sub.symbols = t.symbols := by
  cases t <;> first | exact False.elim h | simp [Tr.symbols, Tr.sub]

theorem Tr.MadeG.sub {c : Ctx} {t : Tr} (h : t.Unary) (hm : t.MadeG r0 c) : t.sub.MadeG r0 c := by
  cases hm <;> first | exact False.elim h | simpa [Tr.sub]

/-- Range of the pointwise function of a unary transform. -/
theorem Tr.range_unary {c : Ctx} (hc : c.Correct) {t : Tr} (h : t.Unary) (hm : t.MadeG r0 c) {r : SSet EReal}
    (hr : t.range c = .ok r) : GoodR r ∧ ∀ x y, t.fn x = some y → Val.num (y : EReal) ∈ r.den := by
  cases hm with
  | id => simp [Tr.Unary] at h
  | pw => simp [Tr.Unary] at h
  | radical =>
    obtain ⟨h1, h2⟩ := extRealsPos_spec (by simpa [Tr.range] using hr)
    refine ⟨h1, ?_⟩
    intro x y hxy
    simp only [Tr.fn, radicalVal] at hxy
    split at hxy <;> simp at hxy
    subst hxy
    rw [h2]; exact_mod_cast Real.rpow_nonneg (by assumption) _
  | exp _ hb =>
    obtain ⟨h1, h2⟩ := extRealsPos_spec (by simpa [Tr.range] using hr)
    refine ⟨h1, ?_⟩
    intro x y hxy
    simp only [Tr.fn, expVal, Option.some.injEq] at hxy
    subst hxy
    rw [h2]; exact_mod_cast Real.rpow_nonneg (by linarith) _
  | log =>
    obtain ⟨h1, h2⟩ := extReals_spec (by simpa [Tr.range] using hr)
    exact ⟨h1, fun x y _ => h2 _⟩
  | abs =>
    obtain ⟨h1, h2⟩ := extRealsPos_spec (by simpa [Tr.range] using hr)
    refine ⟨h1, ?_⟩
    intro x y hxy
    simp only [Tr.fn, Option.some.injEq] at hxy
    subst hxy
    rw [h2]; exact_mod_cast abs_nonneg x
  | recip =>
    obtain ⟨h1, h2⟩ := recipRange_spec (by simpa [Tr.range] using hr)
    refine ⟨h1, ?_⟩
    intro x y hxy
    simp only [Tr.fn, recipVal] at hxy
    split at hxy <;> simp at hxy
    subst hxy
    rw [h2]
    refine ⟨?_, EReal.coe_ne_bot _, EReal.coe_ne_top _⟩
    simpa using ‹¬ x = 0›
  | poly =>
    obtain ⟨h1, h2, h3, h4⟩ := hc.range _ _ (by simpa [Tr.range] using hr)
    refine ⟨⟨h1, h2, h3⟩, ?_⟩
    intro x y hxy
    simp only [Tr.fn, Option.some.injEq] at hxy
    subst hxy
    exact h4 x

theorem radicalVal_eq_iff {n : ℕ} (hn : n ≠ 0) {x y : ℝ} (hy : 0 ≤ y) :
    radicalVal n x = some y ↔ x = y ^ n := by
  unfold radicalVal
  constructor
  · intro h
    split at h <;> simp at h
    subst h
    exact (Real.rpow_inv_natCast_pow (by assumption) hn).symm
  · rintro rfl
    rw [if_pos (pow_nonneg hy n), Real.pow_rpow_inv_natCast hy hn]

/-- The inverse image of a point computed by `finv`. -/
theorem Tr.finv_spec {c : Ctx} (hc : c.Correct) {t : Tr} (h : t.Unary) (hm : t.MadeG r0 c) {y : EReal}
    {F : SSet EReal} (hF : t.finv c y = .ok F) :
    GoodR F ∧ ∀ x : ℝ, ¬ t.Sing x → (Val.num (x : EReal) ∈ F.den ↔ ∃ z : ℝ, t.fn x = some z ∧ (z : EReal) = y) := by
  have hrange : ∃ r, t.range c = .ok r := by
    cases hm <;> first | exact False.elim h | skip
    all_goals
      simp only [Tr.finv, ifInRange, bind, Except.bind] at hF
      split at hF <;> [simp at hF; exact ⟨_, by simp only [Tr.range]; assumption⟩]
  obtain ⟨r, hr⟩ := hrange
  obtain ⟨hg, hran⟩ := Tr.range_unary hc h hm hr
  have hempty : Val.num y ∉ r.den → F = .empty → GoodR F ∧ ∀ x : ℝ, ¬ t.Sing x →
      (Val.num (x : EReal) ∈ F.den ↔ ∃ z : ℝ, t.fn x = some z ∧ (z : EReal) = y) := by
    rintro h1 rfl
    refine ⟨goodR_empty, fun x _ => ?_⟩
    simp
    rintro z hz rfl
    exact h1 (hran x z hz)
  cases hm with
  | id => simp [Tr.Unary] at h
  | pw => simp [Tr.Unary] at h
  | radical _ hn =>
    have hr' : extRealsPos c = .ok r := by simpa [Tr.range] using hr
    rcases ifInRange_spec hr' hg hF with ⟨h1, h2⟩ | ⟨h1, h2⟩
    · have h0 := ((extRealsPos_spec hr').2 y).1 h1
      split at h2
      · rename_i hy; subst hy; cases h2
        refine ⟨goodR_fin (by simp), fun x _ => ?_⟩
        simp
      · cases h2
        refine ⟨goodR_fin (by simp), fun x _ => ?_⟩
        induction y with
        | bot => simp at h0
        | top => contradiction
        | coe y =>
          have hy : 0 ≤ y := by exact_mod_cast h0
          simp only [SSet.den_pc, Piece.mem_den_fin, Finset.mem_singleton, EReal.toReal_coe, EReal.coe_eq_coe_iff,
            exists_eq_right, Tr.fn]
          rw [radicalVal_eq_iff hn hy]
    · exact hempty h1 h2
  | exp _ hb =>
    have hr' : extRealsPos c = .ok r := by simpa [Tr.range] using hr
    rename_i t b
    rcases ifInRange_spec hr' hg hF with ⟨h1, h2⟩ | ⟨h1, h2⟩
    · have h0 := ((extRealsPos_spec hr').2 y).1 h1
      split at h2
      · rename_i hy; subst hy; cases h2
        refine ⟨goodR_fin (by simp), fun x _ => ?_⟩
        simp
      · split at h2
        · rename_i h3 h4
          cases h2
          refine ⟨goodR_fin (by simp), fun x _ => ?_⟩
          have hy : y = 0 := le_antisymm h4 h0
          subst hy
          simp [Tr.fn, expVal]
          exact (Real.rpow_pos_of_pos (by linarith) x).ne'
        · rename_i h3 h4
          rw [if_neg (by linarith)] at h2
          cases h2
          refine ⟨goodR_fin (by simp), fun x _ => ?_⟩
          induction y with
          | bot => simp at h0
          | top => contradiction
          | coe y =>
            have hy : 0 < y := by simpa using h4
            simp only [SSet.den_pc, Piece.mem_den_fin, Finset.mem_singleton, EReal.toReal_coe, EReal.coe_eq_coe_iff,
              exists_eq_right, Tr.fn, expVal, Option.some.injEq]
            rw [eq_comm, Real.logb_eq_iff_rpow_eq (by linarith) (by linarith) hy]
    · exact hempty h1 h2
  | log _ hb =>
    have hr' : extReals c = .ok r := by simpa [Tr.range] using hr
    rename_i t b
    rcases ifInRange_spec hr' hg hF with ⟨h1, h2⟩ | ⟨h1, h2⟩
    · split at h2
      · rename_i hy; subst hy; cases h2
        refine ⟨goodR_fin (by simp), fun x _ => ?_⟩
        simp
      · split at h2
        · rename_i h3 h4
          subst h4
          cases h2
          refine ⟨goodR_fin (by simp), fun x hx => ?_⟩
          simp only [Tr.Sing] at hx
          simp [hx]
        · rename_i h3 h4
          cases h2
          refine ⟨goodR_fin (by simp), fun x hx => ?_⟩
          induction y with
          | bot => contradiction
          | top => contradiction
          | coe y =>
            simp only [SSet.den_pc, Piece.mem_den_fin, Finset.mem_singleton, EReal.toReal_coe, EReal.coe_eq_coe_iff,
              exists_eq_right, Tr.fn, logVal]
            by_cases hx0 : 0 < x
            · rw [if_pos hx0, Option.some.injEq, Real.logb_eq_iff_rpow_eq (by linarith) (by linarith) hx0, eq_comm]
            · rw [if_neg hx0]
              simp
              rintro rfl
              exact hx0 (Real.rpow_pos_of_pos (by linarith) y)
    · exact hempty h1 h2
  | abs =>
    have hr' : extRealsPos c = .ok r := by simpa [Tr.range] using hr
    rcases ifInRange_spec hr' hg hF with ⟨h1, h2⟩ | ⟨h1, h2⟩
    · have h0 := ((extRealsPos_spec hr').2 y).1 h1
      cases h2
      refine ⟨goodR_fin (by simp), fun x _ => ?_⟩
      induction y with
      | bot => simp at h0
      | top => simp
      | coe y =>
        have hy : 0 ≤ y := by exact_mod_cast h0
        simp only [SSet.den_pc, Piece.mem_den_fin, Finset.mem_insert, Finset.mem_singleton, EReal.coe_eq_coe_iff,
            exists_eq_right, Tr.fn, Option.some.injEq, ← EReal.coe_neg]
        rw [abs_eq hy]
    · exact hempty h1 h2
  | recip =>
    have hr' : recipRange c = .ok r := by simpa [Tr.range] using hr
    rcases ifInRange_spec hr' hg hF with ⟨h1, h2⟩ | ⟨h1, h2⟩
    · have h0 := ((recipRange_spec hr').2 y).1 h1
      rw [if_neg h0.1] at h2
      cases h2
      refine ⟨goodR_fin (by simp), fun x _ => ?_⟩
      induction y with
      | bot => simp at h0
      | top => simp at h0
      | coe y =>
        have hy : y ≠ 0 := by simpa using h0.1
        simp only [SSet.den_pc, Piece.mem_den_fin, Finset.mem_singleton, EReal.toReal_coe, EReal.coe_eq_coe_iff,
            exists_eq_right, Tr.fn, recipVal]
        by_cases hx : x = 0
        · simp [hx]; intro h; exact hy (by simpa using h.symm)
        · rw [if_neg hx, Option.some.injEq]; constructor
          · rintro rfl; simp
          · rintro rfl; simp
    · exact hempty h1 h2
  | poly =>
    rename_i t cs _ _
    have hr' : c.polyRange cs = .ok r := by simpa [Tr.range] using hr
    rcases ifInRange_spec hr' hg hF with ⟨h1, h2⟩ | ⟨h1, h2⟩
    · unfold solvePolyEq at h2
      split at h2
      · rename_i hy
        cases h2
        unfold polyEqInf
        have : ∀ x : ℝ, ¬ ∃ z : ℝ, some (polyVal cs x) = some z ∧ (z : EReal) = y := by
          rintro x ⟨z, _, rfl⟩
          simp at hy
        split
        · exact ⟨goodR_fin (by simp), fun x _ => by simpa [Tr.fn] using this x⟩
        split
        · exact ⟨goodR_fin (by simp), fun x _ => by simpa [Tr.fn] using this x⟩
        split
        · exact ⟨goodR_fin (by simp), fun x _ => by simpa [Tr.fn] using this x⟩
        · exact ⟨goodR_empty, fun x _ => by simpa [Tr.fn] using this x⟩
      · rename_i hy
        obtain ⟨g1, g2, g3, g4⟩ := hc.eq _ _ _ h2
        refine ⟨⟨g1, g2, g3⟩, fun x _ => ?_⟩
        rw [g4]
        induction y with
        | bot => simp at hy
        | top => simp at hy
        | coe y => simp [Tr.fn]
    · exact hempty h1 h2

end Sppl
