import Verif.Events.PeakLemmas

set_option linter.all false

/-!
# An equation that raises (helper lemmas)
-/

namespace Sppl
open Classical

theorem rng_and_fin (σ : Orders EReal) {r : SSet EReal} {j : Ivl EReal} (h : Rng r j) (hj : j.WF) {s : Finset EReal} (hne : s.Nonempty) (hs : ∀ y ∈ s, j.Mem y) :
    SSet.and σ r (.pc (.fin s)) = .ok (.pc (.fin s)) := by
  have e1 : s.filter (fun v => j.has v) = s := by
    rw [Finset.filter_eq_self]
    intro x hx; exact (Ivl.has_iff _ _).2 (hs x hx)
  have e2 : finOrEmpty s = .pc (.fin s) := by simp [finOrEmpty, hne.ne_empty]
  rcases h with rfl | ⟨u, rfl, g1, g2, g3⟩
  · simp only [SSet.and, Piece.and, e1, e2]
  · have ha : andOptFin u.atoms (.fin s) = .ok .empty := by
      cases hu : u.atoms with
      | none => rfl
      | some a =>
        have : a ∩ s = ∅ := by
          rw [Finset.eq_empty_iff_forall_notMem]
          intro x hx
          rw [Finset.mem_inter] at hx
          have := hj.inf (g2 a hu hx.1)
          rw [(Ivl.has_iff _ _).2 (hs x hx.2)] at this; simp at this
        simp [andOptFin, Piece.and, finOrEmpty, this]
    simp only [SSet.and, Un.andPiece, ha, g3, List.mapM_cons, List.mapM_nil, Piece.and, bind, Except.bind, pure, Except.pure, e1, e2]
    simp [SSet.isEmpty, finishAnd]

theorem Tr.invertStep_image {c : Ctx} {t : Tr} (hu : t.Unary) (inv : Tr → SSet EReal → Res (SSet EReal)) {s : Finset EReal} (hne : s.Nonempty) (f : EReal → EReal)
    (hf : ∀ y ∈ s, t.finv c y = .ok (.pc (.fin {f y}))) : t.invertStep c inv (.pc (.fin s)) = inv t.sub (.pc (.fin (s.image f))) := by
  have h1 := mapM_eqMap (c.iter s) (fun y hy => hf y ((c.mem_iter _ _).1 hy))
  have hn : c.iter s ≠ [] := by
    obtain ⟨y, hy⟩ := hne
    intro h
    have := (c.mem_iter s y).2 hy
    rw [h] at this; simp at this
  have h2 := fins_union c.σ f _ hn
  have h3 : (c.iter s).toFinset = s := by ext x; rw [List.mem_toFinset, c.mem_iter]
  rw [h3] at h2
  rw [Tr.invertStep_fin hu]
  simp only [h1, h2, bind, Except.bind]

/-- `ExtReals & {-oo, x}` raises. -/
theorem ext_mixed_real (c : Ctx) (x : ℝ) : ∃ r, extReals c = .ok r ∧ SSet.and c.σ r (.pc (.fin {⊥, (x : EReal)})) = .error .assertion := by
  obtain ⟨u, h1, -, ha, g3⟩ := mkUnion_finIvl c.σ {⊥, ⊤} ⟨⊥, ⊤, true, true⟩
  refine ⟨_, h1, ?_⟩
  have e1 : ({⊥, ⊤} : Finset EReal) ∩ {⊥, (x : EReal)} = {⊥} := by
    ext z; simp only [Finset.mem_inter, Finset.mem_insert, Finset.mem_singleton]
    constructor
    · rintro ⟨rfl | rfl, h | h⟩ <;> simp_all
    · rintro rfl; simp
  have e2 : ({⊥, (x : EReal)} : Finset EReal).filter (fun v => (⟨⊥, ⊤, true, true⟩ : Ivl EReal).has v) = {(x : EReal)} := by
    ext z; simp only [Finset.mem_filter, Finset.mem_insert, Finset.mem_singleton, Ivl.has_iff, Ivl.Mem]
    constructor
    · rintro ⟨rfl | rfl, h⟩ <;> simp_all
    · rintro rfl; simp [EReal.bot_lt_coe, EReal.coe_lt_top]
  simp only [SSet.and, Un.andPiece, ha, andOptFin, g3, List.mapM_cons, List.mapM_nil, Piece.and, bind, Except.bind, pure, Except.pure, e1, e2]
  simp [finOrEmpty, SSet.isEmpty, finishAnd, mkUnion, SSet.isUnion, List.filterMap_cons]

theorem absEq_raises {c : Ctx} (hc : c.Correct) (hl : c.Linear) {b : ℝ} (hb : 1 < b) (n : ℕ) :
    (Ev.fin (.abs (.poly (.exp (.id "X") b) [-1, 1])) (some {1})).solve c (n + 5) = .error .assertion := by
  have o1 : (1 : EReal) = ((1 : ℝ) : EReal) := rfl
  have m1 : posIvl.Mem 1 := pos_mem.2 ⟨zero_le_one, EReal.coe_lt_top 1⟩
  obtain ⟨r, r1, r2⟩ := extRealsPos_rng c
  obtain ⟨q, q1, q2⟩ := hl.range (-1) 1 one_ne_zero
  obtain ⟨e, e1, e2⟩ := ext_mixed_real c (Real.logb b 2)
  have a1 := rng_and_fin c.σ r2 pos_wf (s := {1}) (by simp) (by intro y hy; rw [Finset.mem_singleton.1 hy]; exact m1)
  have f1 : (Tr.abs (.poly (.exp (.id "X") b) [-1, 1])).finv c 1 = .ok (.pc (.fin {1, -1})) := by
    rw [Tr.finv, ifInRange_pos c zero_le_one]
  obtain ⟨xs, x1, x2⟩ := iterUnion_one (c := c) (y := 1) (f := fun y => (Tr.abs (.poly (.exp (.id "X") b) [-1, 1])).finv c y) f1 (fin_or_self _ _)
  have real : ∀ y ∈ ({1, -1} : Finset EReal), ∃ z : ℝ, y = z := by
    intro y hy
    simp only [Finset.mem_insert, Finset.mem_singleton] at hy
    rcases hy with rfl | rfl
    · exact ⟨1, rfl⟩
    · exact ⟨-1, by rw [EReal.coe_neg]; rfl⟩
  have a2 := rng_and_fin c.σ (allReals_rng q2) full_wf (s := {1, -1}) (by simp) (by intro y hy; obtain ⟨z, rfl⟩ := real y hy; exact real_mem_reals z)
  obtain ⟨w, d, s, hq⟩ := hc.range _ _ q1
  have f2 : ∀ y ∈ ({1, -1} : Finset EReal), (Tr.poly (.exp (.id "X") b) [-1, 1]).finv c y = .ok (.pc (.fin {y + 1})) := by
    intro y hy
    obtain ⟨z, rfl⟩ := real y hy
    obtain ⟨bb, h1, h2⟩ := contains_goodR (r := q) ⟨w, d, s⟩ (z : EReal)
    have hz : polyVal [-1, 1] (z + 1) = z := by simp [polyVal]
    have : bb = true := h2.2 (by have := hq (z + 1); rwa [hz] at this)
    subst this
    have he := hl.eq (-1) 1 z one_ne_zero
    rw [Tr.finv]
    simp only [ifInRange, q1, h1, bind, Except.bind, if_true, solvePolyEq]
    rw [if_neg (by simp), EReal.toReal_coe, he]
    congr 4
    rw [o1, ← EReal.coe_add]
    congr 1; ring
  have i2 : ({1, -1} : Finset EReal).image (fun y => y + 1) = {2, 0} := by
    have h1 : (1 : EReal) + 1 = 2 := one_add_one_eq_two
    have h2 : (-1 : EReal) + 1 = 0 := by
      rw [o1, ← EReal.coe_neg, ← EReal.coe_add]; simp
    simp [h1, h2]
  have a3 := rng_and_fin c.σ r2 pos_wf (s := {2, 0}) (by simp) (by
    intro y hy
    simp only [Finset.mem_insert, Finset.mem_singleton] at hy
    rcases hy with rfl | rfl
    · exact pos_mem.2 ⟨zero_le_two, EReal.coe_lt_top 2⟩
    · exact pos_mem.2 ⟨le_rfl, EReal.zero_lt_top⟩)
  have t2 : (0 : EReal) < 2 := by
    have : ((0 : ℝ) : EReal) < ((2 : ℝ) : EReal) := by exact_mod_cast (zero_lt_two : (0 : ℝ) < 2)
    exact this
  have f3 : ∀ y ∈ ({2, 0} : Finset EReal), (Tr.exp (.id "X") b).finv c y = .ok (.pc (.fin {if y = 0 then ⊥ else (Real.logb b 2 : EReal)})) := by
    intro y hy
    simp only [Finset.mem_insert, Finset.mem_singleton] at hy
    rcases hy with rfl | rfl
    · rw [Tr.finv, ifInRange_pos c zero_le_two, if_neg (show (2 : EReal) ≠ ⊤ from EReal.coe_ne_top 2), if_neg (not_le.2 t2), if_neg hb.ne', if_neg t2.ne']
      have : (2 : EReal).toReal = 2 := EReal.toReal_coe 2
      rw [this]
    · rw [Tr.finv, ifInRange_pos c le_rfl]; simp
  have i3 : ({2, 0} : Finset EReal).image (fun y => if y = 0 then ⊥ else (Real.logb b 2 : EReal)) = {⊥, (Real.logb b 2 : EReal)} := by
    rw [Finset.image_insert, Finset.image_singleton, if_neg t2.ne', if_pos rfl, Finset.pair_comm]
  obtain ⟨xs', k1, k2⟩ := iterUnion_one (c := c) (y := 1) (f := fun y => Ev.finvReal c (.pc (.fin {1})) y) (X := .pc (.fin {1})) (by simp [Ev.finvReal]) (fin_or_self _ _)
  rw [Ev.solve, if_neg (by simp [Ev.symbols, Tr.symbols])]
  · rw [Ev.invert]
    simp only [bool_and_one, bind, Except.bind, Ev.invertFinite, optFin, k1, k2]
    rw [Tr.invert]
    simp only [Tr.range, r1, bind, Except.bind, a1]
    rw [Tr.invertStep_fin (t := .abs _) trivial]
    simp only [x1, x2, bind, Except.bind, Tr.sub]
    rw [Tr.invert]
    simp only [Tr.range, q1, bind, Except.bind, a2]
    rw [Tr.invertStep_image (t := .poly _ _) trivial _ (by simp) _ f2, i2]
    simp only [Tr.sub]
    rw [Tr.invert]
    simp only [Tr.range, r1, bind, Except.bind, a3]
    rw [Tr.invertStep_image (t := .exp _ _) trivial _ (by simp) _ f3, i3]
    simp only [Tr.sub]
    rw [Tr.invert]
    simp only [Tr.range, e1, bind, Except.bind, e2]
  all_goals simp

end Sppl
