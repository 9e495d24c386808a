import Verif.Events.Ops
import Verif.Events.BoolLemmas
import Mathlib.Tactic.Ring

set_option linter.all false

/-!
# Helper lemmas for the arithmetic, comparison and evaluation operators
-/

namespace Sppl
open Classical

theorem polyVal_cons (a : ℝ) (cs : List ℝ) (x : ℝ) : polyVal (a :: cs) x = a + x * polyVal cs x := rfl
@[simp] theorem polyVal_nil (x : ℝ) : polyVal [] x = 0 := rfl

theorem polyVal_addCoeffs (as bs : List ℝ) (x : ℝ) :
    polyVal (addCoeffs as bs) x = polyVal as x + polyVal bs x := by
  induction as generalizing bs with
  | nil => simp [addCoeffs]
  | cons a as ih =>
    cases bs with
    | nil => simp [addCoeffs]
    | cons b bs => simp only [addCoeffs, polyVal_cons, ih]; ring

theorem polyVal_map_mul (k : ℝ) (cs : List ℝ) (x : ℝ) : polyVal (cs.map (k * ·)) x = k * polyVal cs x := by
  induction cs with
  | nil => simp
  | cons a cs ih => simp only [List.map_cons, polyVal_cons, ih]; ring

theorem polyVal_map_neg (cs : List ℝ) (x : ℝ) : polyVal (cs.map (fun c => -c)) x = - polyVal cs x := by
  induction cs with
  | nil => simp
  | cons a cs ih => simp only [List.map_cons, polyVal_cons, ih]; ring

theorem polyVal_mulCoeffs (as bs : List ℝ) (x : ℝ) :
    polyVal (mulCoeffs as bs) x = polyVal as x * polyVal bs x := by
  induction as with
  | nil => simp [mulCoeffs]
  | cons a as ih => simp only [mulCoeffs, polyVal_addCoeffs, polyVal_map_mul, polyVal_cons, ih]; ring

theorem polyVal_append (as bs : List ℝ) (x : ℝ) :
    polyVal (as ++ bs) x = polyVal as x + x ^ as.length * polyVal bs x := by
  induction as with
  | nil => simp
  | cons a as ih => simp only [List.cons_append, polyVal_cons, ih, List.length_cons, pow_succ]; ring

theorem polyVal_zeros (cs : List ℝ) (h : ∀ c ∈ cs, c = 0) (x : ℝ) : polyVal cs x = 0 := by
  induction cs with
  | nil => rfl
  | cons a cs ih =>
    rw [polyVal_cons, ih (fun c hc => h c (by simp [hc])), h a (by simp)]; ring

theorem polyVal_trimZeros (cs : List ℝ) (x : ℝ) : polyVal (trimZeros cs) x = polyVal cs x := by
  have key : cs = trimZeros cs ++ (cs.reverse.takeWhile (fun c => decide (c = 0))).reverse := by
    unfold trimZeros
    rw [← List.reverse_append, List.takeWhile_append_dropWhile, List.reverse_reverse]
  conv_rhs => rw [key]
  rw [polyVal_append, polyVal_zeros (List.reverse _) (fun c hc => by
    have := List.all_eq_true.1 (List.all_takeWhile (l := cs.reverse) (p := fun c => decide (c = 0))) c (List.mem_reverse.1 hc)
    simpa using this)]
  ring

theorem polyVal_allCoeffs (cs : List ℝ) (x : ℝ) : polyVal (allCoeffs cs) x = polyVal cs x := by
  unfold allCoeffs
  split
  · rename_i h
    rw [← polyVal_trimZeros cs, h]; simp [polyVal_cons]
  · exact polyVal_trimZeros cs x

theorem mkPoly_ok {t : Tr} {cs : List ℝ} {r : Tr} (h : mkPoly t cs = .ok r) : 1 < cs.length ∧ r = .poly t cs := by
  unfold mkPoly at h
  split at h
  · cases h; exact ⟨by assumption, rfl⟩
  · cases h

theorem onNum_onNum (f g : ℝ → ℝ) (v : Option (Val ℝ)) :
    onNum (fun x => some (f x)) (onNum (fun x => some (g x)) v) = onNum (fun x => some (f (g x))) v := by
  cases v with
  | none => rfl
  | some v => cases v <;> rfl

theorem polyify_eval (t : Tr) (f : ℝ → ℝ) (ω : Asg) :
    onNum (fun x => some (f (polyVal (polyify t).2 x))) ((polyify t).1.eval ω) =
      onNum (fun x => some (f x)) (t.eval ω) := by
  have gen : (∀ s cs, t ≠ .poly s cs) → polyify t = (t, [0, 1]) := by
    intro h; cases t <;> first | rfl | exact absurd rfl (h _ _)
  by_cases h : ∃ s cs, t = .poly s cs
  · obtain ⟨s, cs, rfl⟩ := h
    simp only [polyify, Tr.eval]
    rw [onNum_onNum]
  · push Not at h
    rw [gen h]
    simp [polyVal]

theorem Tr.addNum_eval {t r : Tr} {x : ℝ} (h : t.addNum x = .ok r) (ω : Asg) :
    r.eval ω = onNum (fun y => some (y + x)) (t.eval ω) := by
  unfold Tr.addNum at h
  split at h
  · cases h
  · rename_i a cs hcs
    obtain ⟨-, rfl⟩ := mkPoly_ok h
    rw [Tr.eval, ← polyify_eval t (fun y => y + x), hcs]
    congr 1; funext y; simp only [polyVal_cons]; congr 1; ring

theorem Tr.mulNum_eval {t r : Tr} {x : ℝ} (h : t.mulNum x = .ok r) (ω : Asg) :
    r.eval ω = onNum (fun y => some (x * y)) (t.eval ω) := by
  obtain ⟨-, rfl⟩ := mkPoly_ok h
  rw [Tr.eval, ← polyify_eval t (fun y => x * y)]
  congr 1; funext y; rw [polyVal_map_mul]

theorem pick_append (vs ws : List (Option (Val ℝ))) (as bs : List Bool) (hl : vs.length = as.length) :
    pick (vs ++ ws) (as ++ bs) = if as.any id then pick vs as else pick ws bs := by
  induction vs generalizing as with
  | nil =>
    cases as with
    | nil => simp [pick]
    | cons => simp at hl
  | cons v vs ih =>
    cases as with
    | nil => simp at hl
    | cons a as =>
      simp only [List.cons_append, pick]
      cases a
      · simp [ih as (by simpa using hl)]
      · simp

theorem powTr_eval {t r : Tr} {n : ℕ} (h : powTr t n = .ok r) (ω : Asg) :
    n ≠ 0 ∧ r.eval ω = onNum (fun y => some (y ^ n)) (t.eval ω) := by
  obtain ⟨h1, rfl⟩ := mkPoly_ok h
  refine ⟨by rintro rfl; simp at h1, ?_⟩
  rw [Tr.eval]
  congr 1; funext y
  rw [polyVal_append, polyVal_zeros _ (by intro c hc; exact (List.mem_replicate.1 hc).2)]
  simp [polyVal_cons]

theorem mkIvl_map_ok {t : Tr} {a b : EReal} {lo ro : Bool} {e : Ev} (h : (mkIvl a b lo ro).map (.ivl t) = .ok e) :
    e.Valid ∧ ∀ ω, e.holds ω ↔ ∃ y : ℝ, t.eval ω = some (.num y) ∧
      (if lo then a < y else a ≤ y) ∧ (if ro then (y : EReal) < b else (y : EReal) ≤ b) := by
  cases hm : mkIvl a b lo ro with
  | error e => simp [hm, Except.map] at h
  | ok i =>
    simp [hm, Except.map] at h; subst h
    obtain ⟨h1, rfl⟩ := mkIvl_ok hm
    refine ⟨.ivl ⟨h1, ?_, ?_⟩, fun ω => ?_⟩
    · simp; intro h; simp [h]
    · simp; intro h; simp [h]
    · rw [Ev.holds_ivl]
      refine exists_congr fun y => and_congr_right fun _ => ?_
      simp only [Ivl.Mem, Bool.or_eq_true, decide_eq_true_eq]
      have hb := EReal.bot_lt_coe y
      have ht := EReal.coe_lt_top y
      refine and_congr ?_ ?_
      · by_cases ha : a = ⊥
        · subst ha; simp [hb, hb.le]
        · simp [ha]
      · by_cases hb : b = ⊤
        · subst hb; simp [ht, ht.le]
        · simp [hb]

theorem sympyInterval_spec {t : Tr} {a b : EReal} {lo ro : Bool} {e : Ev} (h : sympyInterval t a b lo ro = .ok e) :
    e.Valid ∧ ∀ ω, e.holds ω ↔ ∃ y : ℝ, t.eval ω = some (.num y) ∧
      (if lo then a < y else a ≤ y) ∧ (if ro then (y : EReal) < b else (y : EReal) ≤ b) := by
  unfold sympyInterval at h
  split at h
  · rename_i hlt
    cases h
    refine ⟨.fin (by simp), fun ω => ?_⟩
    simp only [Ev.holds_fin, reduceCtorEq, false_and, and_false, exists_false, false_iff]
    rintro ⟨y, -, h1, h2⟩
    have h1 : a ≤ y := by split at h1 <;> [exact h1.le; exact h1]
    have h2 : (y : EReal) ≤ b := by split at h2 <;> [exact h2.le; exact h2]
    exact absurd (h1.trans h2) (not_le.2 hlt)
  · split at h
    · rename_i hab
      subst hab
      split at h
      · rename_i hor
        cases h
        refine ⟨.fin (by simp), fun ω => ?_⟩
        simp only [Ev.holds_fin, reduceCtorEq, false_and, and_false, exists_false, false_iff]
        rintro ⟨y, -, h1, h2⟩
        have h1' : a ≤ y := by split at h1 <;> [exact h1.le; exact h1]
        have h2' : (y : EReal) ≤ a := by split at h2 <;> [exact h2.le; exact h2]
        have hy : a = y := le_antisymm h1' h2'
        subst hy
        rcases hor with h | h | h | h
        · simp [h] at h1
        · simp [h] at h2
        · exact absurd h (EReal.coe_ne_bot _)
        · exact absurd h (EReal.coe_ne_top _)
      · rename_i hor
        cases h
        push Not at hor
        refine ⟨.fin (by rintro s ⟨⟩; simp), fun ω => ?_⟩
        simp only [Ev.holds_fin, Option.some.injEq, exists_eq_left', exists_and_left, exists_eq_left', Finset.mem_singleton]
        refine exists_congr fun y => and_congr_right fun _ => ?_
        simp only [Bool.not_eq_true] at hor
        simp only [hor.1, hor.2.1, Bool.false_eq_true, if_false]
        rw [eq_comm, le_antisymm_iff]
    · exact mkIvl_map_ok h

end Sppl
