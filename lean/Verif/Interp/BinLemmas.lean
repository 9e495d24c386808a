import Verif.Interp.Bins
import Verif.Sets.Spec
import Verif.Events.Props
import Mathlib.Tactic.Linarith
import Mathlib.Tactic.FieldSimp
import Mathlib.Order.Monotone.Basic

set_option linter.all false

/-!
# Lemmas about `binspace` and the cases of a `Switch` on its bins
-/

namespace Sppl
open Classical

/-- The closed interval between two numbers. -/
noncomputable def closedBin (a b : ℝ) : Ivl EReal := ⟨(a : EReal), (b : EReal), false, false⟩

theorem mkIvl_closed {a b : ℝ} (h : a < b) : mkIvl (a : EReal) (b : EReal) false false = .ok (closedBin a b) := by
  simp [mkIvl, closedBin, EReal.coe_lt_coe_iff.2 h]

theorem closedBin_invert (σ : Orders EReal) {a b : ℝ} (h : a < b) : ∃ u : Un EReal, Ivl.invert σ (closedBin a b) = .ok (.un u) ∧ u.atoms = none ∧
    u.intervals.Perm [⟨⊥, (a : EReal), true, true⟩, ⟨(b : EReal), ⊤, true, true⟩] := by
  have hn : (⟨⊥, (a : EReal), true, true⟩ : Ivl EReal) ≠ ⟨(b : EReal), ⊤, true, true⟩ := by
    intro h; simp at h
  have hp := σ.ivls_perm [⟨⊥, (a : EReal), true, true⟩, ⟨(b : EReal), ⊤, true, true⟩]
  rw [List.Nodup.dedup (by simpa using hn)] at hp
  have hv := σ.vals_perm ((σ.ivls [⟨⊥, (a : EReal), true, true⟩, ⟨(b : EReal), ⊤, true, true⟩]).map Piece.ivl)
  have hlen : (σ.vals ((σ.ivls [⟨⊥, (a : EReal), true, true⟩, ⟨(b : EReal), ⊤, true, true⟩]).map Piece.ivl)).length = 2 := by
    rw [hv.length_eq, List.Nodup.dedup, List.length_map, hp.length_eq]
    · rfl
    · refine List.Nodup.map (fun x y h => by simpa using h) ?_
      exact hp.nodup_iff.2 (by simpa using hn)
  refine ⟨⟨none, none, σ.ivls [⟨⊥, (a : EReal), true, true⟩, ⟨(b : EReal), ⊤, true, true⟩], σ.vals ((σ.ivls [⟨⊥, (a : EReal), true, true⟩, ⟨(b : EReal), ⊤, true, true⟩]).map Piece.ivl),
      [.ivl ⟨⊥, (a : EReal), true, true⟩, .ivl ⟨(b : EReal), ⊤, true, true⟩]⟩, ?_, rfl, hp⟩
  · simp [Ivl.invert, closedBin, mkIvl, EReal.bot_lt_coe, EReal.coe_lt_top, bind, Except.bind, mkUnion, SSet.isUnion, SSet.piece?, Piece.nom?, Piece.fin?, Piece.ivl?, List.filterMap, hlen]

/-- Without the closed interval `[a, b]`, an interval from `c` to `d` that begins at `b` loses its left end; one that begins later stays. -/
theorem and_not_closed (σ : Orders EReal) {a b c d : ℝ} (lo : Bool) (h : a < b) (h1 : b ≤ c) (h2 : c < d) :
    (do
      let n ← SSet.invert σ (.pc (.ivl (closedBin a b)))
      SSet.and σ (.pc (.ivl ⟨(c : EReal), (d : EReal), lo, false⟩)) n) = .ok (.pc (.ivl ⟨(c : EReal), (d : EReal), lo || decide (b = c), false⟩)) := by
  obtain ⟨u, e1, e2, e3⟩ := closedBin_invert σ h
  have hL : Ivl.and ⟨⊥, (a : EReal), true, true⟩ ⟨(c : EReal), (d : EReal), lo, false⟩ = .ok .empty := by
    have k1 : ¬ (c : ℝ) < a := by linarith
    have k2 : ¬ (d : ℝ) < a := by linarith
    have k3 : a ≠ d := by linarith
    cases lo <;> simp [Ivl.and, Ivl.has, k1, k2, k3, EReal.coe_lt_coe_iff]
  have hR : Ivl.and ⟨(b : EReal), ⊤, true, true⟩ ⟨(c : EReal), (d : EReal), lo, false⟩ = .ok (.pc (.ivl ⟨(c : EReal), (d : EReal), lo || decide (b = c), false⟩)) := by
    have k1 : b < d := by linarith
    have k2 : b ≠ d := k1.ne
    rcases h1.lt_or_eq with h1 | rfl
    · cases lo <;> simp [Ivl.and, Ivl.has, h1, h1.ne, k1, EReal.coe_lt_coe_iff, EReal.coe_lt_top]
    · cases lo <;> simp [Ivl.and, Ivl.has, k1, k2, EReal.coe_lt_coe_iff, EReal.coe_lt_top, mkIvl, bind, Except.bind]
  have hm : ∃ l, u.intervals.mapM (fun i => Piece.and (.ivl i) (.ivl ⟨(c : EReal), (d : EReal), lo, false⟩)) = .ok l ∧
      l.filter (fun s => !s.isEmpty) = [.pc (.ivl ⟨(c : EReal), (d : EReal), lo || decide (b = c), false⟩)] := by
    have : u.intervals = [⟨⊥, (a : EReal), true, true⟩, ⟨(b : EReal), ⊤, true, true⟩] ∨ u.intervals = [⟨(b : EReal), ⊤, true, true⟩, ⟨⊥, (a : EReal), true, true⟩] := by
      generalize u.intervals = l at e3
      clear e1 e2
      rcases l with _ | ⟨x, _ | ⟨y, _ | ⟨z, l⟩⟩⟩
      · simpa using e3.length_eq
      · simpa using e3.length_eq
      · have hx := e3.subset (by simp : x ∈ [x, y])
        have hy := e3.subset (by simp : y ∈ [x, y])
        have h1 := e3.symm.subset (by simp : (⟨⊥, (a : EReal), true, true⟩ : Ivl EReal) ∈ _)
        have h2 := e3.symm.subset (by simp : (⟨(b : EReal), ⊤, true, true⟩ : Ivl EReal) ∈ _)
        simp only [List.mem_cons, List.not_mem_nil, or_false] at hx hy h1 h2
        rcases hx with rfl | rfl <;> rcases hy with rfl | rfl <;> simp_all
      · simpa using e3.length_eq
    rcases this with h | h <;> rw [h]
    · exact ⟨[.empty, .pc (.ivl ⟨(c : EReal), (d : EReal), lo || decide (b = c), false⟩)], by simp [List.mapM_cons, Piece.and, hL, hR, bind, Except.bind, pure, Except.pure], by simp [SSet.isEmpty]⟩
    · exact ⟨[.pc (.ivl ⟨(c : EReal), (d : EReal), lo || decide (b = c), false⟩), .empty], by simp [List.mapM_cons, Piece.and, hL, hR, bind, Except.bind, pure, Except.pure], by simp [SSet.isEmpty]⟩
  obtain ⟨l, f1, f2⟩ := hm
  have hand : SSet.and σ (.pc (.ivl ⟨(c : EReal), (d : EReal), lo, false⟩)) (.un u) = .ok (.pc (.ivl ⟨(c : EReal), (d : EReal), lo || decide (b = c), false⟩)) := by
    simp only [SSet.and, Un.andPiece, e2, andOptFin, f1, bind, Except.bind, f2]
    rfl
  simp only [SSet.invert, Piece.invert, e1, bind, Except.bind, hand]

variable {v : ℕ → ℝ} (hv : StrictMono v)
include hv

/-- The bins of a grid. -/
noncomputable def gridBins (v : ℕ → ℝ) (k n : ℕ) : List (SSet EReal) := (List.range' k n).map (fun i => .pc (.ivl (closedBin (v i) (v (i + 1)))))

theorem caseSet_grid (c : Ctx) (i : ℕ) : caseSet c (gridBins v 0 i) (.pc (.ivl (closedBin (v i) (v (i + 1))))) = .ok (.pc (.ivl ⟨(v i : EReal), (v (i + 1) : EReal), decide (0 < i), false⟩)) := by
  have key : ∀ j k lo, k + j ≤ i → caseSet c (gridBins v k j) (.pc (.ivl ⟨(v i : EReal), (v (i + 1) : EReal), lo, false⟩)) =
      .ok (.pc (.ivl ⟨(v i : EReal), (v (i + 1) : EReal), lo || decide (0 < j ∧ k + j = i), false⟩)) := by
    intro j
    induction j with
    | zero => intro k lo _; simp [gridBins, caseSet, pure, Except.pure]
    | succ j ih =>
      intro k lo h
      have h1 := and_not_closed c.σ lo (hv (Nat.lt_succ_self k)) (hv.monotone (show k + 1 ≤ i by omega)) (hv (Nat.lt_succ_self i))
      have h2 := ih (k + 1) (lo || decide (v (k + 1) = v i)) (by omega)
      have e : gridBins v k (j + 1) = .pc (.ivl (closedBin (v k) (v (k + 1)))) :: gridBins v (k + 1) j := by simp [gridBins, List.range'_succ]
      unfold caseSet at h2 ⊢
      rw [e, List.foldlM_cons, h1]
      refine h2.trans ?_
      have hd : (lo || decide (v (k + 1) = v i) || decide (0 < j ∧ k + 1 + j = i)) = (lo || decide (0 < j + 1 ∧ k + (j + 1) = i)) := by
        simp only [hv.injective.eq_iff, Bool.or_assoc]
        congr 1
        rw [← Bool.decide_or, decide_eq_decide]
        omega
      rw [hd]
  have := key i 0 false (by omega)
  simpa [closedBin] using this

theorem caseEvents_grid (c : Ctx) (t : Tr) (n : ℕ) : caseEvents c t [] (gridBins v 0 n) = .ok ((List.range n).map (fun i => .ivl t ⟨(v i : EReal), (v (i + 1) : EReal), decide (0 < i), false⟩)) := by
  have key : ∀ j k, caseEvents c t (gridBins v 0 k) (gridBins v k j) = .ok ((List.range' k j).map (fun i => .ivl t ⟨(v i : EReal), (v (i + 1) : EReal), decide (0 < i), false⟩)) := by
    intro j
    induction j with
    | zero => intro k; simp [gridBins, caseEvents]
    | succ j ih =>
      intro k
      have e : gridBins v k (j + 1) = .pc (.ivl (closedBin (v k) (v (k + 1)))) :: gridBins v (k + 1) j := by simp [gridBins, List.range'_succ]
      have e2 : gridBins v 0 k ++ [.pc (.ivl (closedBin (v k) (v (k + 1))))] = gridBins v 0 (k + 1) := by simp [gridBins, List.range'_concat]
      rw [e, caseEvents, caseSet_grid hv]
      simp only [bind, Except.bind, Tr.inSet, e2, ih, List.range'_succ, List.map_cons]
  have := key n 0
  simpa [gridBins, List.range_eq_range'] using this

omit hv

theorem zip_range (v : ℕ → ℝ) (n : ℕ) : ((List.range (n + 1)).map v).dropLast.zip ((List.range (n + 1)).map v).tail = (List.range n).map (fun i => (v i, v (i + 1))) := by
  refine List.ext_getElem (by simp) ?_
  intro i h1 h2
  simp

theorem binspace_ok {a b : ℝ} (h : a < b) {n : ℕ} (hn : 1 ≤ n) : binspace a b ((n : ℤ) + 1) = .ok (gridBins (fun i => a + i * ((b - a) / n)) 0 n) := by
  have h1 : linspace a b ((n : ℤ) + 1) = .ok ((List.range (n + 1)).map (fun i : ℕ => a + i * ((b - a) / n))) := by
    unfold linspace
    rw [if_neg (by omega)]
    simp
  unfold binspace
  rw [h1]
  simp only [bind, Except.bind, zip_range]
  have hp : (0 : ℝ) < (b - a) / n := div_pos (by linarith) (by exact_mod_cast hn)
  have key : ∀ l : List ℕ, (l.map (fun i : ℕ => (a + i * ((b - a) / n), a + ((i + 1 : ℕ) : ℝ) * ((b - a) / n)))).mapM
      (fun b => do
        let i ← mkIvl (b.1 : EReal) (b.2 : EReal) false false
        (.ok (.pc (.ivl i)) : Res (SSet EReal))) = .ok (l.map (fun i : ℕ => .pc (.ivl (closedBin (a + i * ((b - a) / n)) (a + ((i + 1 : ℕ) : ℝ) * ((b - a) / n)))))) := by
    intro l
    induction l with
    | nil => rfl
    | cons i l ih =>
      rw [List.map_cons, List.mapM_cons, ih, mkIvl_closed (by push_cast; nlinarith)]
      rfl
  simp only [gridBins, ← List.range_eq_range']
  exact key _

theorem grid_strictMono {a b : ℝ} (h : a < b) {n : ℕ} (hn : 1 ≤ n) : StrictMono (fun i : ℕ => a + i * ((b - a) / n)) := by
  have hp : (0 : ℝ) < (b - a) / n := div_pos (by linarith) (by exact_mod_cast hn)
  intro i j hij
  have : (i : ℝ) < j := by exact_mod_cast hij
  have := mul_lt_mul_of_pos_right this hp
  simp only; linarith

end Sppl
