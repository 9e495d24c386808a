import Verif.Events.ValSpec
import Verif.Events.Peak2Lemmas

set_option linter.all false

/-!
# Inverting expressions on finite sets (helper lemmas)
-/

namespace Sppl
open Classical

/-- The empty set, or a set of finitely many numbers that satisfy `P`. -/
def FinOf (P : ℝ → Prop) (S : SSet EReal) : Prop := S = .empty ∨ ∃ W : Finset EReal, W.Nonempty ∧ (∀ w ∈ W, ∃ x : ℝ, w = x ∧ P x) ∧ S = .pc (.fin W)

theorem FinOf.one {P : ℝ → Prop} {x : ℝ} (h : P x) : FinOf P (.pc (.fin {(x : EReal)})) :=
  .inr ⟨_, by simp, fun w hw => ⟨x, Finset.mem_singleton.1 hw, h⟩, rfl⟩

theorem FinOf.mono {P P' : ℝ → Prop} (hP : ∀ x, P x → P' x) {S : SSet EReal} (h : FinOf P S) : FinOf P' S := by
  rcases h with rfl | ⟨W, h1, h2, rfl⟩
  · exact .inl rfl
  · exact .inr ⟨W, h1, fun w hw => by obtain ⟨x, a, b⟩ := h2 w hw; exact ⟨x, a, hP x b⟩, rfl⟩

theorem FinOf.or {P : ℝ → Prop} (σ : Orders EReal) (A B : SSet EReal) (hA : FinOf P A) (hB : FinOf P B) : ∃ S, SSet.or σ A B = .ok S ∧ FinOf P S := by
  rcases hA with rfl | ⟨W, h1, h2, rfl⟩
  · exact ⟨B, rfl, hB⟩
  · rcases hB with rfl | ⟨W', h3, h4, rfl⟩
    · exact ⟨_, rfl, .inr ⟨W, h1, h2, rfl⟩⟩
    · refine ⟨_, rfl, .inr ⟨_, h1.inl, ?_, rfl⟩⟩
      intro w hw
      rcases Finset.mem_union.1 hw with h | h
      · exact h2 w h
      · exact h4 w h

theorem FinOf.range {P : ℝ → Prop} (σ : Orders EReal) {r : SSet EReal} {j : Ivl EReal} (h : Rng r j) {S : SSet EReal} (hS : FinOf P S) :
    ∃ S', SSet.and σ r S = .ok S' ∧ FinOf (fun x => P x ∧ j.Mem x) S' := by
  rcases hS with rfl | ⟨W, h1, h2, rfl⟩
  · refine ⟨.empty, ?_, .inl rfl⟩
    rcases h with rfl | ⟨u, rfl, -⟩ <;> rfl
  · have hF : FinOf (fun x => P x ∧ j.Mem x) (finOrEmpty (W.filter (fun v => j.has v))) := by
      unfold finOrEmpty
      split
      · exact .inl rfl
      · rename_i hne
        refine .inr ⟨_, Finset.nonempty_iff_ne_empty.2 hne, ?_, rfl⟩
        intro w hw
        obtain ⟨a, b⟩ := Finset.mem_filter.1 hw
        obtain ⟨x, rfl, d⟩ := h2 w a
        exact ⟨x, rfl, d, (Ivl.has_iff _ _).1 b⟩
    refine ⟨_, ?_, hF⟩
    rcases h with rfl | ⟨u, rfl, g1, g2, g3⟩
    · rfl
    · have ha : andOptFin u.atoms (.fin W) = .ok .empty := by
        cases hu : u.atoms with
        | none => rfl
        | some s =>
          have : s ∩ W = ∅ := by
            rw [Finset.eq_empty_iff_forall_notMem]
            intro w hw
            obtain ⟨a, b⟩ := Finset.mem_inter.1 hw
            obtain ⟨x, rfl, -⟩ := h2 w b
            have := g2 s hu a
            simp at this
          simp [andOptFin, Piece.and, this, finOrEmpty]
      simp only [SSet.and, Un.andPiece, ha, g3, List.mapM_cons, List.mapM_nil, Piece.and, bind, Except.bind, pure, Except.pure]
      rcases hF with h | ⟨W', -, -, h⟩ <;> rw [h] <;> simp [finishAnd, SSet.isEmpty]

theorem ifInRange_fin {P : ℝ → Prop} {r0 : Res (SSet EReal)} {r F : SSet EReal} {y : EReal} (h0 : r0 = .ok r) (hr : GoodR r) (hF : FinOf P F) {k : Res (SSet EReal)}
    (hk : k = .ok F) : ∃ F, ifInRange r0 y k = .ok F ∧ FinOf P F := by
  obtain ⟨b, h1, -⟩ := contains_goodR hr y
  subst h0; subst hk
  cases b with
  | true => exact ⟨F, by simp [ifInRange, h1, bind, Except.bind], hF⟩
  | false => exact ⟨.empty, by simp [ifInRange, h1, bind, Except.bind], .inl rfl⟩

/-- One step of the inversion. -/
theorem Tr.val_step {c : Ctx} {t : Tr} (hu : t.Unary) {r : SSet EReal} {j : Ivl EReal} (h1 : t.range c = .ok r) (h2 : Rng r j) {P P' : ℝ → Prop}
    (hf : ∀ y : ℝ, P y → j.Mem y → ∃ F, t.finv c y = .ok F ∧ FinOf P' F) {S : SSet EReal} (hS : FinOf P S) :
    ∃ S', FinOf P' S' ∧ ((∀ n, t.invert c (n + 1) S = .ok .empty) ∨ ∀ n, t.invert c (n + 1) S = t.sub.invert c n S') := by
  obtain ⟨V, h3, h4⟩ := hS.range c.σ h2
  rcases h4 with rfl | ⟨W, g1, g2, rfl⟩
  · refine ⟨.empty, .inl rfl, .inl (fun n => ?_)⟩
    simp only [Tr.invert, h1, bind, Except.bind, h3]; rfl
  · obtain ⟨xs, h5, h6, h7⟩ := mapM_total (f := fun y => t.finv c y) (P := FinOf P') (l := c.iter W) (by
      intro y hy
      obtain ⟨x, rfl, a, b⟩ := g2 y ((c.mem_iter W y).1 hy)
      exact hf x a b)
    obtain ⟨w, hw⟩ := g1
    have hne : xs ≠ [] := by
      rintro rfl
      have := (c.mem_iter W w).2 hw
      rw [List.length_eq_zero_iff.1 h6.symm] at this; simp at this
    obtain ⟨U, h8, h9⟩ := reduceM_total (FinOf.or c.σ (P := P')) hne h7
    refine ⟨U, h9, .inr (fun n => ?_)⟩
    simp only [Tr.invert, h1, bind, Except.bind, h3]
    rw [Tr.invertStep_fin hu]
    simp only [h5, bind, Except.bind]
    have : makeUnion c.σ xs = .ok U := h8
    rw [this]

theorem Tr.Bends.invert {c : Ctx} (hc : c.Correct) (hl : c.Linear) {k : String} {t : Tr} (h : t.Bends k) :
    ∀ S : SSet EReal, FinOf (fun y => ¬ t.Zero y) S → ∃ N S', FinOf (fun _ => True) S' ∧ t.invert c N S = .ok S' := by
  have go : ∀ {t : Tr} {r : SSet EReal} {j : Ivl EReal}, t.Unary → t.range c = .ok r → Rng r j →
      (∀ y : ℝ, ¬ t.Zero y → j.Mem y → ∃ F, t.finv c y = .ok F ∧ FinOf (fun x => ¬ t.sub.Zero x) F) →
      (∀ S : SSet EReal, FinOf (fun y => ¬ t.sub.Zero y) S → ∃ N S', FinOf (fun _ => True) S' ∧ t.sub.invert c N S = .ok S') →
      ∀ S : SSet EReal, FinOf (fun y => ¬ t.Zero y) S → ∃ N S', FinOf (fun _ => True) S' ∧ t.invert c N S = .ok S' := by
    intro t r j hu h1 h2 hf ih S hS
    obtain ⟨S1, g1, g2 | g2⟩ := Tr.val_step hu h1 h2 hf hS
    · exact ⟨1, .empty, .inl rfl, g2 0⟩
    · obtain ⟨N, S', h3, h4⟩ := ih S1 g1
      exact ⟨N + 1, S', h3, by rw [g2]; exact h4⟩
  obtain ⟨rp, p1, p2⟩ := extRealsPos_rng c
  obtain ⟨re, e1, e2⟩ := extReals_rng c
  have gp := (extRealsPos_spec p1).1
  have nn : ∀ {y : ℝ}, (⟨0, ⊤, false, true⟩ : Ivl EReal).Mem y → 0 ≤ y := fun hy => by exact_mod_cast (pos_mem.1 hy).1
  induction h with
  | id =>
    intro S hS
    obtain ⟨V, h3, h4⟩ := hS.range c.σ e2
    refine ⟨1, V, h4.mono (by simp), ?_⟩
    simp only [Tr.invert, Tr.range, e1, bind, Except.bind, h3]
    rcases h4 with rfl | ⟨W, -, -, rfl⟩ <;> rfl
  | @radical t n ht hn ih =>
    refine go (t := .radical t n) trivial p1 p2 ?_ ih
    intro y hz hy
    rw [Tr.finv]
    refine ifInRange_fin p1 gp (F := .pc (.fin {((y ^ n : ℝ) : EReal)})) (.one fun h => hz (.radical (nn hy) h)) ?_
    rw [if_neg (EReal.coe_ne_top y), EReal.toReal_coe]
  | @exp t b ht hb ih =>
    refine go (t := .exp t b) trivial p1 p2 ?_ ih
    intro y hz hy
    have hy0 : 0 < y := lt_of_le_of_ne (nn hy) (fun h => hz (h ▸ .zero))
    rw [Tr.finv]
    refine ifInRange_fin p1 gp (F := .pc (.fin {((Real.logb b y : ℝ) : EReal)})) (.one fun h => hz (.exp hy0 h)) ?_
    rw [if_neg (EReal.coe_ne_top y), if_neg (by rw [not_le]; exact_mod_cast hy0), if_neg hb.ne', EReal.toReal_coe]
  | @log t b ht hb ih =>
    refine go (t := .log t b) trivial e1 e2 ?_ ih
    intro y hz hy
    rw [Tr.finv, ifInRange_ext, if_neg (EReal.coe_ne_top y), if_neg (EReal.coe_ne_bot y), EReal.toReal_coe]
    exact ⟨_, rfl, .one fun h => hz (.log h)⟩
  | @abs t ht ih =>
    refine go (t := .abs t) trivial p1 p2 ?_ ih
    intro y hz hy
    rw [Tr.finv]
    refine ifInRange_fin p1 gp (F := .pc (.fin {(y : EReal), -(y : EReal)})) (.inr ⟨_, by simp, ?_, rfl⟩) rfl
    intro w hw
    simp only [Finset.mem_insert, Finset.mem_singleton] at hw
    rcases hw with rfl | rfl
    · exact ⟨y, rfl, fun h => hz (.abs (nn hy) h)⟩
    · exact ⟨-y, by simp, fun h => hz (.abs_neg (nn hy) h)⟩
  | @poly t p q ht hq ih =>
    obtain ⟨r, h1, h2⟩ := hl.range p q hq
    obtain ⟨w, d, s, -⟩ := hc.range _ _ h1
    refine go (t := .poly t [p, q]) trivial h1 (allReals_rng h2) ?_ ih
    intro y hz hy
    rw [Tr.finv]
    unfold solvePolyEq
    refine ifInRange_fin h1 ⟨w, d, s⟩ (F := .pc (.fin {(((y - p) / q : ℝ) : EReal)})) (.one fun h => hz (.poly h)) ?_
    rw [if_neg (by simp), EReal.toReal_coe]
    exact hl.eq _ _ _ hq

theorem Tr.Bends.made {c : Ctx} {k : String} {t : Tr} (h : t.Bends k) : t.Made c := by
  induction h with
  | id => exact .id _
  | radical _ h ih => exact .radical ih h
  | exp _ h ih => exact .exp ih h
  | log _ h ih => exact .log ih h
  | abs _ ih => exact .abs ih
  | poly _ h ih => exact .poly ih (by simp)

theorem Tr.Bends.symbols {k : String} {t : Tr} (h : t.Bends k) : t.symbols = {k} := by
  induction h <;> simp_all [Tr.symbols]

theorem Ev.ValLit.made {c : Ctx} {k : String} {e : Ev} (h : e.ValLit k) : e.Made c := by
  obtain ⟨t, V, rfl, h1, h2, -⟩ := h
  exact .fin h1.made (by rintro s hs; cases hs; exact h2)

theorem Ev.ValLit.symbols {k : String} {e : Ev} (h : e.ValLit k) : e.symbols = {k} := by
  obtain ⟨t, V, rfl, h1, -⟩ := h
  simpa [Ev.symbols] using h1.symbols

theorem Ev.ValLit.solve {c : Ctx} (hc : c.Correct) (hl : c.Linear) {k : String} {e : Ev} (h : e.ValLit k) :
    ∃ N S, FinOf (fun _ => True) S ∧ e.solve c N = .ok S := by
  have hs := h.symbols
  obtain ⟨t, V, rfl, h1, h2, h3⟩ := h
  by_cases hid : ∃ x, t = .id x
  · obtain ⟨x, rfl⟩ := hid
    exact ⟨0, _, .inr ⟨V, h2, fun v hv => by obtain ⟨y, a, -⟩ := h3 v hv; exact ⟨y, a, trivial⟩, rfl⟩, rfl⟩
  · obtain ⟨M, S, g1, g2⟩ := h1.invert hc hl (.pc (.fin V)) (.inr ⟨V, h2, h3, rfl⟩)
    obtain ⟨xs, h4, h5⟩ := iterUnion_one (c := c) (y := 1) (f := fun y => Ev.finvReal c (.pc (.fin V)) y) (X := .pc (.fin V)) (by simp [Ev.finvReal]) (by simp [SSet.or, Piece.or])
    refine ⟨M + 1, S, g1, ?_⟩
    unfold Ev.solve
    split
    · simp_all
    · exact absurd ⟨_, by injection ‹Ev.fin _ _ = Ev.fin _ _›⟩ hid
    · simp_all
    · rw [if_neg (by rw [hs]; simp), Ev.invert]
      simp only [bool_and_one, bind, Except.bind, Ev.invertFinite, optFin, h4, h5]
      exact g2

end Sppl
