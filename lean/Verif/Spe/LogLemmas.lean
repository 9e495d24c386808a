import Verif.Spe.LogModel
import Verif.Misc.LogProps
import Verif.Util.ExceptLemmas

set_option linter.all false

/-!
# The log-space model refines the model with probabilities (helper lemmas)
-/

namespace Sppl
open Classical
open scoped ENNReal

/-- `numpy.allclose` without tolerance. -/
noncomputable def exactClose : CloseTest := fun b a => decide (b = a)

/-- A test for closeness that accepts equal numbers. -/
structure CloseOK (cl : CloseTest) : Prop where
  refl : ∀ a, cl a a = true

/-- The result `x` of a computation with logarithms agrees with the result `r` of the computation with probabilities: it returns a related
value when `r` does; when `r` raises, so does it, unless closeness is not exact equality. -/
def Ref {α β : Type} (cl : CloseTest) (R : α → β → Prop) (r : Res α) (x : Res β) : Prop :=
  match r with
  | .ok a => ∃ b, x = .ok b ∧ R a b
  | .error e => cl = exactClose → x = .error e

/-- A probability (or density) and its logarithm. -/
def RP (p : ℝ) (f : Flt) : Prop := 0 ≤ p ∧ f = some (wlog p)

theorem Ref.ok {α β} {cl} {R : α → β → Prop} {a : α} {b : β} (h : R a b) : Ref cl R (.ok a) (.ok b) := ⟨b, rfl, h⟩

theorem Ref.err {α β} {cl} {R : α → β → Prop} {e : Err} : Ref cl R (.error e : Res α) (.error e : Res β) := fun _ => rfl

theorem Ref.bind {α β α' β'} {cl} {R : α → β → Prop} {S : α' → β' → Prop} {r : Res α} {x : Res β} {f : α → Res α'} {g : β → Res β'}
    (h : Ref cl R r x) (hf : ∀ a b, R a b → Ref cl S (f a) (g b)) : Ref cl S (r >>= f) (x >>= g) := by
  cases r with
  | ok a =>
    obtain ⟨b, rfl, hR⟩ := h
    exact hf a b hR
  | error e =>
    intro hc
    have := h hc
    subst this
    rfl

theorem Ref.same {α α' β'} {cl} {S : α' → β' → Prop} {r : Res α} {f : α → Res α'} {g : α → Res β'}
    (hf : ∀ a, r = .ok a → Ref cl S (f a) (g a)) : Ref cl S (r >>= f) (r >>= g) := by
  cases r with
  | ok a => exact hf a rfl
  | error e => intro _; rfl

theorem Ref.mapM {α β β'} {cl} {S : β → β' → Prop} {f : α → Res β} {g : α → Res β'} :
    ∀ {l : List α}, (∀ a ∈ l, Ref cl S (f a) (g a)) → Ref cl (List.Forall₂ S) (l.mapM f) (l.mapM g)
  | [], _ => ⟨[], rfl, .nil⟩
  | a :: l, h => by
    rw [List.mapM_cons, List.mapM_cons]
    refine Ref.bind (h a (by simp)) (fun b b' hb => ?_)
    refine Ref.bind (Ref.mapM (fun x hx => h x (by simp [hx]))) (fun bs bs' hbs => ?_)
    exact ⟨_, rfl, .cons hb hbs⟩

/-- Lists of probabilities and of their logarithms. -/
def RL (ps : List ℝ) (fs : List Flt) : Prop := (∀ p ∈ ps, 0 ≤ p) ∧ fs = ps.map (fun p => some (wlog p))

theorem RL_of {ps fs} (h : List.Forall₂ RP ps fs) : RL ps fs := by
  induction h with
  | nil => exact ⟨by simp, rfl⟩
  | cons h _ ih =>
    refine ⟨?_, ?_⟩
    · intro p hp
      rcases List.mem_cons.1 hp with rfl | hp
      · exact h.1
      · exact ih.1 p hp
    · rw [ih.2, h.2]; rfl

/-! ## Numbers -/

theorem wlog_eq_bot {p : ℝ} : wlog p = ⊥ ↔ p ≤ 0 := by simp [wlog]

theorem wlog_ne_top (p : ℝ) : wlog p ≠ ⊤ := by rw [wlog, Ne, ENNReal.log_eq_top_iff]; exact ENNReal.ofReal_ne_top

theorem wlog_zero : wlog 0 = ⊥ := by simp [wlog]

theorem wlog_one : wlog 1 = 0 := by simp [wlog]

theorem wexp_wlog {p : ℝ} (h : 0 ≤ p) : wexp (wlog p) = p := by rw [wexp, wlog, ENNReal.exp_log, ENNReal.toReal_ofReal h]

theorem wlog_mul {p q : ℝ} (hp : 0 ≤ p) : wlog (p * q) = wlog p + wlog q := by
  rw [wlog, ENNReal.ofReal_mul hp, ENNReal.log_mul_add]; rfl

theorem wlog_inj {p q : ℝ} (hp : 0 ≤ p) (hq : 0 ≤ q) (h : wlog p = wlog q) : p = q := by
  rw [← wexp_wlog hp, h, wexp_wlog hq]

theorem fadd_wlog {p q : ℝ} (hp : 0 ≤ p) : fadd (some (wlog p)) (some (wlog q)) = some (wlog (p * q)) := by
  simp only [fadd]
  rw [if_neg (by simp [wlog_ne_top]), wlog_mul hp]

theorem fnull_wlog {p : ℝ} (hp : 0 ≤ p) : fnull (some (wlog p)) = decide (p = 0) := by
  simp only [fnull, Option.some.injEq, wlog_eq_bot]
  rw [decide_eq_decide]
  exact ⟨fun h => le_antisymm h hp, fun h => h.le⟩

theorem fminus_wlog {p q : ℝ} (hp : 0 ≤ p) (hq : 0 < q) : fminus (some (wlog p)) (some (wlog q)) = some (wlog (p / q)) := by
  simp only [fminus, fsub]
  have hb : wlog q ≠ ⊥ := by rw [Ne, wlog_eq_bot, not_le]; exact hq
  rw [if_neg]
  · congr 1
    have h1 : wlog p = wlog (p / q) + wlog q := by rw [← wlog_mul (by positivity), div_mul_cancel₀ _ hq.ne']
    rw [h1]
    obtain ⟨y, hy⟩ : ∃ y : ℝ, wlog q = y := ⟨(wlog q).toReal, (EReal.coe_toReal (wlog_ne_top q) hb).symm⟩
    rw [hy]
    rcases eq_or_ne (wlog (p / q)) ⊥ with h2 | h2
    · rw [h2]; simp
    · obtain ⟨x, hx⟩ : ∃ x : ℝ, wlog (p / q) = x := ⟨(wlog (p / q)).toReal, (EReal.coe_toReal (wlog_ne_top _) h2).symm⟩
      rw [hx, ← EReal.coe_add, ← EReal.coe_sub]; simp
  · rintro ⟨h1, h2 | h2⟩
    · exact hb (h1 ▸ h2)
    · exact wlog_ne_top _ h2

theorem fminus_bot {p : ℝ} : fminus (some (wlog 0)) (some (wlog 0)) = none := by simp [fminus, fsub, wlog_zero]

theorem mapM_id_some {α β} (f : α → β) : ∀ l : List α, (l.map (fun a => some (f a))).mapM id = some (l.map f)
  | [] => rfl
  | a :: l => by simp [List.mapM_cons, mapM_id_some f l]

theorem flse_wlog {ps : List ℝ} (h : ∀ p ∈ ps, 0 ≤ p) : flse (ps.map (fun p => some (wlog p))) = some (wlog ps.sum) := by
  rw [flse, mapM_id_some, Option.map_some]
  congr 1
  rw [logsumexp, List.map_map, wlog]
  congr 1
  induction ps with
  | nil => simp
  | cons p ps ih =>
    simp only [List.map_cons, List.sum_cons, Function.comp]
    rw [ENNReal.ofReal_add (h p (by simp)) (List.sum_nonneg (fun q hq => h q (by simp [hq]))), ih (fun q hq => h q (by simp [hq])), wlog, ENNReal.exp_log]

theorem RL.flse {ps fs} (h : RL ps fs) : Sppl.flse fs = some (wlog ps.sum) := by rw [h.2, flse_wlog h.1]

theorem fdiff_ref {cl} (hcl : CloseOK cl) {p q : ℝ} {f g : Flt} (hp : RP p f) (hq : RP q g) : Ref cl RP (pdiff p q) (fdiff cl f g) := by
  obtain ⟨hp, rfl⟩ := hp
  obtain ⟨hq, rfl⟩ := hq
  unfold pdiff
  simp only [fdiff]
  have hlt : wlog q < wlog p ↔ q < p := by
    rw [wlog, wlog, ENNReal.log_lt_log_iff]
    by_cases h : 0 < p
    · rw [ENNReal.ofReal_lt_ofReal_iff h]
    · have : p = 0 := le_antisymm (not_lt.1 h) hp
      subst this
      simp [hq]
  by_cases h : q < p
  · rw [if_pos h, if_pos (hlt.2 h)]
    refine ⟨_, rfl, by linarith, ?_⟩
    have h2 := C38_logdiffexp (p := .ofReal p) (q := .ofReal q) (ENNReal.ofReal_le_ofReal h.le) ENNReal.ofReal_ne_top
    rw [logdiffexp, if_pos (by have := hlt.2 h; simpa only [wlog] using this)] at h2
    rw [wlog, wlog, wlog, ENNReal.ofReal_sub _ hq]
    exact Except.ok.inj h2
  · rw [if_neg h, if_neg (fun h' => h (hlt.1 h'))]
    by_cases h2 : q = p
    · subst h2
      rw [if_pos rfl, hcl.refl, if_pos rfl]
      exact ⟨_, rfl, le_rfl, by rw [wlog_zero]⟩
    · rw [if_neg h2]
      intro hc
      subst hc
      rw [if_neg]
      simp only [exactClose, decide_eq_true_eq]
      exact fun h3 => h2 (wlog_inj hq hp h3)

theorem ftotal_wlog {ps : List ℝ} (h : ∀ p ∈ ps, 0 ≤ p) : ftotal (ps.map (fun p => some (wlog p))) = some (wlog ps.prod) := by
  have key : ∀ (ps : List ℝ) (x : ℝ), 0 ≤ x → (∀ p ∈ ps, 0 ≤ p) → (ps.map (fun p => some (wlog p))).foldl fadd (some (wlog x)) = some (wlog (x * ps.prod)) := by
    intro ps
    induction ps with
    | nil => intro x hx _; simp
    | cons p ps ih =>
      intro x hx h
      simp only [List.map_cons, List.foldl_cons, List.prod_cons]
      rw [fadd_wlog hx, ih _ (mul_nonneg hx (h p (by simp))) (fun q hq => h q (by simp [hq])), mul_assoc]
  have := key ps 1 zero_le_one h
  rwa [wlog_one, one_mul] at this

theorem fnorm_wlog {ps : List ℝ} (h : ∀ p ∈ ps, 0 ≤ p) (hs : ps.sum ≠ 0) : RL (pnorm ps) (fnorm (ps.map (fun p => some (wlog p)))) := by
  have h0 : 0 ≤ ps.sum := List.sum_nonneg h
  have h1 : 0 < ps.sum := lt_of_le_of_ne h0 hs.symm
  refine ⟨?_, ?_⟩
  · intro p hp
    simp only [pnorm, List.mem_map] at hp
    obtain ⟨a, ha, rfl⟩ := hp
    exact div_nonneg (h a ha) h0
  · rw [fnorm, flse_wlog h, pnorm, List.map_map, List.map_map]
    apply List.map_congr_left
    intro a ha
    exact fminus_wlog (h a ha) h1

theorem filter_null {α : Type} (l : List α) (ps : List ℝ) (h : ∀ p ∈ ps, 0 ≤ p) :
    (l.zip (ps.map (fun p => some (wlog p)))).filter (fun q => !fnull q.2) =
      ((l.zip ps).filter (fun q => q.2 ≠ 0)).map (fun q => (q.1, some (wlog q.2))) := by
  induction l generalizing ps with
  | nil => simp
  | cons a l ih =>
    cases ps with
    | nil => simp
    | cons p ps =>
      simp only [List.map_cons, List.zip_cons_cons, List.filter_cons, fnull_wlog (h p (by simp))]
      have := ih ps (fun q hq => h q (by simp [hq]))
      by_cases h0 : p = 0
      · simpa [h0] using this
      · simpa [h0] using this

end Sppl
