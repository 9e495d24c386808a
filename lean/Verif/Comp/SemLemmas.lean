import Verif.Comp.ExprLemmas
import Verif.Interp.Lemmas

set_option linter.all false

/-!
# Lemmas on the meaning of branches
-/

namespace Sppl
open Classical MeasureTheory
open scoped ENNReal ProbabilityTheory

section
variable {H : PyHost} {c : Ctx} {ρ : NS} {L : Lib} {μ : Dist → Measure ℝ}

theorem choice_ae {m : Measure Asg} {A B : Set Asg} (h : ∀ᵐ ω ∂m, ω ∈ A ↔ ω ∈ B) (f g : Measure Asg → Measure Asg) : choice m A f g = choice m B f g := by
  have h' : A =ᵐ[m] B := by filter_upwards [h] with ω hω; exact propext hω
  have h2 : ∀ᵐ ω ∂m, ω ∈ Aᶜ ↔ ω ∈ Bᶜ := by filter_upwards [h] with ω hω; simp [hω]
  have h2' : m Aᶜ = m Bᶜ := measure_congr (by filter_upwards [h2] with ω hω; exact propext hω)
  simp only [choice]
  rw [cond_ae h, cond_ae h2, measure_congr h', h2']

theorem choice_congr {m : Measure Asg} {A : Set Asg} {f g f' g' : Measure Asg → Measure Asg} (h1 : f (m[|A]) = f' (m[|A])) (h2 : m Aᶜ ≠ 0 → g (m[|Aᶜ]) = g' (m[|Aᶜ])) :
    choice m A f g = choice m A f' g' := by
  simp only [choice]
  rw [h1]
  by_cases h0 : m Aᶜ = 0
  · simp [h0]
  · rw [h2 h0]

/-- Branches, one inside the other. -/
noncomputable def nest : List (Set Asg × (Measure Asg → Measure Asg)) → Measure Asg → Measure Asg
  | [], _ => 0
  | p :: ps, m => choice m p.1 p.2 (nest ps)

theorem branches_nest_aux (ps : List (Set Asg × (Measure Asg → Measure Asg))) (hE : ∀ p ∈ ps, MeasurableSet p.1) : ∀ (m : Measure Asg) [IsFiniteMeasure m] (S : Set Asg), MeasurableSet S →
    branches m (firsts S (ps.map Prod.fst)) (ps.map Prod.snd) = m Sᶜ • nest ps (m[|Sᶜ]) := by
  induction ps with
  | nil => intro m _ S hS; simp [branches, firsts, nest]
  | cons p ps ih =>
    intro m _ S hS
    have hp := hE p (by simp)
    have := ih (fun q hq => hE q (by simp [hq])) m (S ∪ p.1) (hS.union hp)
    simp only [branches] at this
    simp only [List.map_cons, firsts, branches, List.zipWith_cons_cons, List.sum_cons, this, nest, choice, smul_add, smul_smul]
    rw [ProbabilityTheory.cond_cond_eq_cond_inter hS.compl hp, ProbabilityTheory.cond_cond_eq_cond_inter hS.compl hp.compl, mul_comm (m Sᶜ) _, mul_comm (m Sᶜ) _,
      ProbabilityTheory.cond_mul_eq_inter hS.compl, ProbabilityTheory.cond_mul_eq_inter hS.compl]
    have e1 : p.1 \ S = Sᶜ ∩ p.1 := by ext; simp [and_comm]
    have e2 : (S ∪ p.1)ᶜ = Sᶜ ∩ p.1ᶜ := by ext; simp
    rw [e1, e2]

/-- `IfElse` is nested choices. -/
theorem branches_nest {ps : List (Set Asg × (Measure Asg → Measure Asg))} (hE : ∀ p ∈ ps, MeasurableSet p.1) (m : Measure Asg) [IsFiniteMeasure m] :
    branches m (firsts ∅ (ps.map Prod.fst)) (ps.map Prod.snd) = nest ps m := by
  cases ps with
  | nil => simp [branches, firsts, nest]
  | cons p ps =>
    have := branches_nest_aux ps (fun q hq => hE q (by simp [hq])) m p.1 (hE p (by simp))
    simp only [branches] at this
    simp only [List.map_cons, firsts, branches, List.zipWith_cons_cons, List.sum_cons, nest, choice, Set.empty_union, Set.diff_empty, this]

theorem choice_univ {m : Measure Asg} [IsProbabilityMeasure m] (f g : Measure Asg → Measure Asg) : choice m Set.univ f g = f m := by
  simp [choice]

/-! ## Finite measures -/

theorem choice_finite {m : Measure Asg} [IsFiniteMeasure m] {A : Set Asg} {f g : Measure Asg → Measure Asg} (h1 : IsFiniteMeasure (f (m[|A]))) (h2 : IsFiniteMeasure (g (m[|Aᶜ]))) :
    IsFiniteMeasure (choice m A f g) := by
  unfold choice
  have := Measure.smul_finite (f (m[|A])) (measure_ne_top m A)
  have := Measure.smul_finite (g (m[|Aᶜ])) (measure_ne_top m Aᶜ)
  infer_instance

theorem sum_finite {ms : List (Measure Asg)} (h : ∀ m ∈ ms, IsFiniteMeasure m) : IsFiniteMeasure ms.sum := by
  induction ms with
  | nil => simp only [List.sum_nil]; infer_instance
  | cons m ms ih =>
    have := h m (by simp)
    have := ih (fun m hm => h m (by simp [hm]))
    simp only [List.sum_cons]; infer_instance

theorem zipWith_finite {α β : Type} {f : α → β → Measure Asg} {as : List α} {bs : List β} (h : ∀ (k : ℕ) a b, as[k]? = some a → bs[k]? = some b → IsFiniteMeasure (f a b)) :
    IsFiniteMeasure (List.zipWith f as bs).sum := by
  refine sum_finite fun m hm => ?_
  obtain ⟨k, hk⟩ := List.mem_iff_getElem?.1 hm
  rw [List.getElem?_zipWith] at hk
  cases ha : as[k]? with
  | none => simp [ha] at hk
  | some a =>
    cases hb : bs[k]? with
    | none => simp [ha, hb] at hk
    | some b => simp [ha, hb] at hk; subst hk; exact h k a b ha hb

theorem distr_finite {d : Distr} (hd : d.WF L μ) (X : String) : IsFiniteMeasure (d.law μ X) := by
  cases hd with
  | nominal => exact mixture_finite (by intro m hm; simp at hm; obtain ⟨_, _, _, rfl⟩ := hm; infer_instance)
  | real _ h1 => have := h1.prob; simp only [Distr.law]; infer_instance

theorem source_finite {d : Source} (hd : d.WF L μ) (X : String) : IsFiniteMeasure (d.law μ X) := by
  cases hd with
  | one h => exact distr_finite h X
  | mix h _ =>
    refine mixture_finite fun m hm => ?_
    simp at hm
    obtain ⟨d, hd, rfl⟩ := hm
    exact distr_finite (h d hd) X

theorem withIndep_finite {X : String} {ν m : Measure Asg} [IsFiniteMeasure ν] [IsFiniteMeasure m] : IsFiniteMeasure (withIndep X ν m) := by
  unfold withIndep; infer_instance

/-- Not a conditional expression. -/
def PE.isIf : PE → Bool
  | .ifexp _ _ _ => true
  | _ => false

/-- `array(...)`. -/
def PE.isArray : PE → Bool
  | .call "array" _ => true
  | _ => false

theorem assignSem_leaf {target : Target} {e : PE} (h1 : e.isIf = false) (h2 : e.isArray = false) (m : Measure Asg) : assignSem H c ρ μ target e m =
    match target.var H c ρ, e.eval H c ρ with
    | some X, .ok (.dist d) => withIndep X (d.law μ X) m
    | some X, .ok (.tr t) => m.map (withVar X t)
    | _, _ => m := by
  unfold assignSem
  split
  · simp [PE.isIf] at h1
  · simp [PE.isArray] at h2
  · rfl

theorem assignSem_array {target : Target} {e : PE} (h2 : e.isArray = true) (m : Measure Asg) : assignSem H c ρ μ target e m = m := by
  unfold PE.isArray at h2
  split at h2
  · simp only [assignSem]
  · cases h2

theorem assignSafe_leaf {e : PE} (h1 : e.isIf = false) (m : Measure Asg) : AssignSafe H c L μ ρ e m ↔ e.NoEq ∧ ∀ d, e.eval H c ρ = .ok (.dist d) → d.WF L μ := by
  unfold AssignSafe
  split
  · simp [PE.isIf] at h1
  · rfl

theorem assign_finite (target : Target) : ∀ (e : PE) (m : Measure Asg) [IsFiniteMeasure m], AssignSafe H c L μ ρ e m → IsFiniteMeasure (assignSem H c ρ μ target e m)
  | .ifexp t a b, m, hm, h => by
    simp only [AssignSafe] at h
    simp only [assignSem]
    exact choice_finite (assign_finite target a _ h.2.1) (assign_finite target b _ h.2.2)
  | e, m, hm, h => by
    by_cases h1 : e.isIf = true
    · cases e <;> simp [PE.isIf] at h1
      simp only [AssignSafe] at h
      simp only [assignSem]
      rename_i t a b
      exact choice_finite (assign_finite target a _ h.2.1) (assign_finite target b _ h.2.2)
    · by_cases h2 : e.isArray = true
      · rw [assignSem_array h2]; exact hm
      · rw [assignSem_leaf (by simpa using h1) (by simpa using h2)]
        rw [assignSafe_leaf (by simpa using h1)] at h
        split
        · rename_i d _ hd
          have := source_finite (h.2 d hd)
          exact withIndep_finite
        · infer_instance
        · exact hm

mutual
theorem Stmt.sem_finite : ∀ (s : Stmt) (ρ : NS) (m : Measure Asg) [IsFiniteMeasure m], s.Safe H c L μ ρ m → IsFiniteMeasure (s.sem H c μ ρ m)
  | .assign target e, ρ, m, _, h => by
    simp only [Stmt.Safe] at h
    simp only [Stmt.sem]
    exact assign_finite target e m h
  | .ifs t b o, ρ, m, _, h => by
    simp only [Stmt.Safe] at h
    simp only [Stmt.sem]
    exact choice_finite (Stmt.semL_finite b ρ _ h.2.1) (Stmt.semL_finite o ρ _ h.2.2.1)
  | .forr x n0 n1 body, ρ, m, hm, h => by
    simp only [Stmt.Safe] at h
    simp only [Stmt.sem]
    split
    · rename_i a b ha hb
      have key : ∀ k : ℕ, k ≤ (b - a).toNat → IsFiniteMeasure ((List.range k).foldl (fun m (k : ℕ) => Stmt.semL H c μ (ρ.bind x (.int (a + (k : ℤ)))) body m) m) := by
        intro k
        induction k with
        | zero => intro _; simpa using hm
        | succ k ih =>
          intro hk
          have := ih (by omega)
          rw [List.range_succ, List.foldl_append]
          exact Stmt.semL_finite body _ _ (h a b ha hb k (by omega))
      exact key _ le_rfl
    · exact hm
  | .switch i x sym vals body, ρ, m, hm, h => by
    simp only [Stmt.Safe] at h
    simp only [Stmt.sem]
    split
    · rename_i t vs ht hvs
      unfold branches
      refine zipWith_finite fun k E f hE hf => ?_
      rw [List.getElem?_map] at hf
      cases hv : vs[k]? with
      | none => simp [hv] at hf
      | some v =>
        simp [hv] at hf; subst hf
        have := Stmt.semL_finite body _ _ (h t vs ht hvs k v hv E hE)
        exact Measure.smul_finite _ (measure_ne_top m E)
    · exact hm
  | .condition e, ρ, m, _, h => by simp only [Stmt.sem]; infer_instance
  | .constrain _, ρ, m, _, h => by simp only [Stmt.sem]; infer_instance
  | .call _ _, ρ, m, hm, h => by simp only [Stmt.sem]; exact hm
  | .other _, ρ, m, hm, h => by simp only [Stmt.sem]; exact hm
  | .pass, ρ, m, hm, h => by simp only [Stmt.sem]; exact hm
theorem Stmt.semL_finite : ∀ (ss : List Stmt) (ρ : NS) (m : Measure Asg) [IsFiniteMeasure m], Stmt.SafeL H c L μ ρ ss m → IsFiniteMeasure (Stmt.semL H c μ ρ ss m)
  | [], ρ, m, hm, _ => by simp only [Stmt.semL]; exact hm
  | s :: ss, ρ, m, _, h => by
    simp only [Stmt.SafeL] at h
    simp only [Stmt.semL]
    have := Stmt.sem_finite s ρ m h.1
    exact Stmt.semL_finite ss ρ _ h.2
end

end

end Sppl
