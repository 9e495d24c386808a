import Verif.Events.ChainSpec
import Verif.Events.FuelLemmas
import Verif.Events.InvertLemmas

set_option linter.all false

/-!
# Inverting increasing and decreasing expressions never raises (helper lemmas)
-/

namespace Sppl
open Classical

/-- A set of real numbers, described by one interval, and infinities. -/
def Rng (r : SSet EReal) (j : Ivl EReal) : Prop :=
  r = .pc (.ivl j) ∨ ∃ u, r = .un u ∧ u.nominals = none ∧ (∀ s, u.atoms = some s → s ⊆ {⊥, ⊤}) ∧ u.intervals = [j]

theorem ivls_one (σ : Orders EReal) (j : Ivl EReal) : σ.ivls [j] = [j] := by
  have := σ.ivls_perm [j]
  simpa using this

theorem mkUnion_finIvl (σ : Orders EReal) (s : Finset EReal) (j : Ivl EReal) : ∃ u, mkUnion σ [.pc (.fin s), .pc (.ivl j)] = .ok (.un u) ∧
    u.nominals = none ∧ u.atoms = some s ∧ u.intervals = [j] := by
  have e0 : ([SSet.pc (Piece.fin s), SSet.pc (.ivl j)] : List (SSet EReal)).filterMap SSet.piece? = [.fin s, .ivl j] := rfl
  have e1 : ([Piece.fin s, .ivl j] : List (Piece EReal)).filterMap Piece.nom? = [] := rfl
  have e2 : ([Piece.fin s, .ivl j] : List (Piece EReal)).filterMap Piece.fin? = [s] := rfl
  have e3 : ([Piece.fin s, .ivl j] : List (Piece EReal)).filterMap Piece.ivl? = [j] := rfl
  have hp := (σ.vals_perm [Piece.fin s, .ivl j]).length_eq
  have hd : ([Piece.fin s, .ivl j] : List (Piece EReal)).dedup = [Piece.fin s, .ivl j] := by
    rw [List.dedup_eq_self]; simp
  rw [hd] at hp
  simp at hp
  unfold mkUnion
  simp only [e0, e1, e2, e3, ivls_one]
  rw [if_neg (by simp [SSet.isUnion]), if_neg (by simp), if_neg (by simp), if_neg (by simp)]
  simp only [List.map_nil, List.nil_append, List.map_cons, List.singleton_append, hp]
  exact ⟨_, rfl, rfl, rfl, rfl⟩

theorem mkUnion_rng (σ : Orders EReal) {s : Finset EReal} (hs : s ⊆ {⊥, ⊤}) (j : Ivl EReal) : ∃ r, mkUnion σ [.pc (.fin s), .pc (.ivl j)] = .ok r ∧ Rng r j := by
  obtain ⟨u, h1, h2, h3, h4⟩ := mkUnion_finIvl σ s j
  exact ⟨_, h1, .inr ⟨u, rfl, h2, by simp [h3, hs], h4⟩⟩

theorem extReals_rng (c : Ctx) : ∃ r, extReals c = .ok r ∧ Rng r ⟨⊥, ⊤, true, true⟩ := mkUnion_rng c.σ (by simp) _

theorem extRealsPos_rng (c : Ctx) : ∃ r, extRealsPos c = .ok r ∧ Rng r ⟨0, ⊤, false, true⟩ := by
  have e : mkIvl (0 : EReal) ⊤ false false = .ok ⟨0, ⊤, false, true⟩ := by simp [mkIvl]
  obtain ⟨r, h1, h2⟩ := mkUnion_rng c.σ (s := {⊤}) (by simp) ⟨0, ⊤, false, true⟩
  exact ⟨r, by simp only [extRealsPos, e, bind, Except.bind]; exact h1, h2⟩

theorem allReals_rng {r : SSet EReal} (h : AllReals r) : Rng r ⟨⊥, ⊤, true, true⟩ := h

/-- An interval of proper numbers has no infinite members. -/
theorem Ivl.WF.inf {i : Ivl EReal} (hi : i.WF) {x : EReal} (hx : x ∈ ({⊥, ⊤} : Finset EReal)) : i.has x = false := by
  rw [Bool.eq_false_iff]
  intro h
  have h := (Ivl.has_iff _ _).1 h
  simp only [Finset.mem_insert, Finset.mem_singleton] at hx
  unfold Ivl.Mem at h
  rcases hx with rfl | rfl
  · by_cases hl : i.lo = true
    · rw [if_pos hl] at h; exact not_lt_bot h.1
    · rw [if_neg hl] at h; exact hl (hi.2.1 (le_bot_iff.1 h.1))
  · by_cases hl : i.ro = true
    · rw [if_pos hl] at h; exact not_top_lt h.2
    · rw [if_neg hl] at h; exact hl (hi.2.2 (top_le_iff.1 h.2))

theorem rng_and_ivl (σ : Orders EReal) {r : SSet EReal} {j i : Ivl EReal} (h : Rng r j) (hj : j.WF) (hi : i.WF) : SSet.and σ r (.pc (.ivl i)) = Ivl.and j i := by
  rcases h with rfl | ⟨u, rfl, h1, h2, h3⟩
  · rfl
  · obtain ⟨S, hS, -⟩ := Ivl.and_spec j i hj hi
    have ha : andOptFin u.atoms (.ivl i) = .ok .empty := by
      cases hu : u.atoms with
      | none => rfl
      | some s =>
        have : s.filter (fun v => i.has v) = ∅ := by
          rw [Finset.filter_eq_empty_iff]
          intro x hx
          rw [hi.inf (h2 s hu hx)]; simp
        simp [andOptFin, Piece.and, finOrEmpty, this]
    simp only [SSet.and, Un.andPiece, ha, h3, List.mapM_cons, List.mapM_nil, Piece.and, hS, bind, Except.bind, pure, Except.pure]
    cases S <;> simp [SSet.isEmpty, finishAnd]

theorem finOrEmpty_one {y : EReal} {s : Finset EReal} (h : s ⊆ {y}) : (finOrEmpty s).Flat := by
  rcases Finset.subset_singleton_iff.1 h with rfl | rfl
  · simp [finOrEmpty, SSet.Flat.empty]
  · simp [finOrEmpty, SSet.Flat.one]

/-- The intersection with a flat set is flat, and its members belong to the interval unless infinite. -/
theorem rng_and_flat (σ : Orders EReal) {r : SSet EReal} {j : Ivl EReal} (h : Rng r j) (hj : j.WF) {V : SSet EReal} (hV : V.Flat) :
    ∃ V1, SSet.and σ r V = .ok V1 ∧ V1.Flat ∧ ∀ i, V1 = .pc (.ivl i) → ∀ z, i.Mem z → j.Mem z := by
  cases hV with
  | empty =>
    refine ⟨.empty, ?_, .empty, by simp⟩
    rcases h with rfl | ⟨u, rfl, -⟩ <;> rfl
  | @ivl i hi =>
    obtain ⟨S, hS, w, -, -, h5⟩ := Ivl.and_spec j i hj hi
    refine ⟨S, by rw [rng_and_ivl σ h hj hi]; exact hS, ?_, ?_⟩
    · cases S with
      | empty => exact .empty
      | un u => exact absurd hS (Ivl.and_ne_un j i u)
      | pc p =>
        cases p with
        | nom n => simp [Ivl.and] at hS; split_ifs at hS <;> simp [bind, Except.bind] at hS <;> (try split at hS) <;> simp at hS
        | ivl k => exact .ivl w
        | fin s =>
          have : ∃ z, s = {z} := by
            unfold Ivl.and at hS
            split_ifs at hS <;> simp [bind, Except.bind] at hS <;> first | exact ⟨_, hS.symm⟩ | (split at hS <;> simp at hS) | skip
          obtain ⟨z, rfl⟩ := this
          exact .one
    · rintro k rfl z hz
      exact ((h5 z).1 (by simpa using hz)).1
  | @one y =>
    have hpa : ∃ S, Piece.and (.ivl j) (.fin {y}) = .ok S ∧ S.Flat ∧ ∀ i, S ≠ .pc (.ivl i) :=
      ⟨_, rfl, finOrEmpty_one (Finset.filter_subset _ _), by intro i; unfold finOrEmpty; split <;> simp⟩
    obtain ⟨S, h1, h2, h3⟩ := hpa
    rcases h with rfl | ⟨u, rfl, g1, g2, g3⟩
    · exact ⟨S, h1, h2, fun i hi => absurd hi (h3 i)⟩
    · have ha : ∃ A, andOptFin u.atoms (.fin {y}) = .ok A ∧ A.Flat ∧ (∀ i, A ≠ .pc (.ivl i)) ∧ (A.isEmpty = true ∨ S.isEmpty = true) := by
        cases hu : u.atoms with
        | none => exact ⟨_, rfl, .empty, by simp, .inl rfl⟩
        | some s =>
          refine ⟨_, rfl, finOrEmpty_one Finset.inter_subset_right, by intro i; unfold finOrEmpty; split <;> simp, ?_⟩
          by_cases hy : y ∈ s
          · right
            have : ({y} : Finset EReal).filter (fun v => j.has v) = ∅ := by
              rw [Finset.filter_eq_empty_iff]
              intro x hx
              rw [Finset.mem_singleton.1 hx, hj.inf (g2 s hu hy)]; simp
            simp only [Piece.and, this, finOrEmpty, if_true, Except.ok.injEq] at h1
            rw [← h1]; rfl
          · left
            rw [Finset.inter_singleton_of_notMem hy]; simp [finOrEmpty, SSet.isEmpty]
      obtain ⟨A, a1, a2, a3, a4⟩ := ha
      simp only [SSet.and, Un.andPiece, a1, g3, List.mapM_cons, List.mapM_nil, h1, bind, Except.bind, pure, Except.pure]
      cases hA : A.isEmpty with
      | true =>
        have : A = .empty := by cases A <;> simp_all [SSet.isEmpty]
        subst this
        cases hS : S.isEmpty with
        | true =>
          have : S = .empty := by cases S <;> simp_all [SSet.isEmpty]
          subst this
          exact ⟨.empty, by simp [finishAnd, SSet.isEmpty], .empty, by simp⟩
        | false => exact ⟨S, by simp [finishAnd, hS], h2, fun i hi => absurd hi (h3 i)⟩
      | false =>
        have hS : S = .empty := by
          rcases a4 with h | h
          · simp [hA] at h
          · cases S <;> simp_all [SSet.isEmpty]
        subst hS
        refine ⟨A, ?_, a2, fun i hi => absurd hi (a3 i)⟩
        cases A <;> simp_all [finishAnd, SSet.isEmpty]

/-- A set from `Ivl.and` with two members is an interval. -/
theorem Ivl.and_two {i j : Ivl EReal} (hi : i.WF) (hj : j.WF) {x y : ℝ} (hxy : x < y) (h1 : i.Mem x ∧ j.Mem x) (h2 : i.Mem y ∧ j.Mem y) :
    ∃ k : Ivl EReal, Ivl.and i j = .ok (.pc (.ivl k)) ∧ k.WF ∧ ∀ z, k.Mem z ↔ i.Mem z ∧ j.Mem z := by
  obtain ⟨r, hr, w, h3, h4, h5⟩ := Ivl.and_spec i j hi hj
  have e1 := (h5 x).2 h1
  have e2 := (h5 y).2 h2
  cases r with
  | empty => simp at e1
  | un u => exact absurd hr (Ivl.and_ne_un i j u)
  | pc p =>
    cases p with
    | nom n => simp at e1
    | fin s =>
      exfalso
      have : ∃ z, s = {z} := by
        unfold Ivl.and at hr
        split_ifs at hr <;> simp [bind, Except.bind] at hr <;> first | exact ⟨_, hr.symm⟩ | (split at hr <;> simp at hr) | skip
      obtain ⟨z, rfl⟩ := this
      simp [Piece.den] at e1 e2
      rw [← e2] at e1
      exact hxy.ne (by exact_mod_cast e1)
    | ivl k => exact ⟨k, hr, w, fun z => by simpa using h5 z⟩

end Sppl
