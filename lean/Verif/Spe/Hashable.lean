import Verif.Spe.Model
import Verif.Events.SubstLemmas

/-!
# When hashes exist
-/

namespace Sppl
open Classical

/-- No `Piecewise` in the event or in the derived variables of the leaf. -/
def NoPiecewise (s : Spe) (e : Ev) : Prop := ∀ sym env, s.leafEnv = some (sym, env) → e.hashable = true ∧ ∀ p ∈ env, p.2.hashable = true

theorem Env.get_hashable {env : Env} (h : ∀ p ∈ env, p.2.hashable = true) (s : String) : (env.get s).hashable = true := by
  unfold Env.get
  cases hl : env.lookup s with
  | none => rfl
  | some t =>
    obtain ⟨x, hx⟩ : ∃ x, (x, t) ∈ env := by
      induction env with
      | nil => simp at hl
      | cons p env ih =>
        obtain ⟨a, b⟩ := p
        rw [List.lookup_cons] at hl
        split at hl
        · cases hl; exact ⟨a, by simp⟩
        · obtain ⟨x, hx⟩ := ih (fun p hp => h p (by simp [hp])) hl
          exact ⟨x, by simp [hx]⟩
    exact h _ hx

section
variable {c : Ctx} {n : ℕ} {env : Env}

theorem Tr.subs_hashable (hk : ∀ s, (env.get s).hashable = true) : ∀ (t : Tr) {t' : Tr}, t.hashable = true → t.subs c n env = .ok t' → t'.hashable = true
  | .id s, t', _, h => by rw [Tr.subs] at h; cases h; exact hk s
  | .radical t d, t', h0, h => by
    rw [Tr.subs] at h; split at h
    · cases h; exact h0
    · simp only [bind, Except.bind] at h; split at h; · cases h
      rename_i u hu; cases h; rw [Tr.hashable] at h0 ⊢; exact Tr.subs_hashable hk t h0 hu
  | .exp t d, t', h0, h => by
    rw [Tr.subs] at h; split at h
    · cases h; exact h0
    · simp only [bind, Except.bind] at h; split at h; · cases h
      rename_i u hu; cases h; rw [Tr.hashable] at h0 ⊢; exact Tr.subs_hashable hk t h0 hu
  | .log t d, t', h0, h => by
    rw [Tr.subs] at h; split at h
    · cases h; exact h0
    · simp only [bind, Except.bind] at h; split at h; · cases h
      rename_i u hu; cases h; rw [Tr.hashable] at h0 ⊢; exact Tr.subs_hashable hk t h0 hu
  | .abs t, t', h0, h => by
    rw [Tr.subs] at h; split at h
    · cases h; exact h0
    · simp only [bind, Except.bind] at h; split at h; · cases h
      rename_i u hu; cases h; rw [Tr.hashable] at h0 ⊢; exact Tr.subs_hashable hk t h0 hu
  | .recip t, t', h0, h => by
    rw [Tr.subs] at h; split at h
    · cases h; exact h0
    · simp only [bind, Except.bind] at h; split at h; · cases h
      rename_i u hu; cases h; rw [Tr.hashable] at h0 ⊢; exact Tr.subs_hashable hk t h0 hu
  | .poly t cs, t', h0, h => by
    rw [Tr.subs] at h; split at h
    · cases h; exact h0
    · simp only [bind, Except.bind] at h; split at h; · cases h
      rename_i u hu
      have := Tr.subs_hashable hk t (by simpa [Tr.hashable] using h0) hu
      unfold mkPoly at h
      split at h
      · cases h; exact this
      · cases h
  | .pw _ _ _, t', h0, h => by cases h0

mutual
theorem Ev.subs_hashable (hk : ∀ s, (env.get s).hashable = true) : ∀ (e : Ev) {e' : Ev}, e.hashable = true → e.subs c n env = .ok e' → e'.hashable = true
  | .ivl t i, t', h0, h => by
    rw [Ev.subs] at h; split at h
    · cases h; exact h0
    · simp only [bind, Except.bind] at h; split at h; · cases h
      rename_i u hu; cases h; rw [Ev.hashable] at h0 ⊢; exact Tr.subs_hashable hk t h0 hu
  | .fin t i, t', h0, h => by
    rw [Ev.subs] at h; split at h
    · cases h; exact h0
    · simp only [bind, Except.bind] at h; split at h; · cases h
      rename_i u hu; cases h; rw [Ev.hashable] at h0 ⊢; exact Tr.subs_hashable hk t h0 hu
  | .nom t i, t', h0, h => by
    rw [Ev.subs] at h; split at h
    · cases h; exact h0
    · simp only [bind, Except.bind] at h; split at h; · cases h
      rename_i u hu; cases h; rw [Ev.hashable] at h0 ⊢; exact Tr.subs_hashable hk t h0 hu
  | .or es, t', h0, h => by
    rw [Ev.subs] at h; split at h
    · cases h; exact h0
    · simp only [bind, Except.bind] at h; split at h; · cases h
      rename_i u hu; cases h
      simp only [Ev.hashable] at h0 ⊢
      exact Ev.subsL_hashable hk es h0 hu
  | .and es, t', h0, h => by
    rw [Ev.subs] at h; split at h
    · cases h; exact h0
    · simp only [bind, Except.bind] at h; split at h; · cases h
      rename_i u hu; cases h
      simp only [Ev.hashable] at h0 ⊢
      exact Ev.subsL_hashable hk es h0 hu
theorem Ev.subsL_hashable (hk : ∀ s, (env.get s).hashable = true) : ∀ (es : List Ev) {es' : List Ev}, Ev.hashableL es = true → Ev.subsL c n env es = .ok es' → Ev.hashableL es' = true
  | [], es', _, h => by rw [Ev.subsL] at h; cases h; rfl
  | e :: es, es', h0, h => by
    rw [Ev.subsL] at h; simp only [bind, Except.bind] at h
    split at h; · cases h
    rename_i u hu
    split at h; · cases h
    rename_i us hus
    cases h
    simp only [Ev.hashableL, Bool.and_eq_true] at h0 ⊢
    exact ⟨Ev.subs_hashable hk e h0.1 hu, Ev.subsL_hashable hk es h0.2 hus⟩
end

theorem Ev.substitute_hashable (hk : ∀ s, (env.get s).hashable = true) : ∀ (k : ℕ) {e r : Ev}, e.hashable = true → Ev.substitute c n env k e = .ok r → r.hashable = true
  | 0, e, r, h0, h => by
    rw [Ev.substitute] at h; split at h
    · cases h
    · cases h; exact h0
  | k + 1, e, r, h0, h => by
    rw [Ev.substitute] at h; split at h
    · simp only [bind, Except.bind] at h; split at h; · cases h
      rename_i u hu
      exact Ev.substitute_hashable hk k (Ev.subs_hashable hk e h0 hu) h
    · cases h; exact h0
end

section
variable {α : Type} {c : Ctx} {n : ℕ} {s : Spe} {e : Ev} {r : Res α}

theorem leafSubst_inv {sym : String} {env : Env} {r : Ev} (h : leafSubst c n sym env e = .ok r) : e.substitute c n env n = .ok r := by
  unfold leafSubst at h
  simp only [bind, Except.bind] at h
  split at h; · cases h
  rename_i u hu
  split at h
  · split at h
    · cases h; exact hu
    · cases h
  · cases h

theorem keyed_ok {a : α} (h : keyed c n s e r = .ok a) : r = .ok a := by
  unfold keyed at h
  simp only [bind, Except.bind] at h
  split at h
  · cases h
  · exact h

theorem keyed_branch (h : s.isLeaf = false) : keyed c n s e r = r := by
  have : s.leafEnv = none := by
    cases hs : s.leafEnv with
    | none => rfl
    | some p => simp [Spe.isLeaf, hs] at h
  unfold keyed leafKey
  rw [this]; rfl

/-- The query answers, unless the substituted event has no hash. -/
theorem keyed_eq (hk : ∀ sym env r, s.leafEnv = some (sym, env) → leafSubst c n sym env e = .ok r → r.hashable = true)
    (he : ∀ sym env x, s.leafEnv = some (sym, env) → leafSubst c n sym env e = .error x → r = .error x) : keyed c n s e r = r := by
  unfold keyed leafKey
  cases hs : s.leafEnv with
  | none => rfl
  | some p =>
    obtain ⟨sym, env⟩ := p
    cases hr : leafSubst c n sym env e with
    | error x => simp only [hr, bind, Except.bind]; exact (he sym env x hs hr).symm
    | ok r => simp only [hr, bind, Except.bind, hk sym env r hs hr, if_true]

theorem keyed_of_ok {a : α} (hk : ∀ sym env r, s.leafEnv = some (sym, env) → leafSubst c n sym env e = .ok r → r.hashable = true)
    (he : ∀ sym env, s.leafEnv = some (sym, env) → ∃ r, leafSubst c n sym env e = .ok r) (h : r = .ok a) : keyed c n s e r = .ok a := by
  rw [keyed_eq hk, h]
  intro sym env x hs hx
  obtain ⟨r, hr⟩ := he sym env hs
  rw [hr] at hx; cases hx

theorem prob_subst_error {L : Lib} {sym : String} {env : Env} {x : Err} (hs : s.leafEnv = some (sym, env)) (h : leafSubst c n sym env e = .error x) :
    s.prob c L n e = .error x ∧ ∀ hash, s.condition c L hash n e = .error x := by
  have hl : s.isLeaf = true := by simp [Spe.isLeaf, hs]
  constructor
  · rw [Spe.prob, if_pos hl, leafProb]; simp only [hs, h, bind, Except.bind]
  · intro hash
    rw [Spe.condition, if_pos hl, leafCond]; simp only [hs, h, bind, Except.bind]

theorem NoPiecewise.key (h : NoPiecewise s e) : ∀ sym env r, s.leafEnv = some (sym, env) → leafSubst c n sym env e = .ok r → r.hashable = true :=
  fun sym env _ hs hr => Ev.substitute_hashable (Env.get_hashable (h sym env hs).2) n (h sym env hs).1 (leafSubst_inv hr)

theorem NoPiecewise.keyed_prob {L : Lib} (h : NoPiecewise s e) : keyed c n s e (s.prob c L n e) = s.prob c L n e :=
  keyed_eq h.key (fun _ _ _ hs hx => (prob_subst_error hs hx).1)

theorem NoPiecewise.keyed_condition {L : Lib} {hash : Spe → ℤ} (h : NoPiecewise s e) : keyed c n s e (s.condition c L hash n e) = s.condition c L hash n e :=
  keyed_eq h.key (fun _ _ _ hs hx => (prob_subst_error hs hx).2 hash)
end

end Sppl
