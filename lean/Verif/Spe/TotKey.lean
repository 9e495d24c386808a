import Verif.Spe.Hashable
import Verif.Spe.TotLeafLemmas
import Verif.Spe.DepthLemmas

/-!
# Events about base variables have hashes (helper lemmas)
-/

namespace Sppl
open Classical MeasureTheory

variable {c : Ctx} {L : Lib} {μ : Dist → Measure ℝ}

theorem hashableL_mem : ∀ {es : List Ev}, (∀ e ∈ es, e.hashable = true) → Ev.hashableL es = true
  | [], _ => rfl
  | e :: es, h => by
    rw [Ev.hashableL, h e (by simp), hashableL_mem (fun e he => h e (by simp [he]))]; rfl

theorem Ev.Simple.hashable {Q : String → EReal → Prop} {e : Ev} (h : e.Simple Q) : e.hashable = true := by
  induction h with
  | or _ _ ih => rw [Ev.hashable]; exact hashableL_mem ih
  | and _ _ ih => rw [Ev.hashable]; exact hashableL_mem ih
  | _ => rfl

theorem leafSubst_self {s : Spe} (hs : s.WF c L μ) {e r : Ev} (hb : s.BaseOn e.symbols) {n : ℕ} {X : String} {env : Env} (hl : s.leafEnv = some (X, env))
    (h : leafSubst c n X env e = .ok r) : r = e := by
  have hE := leafEnv_built hs hl
  have hX : ∀ k ∈ e.symbols, k ∈ env.map Prod.fst → k = X := by
    cases hb with
    | real h => cases hl; exact h
    | atomic h => cases hl; exact h
    | nominal => cases hl; simp
    | sum => cases hl
    | prod => cases hl
  have hno : ¬ exprInEnv e.symbols env := by
    rintro ⟨k, hk, hk'⟩
    refine hk' ?_
    by_cases hm : k ∈ env.map Prod.fst
    · rw [hX k hk hm]; exact hE.get_base
    · unfold Env.get
      have : env.lookup k = none := by
        rw [List.lookup_eq_none_iff]
        intro p hp
        simp only [bne_iff_ne, ne_eq]
        intro he
        exact hm (List.mem_map.2 ⟨p, hp, by simpa using he.symm⟩)
      rw [this]; rfl
  have := leafSubst_inv h
  cases n <;> simp [Ev.substitute, hno] at this <;> exact this.symm

theorem keyed_base {s : Spe} (hs : s.WF c L μ) {e : Ev} {Q : String → EReal → Prop} (he : e.Simple Q) (hb : s.BaseOn e.symbols) (n : ℕ) :
    keyed c n s e (s.prob c L n e) = s.prob c L n e ∧ ∀ hash, keyed c n s e (s.condition c L hash n e) = s.condition c L hash n e := by
  have hk : ∀ sym env r, s.leafEnv = some (sym, env) → leafSubst c n sym env e = .ok r → r.hashable = true := by
    intro sym env r hl hr
    rw [leafSubst_self hs hb hl hr]; exact he.hashable
  exact ⟨keyed_eq hk (fun _ _ _ hs hx => (prob_subst_error hs hx).1), fun hash => keyed_eq hk (fun _ _ _ hs hx => (prob_subst_error hs hx).2 hash)⟩

theorem leafKey_upto {n m : ℕ} (h : n ≤ m) (s : Spe) (e : Ev) : Upto (leafKey c n s e) (leafKey c m s e) := by
  unfold leafKey
  split
  · exact .rfl'
  · exact .bind (leafSubst_upto h _ _ _) (fun _ => .rfl')

end Sppl
