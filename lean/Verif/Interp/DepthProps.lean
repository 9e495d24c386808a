import Verif.Spe.TotKey
import Verif.Spe.DepthLemmas
import Verif.Interp.Props
import Verif.Spe.TotalProps

set_option linter.all false

/-!
# Property C51: the recursion limit does not change results
-/

namespace Sppl
open Classical

variable {c : Ctx} {L : Lib} {hash : Spe → ℤ}

section
variable {o : Opts} {m : ℕ} (h : o.n ≤ m)
include h

theorem optProb_upto (s : Spe) (e : Option Ev) : Upto (optProb o s e) (optProb { o with n := m } s e) := by
  cases e with
  | none => exact .rfl'
  | some e => exact .bind (leafKey_upto h s e) (fun _ => Spe.prob_upto h s e)

theorem optCond_upto (s : Spe) (e : Option Ev) : Upto (optCond o s e) (optCond { o with n := m } s e) := by
  cases e with
  | none => exact .rfl'
  | some e => exact .bind (leafKey_upto h s e) (fun _ => Spe.condition_upto h s e)

theorem ifBlock_upto (s : Spe) (es : List (Option Ev)) {rs rs' : List Run} (hr : UptoL rs rs') : Upto (ifBlock o s es rs) (ifBlock { o with n := m } s es rs') := by
  unfold ifBlock
  have hl := hr.length_eq
  rw [hl]
  refine .ite (fun _ => .rfl') (fun hlen => .bind (.mapM (fun e _ => optProb_upto h s e)) (fun ps => ?_))
  have key : ∀ (es : List (Option Ev)) (ps : List ℝ), List.Forall₂ (fun a b => a.1.1 = b.1.1 ∧ a.2 = b.2 ∧ ∀ x, Upto (a.1.2 x) (b.1.2 x)) (((es.zip rs).zip ps).filter (fun q => q.2 ≠ 0))
      (((es.zip rs').zip ps).filter (fun q => q.2 ≠ 0)) := by
    clear hl hlen
    induction hr with
    | nil => intro es ps; cases es <;> exact .nil
    | cons h1 _ ih =>
      intro es ps
      cases es with
      | nil => exact .nil
      | cons e es =>
        cases ps with
        | nil => exact .nil
        | cons p ps =>
          rw [List.zip_cons_cons, List.zip_cons_cons, List.zip_cons_cons, List.zip_cons_cons, List.filter_cons, List.filter_cons]
          by_cases h0 : p = 0
          · simpa [h0] using ih es ps
          · simp only [h0, ne_eq, not_false_eq_true, decide_true, if_true]
            exact .cons ⟨rfl, rfl, h1⟩ (ih es ps)
  have k := key es ps
  simp only
  generalize ((es.zip rs).zip ps).filter (fun r => decide (r.2 ≠ 0)) = A at k
  generalize ((es.zip rs').zip ps).filter (fun r => decide (r.2 ≠ 0)) = B at k
  have e1 : A = [] ↔ B = [] := by cases k <;> simp
  have e2 : A.map Prod.snd = B.map Prod.snd := by
    clear e1
    induction k with
    | nil => rfl
    | cons h _ ih => simp [h.2.1, ih]
  have e3 : Upto (A.mapM (fun q => optCond o s q.1.1)) (B.mapM (fun q => optCond { o with n := m } s q.1.1)) := by
    clear e1 e2
    induction k with
    | nil => exact .rfl'
    | cons h1 _ ih =>
      rw [List.mapM_cons, List.mapM_cons, h1.1]
      exact .bind (optCond_upto h s _) (fun _ => .bind ih (fun _ => .rfl'))
  have e4 : ∀ ss : List Spe, Upto ((A.zip ss).mapM (fun q => runSome q.1.1.2 q.2)) ((B.zip ss).mapM (fun q => runSome q.1.1.2 q.2)) := by
    clear e1 e2 e3
    induction k with
    | nil => intro ss; exact .rfl'
    | cons h1 _ ih =>
      intro ss
      cases ss with
      | nil => exact .rfl'
      | cons s' ss =>
        rw [List.zip_cons_cons, List.zip_cons_cons, List.mapM_cons, List.mapM_cons]
        exact .bind (.bind (h1.2.2 _) (fun _ => .rfl')) (fun _ => .bind (ih ss) (fun _ => .rfl'))
  simp only [e1, e2]
  exact .ite (fun _ => .rfl') (fun _ => .bind e3 (fun ss => .ite (fun _ => .rfl') (fun _ => .bind (e4 ss) (fun _ => .rfl'))))

theorem Cmd.interp_upto (p : Cmd) : ∀ s, Upto (p.interp o s) (p.interp { o with n := m } s) := by
  have needs : ∀ {s : Option Spe} {f g : Spe → Res (Option Spe)}, (∀ s, Upto (f s) (g s)) → Upto (needSpe s f) (needSpe s g) := by
    intro s f g hfg
    cases s with
    | none => exact .rfl'
    | some s => exact hfg s
  refine Cmd.rec (motive_1 := fun p => ∀ s, Upto (p.interp o s) (p.interp { o with n := m } s))
    (motive_2 := fun ps => UptoL (Cmd.interpL o ps) (Cmd.interpL { o with n := m } ps)) ?_ ?_ ?_ ?_ ?_ ?_ ?_ ?_ ?_ ?_ ?_ p
  · intro s; simp only [Cmd.interp]; exact .rfl'
  · intro X d s; simp only [Cmd.interp]; exact .rfl'
  · intro Y t s; simp only [Cmd.interp]; exact .rfl'
  · intro e s; simp only [Cmd.interp]; exact needs (fun s => .bind (Spe.condition_upto h s e) (fun _ => .rfl'))
  · intro a s; simp only [Cmd.interp]; exact .rfl'
  · intro conds els cmds ih s
    simp only [Cmd.interp]
    exact needs (fun s => .then (fun es => .bind (.mapM (fun e _ => dnfNormalize_upto h e)) (fun ds => .bind (ifBlock_upto h s ds ih) (fun _ => .rfl'))))
  · intro n0 n1 f ih s
    simp only [Cmd.interp]
    exact .foldlM (fun i _ s => ih i s)
  · intro t vals cmds ih s
    simp only [Cmd.interp]
    refine .then (fun es => ?_)
    cases s with
    | none => exact .rfl'
    | some s => exact .bind (ifBlock_upto h s _ ih) (fun _ => .rfl')
  · intro cmds ih s
    simp only [Cmd.interp]
    generalize Cmd.interpL o cmds = A at ih
    generalize Cmd.interpL { o with n := m } cmds = B at ih
    induction ih generalizing s with
    | nil => exact .rfl'
    | cons h1 _ ih' =>
      rw [List.foldlM_cons, List.foldlM_cons]
      exact .bind (h1 s) (fun s => ih' s)
  · simp only [Cmd.interpL]; exact .nil
  · intro p ps h1 h2; simp only [Cmd.interpL]; exact .cons h1 h2
end

/-! ## The properties -/

theorem Upto.agree {α : Type} {f : ℕ → Res α} (hf : ∀ n m, n ≤ m → Upto (f n) (f m)) (n m : ℕ) : f n = .error .recursion ∨ f m = .error .recursion ∨ f n = f m := by
  rcases le_total n m with h | h
  · rcases hf n m h with h | h
    · exact .inl h
    · exact .inr (.inr h)
  · rcases hf m n h with h | h
    · exact .inr (.inl h)
    · exact .inr (.inr h.symm)

/-- **C51 (`prob`).** With any two bounds on the depth of calls, `prob` returns or raises the same, unless one of the two raises `RecursionError`; and what does not exceed
a bound does not exceed a larger one. -/
theorem C51_prob (s : Spe) (e : Ev) (n m : ℕ) : (s.prob c L n e = .error .recursion ∨ s.prob c L m e = .error .recursion ∨ s.prob c L n e = s.prob c L m e) ∧
    (n ≤ m → s.prob c L n e ≠ .error .recursion → s.prob c L m e = s.prob c L n e) :=
  ⟨Upto.agree (f := fun n => s.prob c L n e) (fun _ _ h => Spe.prob_upto h s e) n m, fun h h0 => ((Spe.prob_upto h s e).resolve_left h0).symm⟩

/-- **C51 (`condition`).** -/
theorem C51_condition (s : Spe) (e : Ev) (n m : ℕ) :
    (s.condition c L hash n e = .error .recursion ∨ s.condition c L hash m e = .error .recursion ∨ s.condition c L hash n e = s.condition c L hash m e) ∧
    (n ≤ m → s.condition c L hash n e ≠ .error .recursion → s.condition c L hash m e = s.condition c L hash n e) :=
  ⟨Upto.agree (f := fun n => s.condition c L hash n e) (fun _ _ h => Spe.condition_upto h s e) n m, fun h h0 => ((Spe.condition_upto h s e).resolve_left h0).symm⟩

/-- **C51 (`interpret`).** -/
theorem C51_program (o : Opts) (p : Cmd) (s : Option Spe) (n m : ℕ) :
    (p.interp { o with n := n } s = .error .recursion ∨ p.interp { o with n := m } s = .error .recursion ∨ p.interp { o with n := n } s = p.interp { o with n := m } s) ∧
    (n ≤ m → p.interp { o with n := n } s ≠ .error .recursion → p.interp { o with n := m } s = p.interp { o with n := n } s) :=
  ⟨Upto.agree (f := fun n => p.interp { o with n := n } s) (fun _ _ h => Cmd.interp_upto (o := { o with n := _ }) h p s) n m,
    fun h h0 => ((Cmd.interp_upto (o := { o with n := n }) h p s).resolve_left h0).symm⟩

/-- The bound does matter: with 0, `RecursionError` on an event on which other bounds give `AssertionError`. -/
example : (leafX "X").prob ctx0 (libOf muU) 0 endsEv = .error .recursion ∧ ∀ n, (leafX "X").prob ctx0 (libOf muU) (n + 3) endsEv = .error .assertion := by
  refine ⟨?_, C18_raises.2.2.2.2.2⟩
  have hx : ¬ exprInEnv endsEv.symbols [("X", .id "X")] := by
    simp [exprInEnv, endsEv, Ev.symbols, Ev.symbolsL, Tr.symbols, Env.get, List.lookup]
  have hs : endsEv.symbols = {"X"} := by simp [endsEv, Ev.symbols, Ev.symbolsL, Tr.symbols]
  have h1 : leafSubst ctx0 0 "X" [("X", .id "X")] endsEv = .ok endsEv := by
    simp only [leafSubst, Ev.substitute, if_neg hx, bind, Except.bind]
    simp [hs]
  have h2 : endsEv.solve ctx0 0 = .error .recursion := by
    simp [endsEv, Ev.solve, Ev.invert, Ev.symbols, Ev.symbolsL, Tr.symbols]
  simp [Spe.prob, Spe.isLeaf, Spe.leafEnv, leafX, leafProb, h1, h2, bind, Except.bind]

end Sppl
