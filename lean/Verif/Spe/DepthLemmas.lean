import Verif.Spe.Model

set_option linter.all false

/-!
# Lemmas: the bound on the depth of calls only matters through `RecursionError`
-/

namespace Sppl
open Classical

/-- The first result is `RecursionError`, or the two are the same. -/
def Upto {α : Type} (a b : Res α) : Prop := a = .error .recursion ∨ a = b

theorem Upto.rfl' {α : Type} {a : Res α} : Upto a a := .inr rfl

theorem Upto.ok {α : Type} {a b : Res α} (h : Upto a b) {x : α} (ha : a = .ok x) : b = .ok x := by
  rcases h with h | h
  · rw [h] at ha; cases ha
  · rw [← h, ha]

theorem Upto.bind {α β : Type} {a b : Res α} {f g : α → Res β} (h : Upto a b) (hf : ∀ x, Upto (f x) (g x)) : Upto (a >>= f) (b >>= g) := by
  rcases h with rfl | rfl
  · exact .inl rfl
  · cases a with
    | error e => exact .inr rfl
    | ok x => exact hf x

theorem Upto.then {α β : Type} {a : Res α} {f g : α → Res β} (hf : ∀ x, Upto (f x) (g x)) : Upto (a >>= f) (a >>= g) := Upto.bind .rfl' hf

theorem Upto.ite {α : Type} {p : Prop} [Decidable p] {a b c d : Res α} (h1 : p → Upto a b) (h2 : ¬ p → Upto c d) : Upto (if p then a else c) (if p then b else d) := by
  split
  · exact h1 ‹_›
  · exact h2 ‹_›

theorem Upto.mapM {α β : Type} {f g : α → Res β} : ∀ {l : List α}, (∀ x ∈ l, Upto (f x) (g x)) → Upto (l.mapM f) (l.mapM g)
  | [], _ => .inr rfl
  | x :: l, h => by
    rw [List.mapM_cons, List.mapM_cons]
    exact .bind (h x (by simp)) (fun y => .bind (Upto.mapM (fun z hz => h z (by simp [hz]))) (fun _ => .rfl'))

theorem Upto.foldlM {α β : Type} {f g : β → α → Res β} : ∀ {l : List α} {b : β}, (∀ x ∈ l, ∀ b, Upto (f b x) (g b x)) → Upto (l.foldlM f b) (l.foldlM g b)
  | [], _, _ => .inr rfl
  | x :: l, b, h => by
    rw [List.foldlM_cons, List.foldlM_cons]
    exact .bind (h x (by simp) b) (fun y => Upto.foldlM (fun z hz => h z (by simp [hz])))

/-! ## `invert`, `solve`, `substitute` -/

section
variable {c : Ctx} {inv inv' : Tr → SSet EReal → Res (SSet EReal)} (h : ∀ t S, Upto (inv t S) (inv' t S))
include h

theorem pwInverse_upto (ts : List Tr) (ds : List (SSet EReal)) (ys : SSet EReal) : Upto (pwInverse c inv ts ds ys) (pwInverse c inv' ts ds ys) :=
  .bind (.mapM (fun t _ => h t ys)) (fun _ => .rfl')

theorem Tr.invertFinite_upto (t : Tr) (s : Finset EReal) : Upto (t.invertFinite c inv s) (t.invertFinite c inv' s) := by
  cases t <;> simp only [Tr.invertFinite] <;>
    first
    | exact .rfl'
    | exact pwInverse_upto h _ _ _
    | exact .then (fun _ => .then (fun _ => h _ _))

theorem Tr.invertInterval_upto (t : Tr) (i : Ivl EReal) : Upto (t.invertInterval c inv i) (t.invertInterval c inv' i) := by
  cases t <;> simp only [Tr.invertInterval] <;>
    first
    | exact .rfl'
    | exact pwInverse_upto h _ _ _
    | exact .then (fun _ => h _ _)

theorem Tr.invertStep_upto (t : Tr) (S : SSet EReal) : Upto (t.invertStep c inv S) (t.invertStep c inv' S) := by
  cases S with
  | empty => exact .rfl'
  | un u => exact .bind (.mapM (fun p _ => h _ _)) (fun _ => .rfl')
  | pc p =>
    cases p with
    | nom n => exact .rfl'
    | fin s => exact Tr.invertFinite_upto h t s
    | ivl i => exact Tr.invertInterval_upto h t i
end

variable {c : Ctx}

theorem Tr.invert_upto : ∀ {n m : ℕ}, n ≤ m → ∀ t S, Upto (Tr.invert c n t S) (Tr.invert c m t S)
  | 0, _, _, _, _ => .inl rfl
  | n + 1, 0, h, _, _ => by omega
  | n + 1, m + 1, h, t, S => .then (fun _ => .then (fun _ => Tr.invertStep_upto (Tr.invert_upto (by omega)) t _))

theorem Ev.invertFinite_upto {invT invT' : Tr → SSet EReal → Res (SSet EReal)} {invE invE' : Ev → SSet EReal → Res (SSet EReal)} (hT : ∀ t S, Upto (invT t S) (invT' t S))
    (hE : ∀ e S, Upto (invE e S) (invE' e S)) (s : Finset EReal) (e : Ev) : Upto (e.invertFinite c invT invE s) (e.invertFinite c invT' invE' s) := by
  cases e with
  | ivl t i => exact .then (fun _ => .then (fun _ => hT _ _))
  | fin t v => exact .then (fun _ => .then (fun _ => hT _ _))
  | nom t v => exact .rfl'
  | or es => exact .bind (.mapM (fun e _ => hE _ _)) (fun _ => .rfl')
  | and es => exact .bind (.mapM (fun e _ => hE _ _)) (fun _ => .rfl')

theorem Ev.invert_upto : ∀ {n m : ℕ}, n ≤ m → ∀ e S, Upto (Ev.invert c n e S) (Ev.invert c m e S)
  | 0, _, _, _, _ => .inl rfl
  | n + 1, 0, h, _, _ => by omega
  | n + 1, m + 1, h, e, S => .then (fun x => by
    have key := fun s => Ev.invertFinite_upto (c := c) (Tr.invert_upto (c := c) (show n ≤ m by omega)) (Ev.invert_upto (show n ≤ m by omega)) s e
    split
    · exact .rfl'
    · exact key _
    · exact .rfl')

theorem Ev.solve_upto {n m : ℕ} (h : n ≤ m) (e : Ev) : Upto (e.solve c n) (e.solve c m) := by
  unfold Ev.solve
  split
  · exact .rfl'
  · exact .rfl'
  · exact .rfl'
  · exact .ite (fun _ => .rfl') (fun _ => Ev.invert_upto h _ _)

theorem mkPiecewise_upto {n m : ℕ} (h : n ≤ m) (ts : List Tr) (es : List Ev) : Upto (mkPiecewise c n ts es) (mkPiecewise c m ts es) :=
  .ite (fun _ => .rfl') (fun _ => .ite (fun _ => .rfl') (fun _ => .ite (fun _ => .rfl') (fun _ => .ite (fun _ => .rfl') (fun _ =>
    .bind (.mapM (fun e _ => Ev.solve_upto h e)) (fun _ => .rfl')))))

mutual
theorem Tr.subs_upto {n m : ℕ} (h : n ≤ m) (env : Env) : ∀ t, Upto (Tr.subs c n env t) (Tr.subs c m env t)
  | .id s => .rfl'
  | .radical t d => .ite (fun _ => .rfl') (fun _ => .bind (Tr.subs_upto h env t) (fun _ => .rfl'))
  | .exp t d => .ite (fun _ => .rfl') (fun _ => .bind (Tr.subs_upto h env t) (fun _ => .rfl'))
  | .log t d => .ite (fun _ => .rfl') (fun _ => .bind (Tr.subs_upto h env t) (fun _ => .rfl'))
  | .abs t => .ite (fun _ => .rfl') (fun _ => .bind (Tr.subs_upto h env t) (fun _ => .rfl'))
  | .recip t => .ite (fun _ => .rfl') (fun _ => .bind (Tr.subs_upto h env t) (fun _ => .rfl'))
  | .poly t cs => .ite (fun _ => .rfl') (fun _ => .bind (Tr.subs_upto h env t) (fun _ => .rfl'))
  | .pw ts es ds => .ite (fun _ => .rfl') (fun _ => .bind (Tr.subsL_upto h env ts) (fun _ => .bind (Ev.subsL_upto h env es) (fun _ => mkPiecewise_upto h _ _)))
theorem Tr.subsL_upto {n m : ℕ} (h : n ≤ m) (env : Env) : ∀ ts, Upto (Tr.subsL c n env ts) (Tr.subsL c m env ts)
  | [] => .rfl'
  | t :: ts => .bind (Tr.subs_upto h env t) (fun _ => .bind (Tr.subsL_upto h env ts) (fun _ => .rfl'))
theorem Ev.subs_upto {n m : ℕ} (h : n ≤ m) (env : Env) : ∀ e, Upto (Ev.subs c n env e) (Ev.subs c m env e)
  | .ivl t i => .ite (fun _ => .rfl') (fun _ => .bind (Tr.subs_upto h env t) (fun _ => .rfl'))
  | .fin t v => .ite (fun _ => .rfl') (fun _ => .bind (Tr.subs_upto h env t) (fun _ => .rfl'))
  | .nom t v => .ite (fun _ => .rfl') (fun _ => .bind (Tr.subs_upto h env t) (fun _ => .rfl'))
  | .or es => .ite (fun _ => .rfl') (fun _ => .bind (Ev.subsL_upto h env es) (fun _ => .rfl'))
  | .and es => .ite (fun _ => .rfl') (fun _ => .bind (Ev.subsL_upto h env es) (fun _ => .rfl'))
theorem Ev.subsL_upto {n m : ℕ} (h : n ≤ m) (env : Env) : ∀ es, Upto (Ev.subsL c n env es) (Ev.subsL c m env es)
  | [] => .rfl'
  | e :: es => .bind (Ev.subs_upto h env e) (fun _ => .bind (Ev.subsL_upto h env es) (fun _ => .rfl'))
end

theorem Ev.substitute_upto {n m : ℕ} (h : n ≤ m) (env : Env) : ∀ {k l : ℕ}, k ≤ l → ∀ e, Upto (Ev.substitute c n env k e) (Ev.substitute c m env l e)
  | 0, 0, _, e => .rfl'
  | 0, l + 1, _, e => by
    unfold Ev.substitute
    split
    · exact .inl rfl
    · exact .rfl'
  | k + 1, 0, hk, _ => by omega
  | k + 1, l + 1, hk, e => .ite (fun _ => .bind (Ev.subs_upto h env e) (fun _ => Ev.substitute_upto h env (by omega) _)) (fun _ => .rfl')

/-! ## dnf.py -/

theorem solveClause_upto {n m : ℕ} (h : n ≤ m) (cl : Clause String) : Upto (solveClause c n cl) (solveClause c m cl) :=
  .mapM (fun p _ => .bind (Ev.solve_upto h _) (fun _ => .rfl'))

theorem dnfNormalize_upto {n m : ℕ} (h : n ≤ m) (e : Ev) : Upto (dnfNormalize c n e) (dnfNormalize c m e) :=
  .ite (fun _ => .rfl') (fun _ => .then (fun _ => .then (fun _ => .bind (.mapM (fun m _ => solveClause_upto h m)) (fun _ => .rfl'))))

theorem toDisjoint_upto {n m : ℕ} (h : n ≤ m) : ∀ {d d' : ℕ}, d ≤ d' → ∀ e, Upto (toDisjoint c n d e) (toDisjoint c m d' e)
  | 0, _, _, _ => .inl rfl
  | d + 1, 0, hd, _ => by omega
  | d + 1, d' + 1, hd, e => by
    cases e with
    | or es =>
      exact .then (fun _ => .bind (.mapM (fun m _ => solveClause_upto h m)) (fun _ => .then (fun _ => .ite (fun _ => .rfl') (fun _ => .then (fun _ =>
        .bind (.mapM (fun e _ => dnfNormalize_upto h e)) (fun _ => .bind (.mapM (fun e _ => toDisjoint_upto h (by omega) e)) (fun _ => .rfl')))))))
    | _ => exact .rfl'

/-! ## spe.py -/

variable {L : Lib} {hash : Spe → ℤ}

theorem leafSubst_upto {n m : ℕ} (h : n ≤ m) (sym : String) (env : Env) (e : Ev) : Upto (leafSubst c n sym env e) (leafSubst c m sym env e) :=
  .bind (Ev.substitute_upto h env h e) (fun _ => .rfl')

theorem leafProb_upto {n m : ℕ} (h : n ≤ m) (s : Spe) (e : Ev) : Upto (leafProb c L n s e) (leafProb c L m s e) := by
  unfold leafProb
  split
  · exact .rfl'
  · exact .bind (leafSubst_upto h _ _ _) (fun _ => .bind (Ev.solve_upto h _) (fun _ => .rfl'))

theorem leafCond_upto {n m : ℕ} (h : n ≤ m) (s : Spe) (e : Ev) : Upto (leafCond c L n s e) (leafCond c L m s e) := by
  unfold leafCond
  split
  · exact .rfl'
  · exact .bind (leafSubst_upto h _ _ _) (fun _ => .bind (Ev.solve_upto h _) (fun _ => .rfl'))

/-- Lists of methods that are the same up to `RecursionError`. -/
def UptoL {α β : Type} (fs gs : List (α → Res β)) : Prop := List.Forall₂ (fun f g => ∀ x, Upto (f x) (g x)) fs gs

theorem callAll_upto {α β : Type} {fs gs : List (α → Res β)} (h : UptoL fs gs) (x : α) : Upto (callAll fs x) (callAll gs x) := by
  induction h with
  | nil => exact .rfl'
  | cons h1 _ ih =>
    unfold callAll at ih ⊢
    rw [List.mapM_cons, List.mapM_cons]
    exact .bind (h1 x) (fun _ => .bind ih (fun _ => .rfl'))

theorem conjProb_upto {fs gs : List (Factor → Res ℝ)} (h : UptoL fs gs) (syms : List (Finset String)) (ms : List (Clause String)) :
    Upto (conjProb c syms fs ms) (conjProb c syms gs ms) := by
  refine .then (fun ks => .bind (.mapM (fun k _ => .then (fun cl => .ite (fun _ => .rfl') (fun _ => ?_)))) (fun _ => .rfl'))
  have hl := h.length_eq
  by_cases hk : k < fs.length
  · rw [List.getElem?_eq_getElem hk, List.getElem?_eq_getElem (hl ▸ hk)]
    exact h.get hk (hl ▸ hk) _
  · rw [List.getElem?_eq_none (by omega), List.getElem?_eq_none (by omega)]
    exact .rfl'

theorem ieLoop_upto {f g : List ℕ → Res ℝ} (h : ∀ J, Upto (f J) (g J)) (m : ℕ) : ∀ stack avoid pos neg, Upto (ieLoop m f stack avoid pos neg) (ieLoop m g stack avoid pos neg) := by
  intro stack
  induction hk : ieMeasure m stack using Nat.strong_induction_on generalizing stack with
  | _ k ih =>
    subst hk
    intro avoid pos neg
    cases stack with
    | nil => unfold ieLoop; exact .rfl'
    | cons q rest =>
      obtain ⟨J, i⟩ := q
      unfold ieLoop
      split
      · refine ih _ ?_ rest rfl _ _ _
        simp [ieMeasure]
      · rcases h J with hJ | hJ
        · rw [hJ]; exact .inl rfl
        · rw [hJ]
          cases g J with
          | error e => exact .rfl'
          | ok p =>
            refine ih _ ?_ _ rfl _ _ _
            have := ieMeasure_next m J i
            simp only [ieMeasure, List.map_append, List.sum_append, List.map_cons, List.sum_cons] at this ⊢
            omega

theorem inclExcl_upto {f g : List ℕ → Res ℝ} (h : ∀ J, Upto (f J) (g J)) (m : ℕ) : Upto (inclExcl m f) (inclExcl m g) :=
  .bind (ieLoop_upto h m _ _ _ _) (fun _ => .rfl')

mutual
theorem Spe.probMem_upto {n m : ℕ} (h : n ≤ m) : ∀ s F, Upto (Spe.probMem c L n s F) (Spe.probMem c L m s F)
  | .real k sym d supp cond env, F => .then (fun _ => leafProb_upto h _ _)
  | .atomic sym v env, F => .then (fun _ => leafProb_upto h _ _)
  | .nominal sym dist, F => .then (fun _ => leafProb_upto h _ _)
  | .sum cs ws, F => .bind (callAll_upto (Spe.probMemL_upto h cs) F) (fun _ => .rfl')
  | .prod cs, F => inclExcl_upto (fun J => conjProb_upto (Spe.probMemL_upto h cs) _ _) _
theorem Spe.probMemL_upto {n m : ℕ} (h : n ≤ m) : ∀ ss, UptoL (Spe.probMemL c L n ss) (Spe.probMemL c L m ss)
  | [] => .nil
  | s :: ss => .cons (Spe.probMem_upto h s) (Spe.probMemL_upto h ss)
end

theorem condClause_upto {fs gs : List (Factor → Res Spe)} (h : UptoL fs gs) (cs : List Spe) (m : Clause String) : Upto (condClause cs fs m) (condClause cs gs m) := by
  unfold condClause
  induction h generalizing cs with
  | nil => simp; exact .rfl'
  | cons h1 _ ih =>
    cases cs with
    | nil => exact .rfl'
    | cons s cs =>
      rw [List.zip_cons_cons, List.zip_cons_cons, List.mapM_cons, List.mapM_cons]
      exact .bind (.ite (fun _ => .rfl') (fun _ => h1 _)) (fun _ => .bind (ih cs) (fun _ => .rfl'))

theorem condProd_upto {pf pg : List (Factor → Res ℝ)} {fs gs : List (Factor → Res Spe)} {p q : Res ℝ} (hp : UptoL pf pg) (hf : UptoL fs gs) (hq : Upto p q) (cs : List Spe) (F : Factor) :
    Upto (condProd c hash cs pf fs p F) (condProd c hash cs pg gs q F) :=
  .bind (.mapM (fun m _ => conjProb_upto hp _ _)) (fun _ => .bind hq (fun _ => .ite (fun _ => .rfl') (fun _ => .ite (fun _ => .rfl') (fun _ =>
    .bind (.mapM (fun _ _ => condClause_upto hf _ _)) (fun _ => .rfl')))))

theorem condSum_upto {fs gs : List (Factor → Res Spe)} (h : UptoL fs gs) (ws ps : List ℝ) (F : Factor) : Upto (condSum ws ps fs F) (condSum ws ps gs F) := by
  unfold condSum
  have key : ∀ (l : List (ℝ × ℝ)), List.Forall₂ (fun a b => a.1 = b.1 ∧ ∀ x, Upto (a.2 x) (b.2 x)) ((l.zip fs).filter (fun r => r.1.2 ≠ 0)) ((l.zip gs).filter (fun r => r.1.2 ≠ 0)) := by
    induction h with
    | nil => intro l; cases l <;> exact .nil
    | cons h1 _ ih =>
      intro l
      cases l with
      | nil => exact .nil
      | cons a l =>
        rw [List.zip_cons_cons, List.zip_cons_cons, List.filter_cons, List.filter_cons]
        by_cases h0 : a.2 = 0
        · simpa [h0] using ih l
        · simp only [h0, ne_eq, not_false_eq_true, decide_true, if_true]
          exact .cons ⟨rfl, h1⟩ (ih l)
  have k := key (ws.zip ps)
  generalize ((ws.zip ps).zip fs).filter (fun r => decide (r.1.2 ≠ 0)) = A at k
  generalize ((ws.zip ps).zip gs).filter (fun r => decide (r.1.2 ≠ 0)) = B at k
  have e1 : A = [] ↔ B = [] := by cases k <;> simp
  have e2 : A.map (fun r => r.1.2 * r.1.1) = B.map (fun r => r.1.2 * r.1.1) := by
    clear e1
    induction k with
    | nil => rfl
    | cons h _ ih => simp [h.1, ih]
  have e3 : Upto (A.mapM (fun r => r.2 F)) (B.mapM (fun r => r.2 F)) := by
    clear e1 e2
    induction k with
    | nil => exact .rfl'
    | cons h _ ih =>
      rw [List.mapM_cons, List.mapM_cons]
      exact .bind (h.2 F) (fun _ => .bind ih (fun _ => .rfl'))
  simp only [e1, e2]
  exact .ite (fun _ => .rfl') (fun _ => .bind e3 (fun _ => .rfl'))

mutual
theorem Spe.condMem_upto {n m : ℕ} (h : n ≤ m) : ∀ s F, Upto (Spe.condMem c L hash n s F) (Spe.condMem c L hash m s F)
  | .real k sym d supp cond env, F => .then (fun _ => leafCond_upto h _ _)
  | .atomic sym v env, F => .then (fun _ => leafCond_upto h _ _)
  | .nominal sym dist, F => .then (fun _ => leafCond_upto h _ _)
  | .sum cs ws, F => .bind (callAll_upto (Spe.probMemL_upto h cs) F) (fun _ => condSum_upto (Spe.condMemL_upto h cs) _ _ _)
  | .prod cs, F => condProd_upto (Spe.probMemL_upto h cs) (Spe.condMemL_upto h cs) (Spe.probMem_upto h _ F) _ _
theorem Spe.condMemL_upto {n m : ℕ} (h : n ≤ m) : ∀ ss, UptoL (Spe.condMemL c L hash n ss) (Spe.condMemL c L hash m ss)
  | [] => .nil
  | s :: ss => .cons (Spe.condMem_upto h s) (Spe.condMemL_upto h ss)
end

theorem Spe.prob_upto {n m : ℕ} (h : n ≤ m) (s : Spe) (e : Ev) : Upto (s.prob c L n e) (s.prob c L m e) := by
  refine .ite (fun _ => leafProb_upto h _ _) (fun _ => .bind (dnfNormalize_upto h _) (fun o => ?_))
  cases o with
  | none => exact .rfl'
  | some d => exact .then (fun _ => Spe.probMem_upto h _ _)

theorem dropNull_upto {n m : ℕ} (h : n ≤ m) (s : Spe) (e : Ev) : Upto (dropNull c L n s e) (dropNull c L m s e) := by
  cases e with
  | or es => exact .then (fun _ => .bind (.mapM (fun _ _ => Spe.probMem_upto h _ _)) (fun _ => .rfl'))
  | _ => exact .rfl'

theorem Spe.condition_upto {n m : ℕ} (h : n ≤ m) (s : Spe) (e : Ev) : Upto (s.condition c L hash n e) (s.condition c L hash m e) := by
  refine .ite (fun _ => leafCond_upto h _ _) (fun _ => .bind (dnfNormalize_upto h _) (fun o => ?_))
  cases o with
  | none => exact .rfl'
  | some d => exact .bind (dropNull_upto h _ _) (fun _ => .bind (toDisjoint_upto h h _) (fun _ => .then (fun _ => Spe.condMem_upto h _ _)))

end Sppl
