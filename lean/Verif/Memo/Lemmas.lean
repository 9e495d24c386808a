import Verif.Memo.Spec
import Verif.Spe.Hashable

set_option linter.all false

/-!
# Memo tables (helper lemmas)
-/

namespace Sppl
open Classical

theorem Heap.Le.refl (h : Heap) : Heap.Le h h := fun _ _ h => h
theorem Heap.Le.trans {h h' h'' : Heap} (a : Heap.Le h h') (b : Heap.Le h' h'') : Heap.Le h h'' := fun i s hs => b i s (a i s hs)

theorem Node.Live.mono {h h' : Heap} (hh : Heap.Le h h') (t : Node) : t.Live h → t.Live h' := by
  refine Node.rec (motive_1 := fun t => t.Live h → t.Live h') (motive_2 := fun ts => Node.LiveL h ts → Node.LiveL h' ts) ?_ ?_ ?_ ?_ ?_ t
  · intro i s hl; simp only [Node.Live] at hl ⊢; exact ⟨hh _ _ hl.1, hl.2⟩
  · intro i cs ws ih hl; simp only [Node.Live] at hl ⊢; exact ⟨hh _ _ hl.1, ih hl.2⟩
  · intro i cs ih hl; simp only [Node.Live] at hl ⊢; exact ⟨hh _ _ hl.1, ih hl.2⟩
  · intro; trivial
  · intro t ts h1 h2 hl; simp only [Node.LiveL] at hl ⊢; exact ⟨h1 hl.1, h2 hl.2⟩

theorem Node.Live.at {h : Heap} {t : Node} (hl : t.Live h) : h t.id = some t.spe := by
  cases t <;> simp only [Node.Live] at hl <;> exact hl.1

theorem Node.liveL_iff {h : Heap} {ts : List Node} : Node.LiveL h ts ↔ ∀ t ∈ ts, t.Live h := by
  induction ts with
  | nil => simp [Node.LiveL]
  | cons t ts ih => simp [Node.LiveL, ih]

theorem Node.speL_eq (ts : List Node) : Node.speL ts = ts.map Node.spe := by
  induction ts with
  | nil => rfl
  | cons t ts ih => simp [Node.speL, ih]

section
variable (c : Ctx) (L : Lib) (hash : Spe → ℤ) (n : ℕ)

/-- The tables are correct. -/
structure Inv (st : St) : Prop where
  fin : st.heap.Fin
  prob : ∀ i F v, st.prob (i, F) = some v → ∃ s, st.heap i = some s ∧ s.probMem c L n F = .ok v
  cond : ∀ i F v, st.cond (i, F) = some v → ∃ s, st.heap i = some s ∧ s.condMem c L hash n F = .ok v.spe ∧ v.Live st.heap
  dens : ∀ i a v, st.dens (i, a) = some v → ∃ s, st.heap i = some s ∧ s.pdfMem L a = .ok v
  con : ∀ i a v, st.con (i, a) = some v → ∃ s, st.heap i = some s ∧ s.constrainMem L a = .ok v.spe ∧ v.Live st.heap

/-- The computation `p`, started in `st`, does what `r` does. -/
structure SimAt {α β : Type} (φ : α → β) (P : St → α → Prop) (st : St) (p : Mem α) (r : Res β) : Prop where
  inv : Inv c L hash n (p st).2
  le : Heap.Le st.heap (p st).2.heap
  res : ∀ a, (p st).1 = .ok a → r = .ok (φ a) ∧ P (p st).2 a
  err : ∀ e, (p st).1 = .error e → r = .error e

/-- The same for results that are not nodes. -/
def Sim {α : Type} (st : St) (p : Mem α) (r : Res α) : Prop := SimAt c L hash n (fun a : α => a) (fun _ _ => True) st p r

/-- The same for nodes. -/
def SimN (st : St) (p : Mem Node) (r : Res Spe) : Prop := SimAt c L hash n Node.spe (fun st t => t.Live st.heap) st p r
end

variable {c : Ctx} {L : Lib} {hash : Spe → ℤ} {n : ℕ}

theorem SimAt.lift {α : Type} {st : St} (h : Inv c L hash n st) (r : Res α) : Sim c L hash n st (Mem.lift r) r :=
  ⟨h, .refl _, fun a ha => ⟨ha, trivial⟩, fun e he => he⟩

theorem SimAt.pure {α β : Type} {φ : α → β} {P : St → α → Prop} {st : St} (h : Inv c L hash n st) {a : α} (ha : P st a) :
    SimAt c L hash n φ P st (Mem.pure a) (.ok (φ a)) :=
  ⟨h, .refl _, fun b hb => (by cases hb; exact ⟨rfl, ha⟩), fun e he => (by cases he)⟩

theorem SimAt.error {α β : Type} {φ : α → β} {P : St → α → Prop} {st : St} (h : Inv c L hash n st) {e : Err} :
    SimAt c L hash n φ P st (Mem.lift (.error e)) (.error e) :=
  ⟨h, .refl _, fun b hb => (by cases hb), fun e he => (by cases he; rfl)⟩

theorem SimAt.bind {α β γ δ : Type} {φ : α → β} {P : St → α → Prop} {ψ : γ → δ} {Q : St → γ → Prop} {st : St} {p : Mem α} {r : Res β} {k : α → Mem γ} {k' : β → Res δ}
    (h : SimAt c L hash n φ P st p r)
    (hk : ∀ a st', Inv c L hash n st' → Heap.Le st.heap st'.heap → P st' a → SimAt c L hash n ψ Q st' (k a) (k' (φ a))) :
    SimAt c L hash n ψ Q st (Mem.bind p k) (Except.bind r k') := by
  rcases hp : p st with ⟨x, st'⟩
  cases x with
  | error e =>
    have h1 := h.err e (by rw [hp])
    have e1 : Mem.bind p k st = (.error e, st') := by simp [Mem.bind, hp]
    subst h1
    refine ⟨by rw [e1]; simpa [hp] using h.inv, by rw [e1]; simpa [hp] using h.le, ?_, ?_⟩
    · rw [e1]; intro a ha; cases ha
    · rw [e1]; intro e' he; cases he; rfl
  | ok a =>
    obtain ⟨h1, h2⟩ := h.res a (by rw [hp])
    have e1 : Mem.bind p k st = k a st' := by simp [Mem.bind, hp]
    subst h1
    have hi := h.inv
    have hl := h.le
    rw [hp] at hi hl h2
    have := hk a st' hi hl h2
    exact ⟨by rw [e1]; exact this.inv, by rw [e1]; exact hl.trans this.le, by rw [e1]; exact this.res, by rw [e1]; exact this.err⟩

theorem SimAt.each {α α' β γ : Type} {φ : β → γ} {P : St → β → Prop} {f : α → Mem β} {g : α' → Res γ}
    (hP : ∀ st st' b, Heap.Le st.heap st'.heap → P st b → P st' b) {H : Heap} {as : List α} {as' : List α'}
    (h : List.Forall₂ (fun a a' => ∀ st', Inv c L hash n st' → Heap.Le H st'.heap → SimAt c L hash n φ P st' (f a) (g a')) as as') {st : St}
    (h0 : Inv c L hash n st) (hH : Heap.Le H st.heap) :
    SimAt c L hash n (List.map φ) (fun st l => ∀ b ∈ l, P st b) st (Mem.each f as) (as'.mapM g) := by
  induction h generalizing st with
  | nil => exact SimAt.pure h0 (by simp)
  | @cons a a' as as' h1 h2 ih =>
    rw [List.mapM_cons]
    refine SimAt.bind (h1 st h0 hH) (fun b st' hi hl hb => ?_)
    refine SimAt.bind (ih hi (hH.trans hl)) (fun bs st'' hi' hl' hbs => ?_)
    refine SimAt.pure hi' ?_
    intro x hx
    rcases List.mem_cons.1 hx with rfl | hx
    · exact hP _ _ _ hl' hb
    · exact hbs x hx

/-- For results that are not nodes. -/
theorem Sim.each {α α' β : Type} {f : α → Mem β} {g : α' → Res β} {H : Heap} {as : List α} {as' : List α'}
    (h : List.Forall₂ (fun a a' => ∀ st', Inv c L hash n st' → Heap.Le H st'.heap → Sim c L hash n st' (f a) (g a')) as as') {st : St}
    (h0 : Inv c L hash n st) (hH : Heap.Le H st.heap) : Sim c L hash n st (Mem.each f as) (as'.mapM g) := by
  have := SimAt.each (P := fun _ _ => True) (by simp) h h0 hH
  refine ⟨this.inv, this.le, fun a ha => ?_, this.err⟩
  obtain ⟨h1, -⟩ := this.res a ha
  simpa using h1

theorem memoProb_sim {st : St} (h0 : Inv c L hash n st) {i : ℕ} {F : Factor} {s : Spe} (hs : st.heap i = some s) {body : Mem ℝ}
    (h : Sim c L hash n st body (s.probMem c L n F)) : Sim c L hash n st (memoProb i F body) (s.probMem c L n F) := by
  unfold memoProb
  cases hv : st.prob (i, F) with
  | some v =>
    obtain ⟨s', h1, h2⟩ := h0.prob i F v hv
    rw [hs] at h1; cases h1
    refine ⟨by simpa [hv] using h0, by simpa [hv] using Heap.Le.refl _, ?_, ?_⟩
    · intro a ha; simp [hv] at ha; subst ha; exact ⟨h2, trivial⟩
    · intro e he; simp [hv] at he
  | none =>
    rcases hb : body st with ⟨x, st'⟩
    have hi := h.inv
    have hl := h.le
    rw [hb] at hi hl
    cases x with
    | error e =>
      refine ⟨by simpa [hv, hb] using hi, by simpa [hv, hb] using hl, by simp [hv, hb], ?_⟩
      intro e' he
      simp [hv, hb] at he; subst he
      exact h.err e (by rw [hb])
    | ok v =>
      obtain ⟨h1, -⟩ := h.res v (by rw [hb])
      refine ⟨?_, by simpa [hv, hb] using hl, ?_, by simp [hv, hb]⟩
      · simp only [hv, hb]
        refine ⟨hi.fin, ?_, hi.cond, hi.dens, hi.con⟩
        intro j G w hw
        simp only [Function.update_apply] at hw
        split at hw
        · rename_i e; cases e; cases hw; exact ⟨s, hl _ _ hs, h1⟩
        · exact hi.prob j G w hw
      · intro a ha; simp [hv, hb] at ha; subst ha; exact ⟨h1, trivial⟩

theorem memoCond_sim {st : St} (h0 : Inv c L hash n st) {i : ℕ} {F : Factor} {s : Spe} (hs : st.heap i = some s) {body : Mem Node}
    (h : SimN c L hash n st body (s.condMem c L hash n F)) : SimN c L hash n st (memoCond i F body) (s.condMem c L hash n F) := by
  unfold memoCond
  cases hv : st.cond (i, F) with
  | some v =>
    obtain ⟨s', h1, h2, h3⟩ := h0.cond i F v hv
    rw [hs] at h1; cases h1
    refine ⟨by simpa [hv] using h0, by simpa [hv] using Heap.Le.refl _, ?_, ?_⟩
    · intro a ha; simp [hv] at ha; subst ha; exact ⟨h2, by simpa [hv] using h3⟩
    · intro e he; simp [hv] at he
  | none =>
    rcases hb : body st with ⟨x, st'⟩
    have hi := h.inv
    have hl := h.le
    rw [hb] at hi hl
    cases x with
    | error e =>
      refine ⟨by simpa [hv, hb] using hi, by simpa [hv, hb] using hl, by simp [hv, hb], ?_⟩
      intro e' he
      simp [hv, hb] at he; subst he
      exact h.err e (by rw [hb])
    | ok v =>
      obtain ⟨h1, h2⟩ := h.res v (by rw [hb])
      rw [hb] at h2
      refine ⟨?_, by simpa [hv, hb] using hl, ?_, by simp [hv, hb]⟩
      · simp only [hv, hb]
        refine ⟨hi.fin, hi.prob, ?_, hi.dens, hi.con⟩
        intro j G w hw
        simp only [Function.update_apply] at hw
        split at hw
        · rename_i e; cases e; cases hw; exact ⟨s, hl _ _ hs, h1, h2⟩
        · exact hi.cond j G w hw
      · intro a ha; simp [hv, hb] at ha; subst ha; exact ⟨h1, by simpa [hv, hb] using h2⟩

theorem new_sim {al : Alloc} (hal : al.OK) {st : St} (h0 : Inv c L hash n st) (i : ℕ) (F : Factor ⊕ Point) (s : Spe) : SimN c L hash n st (al.new i F s) (.ok s) := by
  obtain ⟨h1, h2, h3, h4⟩ := hal st i F s h0.fin
  refine ⟨⟨h4, ?_, ?_, ?_, ?_⟩, h3, ?_, ?_⟩
  · intro j G v hv
    obtain ⟨t, a, b⟩ := h0.prob j G v hv
    exact ⟨t, h3 _ _ a, b⟩
  · intro j G v hv
    obtain ⟨t, a, b, d⟩ := h0.cond j G v hv
    exact ⟨t, h3 _ _ a, b, Node.Live.mono h3 _ d⟩
  · intro j x v hv
    obtain ⟨t, a, b⟩ := h0.dens j x v hv
    exact ⟨t, h3 _ _ a, b⟩
  · intro j x v hv
    obtain ⟨t, a, b, d⟩ := h0.con j x v hv
    exact ⟨t, h3 _ _ a, b, Node.Live.mono h3 _ d⟩
  · intro a ha; simp [Alloc.new] at ha; subst ha; exact ⟨by rw [h1], h2⟩
  · intro e he; simp [Alloc.new] at he

theorem lift_new {al : Alloc} (hal : al.OK) {st : St} (h0 : Inv c L hash n st) (i : ℕ) (F : Factor ⊕ Point) (r : Res Spe) :
    SimN c L hash n st (Mem.bind (Mem.lift r) (fun s => al.new i F s)) r := by
  have := SimAt.bind (SimAt.lift h0 r) (k := fun r => al.new i F r) (k' := fun r => .ok r) (fun r st4 hi4 _ _ => new_sim hal hi4 i F r)
  have e : Except.bind r (fun r => .ok r) = r := by cases r <;> rfl
  rwa [e] at this

/-! ## `logprob_mem` -/

theorem conjKey_sim {syms : List (Finset String)} {fs : List (Factor → Mem ℝ)} {gs : List (Factor → Res ℝ)} {H : Heap}
    (hf : List.Forall₂ (fun f g => ∀ F st', Inv c L hash n st' → Heap.Le H st'.heap → Sim c L hash n st' (f F) (g F)) fs gs) (ms : List (Clause String)) (key : ℕ) {st : St}
    (h0 : Inv c L hash n st) (hH : Heap.Le H st.heap) : Sim c L hash n st (conjKeyM c syms fs ms key) (conjKey c syms gs ms key) := by
  unfold conjKeyM conjKey
  refine SimAt.bind (SimAt.lift h0 _) (fun cl st' hi hl _ => ?_)
  by_cases hcl : cl = []
  · simp only [hcl, if_true]; exact SimAt.pure hi trivial
  · simp only [hcl, if_false]
    by_cases hk : key < fs.length
    · have hk' : key < gs.length := hf.length_eq ▸ hk
      rw [List.getElem?_eq_getElem hk, List.getElem?_eq_getElem hk']
      exact (List.forall₂_iff_get.1 hf).2 key hk hk' _ _ hi (hH.trans hl)
    · have hk' : ¬ key < gs.length := hf.length_eq ▸ hk
      rw [List.getElem?_eq_none (by omega), List.getElem?_eq_none (by omega)]
      exact SimAt.error hi

theorem conjProb_sim {syms : List (Finset String)} {fs : List (Factor → Mem ℝ)} {gs : List (Factor → Res ℝ)} {H : Heap}
    (hf : List.Forall₂ (fun f g => ∀ F st', Inv c L hash n st' → Heap.Le H st'.heap → Sim c L hash n st' (f F) (g F)) fs gs) (ms : List (Clause String)) {st : St}
    (h0 : Inv c L hash n st) (hH : Heap.Le H st.heap) : Sim c L hash n st (conjProbM c syms fs ms) (conjProb c syms gs ms) := by
  unfold conjProbM conjProb
  refine SimAt.bind (SimAt.lift h0 _) (fun ks st' hi hl _ => ?_)
  refine SimAt.bind (Sim.each (H := H) (List.forall₂_same.2 (fun k _ st'' hi' hl' => conjKey_sim hf ms k hi' hl')) hi (hH.trans hl)) (fun ps st'' hi' hl' _ => ?_)
  exact SimAt.pure hi' trivial

theorem ieLoop_sim (m : ℕ) {f : List ℕ → Mem ℝ} {g : List ℕ → Res ℝ} {H : Heap}
    (hf : ∀ J st', Inv c L hash n st' → Heap.Le H st'.heap → Sim c L hash n st' (f J) (g J)) (stack : List (List ℕ × ℕ)) (avoid : List (List ℕ)) (pos neg : List ℝ) :
    ∀ {st : St}, Inv c L hash n st → Heap.Le H st.heap → Sim c L hash n st (ieLoopM m f stack avoid pos neg) (ieLoop m g stack avoid pos neg) := by
  induction hk : ieMeasure m stack using Nat.strong_induction_on generalizing stack avoid pos neg with
  | _ k ih =>
    intro st h0 hH
    cases stack with
    | nil => rw [ieLoopM, ieLoop]; exact SimAt.pure h0 trivial
    | cons q rest =>
      obtain ⟨J, i⟩ := q
      rw [ieLoopM, ieLoop]
      split
      · exact ih _ (by rw [← hk]; simp [ieMeasure]) _ _ _ _ rfl h0 hH
      · have : Sim c L hash n st _ (Except.bind (g J) (fun p => ieLoop m g (rest ++ ieNext m J i) (if p = 0 then avoid ++ [J] else avoid)
          (if J.length % 2 = 1 then pos ++ [p] else pos) (if J.length % 2 = 1 then neg else neg ++ [p]))) :=
          SimAt.bind (hf J st h0 hH) (fun p st' hi hl _ => ih _ (by
            rw [← hk]
            have := ieMeasure_next m J i
            simp only [ieMeasure, List.map_append, List.sum_append, List.map_cons, List.sum_cons] at this ⊢
            omega) _ _ _ _ rfl hi (hH.trans hl))
        convert this using 1
        cases g J <;> rfl

theorem inclExcl_sim (m : ℕ) {f : List ℕ → Mem ℝ} {g : List ℕ → Res ℝ} {H : Heap}
    (hf : ∀ J st', Inv c L hash n st' → Heap.Le H st'.heap → Sim c L hash n st' (f J) (g J)) {st : St} (h0 : Inv c L hash n st) (hH : Heap.Le H st.heap) :
    Sim c L hash n st (inclExclM m f) (inclExcl m g) := by
  unfold inclExclM inclExcl
  refine SimAt.bind (ieLoop_sim m hf _ _ _ _ h0 hH) (fun pn st' hi hl _ => ?_)
  exact SimAt.lift hi _

theorem probMem_leaf {s : Spe} (hs : s.isLeaf = true) (F : Factor) : s.probMem c L n F = (do
    let e ← factorEvent c F
    leafProb c L n s e) := by
  cases s <;> simp [Spe.isLeaf, Spe.leafEnv] at hs <;> simp [Spe.probMem]

theorem condMem_leaf {s : Spe} (hs : s.isLeaf = true) (F : Factor) : s.condMem c L hash n F = (do
    let e ← factorEvent c F
    leafCond c L n s e) := by
  cases s <;> simp [Spe.isLeaf, Spe.leafEnv] at hs <;> simp [Spe.condMem]

theorem probM_sim (t : Node) : ∀ {H : Heap}, t.Live H → ∀ F (st : St), Inv c L hash n st → Heap.Le H st.heap → Sim c L hash n st (t.probM c L n F) (t.spe.probMem c L n F) := by
  refine Node.rec
    (motive_1 := fun t => ∀ {H : Heap}, t.Live H → ∀ F (st : St), Inv c L hash n st → Heap.Le H st.heap → Sim c L hash n st (t.probM c L n F) (t.spe.probMem c L n F))
    (motive_2 := fun ts => ∀ {H : Heap}, Node.LiveL H ts →
      List.Forall₂ (fun f g => ∀ F st', Inv c L hash n st' → Heap.Le H st'.heap → Sim c L hash n st' (f F) (g F)) (Node.probML c L n ts) (Spe.probMemL c L n (Node.speL ts)))
    ?_ ?_ ?_ ?_ ?_ t
  · intro i s H hl F st h0 hH
    simp only [Node.Live] at hl
    rw [Node.probM, Node.spe]
    refine memoProb_sim h0 (hH _ _ hl.1) ?_
    rw [probMem_leaf hl.2]
    exact SimAt.lift h0 _
  · intro i cs ws ih H hl F st h0 hH
    simp only [Node.Live] at hl
    rw [Node.probM, Node.spe]
    refine memoProb_sim h0 (hH _ _ hl.1) ?_
    rw [Spe.probMem]
    refine SimAt.bind (Sim.each (H := H) ?_ h0 hH) (fun ps st' hi _ _ => SimAt.pure hi trivial)
    exact (ih hl.2).imp (fun f g h st' hi hl => h F st' hi hl)
  · intro i cs ih H hl F st h0 hH
    simp only [Node.Live] at hl
    rw [Node.probM, Node.spe]
    refine memoProb_sim h0 (hH _ _ hl.1) ?_
    rw [Spe.probMem]
    exact inclExcl_sim _ (fun J st' hi hl' => conjProb_sim (ih hl.2) _ hi hl') h0 hH
  · intro H _; simp [Node.probML, Spe.probMemL, Node.speL]
  · intro t ts h1 h2 H hl
    simp only [Node.LiveL] at hl
    simp only [Node.probML, Spe.probMemL, Node.speL]
    exact .cons (fun F st' hi hl' => h1 hl.1 F st' hi hl') (h2 hl.2)

theorem probML_sim {ts : List Node} {H : Heap} (hl : Node.LiveL H ts) :
    List.Forall₂ (fun f g => ∀ F st', Inv c L hash n st' → Heap.Le H st'.heap → Sim c L hash n st' (f F) (g F)) (Node.probML c L n ts) (Spe.probMemL c L n (Node.speL ts)) := by
  induction ts with
  | nil => simp [Node.probML, Spe.probMemL, Node.speL]
  | cons t ts ih =>
    simp only [Node.LiveL] at hl
    simp only [Node.probML, Spe.probMemL, Node.speL]
    exact .cons (fun F st' hi hl' => probM_sim t hl.1 F st' hi hl') (ih hl.2)

/-! ## `condition_mem` -/

/-- What is known of the methods `condition_mem` of the children. -/
def CondSims (c : Ctx) (L : Lib) (hash : Spe → ℤ) (n : ℕ) (H : Heap) (fs : List (Factor → Mem Node)) (gs : List (Factor → Res Spe)) : Prop :=
  List.Forall₂ (fun f g => ∀ F st', Inv c L hash n st' → Heap.Le H st'.heap → SimN c L hash n st' (f F) (g F)) fs gs

theorem live_mono : ∀ (st st' : St) (t : Node), Heap.Le st.heap st'.heap → t.Live st.heap → t.Live st'.heap := fun _ _ t h hl => Node.Live.mono h t hl

theorem SimN.each {α α' : Type} {f : α → Mem Node} {g : α' → Res Spe} {H : Heap} {as : List α} {as' : List α'}
    (h : List.Forall₂ (fun a a' => ∀ st', Inv c L hash n st' → Heap.Le H st'.heap → SimN c L hash n st' (f a) (g a')) as as') {st : St}
    (h0 : Inv c L hash n st) (hH : Heap.Le H st.heap) :
    SimAt c L hash n (List.map Node.spe) (fun st l => ∀ b ∈ l, b.Live st.heap) st (Mem.each f as) (as'.mapM g) :=
  SimAt.each live_mono h h0 hH

theorem condClause_sim {cs : List Node} {fs : List (Factor → Mem Node)} {gs : List (Factor → Res Spe)} {H : Heap} (hcs : Node.LiveL H cs) (hf : CondSims c L hash n H fs gs)
    (m : Clause String) {st : St} (h0 : Inv c L hash n st) (hH : Heap.Le H st.heap) :
    SimAt c L hash n (List.map Node.spe) (fun st l => ∀ b ∈ l, b.Live st.heap) st (condClauseM cs fs m) (condClause (Node.speL cs) gs m) := by
  unfold condClauseM condClause
  refine SimN.each (H := H) ?_ h0 hH
  unfold CondSims at hf
  clear h0 hH
  induction cs generalizing fs gs with
  | nil => simp [Node.speL]
  | cons t ts ih =>
    cases hf with
    | nil => simp
    | @cons f g fs gs h1 h2 =>
      simp only [Node.LiveL] at hcs
      simp only [Node.speL, List.zip_cons_cons]
      refine .cons ?_ (ih hcs.2 h2)
      intro st' hi hl
      dsimp only
      split
      · exact SimAt.pure hi (Node.Live.mono hl _ hcs.1)
      · exact h1 _ st' hi hl

theorem condProd_sim {al : Alloc} (hal : al.OK) {i : ℕ} {cs : List Node} {pf : List (Factor → Mem ℝ)} {pg : List (Factor → Res ℝ)} {fs : List (Factor → Mem Node)} {gs : List (Factor → Res Spe)}
    {p : Mem ℝ} {q : Res ℝ} {H : Heap} (hcs : Node.LiveL H cs)
    (hp : List.Forall₂ (fun f g => ∀ F st', Inv c L hash n st' → Heap.Le H st'.heap → Sim c L hash n st' (f F) (g F)) pf pg) (hf : CondSims c L hash n H fs gs)
    (hq : ∀ st', Inv c L hash n st' → Heap.Le H st'.heap → Sim c L hash n st' p q) (F : Factor) {st : St} (h0 : Inv c L hash n st) (hH : Heap.Le H st.heap) :
    SimN c L hash n st (condProdM c hash al i cs pf fs p F) (condProd c hash (Node.speL cs) pg gs q F) := by
  unfold condProdM condProd
  refine SimAt.bind (Sim.each (H := H) (List.forall₂_same.2 (fun m _ st'' hi' hl' => conjProb_sim hp [m] hi' hl')) h0 hH) (fun ps st' hi hl _ => ?_)
  refine SimAt.bind (hq st' hi (hH.trans hl)) (fun q st'' hi' hl' _ => ?_)
  dsimp only
  split
  · exact SimAt.error hi'
  split
  · exact SimAt.error hi'
  refine SimAt.bind (SimAt.each (H := H) ?_ (List.forall₂_same.2 (fun r _ st'' hi' hl' => condClause_sim hcs hf r.1 hi' hl')) hi' ((hH.trans hl).trans hl'))
    (fun childrens st3 hi3 hl3 _ => ?_)
  · intro st st' l hl h b hb; exact Node.Live.mono hl _ (h b hb)
  exact lift_new hal hi3 i (.inl F) _

theorem condSum_sim {al : Alloc} (hal : al.OK) {i : ℕ} {ws ps : List ℝ} {fs : List (Factor → Mem Node)} {gs : List (Factor → Res Spe)} {H : Heap}
    (hf : CondSims c L hash n H fs gs) (F : Factor) {st : St} (h0 : Inv c L hash n st) (hH : Heap.Le H st.heap) :
    SimN c L hash n st (condSumM al i ws ps fs F) (condSum ws ps gs F) := by
  have key : ∀ {qs : List (ℝ × ℝ)} {fs : List (Factor → Mem Node)} {gs : List (Factor → Res Spe)}, CondSims c L hash n H fs gs →
      List.Forall₂ (fun r r' => r.1 = r'.1 ∧ ∀ F st', Inv c L hash n st' → Heap.Le H st'.heap → SimN c L hash n st' (r.2 F) (r'.2 F))
        ((qs.zip fs).filter (fun r => r.1.2 ≠ 0)) ((qs.zip gs).filter (fun r => r.1.2 ≠ 0)) := by
    intro qs
    induction qs with
    | nil => intro fs gs _; simp
    | cons q qs ih =>
      intro fs gs h
      cases h with
      | nil => simp
      | @cons f g fs gs h1 h2 =>
        simp only [List.zip_cons_cons, List.filter_cons]
        split
        · exact .cons ⟨rfl, h1⟩ (ih h2)
        · exact ih h2
  have k := key (qs := ws.zip ps) hf
  unfold condSumM condSum
  dsimp only
  generalize ((ws.zip ps).zip fs).filter (fun r => decide (r.1.2 ≠ 0)) = A at k ⊢
  generalize ((ws.zip ps).zip gs).filter (fun r => decide (r.1.2 ≠ 0)) = B at k ⊢
  have hn : A = [] ↔ B = [] := by
    constructor <;> intro h <;> subst h <;> cases k <;> rfl
  have hw : A.map (fun r => r.1.2 * r.1.1) = B.map (fun r => r.1.2 * r.1.1) := by
    clear hn
    induction k with
    | nil => rfl
    | cons h1 h2 ih => simp [h1.1, ih]
  by_cases hA : A = []
  · rw [if_pos hA, if_pos (hn.1 hA)]; exact SimAt.error h0
  rw [if_neg hA, if_neg (fun h => hA (hn.2 h)), ← hw]
  refine SimAt.bind (SimN.each (H := H) (k.imp (fun r r' h st' hi hl => h.2 F st' hi hl)) h0 hH) (fun children st' hi hl _ => ?_)
  exact lift_new hal hi i (.inl F) _

theorem condM_sim {al : Alloc} (hal : al.OK) (t : Node) : ∀ {H : Heap}, t.Live H → ∀ F (st : St), Inv c L hash n st → Heap.Le H st.heap →
    SimN c L hash n st (t.condM c L hash n al F) (t.spe.condMem c L hash n F) := by
  refine Node.rec
    (motive_1 := fun t => ∀ {H : Heap}, t.Live H → ∀ F (st : St), Inv c L hash n st → Heap.Le H st.heap →
      SimN c L hash n st (t.condM c L hash n al F) (t.spe.condMem c L hash n F))
    (motive_2 := fun ts => ∀ {H : Heap}, Node.LiveL H ts → CondSims c L hash n H (Node.condML c L hash n al ts) (Spe.condMemL c L hash n (Node.speL ts)))
    ?_ ?_ ?_ ?_ ?_ t
  · intro i s H hl F st h0 hH
    simp only [Node.Live] at hl
    rw [Node.condM, Node.spe]
    refine memoCond_sim h0 (hH _ _ hl.1) ?_
    rw [condMem_leaf hl.2]
    exact lift_new hal h0 i (.inl F) _
  · intro i cs ws ih H hl F st h0 hH
    simp only [Node.Live] at hl
    rw [Node.condM, Node.spe]
    refine memoCond_sim h0 (hH _ _ hl.1) ?_
    rw [Spe.condMem]
    refine SimAt.bind (Sim.each (H := H) ((probML_sim hl.2).imp (fun f g h st' hi hl => h F st' hi hl)) h0 hH) (fun ps st' hi hl' _ => ?_)
    exact condSum_sim hal (ih hl.2) F hi (hH.trans hl')
  · intro i cs ih H hl F st h0 hH
    have hl0 := hl
    simp only [Node.Live] at hl
    rw [Node.condM, Node.spe]
    refine memoCond_sim h0 (hH _ _ hl.1) ?_
    rw [Spe.condMem]
    exact condProd_sim hal hl.2 (probML_sim hl.2) (ih hl.2) (fun st' hi hl' => probM_sim (.prod i cs) hl0 F st' hi hl') F h0 hH
  · intro H _; simp [Node.condML, Spe.condMemL, Node.speL, CondSims]
  · intro t ts h1 h2 H hl
    simp only [Node.LiveL] at hl
    simp only [Node.condML, Spe.condMemL, Node.speL]
    exact .cons (fun F st' hi hl' => h1 hl.1 F st' hi hl') (h2 hl.2)

/-! ## Public methods -/

/-- An event that has been substituted is not changed any more. -/
theorem leafSubst_again {sym : String} {env : Env} (hb : sym ∈ env.map Prod.fst ∧ env.get sym = .id sym) {e r : Ev} (h : leafSubst c n sym env e = .ok r) :
    leafSubst c n sym env r = .ok r := by
  simp only [leafSubst, bind, Except.bind] at h
  split at h; · cases h
  rename_i x hx
  split at h; swap; · cases h
  split at h; swap; · cases h
  rename_i hs
  cases h
  have hno : ¬ exprInEnv r.symbols env := by rintro ⟨s, h1, h2⟩; rw [hs, Finset.mem_singleton] at h1; subst h1; exact h2 hb.2
  have hsub : r.substitute c n env n = .ok r := by cases n <;> simp [Ev.substitute, hno]
  simp only [leafSubst, hsub, bind, Except.bind, hs, if_true]
  rw [if_pos]
  intro s h1
  rw [Finset.mem_singleton] at h1; subst h1; exact hb.1

theorem factorEvent_one (sym : String) (r : Ev) : factorEvent c [[(sym, r)]] = .ok r := by
  simp [factorEvent, reduceM, bind, Except.bind, pure, Except.pure, List.mapM_cons]

theorem probMem_subst {s : Spe} {sym : String} {env : Env} (hs : s.leafEnv = some (sym, env)) (hb : s.BaseOK) {e r : Ev} (h : leafSubst c n sym env e = .ok r) :
    s.probMem c L n [[(sym, r)]] = (do
      let S ← r.solve c n
      leafProbSet c L s S) := by
  rw [probMem_leaf (by simp [Spe.isLeaf, hs]), factorEvent_one]
  simp only [bind, Except.bind, leafProb, hs, leafSubst_again (hb _ _ hs) h]

theorem condMem_subst {s : Spe} {sym : String} {env : Env} (hs : s.leafEnv = some (sym, env)) (hb : s.BaseOK) {e r : Ev} (h : leafSubst c n sym env e = .ok r) :
    s.condMem c L hash n [[(sym, r)]] = (do
      let S ← r.solve c n
      leafCondSet c L s S) := by
  rw [condMem_leaf (by simp [Spe.isLeaf, hs]), factorEvent_one]
  simp only [bind, Except.bind, leafCond, hs, leafSubst_again (hb _ _ hs) h]

theorem sim_guard {α β : Type} {φ : α → β} {P : St → α → Prop} {st : St} (h0 : Inv c L hash n st) {r : Ev} {k : Ev → Mem α} {k' : Ev → Res β}
    (h : SimAt c L hash n φ P st (k r) (k' r)) :
    SimAt c L hash n φ P st (do
      let r ← Mem.lift (.ok r)
      if r.hashable then k r else Mem.lift (.error .type)) (do
      let _ ← (do
        let r ← (Except.ok r : Res Ev)
        if r.hashable then (Except.ok () : Res Unit) else .error .type)
      let r ← (Except.ok r : Res Ev)
      k' r) := by
  by_cases hd : r.hashable = true
  · have e1 : (do
      let r ← Mem.lift (.ok r)
      if r.hashable then k r else Mem.lift (.error .type)) = k r := by
      funext st; simp only [bind, Mem.bind, Mem.lift, hd, if_true]
    rw [e1]
    simpa only [bind, Except.bind, hd, if_true] using h
  · have e1 : (do
      let r ← Mem.lift (.ok r)
      if r.hashable then k r else Mem.lift (.error .type)) = Mem.lift (.error .type) := by
      funext st; simp only [bind, Mem.bind, Mem.lift, hd, if_false]; rfl
    rw [e1]
    have := SimAt.error (c := c) (L := L) (hash := hash) (n := n) (st := st) (e := Err.type) (φ := φ) (P := P) h0
    simpa [bind, Except.bind, hd] using this

theorem logprob_sim {t : Node} (hb : t.spe.BaseOK) (e : Ev) {st : St} (hl : t.Live st.heap) (h0 : Inv c L hash n st) :
    Sim c L hash n st (t.logprob c L n e) (keyed c n t.spe e (t.spe.prob c L n e)) := by
  have branch : t.spe.isLeaf = false → Sim c L hash n st (do
      let o ← Mem.lift (dnfNormalize c n e)
      match o with
      | none => Mem.pure 0
      | some d => do
        let F ← Mem.lift (dnfFactor1 c d)
        t.probM c L n F) (keyed c n t.spe e (t.spe.prob c L n e)) := by
    intro hlf
    rw [keyed_branch hlf]
    unfold Spe.prob
    rw [if_neg (by simp [hlf])]
    refine SimAt.bind (SimAt.lift h0 _) (fun o st' hi hle _ => ?_)
    cases o with
    | none => exact SimAt.pure hi trivial
    | some d =>
      refine SimAt.bind (SimAt.lift hi _) (fun F st'' hi' hl' _ => ?_)
      exact probM_sim t hl F st'' hi' (hle.trans hl')
  cases t with
  | sum i cs ws => exact branch (by simp [Node.spe, Spe.isLeaf, Spe.leafEnv])
  | prod i cs => exact branch (by simp [Node.spe, Spe.isLeaf, Spe.leafEnv])
  | leaf i s =>
    simp only [Node.Live] at hl
    simp only [Node.spe] at hb ⊢
    unfold Node.logprob Spe.prob
    rw [if_pos hl.2]
    unfold leafProb keyed leafKey
    cases hs : s.leafEnv with
    | none => simp [Spe.isLeaf, hs] at hl
    | some p =>
      obtain ⟨sym, env⟩ := p
      simp only [hs]
      cases hr : leafSubst c n sym env e with
      | error e' =>
        exact SimAt.bind (k := fun r : Ev => if r.hashable then memoProb i [[(sym, r)]] (Mem.lift (do
          let S ← r.solve c n
          leafProbSet c L s S)) else Mem.lift (.error .type)) (k' := fun r => (do
          let S ← r.solve c n
          leafProbSet c L s S)) (SimAt.error (φ := fun a : Ev => a) (P := fun _ _ => False) h0) (by intro a st' _ _ h; exact h.elim)
      | ok r =>
        refine sim_guard h0 ?_
        have := memoProb_sim (F := [[(sym, r)]]) (body := Mem.lift (do
          let S ← r.solve c n
          leafProbSet c L s S)) h0 hl.1 (by rw [probMem_subst hs hb hr]; exact SimAt.lift h0 _)
        rw [probMem_subst hs hb hr] at this
        exact this

theorem dropNull_sim {t : Node} {H : Heap} (hl : t.Live H) (e : Ev) {st : St} (h0 : Inv c L hash n st) (hH : Heap.Le H st.heap) :
    Sim c L hash n st (dropNullM c L n t e) (dropNull c L n t.spe e) := by
  cases e with
  | or es =>
    simp only [dropNullM, dropNull]
    refine SimAt.bind (SimAt.lift h0 _) (fun Fs st' hi hle _ => ?_)
    refine SimAt.bind (Sim.each (H := H) (List.forall₂_same.2 (fun F _ st'' hi' hl' => probM_sim t hl F st'' hi' hl')) hi (hH.trans hle)) (fun ps st'' hi' hl' _ => ?_)
    exact SimAt.lift hi' _
  | _ => exact SimAt.pure h0 trivial

theorem condition_sim {al : Alloc} (hal : al.OK) {t : Node} (hb : t.spe.BaseOK) (e : Ev) {st : St} (hl : t.Live st.heap) (h0 : Inv c L hash n st) :
    SimN c L hash n st (t.condition c L hash n al e) (keyed c n t.spe e (t.spe.condition c L hash n e)) := by
  have branch : t.spe.isLeaf = false → SimN c L hash n st (do
      let o ← Mem.lift (dnfNormalize c n e)
      match o with
      | none => Mem.lift (.error .value)
      | some d => do
        let d' ← dropNullM c L n t d
        let g ← Mem.lift (toDisjoint c n n d')
        let F ← Mem.lift (dnfFactor1 c g)
        t.condM c L hash n al F) (keyed c n t.spe e (t.spe.condition c L hash n e)) := by
    intro hlf
    rw [keyed_branch hlf]
    unfold Spe.condition
    rw [if_neg (by simp [hlf])]
    refine SimAt.bind (SimAt.lift h0 _) (fun o st' hi hle _ => ?_)
    cases o with
    | none => exact SimAt.error hi
    | some d =>
      refine SimAt.bind (dropNull_sim hl d hi hle) (fun d' st2 hi2 hl2 _ => ?_)
      refine SimAt.bind (SimAt.lift hi2 _) (fun g st3 hi3 hl3 _ => ?_)
      refine SimAt.bind (SimAt.lift hi3 _) (fun F st4 hi4 hl4 _ => ?_)
      exact condM_sim hal t hl F st4 hi4 (((hle.trans hl2).trans hl3).trans hl4)
  cases t with
  | sum i cs ws => exact branch (by simp [Node.spe, Spe.isLeaf, Spe.leafEnv])
  | prod i cs => exact branch (by simp [Node.spe, Spe.isLeaf, Spe.leafEnv])
  | leaf i s =>
    simp only [Node.Live] at hl
    simp only [Node.spe] at hb ⊢
    unfold Node.condition Spe.condition
    rw [if_pos hl.2]
    unfold leafCond keyed leafKey
    cases hs : s.leafEnv with
    | none => simp [Spe.isLeaf, hs] at hl
    | some p =>
      obtain ⟨sym, env⟩ := p
      simp only [hs]
      cases hr : leafSubst c n sym env e with
      | error e' =>
        exact SimAt.bind (k := fun r : Ev => if r.hashable then memoCond i [[(sym, r)]] (do
          let s' ← Mem.lift (do
            let S ← r.solve c n
            leafCondSet c L s S)
          al.new i (.inl [[(sym, r)]]) s') else Mem.lift (.error .type)) (k' := fun r => (do
          let S ← r.solve c n
          leafCondSet c L s S)) (SimAt.error (φ := fun a : Ev => a) (P := fun _ _ => False) h0) (by intro a st' _ _ h; exact h.elim)
      | ok r =>
        refine sim_guard h0 ?_
        have := memoCond_sim (F := [[(sym, r)]]) (body := (do
          let s' ← Mem.lift (do
            let S ← r.solve c n
            leafCondSet c L s S)
          al.new i (.inl [[(sym, r)]]) s')) h0 hl.1 (by
            rw [condMem_subst hs hb hr]
            exact lift_new hal h0 i _ _)
        rw [condMem_subst hs hb hr] at this
        exact this

end Sppl
