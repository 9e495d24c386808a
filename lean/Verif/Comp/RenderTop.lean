import Verif.Comp.RenderCompile
import Mathlib.Data.Nat.Digits.Defs

set_option linter.all false

/-!
# Lemmas on `render_sppl`: the whole program
-/

namespace Sppl
open Classical MeasureTheory

theorem toList_nat (n : ℕ) : (toString n).toList = Nat.toDigits 10 n := Nat.toList_repr

theorem toString_inj {i j : ℕ} (h : toString i = toString j) : i = j := by
  have h1 := congrArg String.toList h
  rw [toList_nat, toList_nat] at h1
  have h2 : ∀ n, Nat.ofDigitChars 10 (Nat.toDigits 10 n) 0 = n := by
    intro n
    simp
  rw [← h2 i, h1, h2 j]

theorem branchVar_inj {i j : ℕ} (h : branchVar i = branchVar j) : i = j := by
  have h1 := congrArg String.toList h
  simp only [branchVar, String.toList_append] at h1
  refine toString_inj (String.toList_injective ?_)
  simpa using h1

theorem plainKey_nat (n : ℕ) : plainKey (toString n) = true := by
  unfold plainKey
  rw [toList_nat, List.all_eq_true]
  intro x hx
  have := Nat.isDigit_of_mem_toDigits (by norm_num) (by norm_num) hx
  have h1 : x ≠ '\'' := by rintro rfl; revert this; decide
  have h2 : x ≠ '\\' := by rintro rfl; revert this; decide
  have h3 : x ≠ '\n' := by rintro rfl; revert this; decide
  simp [h1, h2, h3]

theorem isName_branch (n : ℕ) : isName (branchVar n) = true := by
  have h1 : (branchVar n).toList = "branch_var_".toList ++ Nat.toDigits 10 n := by
    simp only [branchVar, String.toList_append, ← toList_nat]
    rfl
  have h2 : pyKeywords.contains (branchVar n) = false := by
    rw [← Bool.not_eq_true, List.contains_iff_mem]
    intro h
    have hl : ∀ k ∈ pyKeywords, k.toList.length ≤ 8 := by decide
    have := hl _ h
    rw [h1, List.length_append] at this
    have h3 : "branch_var_".toList.length = 11 := by decide
    omega
  unfold isName
  rw [h1, h2]
  have h4 : "branch_var_".toList = 'b' :: "ranch_var_".toList := by decide
  rw [h4]
  simp only [List.cons_append, List.all_append]
  have h5 : (Nat.toDigits 10 n).all (fun y => y.isAlphanum || y == '_') = true := by
    rw [List.all_eq_true]
    intro x hx
    have := Nat.isDigit_of_mem_toDigits (by norm_num) (by norm_num) hx
    simp [Char.isAlphanum, this]
  rw [h5]
  decide

theorem branchTable_fst (ws : List ℝ) : (branchTable ws).map Prod.fst = (List.range ws.length).map toString := by
  unfold branchTable
  rw [List.map_zipWith]
  have : ∀ (l : List ℕ) (ws : List ℝ), l.length = ws.length → List.zipWith (fun i w => ((toString i, ratOf w) : String × ℚ).1) l ws = l.map toString := by
    intro l
    induction l with
    | nil => intro ws _; simp
    | cons a l ih =>
      intro ws h
      cases ws with
      | nil => simp at h
      | cons w ws => simp only [List.zipWith_cons_cons, List.map_cons]; rw [ih ws (by simpa using h)]
  exact this _ _ (by simp)

theorem branchTable_nodup (ws : List ℝ) : ((branchTable ws).map Prod.fst).Nodup := by
  rw [branchTable_fst]
  exact List.nodup_range.map (fun _ _ => toString_inj)

theorem branchTable_real {ws : List ℝ} (h : ∀ w ∈ ws, ∃ q : ℚ, w = (q : ℝ)) : (branchTable ws).map (fun p => (p.1, (p.2 : ℝ))) = branchDist ws := by
  unfold branchTable branchDist
  rw [List.map_zipWith]
  have : ∀ (l : List ℕ) (ws : List ℝ), (∀ w ∈ ws, ∃ q : ℚ, w = (q : ℝ)) → List.zipWith (fun i w => ((toString i, ((ratOf w : ℚ) : ℝ)) : String × ℝ)) l ws = List.zipWith (fun i w => (toString i, w)) l ws := by
    intro l
    induction l with
    | nil => intro ws _; simp
    | cons a l ih =>
      intro ws h
      cases ws with
      | nil => simp
      | cons w ws => simp only [List.zipWith_cons_cons]; rw [ih ws (fun v hv => h v (by simp [hv])), ratOf_ok (h w (by simp))]
  exact this _ _ h

section
variable {D : List String} {H : PyHost} {c : Ctx} {L : Lib} {μ : Dist → Measure ℝ}

theorem renderChoice_branch (n : ℕ) (ws : List ℝ) : renderChoice (branchVar n) (branchDist ws) = .ok (.assign (.name (branchVar n)) (.call "choice" ([dictObj (branchDist ws)].map PE.lit))) := by
  unfold renderChoice
  rw [if_pos]
  · rfl
  · rw [isName_branch, Bool.true_and, List.all_eq_true]
    intro p hp
    have : ∀ (l : List ℕ) (ws : List ℝ), p ∈ List.zipWith (fun i w => ((toString i, w) : String × ℝ)) l ws → plainKey p.1 = true := by
      intro l
      induction l with
      | nil => intro ws h; simp at h
      | cons a l ih =>
        intro ws h
        cases ws with
        | nil => simp at h
        | cons w ws =>
          rw [List.zipWith_cons_cons, List.mem_cons] at h
          rcases h with rfl | h
          · exact plainKey_nat _
          · exact ih ws h
    exact this _ _ hp

/-- The names of the branch variables. -/
def branchVars (n k : ℕ) : Finset String := ((List.range' n k).map branchVar).toFinset

theorem branchVars_mem {n k : ℕ} {x : String} : x ∈ branchVars n k ↔ ∃ j, n ≤ j ∧ j < n + k ∧ x = branchVar j := by
  unfold branchVars
  simp only [List.mem_toFinset, List.mem_map, List.mem_range'_1]
  constructor
  · rintro ⟨j, ⟨h1, h2⟩, rfl⟩; exact ⟨j, h1, h2, rfl⟩
  · rintro ⟨j, h1, h2, rfl⟩; exact ⟨j, ⟨h1, h2⟩, rfl⟩

theorem branches_lay (hch : H.Choice D) : ∀ (wss : List (List ℝ)) (n : ℕ), (∀ ws ∈ wss, ∀ w ∈ ws, ∃ q : ℚ, w = (q : ℝ)) →
    ∃ l, renderBranches n wss = .ok l ∧ l.length = wss.length ∧ ∀ A : Set String, (∀ x ∈ branchVars n wss.length, x ∈ A) → ∀ ctx st, st.first = false → Free ctx (branchVars n wss.length) st →
      Lays D H c A (fun k => visitItems (visit D k ctx) l st) st (branchVars n wss.length) (branchCmds n wss) := by
  intro wss
  induction wss with
  | nil => intro n _; exact ⟨[], rfl, rfl, fun A _ ctx st hst _ => Lays.nil hst⟩
  | cons ws wss ih =>
    intro n hq
    obtain ⟨l, h1, h2, h3⟩ := ih (n + 1) (fun v hv => hq v (by simp [hv]))
    have hsplit : branchVars n (ws :: wss).length = {branchVar n} ∪ branchVars (n + 1) wss.length := by
      ext x
      simp only [branchVars, List.length_cons, List.range'_succ, List.map_cons, List.toFinset_cons, Finset.mem_insert, Finset.mem_union, Finset.mem_singleton]
    refine ⟨_ :: l, by simp only [renderBranches, renderChoice_branch, h1, bind, Except.bind]; rfl, by simp [h2], ?_⟩
    intro A hA ctx st hst hfree
    rw [hsplit] at hA hfree ⊢
    have hcall : H.call "choice" [dictObj (branchDist ws)] = .ok (.dist (.one (.nominal (branchTable ws)))) := by
      rw [← branchTable_real (hq ws (by simp))]
      exact hch.dict (branchTable_nodup ws)
    have a1 := lays_one (lays_sample (c := c) (A := A) hch.mem (by decide) (hfree.mono (T := {branchVar n}) Finset.subset_union_left) hst (hA _ (by simp)) hcall)
    refine lays_append a1 ?_
    intro st' hs
    refine h3 A (fun x hx => hA x (Finset.mem_union_right _ hx)) ctx st' hs.first ((hfree.mono Finset.subset_union_right).after hs ?_)
    rw [Finset.disjoint_left]
    intro x hx hx'
    rw [Finset.mem_singleton] at hx
    subst hx
    obtain ⟨j, hj, -, e⟩ := branchVars_mem.1 hx'
    have := branchVar_inj e
    omega

theorem wss_rat : ∀ s : Spe, s.WF c L μ → s.CanRender D H c L μ → ∀ ws ∈ s.wss, (∀ w ∈ ws, ∃ q : ℚ, w = (q : ℝ)) ∧ (∀ w ∈ ws, 0 ≤ w) ∧ ws.sum = 1 := by
  have hl : ∀ cs : List Spe, (∀ s ∈ cs, ∀ ws ∈ s.wss, (∀ w ∈ ws, ∃ q : ℚ, w = (q : ℝ)) ∧ (∀ w ∈ ws, 0 ≤ w) ∧ ws.sum = 1) → ∀ ws ∈ Spe.wssL cs, (∀ w ∈ ws, ∃ q : ℚ, w = (q : ℝ)) ∧ (∀ w ∈ ws, 0 ≤ w) ∧ ws.sum = 1 := by
    intro cs
    induction cs with
    | nil => intro _ ws h; cases h
    | cons s ss ih =>
      intro h ws hws
      rcases List.mem_append.1 hws with h' | h'
      · exact h s (by simp) ws h'
      · exact ih (fun t ht => h t (by simp [ht])) ws h'
  intro s
  refine Spe.ind (Q := fun s => s.WF c L μ → s.CanRender D H c L μ → ∀ ws ∈ s.wss, (∀ w ∈ ws, ∃ q : ℚ, w = (q : ℝ)) ∧ (∀ w ∈ ws, 0 ≤ w) ∧ ws.sum = 1) ?_ ?_ ?_ ?_ ?_ s
  · intro k X d supp cond env _ _ ws h; simp [Spe.wss] at h
  · intro X v env _ _ ws h; simp [Spe.wss] at h
  · intro X dist _ _ ws h; simp [Spe.wss] at h
  · intro cs ws ih hw hc
    cases hw with
    | @sum _ _ S hws hne hlen hw0 hw1 hS =>
    cases hc with
    | sum hcs hq =>
    have hall := hl cs (fun s hs => ih s hs (hws s hs) (hcs s hs))
    match cs, hall with
    | [], _ => intro v hv; simp [Spe.wss] at hv
    | [s], hall => intro v hv; exact hall v (by simpa [Spe.wss, Spe.wssL] using hv)
    | s :: t :: cs, hall =>
      intro v hv
      rcases List.mem_cons.1 (show v ∈ ws :: (s.wss ++ Spe.wssL (t :: cs)) by simpa only [Spe.wss] using hv) with rfl | hv
      · exact ⟨hq, hw0, hw1⟩
      · exact hall v hv
  · intro cs ih hw hc
    cases hw with
    | prod hws hne hdj =>
    cases hc with
    | prod hcs => exact hl cs (fun s hs => ih s hs (hws s hs) (hcs s hs))

theorem varNames_scalar {vs : List (String × VarKind)} (h : ∀ p ∈ vs, p.2 = .scalar) (st : VS) (hv : st.vars = vs) : st.varNames = vs.map Prod.fst ∧ st.arrays = [] := by
  unfold VS.varNames VS.arrays
  rw [hv]
  clear hv
  induction vs with
  | nil => simp
  | cons p vs ih =>
    obtain ⟨x, k⟩ := p
    have hk : k = .scalar := h (x, k) (by simp)
    subst hk
    obtain ⟨i1, i2⟩ := ih (fun q hq => h q (by simp [hq]))
    exact ⟨by simp [i1], by simp [i2]⟩

theorem mem_of_lookup_kind {vs : List (String × VarKind)} {x : String} {k : VarKind} (h : vs.lookup x = some k) : (x, k) ∈ vs := by
  induction vs with
  | nil => cases h
  | cons p vs ih =>
    obtain ⟨y, j⟩ := p
    rw [List.lookup_cons] at h
    split at h
    · rename_i hy
      injection h with h
      subst h
      simp at hy
      simp [hy]
    · exact List.mem_cons_of_mem _ (ih h)

theorem runVariables_get : ∀ (xs : List String) (ρ : NS) (x : String), (x ∈ xs ∨ ρ x = some (.tr (.id x))) → runVariables xs ρ x = some (.tr (.id x)) := by
  intro xs
  induction xs with
  | nil => intro ρ x h; simpa [runVariables] using h
  | cons y xs ih =>
    intro ρ x h
    simp only [runVariables]
    refine ih _ x ?_
    by_cases hy : x = y
    · subst hy; right; simp [NS.bind]
    · rcases h with h | h
      · left; simpa [hy] using h
      · right; simpa [NS.bind, hy] using h

theorem runVariables_none : ∀ (xs : List String) (ρ : NS) (x : String), x ∉ xs → runVariables xs ρ x = ρ x := by
  intro xs
  induction xs with
  | nil => intro ρ x _; rfl
  | cons y xs ih =>
    intro ρ x h
    simp only [List.mem_cons, not_or] at h
    simp only [runVariables]
    rw [ih _ x h.2]
    simp [NS.bind, h.1]

theorem lookup_of_mem_key {vs : List (String × VarKind)} {x : String} {k : VarKind} (h : (x, k) ∈ vs) : (vs.lookup x).isSome := by
  induction vs with
  | nil => cases h
  | cons p vs ih =>
    obtain ⟨y, j⟩ := p
    rw [List.lookup_cons]
    split
    · rfl
    · rename_i hy
      rcases List.mem_cons.1 h with h | h
      · injection h with h1 h2; subst h1; simp at hy
      · exact ih h

/-- The source of an SPE is compiled and run to the commands of the branch variables and of the SPE. -/
theorem render_top (hch : H.Choice D) {s : Spe} (hw : s.WF c L μ) (hc : s.CanRender D H c L μ) (hfresh : ∀ n, branchVar n ∉ s.symbols) (hD : ∀ f ∈ D, f ∉ s.symbols ∧ ∀ n, f ≠ branchVar n) :
    ∃ src, renderSppl s = .ok src ∧ ∃ N p, (∀ n, N ≤ n → compile D n src = .ok p) ∧ ∀ ρ₀ : NS, (∀ f ∈ D, ρ₀ f = none) → p.run H c ρ₀ = .ok (.seq (branchCmds 0 s.wss ++ s.cmds D H c 0)) := by
  obtain ⟨l, h1, -, -, h2⟩ := render_laid hch s [] hw hc
  obtain ⟨b, h3, -, h4⟩ := branches_lay (c := c) hch s.wss 0 (fun ws h => (wss_rat s hw hc ws h).1)
  refine ⟨b ++ l, by simp [renderSppl, h1, h3, bind, Except.bind], ?_⟩
  let S := branchVars 0 s.wss.length ∪ s.symbols
  let st0 : VS := ⟨false, [], [], []⟩
  have hL : Lays D H c (S : Set String) (fun k => visitItems (visit D k ["global"]) (b ++ l) st0) st0 S (branchCmds 0 s.wss ++ s.cmds D H c 0) := by
    refine lays_append (h4 S (fun x hx => by simp [S, hx]) ["global"] st0 rfl ⟨by decide, fun x hx => by simp [st0]⟩) ?_
    intro st' hs
    refine h2 S (fun x hx => by simp [S, hx]) (fun j hj => ?_) ["global"] st' hs.first ⟨by decide, fun x hx => ?_⟩
    · simp only [S, Finset.coe_union, Set.mem_union, Finset.mem_coe]
      exact .inl (branchVars_mem.2 ⟨j, by omega, by simpa using hj, rfl⟩)
    · rw [if_neg (by decide), hs.only x ?_]
      · rfl
      · intro h
        obtain ⟨j, -, -, rfl⟩ := branchVars_mem.1 h
        exact hfresh j hx
  obtain ⟨N, ts, st', hs, hv, hr⟩ := hL
  have hscal : ∀ p ∈ st'.vars, p.2 = .scalar := by
    intro p hp
    rcases hs.scalar p hp with h | h
    · cases h
    · exact h
  obtain ⟨v1, v2⟩ := varNames_scalar hscal st' rfl
  refine ⟨N, ⟨st'.constants, st'.varNames, st'.arrays, [.seq ts]⟩, ?_, ?_⟩
  · intro n hn
    have := hv n hn
    simp only [st0] at this
    simp only [compile, visitModule, this, bind, Except.bind, sequenceBlock, Bool.or_true, if_true]
  · intro ρ₀ hρ₀
    have hcon : st'.constants = [] := hs.constants
    have hb : Binds D (S : Set String) (runVariables st'.varNames ρ₀) := by
      constructor
      · intro x hx
        refine runVariables_get _ _ _ (.inl ?_)
        rw [v1]
        have := hs.new x hx
        obtain ⟨k, hk⟩ := Option.isSome_iff_exists.1 this
        exact List.mem_map.2 ⟨(x, k), mem_of_lookup_kind hk, rfl⟩
      · intro f hf
        rw [runVariables_none, hρ₀ f hf]
        rw [v1]
        intro h
        obtain ⟨⟨y, k⟩, hp, e⟩ := List.mem_map.1 h
        simp only at e
        subst e
        have h1 := lookup_of_mem_key hp
        by_cases hyS : y ∈ S
        · simp only [S, Finset.mem_union] at hyS
          rcases hyS with hyS | hyS
          · obtain ⟨j, -, -, e⟩ := branchVars_mem.1 hyS
            exact (hD y hf).2 j e
          · exact (hD y hf).1 hyS
        · rw [hs.only y hyS] at h1
          simp [st0] at h1
    simp only [Prog.run, Prog.names, hcon, runConstants, v2, runArrays, bind, Except.bind, Tgt.runL, Tgt.run, hr _ hb, allCmds_ok, oneCmd]

end

end Sppl
