import Verif.Comp.Fwidth
import Verif.Comp.RenderProps

/-!
# The properties of `render_sppl` with a number of decimals
-/

namespace Sppl
open Classical MeasureTheory
open scoped ENNReal ProbabilityTheory

/-! ## Lemmas -/

theorem halfEven_int (z : ℤ) : halfEven z = z := by
  simp [halfEven]

theorem fixedText_exact {n : ℕ} {x : ℝ} (h : HasDecimals n x) : fixedText n x = x := by
  obtain ⟨z, hz⟩ := h
  have h10 : (10 : ℝ) ^ n ≠ 0 := by positivity
  rw [fixedText, hz, halfEven_int, ← hz, mul_div_cancel_right₀ _ h10]

theorem halfEven_near (x : ℝ) : |x - halfEven x| ≤ 1 / 2 := by
  unfold halfEven
  by_cases h : Int.fract x = 1 / 2
  · rw [if_pos h]
    have hx : x = ⌊x⌋ + 1 / 2 := by rw [← h]; exact (Int.floor_add_fract x).symm
    by_cases e : Even ⌊x⌋
    · rw [if_pos e, Int.self_sub_floor, h]; norm_num
    · rw [if_neg e]
      have : x - ((⌊x⌋ + 1 : ℤ) : ℝ) = -(1 / 2) := by push_cast; linarith
      rw [this]; norm_num
  · rw [if_neg h]; exact abs_sub_round x

theorem renderChoiceW_eq {P : ℝ → Prop} {fw : Option ℕ} (hf : ∀ x, P x → floatToStr fw x = x) (X : String) {l : List (String × ℝ)} (h : ∀ p ∈ l, P p.2) :
    renderChoiceW fw X l = renderChoice X l := by
  have : l.map (fun p => (p.1, floatToStr fw p.2)) = l := by
    conv_rhs => rw [← List.map_id l]
    exact List.map_congr_left (fun p hp => by rw [hf _ (h p hp)]; rfl)
  rw [renderChoiceW, this]

theorem keywordsW_eq {P : ℝ → Prop} {fw : Option ℕ} (hf : ∀ x, P x → floatToStr fw x = x) {d : Dist} (h : ∀ p ∈ d.kwds, P p.2) : keywordsW fw d = keywords d :=
  List.map_congr_left (fun p hp => by rw [hf _ (h p hp)])

mutual
theorem renderW_eq {P : ℝ → Prop} {fw : Option ℕ} (hf : ∀ x, P x → floatToStr fw x = x) : ∀ (s : Spe) (bs : List (List ℝ)), s.Numbers P → (∀ ws ∈ bs, ∀ w ∈ ws, P w) →
    s.renderW fw bs = s.render bs ∧ ∀ r, s.render bs = .ok r → ∀ ws ∈ r.2, ∀ w ∈ ws, P w
  | .nominal X dist, bs, h, hb => by
    cases h with
    | nominal h =>
    rw [Spe.renderW, Spe.render, renderChoiceW_eq hf X (by intro p hp; obtain ⟨q, hq, rfl⟩ := List.mem_map.1 hp; exact h q hq)]
    refine ⟨rfl, ?_⟩
    intro r hr
    cases hc : renderChoice X (dist.map (fun p => (p.1, (p.2 : ℝ)))) with
    | error e => rw [hc] at hr; cases hr
    | ok q => rw [hc] at hr; cases hr; exact hb
  | .real k X d supp cond env, bs, h, hb => by
    cases h with
    | real h =>
    rw [Spe.renderW, Spe.render, keywordsW_eq hf h]
    refine ⟨rfl, ?_⟩
    intro r hr
    cases hc : renderEnv env.tail with
    | error e => rw [hc] at hr; cases hr
    | ok q =>
      rw [hc] at hr
      simp only [bind, Except.bind] at hr
      by_cases hX : isName X = true
      · rw [if_pos hX] at hr; cases hr; exact hb
      · rw [if_neg hX] at hr; cases hr
  | .prod cs, bs, h, hb => by
    cases h with
    | prod h =>
    obtain ⟨h1, h2⟩ := renderWL_eq hf cs bs h hb
    rw [Spe.renderW, Spe.render, h1]
    refine ⟨rfl, ?_⟩
    intro r hr
    cases hc : Spe.renderL cs bs with
    | error e => rw [hc] at hr; cases hr
    | ok q => rw [hc] at hr; cases hr; exact h2 _ hc
  | .sum [] ws, bs, _, hb => by
    rw [Spe.renderW, Spe.render]
    exact ⟨rfl, fun r hr => by cases hr; exact hb⟩
  | .sum [s] ws, bs, h, hb => by
    cases h with
    | sum h _ =>
    rw [Spe.renderW, Spe.render]
    exact renderW_eq hf s bs (h s (by simp)) hb
  | .sum (s :: t :: cs) ws, bs, h, hb => by
    cases h with
    | sum h hws =>
    have hb' : ∀ vs ∈ bs ++ [ws], ∀ w ∈ vs, P w := by
      intro vs hv
      rcases List.mem_append.1 hv with hv | hv
      · exact hb vs hv
      · cases List.mem_singleton.1 hv; exact hws
    obtain ⟨h1, h2⟩ := renderW_eq hf s (bs ++ [ws]) (h s (by simp)) hb'
    rw [Spe.renderW, Spe.render, h1]
    cases hc : s.render (bs ++ [ws]) with
    | error e => exact ⟨rfl, fun r hr => by cases hr⟩
    | ok r1 =>
      obtain ⟨h3, h4⟩ := renderWL_eq hf (t :: cs) r1.2 (fun u hu => h u (List.mem_cons_of_mem _ hu)) (h2 _ hc)
      simp only [bind, Except.bind, h3]
      refine ⟨trivial, ?_⟩
      intro r hr
      cases hq : Spe.renderL (t :: cs) r1.2 with
      | error e => rw [hq] at hr; cases hr
      | ok q =>
        rw [hq] at hr
        simp only at hr
        cases he : renderElifs bs.length 0 (r1.1 :: q.1) with
        | error e => rw [he] at hr; cases hr
        | ok e => rw [he] at hr; cases hr; exact h4 _ hq
  | .atomic _ _ _, bs, _, _ => by
    rw [Spe.renderW, Spe.render]
    exact ⟨rfl, fun r hr => by cases hr⟩
theorem renderWL_eq {P : ℝ → Prop} {fw : Option ℕ} (hf : ∀ x, P x → floatToStr fw x = x) : ∀ (ss : List Spe) (bs : List (List ℝ)), (∀ s ∈ ss, s.Numbers P) → (∀ ws ∈ bs, ∀ w ∈ ws, P w) →
    Spe.renderWL fw ss bs = Spe.renderL ss bs ∧ ∀ r, Spe.renderL ss bs = .ok r → ∀ ws ∈ r.2, ∀ w ∈ ws, P w
  | [], bs, _, hb => by
    rw [Spe.renderWL, Spe.renderL]
    exact ⟨rfl, fun r hr => by cases hr; exact hb⟩
  | s :: ss, bs, h, hb => by
    obtain ⟨h1, h2⟩ := renderW_eq hf s bs (h s (by simp)) hb
    rw [Spe.renderWL, Spe.renderL, h1]
    cases hc : s.render bs with
    | error e => exact ⟨rfl, fun r hr => by cases hr⟩
    | ok r1 =>
      obtain ⟨h3, h4⟩ := renderWL_eq hf ss r1.2 (fun u hu => h u (List.mem_cons_of_mem _ hu)) (h2 _ hc)
      simp only [bind, Except.bind, h3]
      refine ⟨trivial, ?_⟩
      intro r hr
      cases hq : Spe.renderL ss r1.2 with
      | error e => rw [hq] at hr; cases hr
      | ok q => rw [hq] at hr; cases hr; exact h4 q hq
end

theorem renderBranchesW_eq {P : ℝ → Prop} {fw : Option ℕ} (hf : ∀ x, P x → floatToStr fw x = x) : ∀ (bs : List (List ℝ)) (n : ℕ), (∀ ws ∈ bs, ∀ w ∈ ws, P w) →
    renderBranchesW fw n bs = renderBranches n bs
  | [], n, _ => rfl
  | ws :: wss, n, h => by
    have h1 : ∀ p ∈ branchDist ws, P p.2 := by
      intro p hp
      simp only [branchDist, ← List.map_uncurry_zip_eq_zipWith, List.mem_map] at hp
      obtain ⟨q, hq, rfl⟩ := hp
      exact h ws (by simp) _ (List.of_mem_zip hq).2
    rw [renderBranchesW, renderBranches, renderChoiceW_eq hf _ h1, renderBranchesW_eq hf wss (n + 1) (fun vs hv => h vs (List.mem_cons_of_mem _ hv))]

theorem renderSpplW_eq {P : ℝ → Prop} {fw : Option ℕ} (hf : ∀ x, P x → floatToStr fw x = x) {s : Spe} (h : s.Numbers P) : renderSpplW fw s = renderSppl s := by
  obtain ⟨h1, h2⟩ := renderW_eq hf s [] h (by simp)
  rw [renderSpplW, renderSppl, h1]
  cases hc : s.render [] with
  | error e => rfl
  | ok r => simp only [bind, Except.bind, renderBranchesW_eq hf r.2 0 (h2 _ hc)]

theorem numbers_true : ∀ s : Spe, s.Numbers (fun _ => True) :=
  Spe.ind (fun _ _ _ _ _ _ => .real (by simp)) (fun _ _ _ => .atomic) (fun _ _ => .nominal (by simp)) (fun _ _ h => .sum h (by simp)) (fun _ h => .prod h)

/-! ## Properties -/

/-- C48: a number is written with an error of at most half of the last decimal. -/
theorem C48_fwidth_near (n : ℕ) (x : ℝ) : |x - floatToStr (some (n + 1)) x| ≤ 1 / 2 / 10 ^ (n + 1) := by
  have h10 : (0 : ℝ) < 10 ^ (n + 1) := by positivity
  rw [floatToStr, fixedText, le_div_iff₀ h10, ← abs_of_pos h10, ← abs_mul, abs_of_pos h10, sub_mul, div_mul_cancel₀ _ h10.ne']
  exact halfEven_near _

/-- C48: with `fwidth` 0, numbers are written in full, as without `fwidth`. -/
theorem C48_fwidth_zero (s : Spe) : renderSpplW none s = renderSppl s ∧ renderSpplW (some 0) s = renderSppl s :=
  ⟨renderSpplW_eq (P := fun _ => True) (fun _ _ => rfl) (numbers_true s), renderSpplW_eq (P := fun _ => True) (fun _ _ => rfl) (numbers_true s)⟩

section
variable {D : List String} {H : PyHost} {c : Ctx} {L : Lib} {μ : Dist → Measure ℝ}

/-- C48: if all probabilities, weights and parameters have at most `n` decimals, the source that is written with `fwidth=n` gives the variables of the SPE the distribution of the SPE.

Partial: as `C48_render_partial`, and for such numbers only (`C48_fwidth_wrong`, `C48_fwidth_raises`). -/
theorem C48_fwidth_partial (hch : H.Choice D) {s : Spe} (hw : s.WF c L μ) (hc : s.CanRender D H c L μ) (hb : ∀ n, branchVar n ∉ s.symbols)
    (hD : ∀ f ∈ D, f ∉ s.symbols ∧ ∀ n, f ≠ branchVar n) {fw : ℕ} (hn : s.Numbers (HasDecimals fw)) :
    ∃ source, renderSpplW (some fw) s = .ok source ∧ ∃ N p cmd, (∀ n, N ≤ n → compile D n source = .ok p) ∧ (∀ ρ₀ : NS, (∀ f ∈ D, ρ₀ f = none) → p.run H c ρ₀ = .ok cmd) ∧
      cmd.Safe c L μ start ∧ (cmd.sem μ start).map (keep s.symbols) = s.den μ := by
  have e : renderSpplW (some fw) s = renderSppl s := by
    refine renderSpplW_eq (fun x hx => ?_) hn
    cases fw with
    | zero => rfl
    | succ k => exact fixedText_exact hx
  rw [e]
  exact C48_render_partial hch hw hc hb hD

theorem halfEven_of {x : ℝ} {z : ℤ} (h1 : (z : ℝ) - 1 / 2 < x) (h2 : x < z + 1 / 2) : halfEven x = z := by
  have h : round x = z := by
    rw [round_eq, Int.floor_eq_iff]
    constructor <;> linarith
  rw [halfEven]
  by_cases hf : Int.fract x = 1 / 2
  · exfalso
    have hx : x = ⌊x⌋ + 1 / 2 := by rw [← hf]; exact (Int.floor_add_fract x).symm
    have a1 : z - 1 < ⌊x⌋ := by
      have : ((z - 1 : ℤ) : ℝ) < ⌊x⌋ := by push_cast; linarith
      exact_mod_cast this
    have a2 : ⌊x⌋ < z := by
      have : (⌊x⌋ : ℝ) < z := by linarith
      exact_mod_cast this
    omega
  · rw [if_neg hf, h]

theorem third_text : floatToStr (some 1) (1 / 3) = 3 / 10 := by
  have h : halfEven (1 / 3 * 10 ^ 1 : ℝ) = 3 := halfEven_of (by norm_num) (by norm_num)
  rw [floatToStr, fixedText, h]; norm_num

theorem thirds_text : floatToStr (some 1) (2 / 3) = 7 / 10 := by
  have h : halfEven (2 / 3 * 10 ^ 1 : ℝ) = 7 := halfEven_of (by norm_num) (by norm_num)
  rw [floatToStr, fixedText, h]; norm_num

/-- C48: with `fwidth=1`, the source of the distribution with the probabilities 1/3 and 2/3 compiles and runs, and gives `X = 'a'` the probability 3/10. -/
theorem C48_fwidth_wrong (hch : H.Choice D) (hX : "X" ∉ D) (hD : ∀ f ∈ D, ∀ n, f ≠ branchVar n) :
    ∃ source, renderSpplW (some 1) (.nominal "X" [("a", 1 / 3), ("b", 2 / 3)]) = .ok source ∧ ∃ N p cmd, (∀ n, N ≤ n → compile D n source = .ok p) ∧
      (∀ ρ₀ : NS, (∀ f ∈ D, ρ₀ f = none) → p.run H c ρ₀ = .ok cmd) ∧ cmd.Safe c L μ start ∧
      ((cmd.sem μ start).map (keep {"X"})).real {ω | ω "X" ∈ ({some (.str "a")} : Set (Option (Val ℝ)))} = 3 / 10 ∧
      ((Spe.nominal "X" [("a", 1 / 3), ("b", 2 / 3)]).den μ).real {ω | ω "X" ∈ ({some (.str "a")} : Set (Option (Val ℝ)))} = 1 / 3 := by
  have hm : MeasurableSet ({some (.str "a")} : Set (Option (Val ℝ))) := measurableSet_singleton _
  have e : renderSpplW (some 1) (.nominal "X" [("a", 1 / 3), ("b", 2 / 3)]) = renderSppl (.nominal "X" [("a", 3 / 10), ("b", 7 / 10)]) := by
    have h1 := third_text
    have h2 := thirds_text
    norm_num at h1 h2
    norm_num [renderSpplW, renderSppl, Spe.renderW, Spe.render, renderChoiceW, h1, h2, renderBranches, renderBranchesW]
  have hw : (Spe.nominal "X" [("a", 3 / 10), ("b", 7 / 10)]).WF c L μ := .nominal (by decide) (by norm_num) (by norm_num)
  obtain ⟨src, h1, N, p, cmd, h2, h3, h4, h5⟩ := C48_render_partial (c := c) (L := L) (μ := μ) hch hw (.nominal (by decide) (by simp; decide))
    (fun n => by simpa [Spe.symbols] using branchVar_ne (by decide) n) (fun f hf => ⟨by simp only [Spe.symbols, Finset.mem_singleton]; rintro rfl; exact hX hf, hD f hf⟩)
  refine ⟨src, e.trans h1, N, p, cmd, h2, h3, h4, ?_, ?_⟩
  · have h6 : (Spe.nominal "X" [("a", 3 / 10), ("b", 7 / 10)]).symbols = {"X"} := by simp [Spe.symbols]
    rw [h6] at h5
    rw [h5, nominal_real_on c L (by decide) (by norm_num) hm]
    norm_num
    decide
  · rw [nominal_real_on c L (by decide) (by norm_num) hm]
    norm_num
    decide

/-- C48: with `fwidth=1`, the source of the distribution with the probabilities 1/3, 1/3 and 1/3 is the distribution with the probabilities 0.3, 0.3 and 0.3, which raises
`AssertionError` when it is used. -/
theorem C48_fwidth_raises (hch : H.Choice D) (ρ : NS) (hρ : ρ "choice" = none) : ∃ e d,
    renderSpplW (some 1) (.nominal "X" [("a", 1 / 3), ("b", 1 / 3), ("c", 1 / 3)]) = .ok [.assign (.name "X") e] ∧ e.eval H c ρ = .ok (.dist (.one d)) ∧
      d.call L "X" = .error .assertion := by
  have hX : isName "X" = true := by decide
  have ha : plainKey "a" = true := by decide
  have hb : plainKey "b" = true := by decide
  have hc : plainKey "c" = true := by decide
  have h1 := third_text
  norm_num at h1
  have hd := hch.call [("a", 3 / 10), ("b", 3 / 10), ("c", 3 / 10)] (by decide)
  norm_num at hd
  refine ⟨.call "choice" [.lit (dictObj [("a", 3 / 10), ("b", 3 / 10), ("c", 3 / 10)])], .nominal [("a", 3 / 10), ("b", 3 / 10), ("c", 3 / 10)], ?_, ?_, ?_⟩
  · norm_num [renderSpplW, Spe.renderW, renderChoiceW, renderChoice, h1, hX, ha, hb, hc, renderBranchesW, bind, Except.bind]
  · simp [PE.eval, PE.evalL, hρ, dictObj, hd, bind, Except.bind]
  · norm_num [Distr.call, mkNominal, mkNom, bind, Except.bind]
end

/-! ## Examples -/

/-- C48 non-vacuity: the numbers of `model1` have two decimals. -/
example : model1.Numbers (HasDecimals 2) := by
  have hr : ∀ supp cond, (Spe.real .cont "X" d0 supp cond envSq).Numbers (HasDecimals 2) := fun _ _ => .real (by simp [d0])
  refine .sum ?_ ?_
  · intro s hs
    simp only [List.mem_cons, List.not_mem_nil, or_false] at hs
    rcases hs with rfl | rfl
    · refine .prod ?_
      intro s hs
      simp only [List.mem_cons, List.not_mem_nil, or_false] at hs
      rcases hs with rfl | rfl
      · exact hr _ _
      · exact .nominal (by simpa using ⟨100, by norm_num⟩)
    · refine .prod ?_
      intro s hs
      simp only [List.mem_cons, List.not_mem_nil, or_false] at hs
      rcases hs with rfl | rfl
      · exact hr _ _
      · exact .nominal (by simpa using ⟨50, by norm_num⟩)
  · intro w hw
    simp only [List.mem_cons, List.not_mem_nil, or_false] at hw
    rcases hw with rfl | rfl
    · exact ⟨25, by norm_num⟩
    · exact ⟨75, by norm_num⟩

/-- C48 non-vacuity: the hypotheses of `C48_fwidth_wrong` hold for `pyHost1`. -/
example : pyHost1.Choice ["choice", "uniform"] ∧ "X" ∉ ["choice", "uniform"] ∧ ∀ f ∈ ["choice", "uniform"], ∀ n, f ≠ branchVar n := by
  refine ⟨pyHost1_choice, by decide, ?_⟩
  intro f hf
  simp only [List.mem_cons, List.not_mem_nil, or_false] at hf
  rcases hf with rfl | rfl
  · exact fun n => (branchVar_ne (by decide) n).symm
  · exact fun n => (branchVar_ne (by decide) n).symm

end Sppl
