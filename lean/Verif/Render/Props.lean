import Verif.Render.Model
import Verif.Interp.TableProps

set_option linter.all false

/-!
# C54: what a rendering as nested lists shows of an SPE
-/

namespace Sppl
open Classical MeasureTheory
open scoped ENNReal

/-- Every leaf over the reals has a distribution of scipy with a name that decides whether it is continuous or discrete, and no table. -/
inductive Spe.Named (κ : String → Kind) : Spe → Prop
  | real {k X d supp cond env} : d.values = [] → k = κ d.name → Spe.Named κ (.real k X d supp cond env)
  | atomic {X v env} : Spe.Named κ (.atomic X v env)
  | nominal {X dist} : Spe.Named κ (.nominal X dist)
  | sum {cs ws} : (∀ s ∈ cs, Spe.Named κ s) → Spe.Named κ (.sum cs ws)
  | prod {cs} : (∀ s ∈ cs, Spe.Named κ s) → Spe.Named κ (.prod cs)

theorem cast_table : ∀ {d d' : List (String × ℚ)}, d.map (fun p => (p.1, (p.2 : ℝ))) = d'.map (fun p => (p.1, (p.2 : ℝ))) → d = d' := by
  intro d d' h
  refine List.map_injective_iff.2 ?_ h
  rintro ⟨a, b⟩ ⟨a', b'⟩ h
  simp only [Prod.mk.injEq, Rat.cast_inj] at h
  exact Prod.ext h.1 h.2

theorem map_num {l l' : List ℝ} (h : l.map Nest.num = l'.map Nest.num) : l = l' :=
  List.map_injective_iff.2 (fun a b h => by cases h; rfl) h

mutual
theorem nested_inj {κ : String → Kind} {ord ord' : Finset String → List String} : ∀ (s t : Spe), s.Named κ → t.Named κ → s.nested ord = t.nested ord' → s = t
  | .nominal X d, t, hs, ht, h => by
    cases t <;> simp [Spe.nested, Nest.field] at h
    rw [h.1, cast_table h.2]
  | .atomic X v env, t, hs, ht, h => by
    cases t <;> simp [Spe.nested, Nest.field] at h
    rw [h.1, h.2.1, h.2.2]
  | .real k X d supp cond env, t, hs, ht, h => by
    cases t with
    | real k' X' d' supp' cond' env' =>
      simp [Spe.nested, Nest.field] at h
      cases hs with | real h1 h2 => cases ht with | real h3 h4 =>
      obtain ⟨rfl, rfl, ⟨h5, h6, h7⟩, rfl, rfl⟩ := h
      have : d = d' := by cases d; cases d'; simp at *; exact ⟨h5, h6, h7, h1.trans h3.symm⟩
      subst this
      rw [h2, h4]
    | _ => simp [Spe.nested, Nest.field] at h
  | .sum cs ws, t, hs, ht, h => by
    cases t with
    | sum cs' ws' =>
      simp [Spe.nested, Nest.field, Nest.nums] at h
      cases hs with | sum h1 => cases ht with | sum h2 =>
      rw [map_num h.2.1, nested_injL cs cs' h1 h2 h.2.2.2]
    | _ => simp [Spe.nested, Nest.field] at h
  | .prod cs, t, hs, ht, h => by
    cases t with
    | prod cs' =>
      simp [Spe.nested, Nest.field] at h
      cases hs with | prod h1 => cases ht with | prod h2 =>
      rw [nested_injL cs cs' h1 h2 h.2.2]
    | _ => simp [Spe.nested, Nest.field] at h
theorem nested_injL {κ : String → Kind} {ord ord' : Finset String → List String} : ∀ (cs ds : List Spe), (∀ s ∈ cs, s.Named κ) → (∀ s ∈ ds, s.Named κ) →
    Spe.nestedL ord cs = Spe.nestedL ord' ds → cs = ds
  | [], ds, _, _, h => by cases ds <;> simp [Spe.nestedL] at h; rfl
  | s :: ss, ds, h1, h2, h => by
    cases ds with
    | nil => simp [Spe.nestedL] at h
    | cons t ts =>
      simp only [Spe.nestedL, List.cons.injEq] at h
      rw [nested_inj s t (h1 s (by simp)) (h2 t (by simp)) h.1,
        nested_injL ss ts (fun s hs => h1 s (by simp [hs])) (fun s hs => h2 s (by simp [hs])) h.2]
end

/-- **C54.** Two SPEs (without tables) that `render_nested_lists` shows alike, whatever the order in which Python lists symbols, are the same; so every query has the
same answer.  Missing from the full claim: distributions given by a table, for which it is false (`C54_table_wrong`). -/
theorem C54_nested_partial {κ : String → Kind} {ord ord' : Finset String → List String} {s t : Spe} (hs : s.Named κ) (ht : t.Named κ)
    (h : s.nested ord = t.nested ord') : s = t ∧ ∀ μ : Dist → Measure ℝ, s.den μ = t.den μ := by
  have := nested_inj s t hs ht h
  exact ⟨this, fun μ => by rw [this]⟩

/-- The tables of `discrete`, `uniformd` and `rv_discrete` are not shown: leaves with the probabilities 1/2 and 1/10 for the value 1 have the same
rendering. -/
theorem C54_table_wrong {μ : Dist → Measure ℝ} (hμ : ∀ d, d.name = "Distribution" → μ d = tableLaw d.values) (ord : Finset String → List String) :
    (leafT (1/2)).nested ord = (leafT (1/10)).nested ord ∧ (leafT (1/2)).den μ isOne = ENNReal.ofReal (1/2) ∧ (leafT (1/10)).den μ isOne = ENNReal.ofReal (1/10) :=
  ⟨by simp [leafT, tab, Spe.nested], leafT_one hμ _, leafT_one hμ _⟩

/-- The pairs that the concise rendering shows of a leaf. -/
theorem concise_leaf {str : Tr → String} {s : Spe} {X : String} {env : Env} (h : s.leafEnv = some (X, env)) :
    s.concise str = .list (env.map (fun p => .pair p.1 (str p.2))) ∧ s.symbols = (env.map Prod.fst).toFinset := by
  cases s <;> simp [Spe.leafEnv] at h
  · obtain ⟨rfl, rfl⟩ := h; exact ⟨rfl, rfl⟩
  · obtain ⟨rfl, rfl⟩ := h; exact ⟨rfl, rfl⟩
  · obtain ⟨rfl, rfl⟩ := h; simp [Spe.concise, Spe.symbols]

theorem pairs_keys {str : Tr → String} : ∀ {e e' : Env}, e.map (fun p => Nest.pair p.1 (str p.2)) = e'.map (fun p => Nest.pair p.1 (str p.2)) →
    e.map Prod.fst = e'.map Prod.fst
  | [], [], _ => rfl
  | [], _ :: _, h => by simp at h
  | _ :: _, [], h => by simp at h
  | p :: e, p' :: e', h => by
    simp only [List.map_cons, List.cons.injEq, Nest.pair.injEq] at h
    simp only [List.map_cons, List.cons.injEq]
    exact ⟨h.1.1, pairs_keys h.2⟩

theorem plus_ne_times (a b : String) : "+(" ++ a ≠ "*(" ++ b := by
  intro h
  have := congrArg String.toList h
  simp at this

theorem leaf_ne_node {env : Env} {str : Tr → String} {x : String} {l : List Nest} :
    Nest.list (env.map (fun p => .pair p.1 (str p.2))) ≠ .list [.str x, .list l] := by
  intro h
  simp only [Nest.list.injEq] at h
  cases env with
  | nil => simp at h
  | cons p e => simp at h

theorem concise_symbols_leaf {str : Tr → String} {s t : Spe} {X : String} {env : Env} (hs : s.leafEnv = some (X, env)) (h : s.concise str = t.concise str) :
    s.symbols = t.symbols := by
  rw [(concise_leaf (str := str) hs).1] at h
  rw [(concise_leaf (str := str) hs).2]
  cases ht : t.leafEnv with
  | some q =>
    rw [(concise_leaf ht).1] at h
    rw [(concise_leaf (str := str) ht).2, pairs_keys (Nest.list.inj h)]
  | none =>
    cases t <;> simp [Spe.leafEnv] at ht
    · rw [Spe.concise] at h; exact absurd h leaf_ne_node
    · rw [Spe.concise] at h; exact absurd h leaf_ne_node

mutual
theorem concise_symbols {str : Tr → String} : ∀ (s t : Spe), s.concise str = t.concise str → s.symbols = t.symbols
  | .sum cs ws, t, h => by
    cases ht : t.leafEnv with
    | some q => rw [(concise_leaf ht).1, Spe.concise] at h; exact absurd h.symm leaf_ne_node
    | none =>
      cases t <;> simp [Spe.leafEnv] at ht
      · rename_i cs' ws'
        simp only [Spe.concise, Nest.list.injEq, List.cons.injEq, and_true] at h
        rw [Spe.symbols, Spe.symbols, concise_symbolsL cs cs' h.2]
      · simp only [Spe.concise, Nest.list.injEq, List.cons.injEq, and_true, Nest.str.injEq, String.append_assoc] at h
        exact absurd h.1 (plus_ne_times _ _)
  | .prod cs, t, h => by
    cases ht : t.leafEnv with
    | some q => rw [(concise_leaf ht).1, Spe.concise] at h; exact absurd h.symm leaf_ne_node
    | none =>
      cases t <;> simp [Spe.leafEnv] at ht
      · simp only [Spe.concise, Nest.list.injEq, List.cons.injEq, and_true, Nest.str.injEq, String.append_assoc] at h
        exact absurd h.1.symm (plus_ne_times _ _)
      · rename_i cs'
        simp only [Spe.concise, Nest.list.injEq, List.cons.injEq, and_true] at h
        rw [Spe.symbols, Spe.symbols, concise_symbolsL cs cs' h.2]
  | .real k X d supp cond env, t, h => concise_symbols_leaf (s := .real k X d supp cond env) rfl h
  | .atomic X v env, t, h => concise_symbols_leaf (s := .atomic X v env) rfl h
  | .nominal X d, t, h => concise_symbols_leaf (s := .nominal X d) rfl h
theorem concise_symbolsL {str : Tr → String} : ∀ (cs ds : List Spe), Spe.conciseL str cs = Spe.conciseL str ds → Spe.symbolsL cs = Spe.symbolsL ds
  | [], ds, h => by cases ds <;> simp [Spe.conciseL] at h; rfl
  | s :: ss, ds, h => by
    cases ds with
    | nil => simp [Spe.conciseL] at h
    | cons t ts =>
      simp only [Spe.conciseL, List.cons.injEq] at h
      rw [Spe.symbolsL, Spe.symbolsL, concise_symbols s t h.1, concise_symbolsL ss ts h.2]
end

/-- **C54 (concise).** Two SPEs with the same concise rendering have the same variables. -/
theorem C54_concise {str : Tr → String} {s t : Spe} (h : s.concise str = t.concise str) : s.symbols = t.symbols := concise_symbols s t h

/-- It shows neither weights nor distributions: a fair coin and one that always shows `a` look alike. -/
theorem C54_concise_wrong (str : Tr → String) (μ : Dist → Measure ℝ) : (coin "Y").concise str = (sure "Y").concise str ∧
    (coin "Y").den μ {ω | ω "Y" = some (.str "b")} ≠ (sure "Y").den μ {ω | ω "Y" = some (.str "b")} := by
  refine ⟨rfl, ?_⟩
  have h1 : Measurable (fun ω : Asg => ω "Y") := measurable_pi_apply "Y"
  have hm : MeasurableSet {ω : Asg | ω "Y" = some (.str "b")} := by
    have := h1 (measurableSet_strs (fun x => x = "b"))
    simpa [Set.preimage] using this
  simp only [coin, sure, Spe.den, List.map_cons, List.map_nil, mixture_cons, mixture_nil, Measure.add_apply, Measure.smul_apply, smul_eq_mul, Measure.coe_zero, Pi.zero_apply]
  rw [Measure.dirac_apply' _ hm, Measure.dirac_apply' _ hm]
  simp [baseAsg, Set.indicator]

/-! ## The hypotheses are met -/

/-- A mixture of two normal variables. -/
example : ∃ s : Spe, s.Named (fun _ => .cont) ∧ s.symbols = {"X"} ∧
    s = .sum [.real .cont "X" ⟨"norm", [], [("loc", 0)], []⟩ ⟨⊥, ⊤, true, true⟩ false [("X", .id "X")],
      .real .cont "X" ⟨"norm", [], [("loc", 1)], []⟩ ⟨⊥, ⊤, true, true⟩ false [("X", .id "X")]] [1/2, 1/2] := by
  refine ⟨_, .sum ?_, by simp [Spe.symbols, Spe.symbolsL], rfl⟩
  intro s hs
  simp only [List.mem_cons, List.not_mem_nil, or_false] at hs
  rcases hs with rfl | rfl <;> exact .real rfl rfl

end Sppl
