import Verif.Sample.Spec
import Verif.Spe.ProdLemmas
import Verif.Serial.SpeLemmas
import Mathlib.Data.List.FinRange
import Mathlib.Algebra.BigOperators.Group.List.Lemmas

set_option linter.all false

/-!
# Lemmas about the shape of samples
-/

namespace Sppl
open Classical MeasureTheory

theorem mapS_ok {τ α β : Type} {f : α → τ → Res (β × τ)} : ∀ {l : List α} {t : τ} {r : List β} {t' : τ}, mapS f l t = .ok (r, t') →
    List.Forall₂ (fun a b => ∃ t t', f a t = .ok (b, t')) l r
  | [], t, r, t', h => by simp [mapS] at h; rw [h.1]; exact .nil
  | a :: l, t, r, t', h => by
    simp only [mapS, bind, Except.bind] at h
    split at h; · cases h
    rename_i x hx
    split at h; · cases h
    rename_i y hy
    cases h
    exact .cons ⟨_, _, hx⟩ (mapS_ok hy)

theorem mapS_total {τ α β : Type} {f : α → τ → Res (β × τ)} : ∀ {l : List α}, (∀ a ∈ l, ∀ t, ∃ r, f a t = .ok r) → ∀ t, ∃ r, mapS f l t = .ok r
  | [], _, t => ⟨_, rfl⟩
  | a :: l, h, t => by
    obtain ⟨x, hx⟩ := h a (by simp) t
    obtain ⟨y, hy⟩ := mapS_total (f := f) (l := l) (fun b hb => h b (by simp [hb])) x.2
    exact ⟨(x.1 :: y.1, y.2), by simp [mapS, hx, hy, bind, Except.bind]⟩

theorem ofFn_get_perm {α : Type} (l : List α) (σ : Equiv.Perm (Fin l.length)) : (List.ofFn (fun i => l.get (σ i))).Perm l := by
  have h := σ.ofFn_comp_perm (fun i => l.get i)
  rw [List.ofFn_get] at h
  exact h

theorem count_keys {l : List ℕ} : (l.reverse.dedup.reverse.map (fun i => l.count i)).sum = l.length := by
  rw [List.map_reverse, List.sum_reverse]
  have := List.sum_map_count_dedup_eq_length l.reverse
  simpa [List.count_reverse] using this

section
variable {τ : Type} {R : Rand τ} {L : Lib}

theorem sampleMany_ok {α : Type} {ws : List ℝ} {func : ℕ → ℕ → τ → Res (List α × τ)} {P : α → Prop} {N : ℕ} {t t' : τ} {l : List α}
    (hf : ∀ i n t l t', 0 < n → func i n t = .ok (l, t') → l.length = n ∧ ∀ a ∈ l, P a) (h : sampleMany R ws func N t = .ok (l, t')) :
    l.length = N ∧ ∀ a ∈ l, P a := by
  simp only [sampleMany, bind, Except.bind] at h
  split at h; · cases h
  rename_i r hr
  cases h
  obtain ⟨rs, t2⟩ := r
  have h := mapS_ok hr
  simp only
  set sel := List.ofFn (R.choice (normProbs (pnorm ws)) N t).1 with hsel
  have hp := ofFn_get_perm rs (R.shuffle rs.length t2).1
  have key : ∀ {keys : List ℕ} {rs : List (List α)}, (∀ i ∈ keys, 0 < sel.count i) →
      List.Forall₂ (fun a b => ∃ t t', func a (sel.count a) t = .ok (b, t')) keys rs →
      (rs.map List.length).sum = (keys.map (fun i => sel.count i)).sum ∧ ∀ l ∈ rs, ∀ a ∈ l, P a := by
    intro keys rs hpos h
    induction h with
    | nil => simp
    | cons h1 _ ih =>
      obtain ⟨t, t', h1⟩ := h1
      have := hf _ _ _ _ _ (hpos _ (by simp)) h1
      have ih := ih (fun i hi => hpos i (by simp [hi]))
      refine ⟨by simp [this.1, ih.1], ?_⟩
      intro l hl
      rcases List.mem_cons.1 hl with rfl | hl
      · exact this.2
      · exact ih.2 l hl
  obtain ⟨k1, k2⟩ := key (by
    intro i hi
    rw [List.count_pos_iff]
    simpa using hi) h
  constructor
  · rw [List.length_flatten, (hp.map List.length).sum_eq, k1, count_keys, hsel, List.length_ofFn]
  · intro a ha
    obtain ⟨l, hl, ha⟩ := List.mem_flatten.1 ha
    exact k2 l (hp.mem_iff.1 hl) a ha

theorem sampleMany_total {α : Type} {ws : List ℝ} {func : ℕ → ℕ → τ → Res (List α × τ)} (hR : R.InRange) (hws : ws ≠ []) {N : ℕ}
    (hf : ∀ i n t, i < ws.length → 0 < n → n ≤ N → ∃ r, func i n t = .ok r) (t : τ) : ∃ r, sampleMany R ws func N t = .ok r := by
  obtain ⟨r, hr⟩ := mapS_total (f := fun i => func i ((List.ofFn (R.choice (normProbs (pnorm ws)) N t).1).count i))
    (l := (List.ofFn (R.choice (normProbs (pnorm ws)) N t).1).reverse.dedup.reverse) (by
      intro i hi t'
      have hi' : i ∈ List.ofFn (R.choice (normProbs (pnorm ws)) N t).1 := by simpa using hi
      refine hf i _ t' ?_ (List.count_pos_iff.2 hi') ?_
      · obtain ⟨j, rfl⟩ := (List.mem_ofFn' _ _).1 hi'
        have := hR (normProbs (pnorm ws)) N t j (by simpa [normProbs, pnorm] using hws)
        simpa [normProbs, pnorm] using this
      · exact (List.count_le_length).trans (by simp)) (R.choice (normProbs (pnorm ws)) N t).2
  exact ⟨_, by simp only [sampleMany, hr, bind, Except.bind]; rfl⟩

theorem shuf_eq {α : Type} {l : List α} {n : ℕ} (h : l.length = n) (t : τ) :
    (List.ofFn (fun i => l.get ((R.shuffle l.length t).1 i)), (R.shuffle l.length t).2) =
      (List.ofFn (fun i : Fin n => l[((R.shuffle n t).1 i).val]'(by have := ((R.shuffle n t).1 i).2; omega)), (R.shuffle n t).2) := by
  subst h; rfl

theorem forall₂_flatten {α β : Type} {P : α → β → Prop} : ∀ {l : List (List α)} {l' : List (List β)}, List.Forall₂ (List.Forall₂ P) l l' →
    List.Forall₂ P l.flatten l'.flatten
  | [], [], .nil => .nil
  | a :: l, b :: l', .cons h h' => by
    simp only [List.flatten_cons]
    exact List.rel_append h (forall₂_flatten h')

/-- Two runs of `sample_many` whose blocks are related. -/
theorem sampleMany_rel {α β : Type} {ws : List ℝ} {f : ℕ → ℕ → τ → Res (List α × τ)} {g : ℕ → ℕ → τ → Res (List β × τ)} {P : α → β → Prop} {N : ℕ} {t t' : τ}
    {l : List β} (hf : ∀ i n t l t', g i n t = .ok (l, t') → ∃ ds, f i n t = .ok (ds, t') ∧ List.Forall₂ P ds l) (h : sampleMany R ws g N t = .ok (l, t')) :
    ∃ ds, sampleMany R ws f N t = .ok (ds, t') ∧ List.Forall₂ P ds l := by
  have mapRel : ∀ (cnt : ℕ → ℕ) (keys : List ℕ) (t t' : τ) (rs : List (List β)), mapS (fun i => g i (cnt i)) keys t = .ok (rs, t') →
      ∃ ds, mapS (fun i => f i (cnt i)) keys t = .ok (ds, t') ∧ List.Forall₂ (List.Forall₂ P) ds rs := by
    intro cnt keys
    induction keys with
    | nil => intro t t' rs h; simp [mapS] at h; rw [h.1, ← h.2]; exact ⟨[], rfl, .nil⟩
    | cons k keys ih =>
      intro t t' rs h
      simp only [mapS, bind, Except.bind] at h
      split at h; · cases h
      rename_i x hx
      split at h; · cases h
      rename_i y hy
      cases h
      obtain ⟨d, hd, hd'⟩ := hf _ _ _ x.1 x.2 hx
      obtain ⟨ds, hds, hds'⟩ := ih _ y.2 y.1 hy
      exact ⟨d :: ds, by simp only [mapS, hd, hds, bind, Except.bind], .cons hd' hds'⟩
  simp only [sampleMany, bind, Except.bind] at h
  split at h; · cases h
  rename_i r hr
  obtain ⟨ds, hds, hrel⟩ := mapRel _ _ _ r.2 r.1 hr
  cases h
  have hlen := hrel.length_eq
  have e1 := shuf_eq (R := R) (l := ds) hlen r.2
  rw [Prod.ext_iff] at e1
  refine ⟨(List.ofFn (fun i => ds.get ((R.shuffle ds.length r.2).1 i))).flatten, ?_, ?_⟩
  · simp only [sampleMany, hds, bind, Except.bind]
    simp only at e1
    rw [e1.2]
  · refine forall₂_flatten ?_
    simp only at e1
    rw [e1.1]
    rw [List.forall₂_iff_get]
    refine ⟨by simp, ?_⟩
    intro i h1 h2
    simp only [List.get_eq_getElem, List.getElem_ofFn]
    rw [List.forall₂_iff_get] at hrel
    exact hrel.2 _ _ _

/-! ## Leaves -/

theorem Dct.put_keys {d : Dct} {s : String} {v : PyV} {x : String} : d.put s v x ≠ none ↔ x = s ∨ d x ≠ none := by
  unfold Dct.put
  by_cases h : x = s <;> simp [h]

theorem envLoop_ok {syms : List String} : ∀ {env : Env} {d sim r : Dct}, envLoop syms env d sim = .ok r →
    ∀ x, r x ≠ none ↔ sim x ≠ none ∨ (x ∈ env.map Prod.fst ∧ x ∈ syms)
  | [], d, sim, r, h, x => by simp [envLoop] at h; subst h; simp
  | (s, f) :: env, d, sim, r, h, x => by
    simp only [envLoop, bind, Except.bind] at h
    split at h; · cases h
    rename_i v hv
    rw [envLoop_ok h x]
    by_cases hs : s ∈ syms
    · rw [if_pos hs, Dct.put_keys]
      by_cases hx : x = s
      · subst hx; simp [hs]
      · simp [hx]
    · rw [if_neg hs]
      by_cases hx : x = s
      · subst hx; simp [hs]
      · simp [hx]

theorem single_keys (X : String) (v : PyV) : HasKeys (Dct.single X v) {X} := by
  intro x
  unfold Dct.single
  by_cases h : x = X <;> simp [h]

theorem pick_length {N : ℕ} {dist : List (String × ℚ)} {sel : Fin N → ℕ} {xs : List String} (h : pickOutcomes dist sel = .ok xs) : xs.length = N := by
  have := (mapM_ok h).length_eq
  simpa using this.symm

theorem leafDraws_ok {s : Spe} {X : String} {env : Env} (hs : s.leafEnv = some (X, env)) {N : ℕ} {t t' : τ} {l : List Dct}
    (h : leafDraws R L s N t = .ok (l, t')) : l.length = N ∧ ∀ d ∈ l, HasKeys d {X} := by
  cases s with
  | real k Y d supp cond e =>
    simp [Spe.leafEnv] at hs
    simp only [leafDraws] at h
    cases h
    refine ⟨by simp, ?_⟩
    intro d hd
    obtain ⟨x, -, rfl⟩ := List.mem_map.1 hd
    rw [← hs.1]
    exact single_keys _ _
  | atomic Y v e =>
    simp [Spe.leafEnv] at hs
    simp only [leafDraws] at h
    cases h
    refine ⟨by simp, ?_⟩
    intro d hd
    rw [List.eq_of_mem_replicate hd, ← hs.1]
    exact single_keys _ _
  | nominal Y dist =>
    simp [Spe.leafEnv] at hs
    simp only [leafDraws, bind, Except.bind] at h
    split at h; · cases h
    rename_i xs hxs
    cases h
    refine ⟨by simpa using pick_length hxs, ?_⟩
    intro d hd
    obtain ⟨x, -, rfl⟩ := List.mem_map.1 hd
    rw [← hs.1]
    exact single_keys _ _
  | sum => simp [Spe.leafEnv] at hs
  | prod => simp [Spe.leafEnv] at hs

theorem leafSubset_ok {s : Spe} {isSet : Bool} {syms : List String} {N : ℕ} {t t' : τ} {l : List Dct}
    (h : leafSampleSubset R L s isSet syms N t = .ok (l, t')) : (∀ x ∈ syms, x ∈ s.symbols) ∧ l.length = N ∧ ∀ d ∈ l, HasKeys d syms.toFinset := by
  unfold leafSampleSubset at h
  split at h; · cases h
  rename_i X env hs
  have hsym : s.symbols = (env.map Prod.fst).toFinset := by
    cases s <;> simp [Spe.leafEnv] at hs
    · rw [← hs.2]; rfl
    · rw [← hs.2]; rfl
    · rw [← hs.2]; simp [Spe.symbols]
  split at h; swap; · cases h
  rename_i hall
  simp only [bind, Except.bind] at h
  split at h; · cases h
  rename_i r hr
  obtain ⟨k1, k2⟩ := leafDraws_ok (l := r.1) (t' := r.2) hs hr
  refine ⟨fun x hx => by rw [hsym]; simpa using hall x hx, ?_⟩
  split at h
  · rename_i hX
    cases h
    exact ⟨k1, by rw [hX.2]; exact k2⟩
  · split at h; · cases h
    rename_i l' hl
    cases h
    replace hl := mapM_ok hl
    refine ⟨by rw [← hl.length_eq]; exact k1, ?_⟩
    intro d hd x
    obtain ⟨d0, -, hd0⟩ := forall₂_mem_right hl hd
    rw [envLoop_ok hd0 x]
    simp only [ne_eq, not_true_eq_false, false_or, List.mem_toFinset]
    exact ⟨fun h => h.2, fun h => ⟨hall x h, h⟩⟩

/-! ## Products -/

theorem sampleSubsetI_eq (cs : List Spe) (i : ℕ) (isSet : Bool) (syms : List String) (N : ℕ) (t : τ) :
    Spe.sampleSubsetI R L cs i isSet syms N t = match cs[i]? with
      | some s => s.sampleSubset R L isSet syms N t
      | none => .error .index := by
  induction cs generalizing i with
  | nil => simp [Spe.sampleSubsetI]
  | cons s cs ih =>
    cases i with
    | zero => simp [Spe.sampleSubsetI]
    | succ i => simp [Spe.sampleSubsetI, ih]

theorem sampleI_eq (cs : List Spe) (i : ℕ) (N : ℕ) (t : τ) :
    Spe.sampleI R L cs i N t = match cs[i]? with
      | some s => s.sample R L N t
      | none => .error .index := by
  induction cs generalizing i with
  | nil => simp [Spe.sampleI]
  | cons s cs ih =>
    cases i with
    | zero => simp [Spe.sampleI]
    | succ i => simp [Spe.sampleI, ih]

theorem sampleFuncI_eq {α : Type} (args : List String) (func : List PyV → Res α) (cs : List Spe) (i : ℕ) (N : ℕ) (t : τ) :
    Spe.sampleFuncI R L args func cs i N t = match cs[i]? with
      | some s => s.sampleFunc R L args func N t
      | none => .error .index := by
  induction cs generalizing i with
  | nil => simp [Spe.sampleFuncI]
  | cons s cs ih =>
    cases i with
    | zero => simp [Spe.sampleFuncI]
    | succ i => simp [Spe.sampleFuncI, ih]

theorem sampleL_eq (cs : List Spe) (N : ℕ) (t : τ) : Spe.sampleL R L cs N t = mapS (fun s t => s.sample R L N t) cs t := by
  induction cs generalizing t with
  | nil => rfl
  | cons s cs ih => simp only [Spe.sampleL, mapS, ih]

theorem mergeSamples_ok {N : ℕ} : ∀ {ls : List (List Dct)} {Ss : List (Finset String)}, ls ≠ [] →
    List.Forall₂ (fun l S => l.length = N ∧ ∀ d ∈ l, HasKeys d S) ls Ss →
    (mergeSamples ls).length = N ∧ ∀ d ∈ mergeSamples ls, ∀ x, d x ≠ none ↔ ∃ S ∈ Ss, x ∈ S
  | [], _, hne, _ => absurd rfl hne
  | [l], _, _, .cons h .nil => ⟨h.1, fun d hd x => by simpa using h.2 d hd x⟩
  | l :: l' :: ls, S :: Ss, _, .cons h h' => by
    obtain ⟨k1, k2⟩ := mergeSamples_ok (ls := l' :: ls) (by simp) h'
    refine ⟨by simp [mergeSamples, h.1, k1], ?_⟩
    intro d hd x
    simp only [mergeSamples] at hd
    obtain ⟨i, hi, rfl⟩ := List.mem_iff_getElem.1 hd
    simp only [List.getElem_zipWith, ne_eq, Option.or_eq_none_iff, not_and_or, List.exists_mem_cons_iff]
    exact or_congr (h.2 _ (List.getElem_mem _) x) (k2 _ (List.getElem_mem _) x)

theorem partition_ok {look : String → Res ℕ} {syms : List String} {parts : List (ℕ × List String)} (h : partitionSyms look syms = .ok parts) :
    (∀ p ∈ parts, p.2 ≠ [] ∧ ∀ x ∈ p.2, look x = .ok p.1) ∧ (∀ x, x ∈ syms ↔ ∃ p ∈ parts, x ∈ p.2) ∧ (parts.map Prod.fst).Nodup := by
  have gen : ∀ (syms : List String) (acc parts : List (ℕ × List String)), (∀ p ∈ acc, p.2 ≠ [] ∧ ∀ x ∈ p.2, look x = .ok p.1) → (acc.map Prod.fst).Nodup →
      syms.foldlM (partStep look) acc = .ok parts →
      (∀ p ∈ parts, p.2 ≠ [] ∧ ∀ x ∈ p.2, look x = .ok p.1) ∧ (∀ x, (x ∈ syms ∨ ∃ p ∈ acc, x ∈ p.2) ↔ ∃ p ∈ parts, x ∈ p.2) ∧ (parts.map Prod.fst).Nodup := by
    intro syms
    induction syms with
    | nil => intro acc parts h1 h2 h; simp [pure, Except.pure] at h; subst h; exact ⟨h1, fun x => by simp, h2⟩
    | cons y syms ih =>
      intro acc parts h1 h2 h
      simp only [List.foldlM_cons, bind, Except.bind] at h
      split at h; · cases h
      rename_i acc' hacc
      simp only [partStep, bind, Except.bind] at hacc
      split at hacc; · cases hacc
      rename_i key hkey
      split at hacc
      · rename_i hmem
        cases hacc
        suffices hAB : (∀ p ∈ (acc.map (fun p : ℕ × List String => if p.1 = key then (p.1, p.2 ++ [y]) else p)), p.2 ≠ [] ∧ ∀ x ∈ p.2, look x = .ok p.1) ∧ ((acc.map (fun p : ℕ × List String => if p.1 = key then (p.1, p.2 ++ [y]) else p)).map Prod.fst).Nodup by
          obtain ⟨i1, i2, i3⟩ := ih _ _ hAB.1 hAB.2 h
          refine ⟨i1, ?_, i3⟩
          intro x
          rw [← i2 x, List.mem_cons, or_assoc, or_left_comm]
          refine or_congr_right ?_
          constructor
          · rintro (rfl | ⟨p, hp, hx⟩)
            · obtain ⟨p, hp, rfl⟩ := List.mem_map.1 hmem
              exact ⟨_, List.mem_map.2 ⟨p, hp, rfl⟩, by simp⟩
            · refine ⟨_, List.mem_map.2 ⟨p, hp, rfl⟩, ?_⟩
              split <;> simp [hx]
          · rintro ⟨q, hq, hx⟩
            obtain ⟨p, hp, rfl⟩ := List.mem_map.1 hq
            split at hx
            · simp at hx
              rcases hx with hx | hx
              · exact .inr ⟨p, hp, hx⟩
              · exact .inl hx
            · exact .inr ⟨p, hp, hx⟩
        constructor
        · intro q hq
          obtain ⟨p, hp, rfl⟩ := List.mem_map.1 hq
          split
          · rename_i he
            refine ⟨by simp, ?_⟩
            intro x hx
            simp at hx
            rcases hx with hx | rfl
            · exact (h1 p hp).2 x hx
            · simp only [he]; exact hkey
          · exact h1 p hp
        · rw [List.map_map]
          have : (Prod.fst ∘ fun p : ℕ × List String => if p.1 = key then (p.1, p.2 ++ [y]) else p) = Prod.fst := by
            funext p; simp only [Function.comp]; split <;> rfl
          rw [this]; exact h2
      · rename_i hmem
        cases hacc
        suffices hAB : (∀ p ∈ (acc ++ [(key, [y])]), p.2 ≠ [] ∧ ∀ x ∈ p.2, look x = .ok p.1) ∧ ((acc ++ [(key, [y])]).map Prod.fst).Nodup by
          obtain ⟨i1, i2, i3⟩ := ih _ _ hAB.1 hAB.2 h
          refine ⟨i1, ?_, i3⟩
          intro x
          rw [← i2 x, List.mem_cons]
          simp only [List.mem_append, List.mem_singleton]
          constructor
          · rintro ((rfl | hx) | ⟨p, hp, hx⟩)
            · exact .inr ⟨_, .inr rfl, by simp⟩
            · exact .inl hx
            · exact .inr ⟨p, .inl hp, hx⟩
          · rintro (hx | ⟨p, hp | rfl, hx⟩)
            · exact .inl (.inr hx)
            · exact .inr ⟨p, hp, hx⟩
            · simp at hx; exact .inl (.inl hx)
        constructor
        · intro p hp
          rcases List.mem_append.1 hp with hp | hp
          · exact h1 p hp
          · simp at hp; subst hp; simpa using hkey
        · rw [List.map_append, List.nodup_append]
          refine ⟨h2, by simp, ?_⟩
          intro a ha b hb
          simp at hb
          subst hb
          rintro rfl
          exact hmem ha
  obtain ⟨h1, h2, h3⟩ := gen syms [] parts (by simp) (by simp) h
  exact ⟨h1, fun x => by rw [← h2 x]; simp, h3⟩

theorem partition_total {look : String → Res ℕ} {syms : List String} (h : ∀ x ∈ syms, ∃ i, look x = .ok i) : ∃ parts, partitionSyms look syms = .ok parts := by
  unfold partitionSyms
  have gen : ∀ (syms : List String) (acc : List (ℕ × List String)), (∀ x ∈ syms, ∃ i, look x = .ok i) → ∃ parts, syms.foldlM (partStep look) acc = .ok parts := by
    intro syms
    induction syms with
    | nil => intro acc _; exact ⟨acc, rfl⟩
    | cons y syms ih =>
      intro acc h
      obtain ⟨i, hi⟩ := h y (by simp)
      simp only [List.foldlM_cons, partStep, hi, bind, Except.bind]
      split
      · rename_i e he
        split at he <;> cases he
      · exact ih _ (fun x hx => h x (by simp [hx]))
  exact gen syms [] h

/-! ## Values of derived variables -/

theorem evalPy_toDct (ω : Asg) (f : Tr) : f.evalPy (toDct ω) = f.evaluate ω := by
  refine (sizeInd (P := fun f => f.evalPy (toDct ω) = f.evaluate ω) (Q := fun _ => True) ?_ (fun _ _ _ => trivial)).1 f
  clear f
  intro f ih _
  cases f with
  | id s => unfold Tr.evalPy Tr.evaluate toDct; cases ω s <;> rfl
  | radical t n => simp only [Tr.evalPy, Tr.evaluate, ih t (by simp; omega)]
  | exp t n => simp only [Tr.evalPy, Tr.evaluate, ih t (by simp; omega)]
  | log t n => simp only [Tr.evalPy, Tr.evaluate, ih t (by simp; omega)]
  | abs t => simp only [Tr.evalPy, Tr.evaluate, ih t (by simp)]
  | recip t => simp only [Tr.evalPy, Tr.evaluate, ih t (by simp)]
  | poly t cs => simp only [Tr.evalPy, Tr.evaluate, ih t (by simp; omega)]
  | pw => simp only [Tr.evalPy, Tr.evaluate]

theorem extend_cons (s : String) (f : Tr) (env : Env) (ω : Asg) : Env.extend ((s, f) :: env) ω = Env.extend env (fun x => if x = s then f.eval ω else ω x) := rfl

theorem extend_notMem {env : Env} {ω : Asg} {x : String} (h : x ∉ env.map Prod.fst) : env.extend ω x = ω x := by
  induction env generalizing ω with
  | nil => rfl
  | cons p env ih =>
    obtain ⟨s, f⟩ := p
    simp at h
    rw [extend_cons, ih (by simpa using h.2)]
    simp [h.1]

theorem envLoop_eq {syms : List String} : ∀ {env : Env} {ω : Asg} {sim : Dct}, (env.map Prod.fst).Nodup → (∀ p ∈ env, p.2.Plain) →
    (∀ p ∈ env, env.extend ω p.1 ≠ none) →
    envLoop syms env (toDct ω) sim = .ok (fun x => if x ∈ env.map Prod.fst ∧ x ∈ syms then toDct (env.extend ω) x else sim x)
  | [], ω, sim, _, _, _ => by simp [envLoop]
  | (s, f) :: env, ω, sim, hn, hp, hd => by
    simp only [List.map_cons, List.nodup_cons] at hn
    have hs : Env.extend ((s, f) :: env) ω s = f.eval ω := by
      rw [extend_cons, extend_notMem hn.1]; simp
    have hv := hd (s, f) (by simp)
    simp only at hv
    rw [hs] at hv
    obtain ⟨v, hv⟩ := Option.ne_none_iff_exists'.1 hv
    have he : f.evalPy (toDct ω) = .ok (.val v) := by rw [evalPy_toDct]; exact Tr.evaluate_total f (hp (s, f) (by simp)) hv
    have hput : (toDct ω).put s (.val v) = toDct (fun x => if x = s then f.eval ω else ω x) := by
      funext x
      unfold Dct.put toDct
      by_cases hx : x = s
      · simp [hx, hv]
      · simp [hx]
    simp only [envLoop, he, bind, Except.bind, hput]
    rw [envLoop_eq hn.2 (fun p h => hp p (by simp [h])) (fun p h => hd p (by simp [h]))]
    congr 1
    funext x
    rw [← extend_cons]
    by_cases hx : x = s
    · subst hx
      rw [if_neg (fun h => hn.1 h.1)]
      by_cases hm : x ∈ syms
      · simp [hm, Dct.put, toDct, hs, hv]
      · simp [hm]
    · by_cases hm : s ∈ syms <;> simp [hx, hm, Dct.put]

theorem Tr.Everywhere.plain : ∀ {f : Tr}, f.Everywhere → f.Plain
  | .id _, _ => trivial
  | .exp t b, h => Tr.Everywhere.plain (f := t) h.1
  | .abs t, h => Tr.Everywhere.plain (f := t) h
  | .poly t _, h => Tr.Everywhere.plain (f := t) h
  | .radical _ _, h => absurd h (by simp [Tr.Everywhere])
  | .log _ _, h => absurd h (by simp [Tr.Everywhere])
  | .recip _, h => absurd h (by simp [Tr.Everywhere])
  | .pw _ _ _, h => absurd h (by simp [Tr.Everywhere])

theorem Tr.Everywhere.eval {ω : Asg} : ∀ {f : Tr}, f.Everywhere → (∀ s ∈ f.symbols, ∃ x, ω s = some (.num x)) → ∃ x, f.eval ω = some (.num x)
  | .id s, _, h => h s (by simp [Tr.symbols])
  | .exp t b, h, hs => by
    obtain ⟨x, hx⟩ := Tr.Everywhere.eval (f := t) h.1 (by simpa [Tr.symbols] using hs)
    exact ⟨b ^ x, by simp [Tr.eval, hx, onNum, expVal]⟩
  | .abs t, h, hs => by
    obtain ⟨x, hx⟩ := Tr.Everywhere.eval (f := t) h (by simpa [Tr.symbols] using hs)
    exact ⟨|x|, by simp [Tr.eval, hx, onNum]⟩
  | .poly t cs, h, hs => by
    obtain ⟨x, hx⟩ := Tr.Everywhere.eval (f := t) h (by simpa [Tr.symbols] using hs)
    exact ⟨polyVal cs x, by simp [Tr.eval, hx, onNum]⟩
  | .radical _ _, h, _ => absurd h (by simp [Tr.Everywhere])
  | .log _ _, h, _ => absurd h (by simp [Tr.Everywhere])
  | .recip _, h, _ => absurd h (by simp [Tr.Everywhere])
  | .pw _ _ _, h, _ => absurd h (by simp [Tr.Everywhere])

theorem EnvBuilt.everywhere {X : String} {env : Env} (h : EnvBuilt X env) (he : ∀ p ∈ env, p.2.Everywhere) {ω : Asg} {x : ℝ} (hx : ω X = some (.num x)) :
    ∀ s ∈ env.keys, ∃ y, env.extend ω s = some (.num y) := by
  induction h with
  | base => intro s hs; simp [Env.keys] at hs; subst hs; exact ⟨x, by simp [Env.extend, Tr.eval, hx]⟩
  | @step env Y f h1 h2 h3 h4 ih =>
    have ih := ih (fun p hp => he p (by simp [hp]))
    intro s hs
    rw [Env.extend_append]
    by_cases hY : s = Y
    · simp only [hY, if_true]
      exact (he (Y, f) (by simp)).eval (fun s hs => ih s (h3 s hs))
    · simp only [hY, if_false]
      refine ih s ?_
      rw [Env.keys_append] at hs
      simpa [hY] using hs

theorem single_toDct (X : String) (v : Val ℝ) : Dct.single X (.val v) = toDct (baseAsg X v) := by
  funext x
  unfold Dct.single toDct baseAsg
  by_cases h : x = X <;> simp [h]

end

end Sppl
