import Verif.Spe.CacheSpec
import Verif.Spe.SimpLemmas

set_option linter.all false

/-!
# Caching of duplicate subtrees (helper lemmas)
-/

namespace Sppl
open Classical MeasureTheory
open scoped ENNReal

variable {c : Ctx} {L : Lib} {μ : Dist → Measure ℝ} {hash : Spe → ℤ}

/-- The outcomes of nominal leaves are distinct. -/
inductive Spe.Keyed : Spe → Prop
  | real {k X d supp cond env} : Spe.Keyed (.real k X d supp cond env)
  | atomic {X v env} : Spe.Keyed (.atomic X v env)
  | nominal {X dist} : (dist.map Prod.fst).Nodup → Spe.Keyed (.nominal X dist)
  | sum {cs ws} : (∀ s ∈ cs, Spe.Keyed s) → Spe.Keyed (.sum cs ws)
  | prod {cs} : (∀ s ∈ cs, Spe.Keyed s) → Spe.Keyed (.prod cs)

theorem Spe.WF.keyed : ∀ s : Spe, s.WF c L μ → s.Keyed := by
  refine Spe.ind ?_ ?_ ?_ ?_ ?_
  · intros; exact .real
  · intros; exact .atomic
  · intro X dist h; cases h with | nominal h _ _ => exact .nominal h
  · intro cs ws ih h; cases h with | sum h _ _ _ _ _ => exact .sum (fun s hs => ih s hs (h s hs))
  · intro cs ih h; cases h with | prod h _ _ => exact .prod (fun s hs => ih s hs (h s hs))

theorem eqPyL_iff {cs cs' : List Spe} : Spe.eqPyL cs cs' = true ↔ List.Forall₂ (fun s t => Spe.eqPy s t = true) cs cs' := by
  induction cs generalizing cs' with
  | nil => cases cs' <;> simp [Spe.eqPyL]
  | cons s cs ih => cases cs' <;> simp [Spe.eqPyL, ih]

theorem lookup_of_mem' {dist : List (String × ℚ)} (hn : (dist.map Prod.fst).Nodup) {p : String × ℚ} (h : p ∈ dist) : dist.lookup p.1 = some p.2 := by
  induction dist with
  | nil => cases h
  | cons q dist ih =>
    rw [List.map_cons, List.nodup_cons] at hn
    rw [List.lookup_cons]
    rcases List.mem_cons.1 h with rfl | h
    · simp
    · have : p.1 ≠ q.1 := fun e => hn.1 (by rw [← e]; exact List.mem_map.2 ⟨p, h, rfl⟩)
      have : (p.1 == q.1) = false := by simpa using this
      rw [this]; exact ih hn.2 h

theorem eqPy_refl : ∀ s : Spe, s.Keyed → Spe.eqPy s s = true := by
  refine Spe.ind ?_ ?_ ?_ ?_ ?_
  · intros; simp [Spe.eqPy]
  · intros; simp [Spe.eqPy]
  · intro X dist h; cases h with
    | nominal h => simp only [Spe.eqPy, decide_eq_true_eq]; exact ⟨trivial, trivial, fun p hp => lookup_of_mem' h hp⟩
  · intro cs ws ih h; cases h with
    | sum h =>
      simp only [Spe.eqPy, decide_true, Bool.and_true, eqPyL_iff]
      exact List.forall₂_same.2 (fun s hs => ih s hs (h s hs))
  · intro cs ih h; cases h with
    | prod h =>
      simp only [Spe.eqPy, eqPyL_iff]
      exact List.forall₂_same.2 (fun s hs => ih s hs (h s hs))

theorem eqPy_perm {dist dist' : List (String × ℚ)} (hn : (dist.map Prod.fst).Nodup) (hl : dist.length = dist'.length)
    (hk : ∀ p ∈ dist, dist'.lookup p.1 = some p.2) : dist.Perm dist' := by
  have hsub : dist ⊆ dist' := fun p hp => mem_of_lookup' (hk p hp)
  have hnd : dist.Nodup := hn.of_map
  exact (List.subperm_of_subset hnd hsub).perm_of_length_le (by omega)

theorem eqPy_symm : ∀ s : Spe, s.Keyed → ∀ t : Spe, t.Keyed → Spe.eqPy s t = true → Spe.eqPy t s = true := by
  have key : ∀ cs cs' : List Spe, (∀ s ∈ cs, s.Keyed → ∀ t : Spe, t.Keyed → Spe.eqPy s t = true → Spe.eqPy t s = true) → (∀ s ∈ cs, s.Keyed) →
      (∀ s ∈ cs', s.Keyed) → List.Forall₂ (fun s t => Spe.eqPy s t = true) cs cs' → List.Forall₂ (fun s t => Spe.eqPy s t = true) cs' cs := by
    intro cs cs' ih h1 h2 h
    induction h with
    | nil => exact .nil
    | @cons a b l l' hab hl ihh =>
      exact .cons (ih a (by simp) (h1 a (by simp)) b (h2 b (by simp)) hab)
        (ihh (fun s hs => ih s (by simp [hs])) (fun s hs => h1 s (by simp [hs])) (fun s hs => h2 s (by simp [hs])))
  refine Spe.ind ?_ ?_ ?_ ?_ ?_
  · intro k X d supp cond env _ t _ h
    cases t <;> simp only [Spe.eqPy, decide_eq_true_eq, Bool.false_eq_true] at h ⊢
    obtain ⟨rfl, rfl, hd, rfl, rfl, rfl⟩ := h; simp [hd]
  · intro X v env _ t _ h
    cases t <;> simp only [Spe.eqPy, decide_eq_true_eq, Bool.false_eq_true] at h ⊢
    obtain ⟨rfl, rfl⟩ := h; simp
  · intro X dist hs t ht h
    cases t <;> simp only [Spe.eqPy, decide_eq_true_eq, Bool.false_eq_true] at h ⊢
    obtain ⟨rfl, hl, hk⟩ := h
    cases hs with
    | nominal hs =>
    exact ⟨rfl, hl.symm, fun p hp => lookup_of_mem' hs ((eqPy_perm hs hl hk).mem_iff.2 hp)⟩
  · intro cs ws ih hs t ht h
    cases t <;> simp only [Spe.eqPy, Bool.and_eq_true, decide_eq_true_eq, Bool.false_eq_true, eqPyL_iff] at h ⊢
    cases hs with | sum hs =>
    cases ht with | sum ht =>
    exact ⟨key _ _ ih hs ht h.1, h.2.symm⟩
  · intro cs ih hs t ht h
    cases t <;> simp only [Spe.eqPy, Bool.and_eq_true, decide_eq_true_eq, Bool.false_eq_true, eqPyL_iff] at h ⊢
    cases hs with | prod hs =>
    cases ht with | prod ht =>
    exact key _ _ ih hs ht h

theorem eqPy_trans : ∀ s t u : Spe, Spe.eqPy s t = true → Spe.eqPy t u = true → Spe.eqPy s u = true := by
  have key : ∀ cs cs' cs'' : List Spe, (∀ s ∈ cs, ∀ t u : Spe, Spe.eqPy s t = true → Spe.eqPy t u = true → Spe.eqPy s u = true) →
      List.Forall₂ (fun s t => Spe.eqPy s t = true) cs cs' → List.Forall₂ (fun s t => Spe.eqPy s t = true) cs' cs'' →
      List.Forall₂ (fun s t => Spe.eqPy s t = true) cs cs'' := by
    intro cs cs' cs'' ih h h'
    induction h generalizing cs'' with
    | nil => cases h'; exact .nil
    | @cons a b l l' hab hl ihh =>
      cases h' with
      | cons h1 h2 => exact .cons (ih a (by simp) _ _ hab h1) (ihh _ (fun s hs => ih s (by simp [hs])) h2)
  refine Spe.ind ?_ ?_ ?_ ?_ ?_
  · intro k X d supp cond env t u h h'
    cases t <;> simp only [Spe.eqPy, decide_eq_true_eq, Bool.false_eq_true] at h
    obtain ⟨rfl, rfl, hd, rfl, rfl, rfl⟩ := h
    cases u <;> simp only [Spe.eqPy, decide_eq_true_eq, Bool.false_eq_true] at h' ⊢
    exact ⟨h'.1, h'.2.1, hd.trans h'.2.2.1, h'.2.2.2⟩
  · intro X v env t u h h'
    cases t <;> simp only [Spe.eqPy, decide_eq_true_eq, Bool.false_eq_true] at h
    obtain ⟨rfl, rfl⟩ := h
    cases u <;> simp only [Spe.eqPy, decide_eq_true_eq, Bool.false_eq_true] at h' ⊢
    exact h'
  · intro X dist t u h h'
    cases t <;> simp only [Spe.eqPy, decide_eq_true_eq, Bool.false_eq_true] at h
    cases u <;> simp only [Spe.eqPy, decide_eq_true_eq, Bool.false_eq_true] at h' ⊢
    obtain ⟨rfl, hl, hk⟩ := h
    obtain ⟨rfl, hl', hk'⟩ := h'
    exact ⟨rfl, hl.trans hl', fun p hp => hk' p (mem_of_lookup' (hk p hp))⟩
  · intro cs ws ih t u h h'
    cases t <;> simp only [Spe.eqPy, Bool.and_eq_true, decide_eq_true_eq, Bool.false_eq_true, eqPyL_iff] at h
    cases u <;> simp only [Spe.eqPy, Bool.and_eq_true, decide_eq_true_eq, Bool.false_eq_true, eqPyL_iff] at h' ⊢
    exact ⟨key _ _ _ ih h.1 h'.1, h.2.trans h'.2⟩
  · intro cs ih t u h h'
    cases t <;> simp only [Spe.eqPy, Bool.false_eq_true, eqPyL_iff] at h
    cases u <;> simp only [Spe.eqPy, Bool.false_eq_true, eqPyL_iff] at h' ⊢
    exact key _ _ _ ih h h'

theorem Spe.sizeL_eq (cs : List Spe) : Spe.sizeL cs = cs.map Spe.size := by
  induction cs with
  | nil => rfl
  | cons s cs ih => simp [Spe.sizeL, ih]

theorem size_lt {cs : List Spe} {s : Spe} (h : s ∈ cs) : s.size < 1 + (Spe.sizeL cs).sum := by
  have := List.single_le_sum (l := Spe.sizeL cs) (by simp) s.size (by rw [Spe.sizeL_eq]; exact List.mem_map.2 ⟨s, h, rfl⟩)
  omega

theorem eqPy_size : ∀ s t : Spe, Spe.eqPy s t = true → s.size = t.size := by
  have key : ∀ cs cs' : List Spe, (∀ s ∈ cs, ∀ t : Spe, Spe.eqPy s t = true → s.size = t.size) →
      List.Forall₂ (fun s t => Spe.eqPy s t = true) cs cs' → Spe.sizeL cs = Spe.sizeL cs' := by
    intro cs cs' ih h
    induction h with
    | nil => rfl
    | @cons a b l l' hab hl ihh =>
      simp only [Spe.sizeL, ih a (by simp) b hab, ihh (fun s hs => ih s (by simp [hs]))]
  refine Spe.ind ?_ ?_ ?_ ?_ ?_
  · intro k X d supp cond env t h
    cases t <;> simp only [Spe.eqPy, decide_eq_true_eq, Bool.false_eq_true] at h; rfl
  · intro X v env t h
    cases t <;> simp only [Spe.eqPy, decide_eq_true_eq, Bool.false_eq_true] at h; rfl
  · intro X dist t h
    cases t <;> simp only [Spe.eqPy, decide_eq_true_eq, Bool.false_eq_true] at h; rfl
  · intro cs ws ih t h
    cases t <;> simp only [Spe.eqPy, Bool.and_eq_true, Bool.false_eq_true, eqPyL_iff] at h
    simp only [Spe.size, key _ _ ih h.1]
  · intro cs ih t h
    cases t <;> simp only [Spe.eqPy, Bool.false_eq_true, eqPyL_iff] at h
    simp only [Spe.size, key _ _ ih h]

theorem Spe.Sub.trans {a b : Spe} (h : a.Sub b) : ∀ c : Spe, b.Sub c → a.Sub c := by
  intro c h'
  induction h' with
  | refl => exact h
  | sum hs _ ih => exact .sum hs ih
  | prod hs _ ih => exact .prod hs ih

theorem Spe.Agree.sub {E : String → ℝ → Env} {s t : Spe} (h : s.Agree E) (hs : t.Sub s) : t.Agree E :=
  ⟨fun X v env hx => h.atomic X v env (hx.trans _ hs), fun k X d supp cond env hx => h.real k X d supp cond env (hx.trans _ hs)⟩

theorem Spe.Agree.sum {E : String → ℝ → Env} {cs : List Spe} {ws : List ℝ} (h : ∀ s ∈ cs, s.Agree E) : (Spe.sum cs ws).Agree E := by
  constructor
  · intro X v env hx; cases hx with | sum hs hx => exact (h _ hs).atomic X v env hx
  · intro k X d supp cond env hx; cases hx with | sum hs hx => exact (h _ hs).real _ _ _ _ _ _ hx

theorem Spe.Agree.prod {E : String → ℝ → Env} {cs : List Spe} (h : ∀ s ∈ cs, s.Agree E) : (Spe.prod cs).Agree E := by
  constructor
  · intro X v env hx; cases hx with | prod hs hx => exact (h _ hs).atomic X v env hx
  · intro k X d supp cond env hx; cases hx with | prod hs hx => exact (h _ hs).real _ _ _ _ _ _ hx

theorem Spe.Keyed.sub {s t : Spe} (h : s.Keyed) (hs : t.Sub s) : t.Keyed := by
  induction hs with
  | refl => exact h
  | sum hs _ ih => cases h with | sum h => exact ih (h _ hs)
  | prod hs _ ih => cases h with | prod h => exact ih (h _ hs)

theorem forall₂_map_eq {α β : Type} {f g : α → β} {R : α → α → Prop} {l l' : List α} (h : List.Forall₂ R l l') (hf : ∀ a b, R a b → a ∈ l → b ∈ l' → f a = g b) :
    l.map f = l'.map g := by
  induction h with
  | nil => rfl
  | @cons a b l l' hab hl ih =>
    simp only [List.map_cons, hf a b hab (by simp) (by simp), ih (fun a b h ha hb => hf a b h (by simp [ha]) (by simp [hb]))]

/-- Equal SPEs whose atomic leaves agree denote the same, over the same variables, and one is well-formed if the other is. -/
theorem eqPy_den {E : String → ℝ → Env} : ∀ s : Spe, s.Keyed → s.Agree E → ∀ t : Spe, t.Agree E → Spe.eqPy s t = true → t.WF c L μ →
    s.den μ = t.den μ ∧ s.symbols = t.symbols ∧ s.WF c L μ := by
  refine Spe.ind ?_ ?_ ?_ ?_ ?_
  · intro k X d supp cond env _ hs t ht' h ht
    cases t <;> simp only [Spe.eqPy, decide_eq_true_eq, Bool.false_eq_true] at h
    obtain ⟨rfl, rfl, hd, rfl, rfl, rfl⟩ := h
    obtain rfl := Dist.ext_key hd ((hs.real _ _ _ _ _ _ .refl).trans (ht'.real _ _ _ _ _ _ .refl).symm)
    exact ⟨rfl, rfl, ht⟩
  · intro X v env _ hs t ht h hw
    cases t <;> simp only [Spe.eqPy, decide_eq_true_eq, Bool.false_eq_true] at h
    obtain ⟨rfl, rfl⟩ := h
    have e1 := hs.atomic X v env .refl
    have e2 := ht.atomic X v _ .refl
    subst e1
    rw [e2] at hw ⊢
    exact ⟨rfl, rfl, hw⟩
  · intro X dist hs _ t _ h ht
    cases t <;> simp only [Spe.eqPy, decide_eq_true_eq, Bool.false_eq_true] at h
    obtain ⟨rfl, hl, hk⟩ := h
    cases hs with
    | nominal hs =>
    have hp := eqPy_perm hs hl hk
    refine ⟨?_, by simp [Spe.symbols], ?_⟩
    · simp only [Spe.den, mixture_eq]
      exact mixG_perm hp _ _
    · cases ht with
      | nominal h1 h2 h3 => exact .nominal hs (fun p hp' => h2 p (hp.mem_iff.1 hp')) (by rw [(hp.map _).sum_eq]; exact h3)
  · intro cs ws ih hk hs t ht h hw
    cases t <;> simp only [Spe.eqPy, Bool.and_eq_true, decide_eq_true_eq, Bool.false_eq_true, eqPyL_iff] at h
    rename_i cs' ws'
    obtain ⟨h, rfl⟩ := h
    cases hk with | sum hk =>
    cases hw with | @sum _ _ S h1 h2 h3 h4 h5 h6 =>
    have key : ∀ a b, Spe.eqPy a b = true → a ∈ cs → b ∈ cs' → a.den μ = b.den μ ∧ a.symbols = b.symbols ∧ a.WF c L μ := fun a b hab ha hb =>
      ih a ha (hk a ha) (hs.sub (.sum ha .refl)) b (ht.sub (.sum hb .refl)) hab (h1 b hb)
    have e1 : cs.map (Spe.den μ) = cs'.map (Spe.den μ) := forall₂_map_eq h (fun a b hab ha hb => (key a b hab ha hb).1)
    have e2 : cs.map Spe.symbols = cs'.map Spe.symbols := forall₂_map_eq h (fun a b hab ha hb => (key a b hab ha hb).2.1)
    refine ⟨by simp only [Spe.den, Spe.denL_eq, e1], by simp only [Spe.symbols, Spe.symbolsL_eq, e2], ?_⟩
    refine .sum (S := S) ?_ ?_ (by rw [h.length_eq]; exact h3) h4 h5 ?_
    · intro s hs'
      obtain ⟨b, hb, hab⟩ := forall₂_mem_left h hs'
      exact (key s b hab hs' hb).2.2
    · rintro rfl; cases h; exact h2 rfl
    · intro s hs'
      obtain ⟨b, hb, hab⟩ := forall₂_mem_left h hs'
      rw [(key s b hab hs' hb).2.1]; exact h6 b hb
  · intro cs ih hk hs t ht h hw
    cases t <;> simp only [Spe.eqPy, Bool.false_eq_true, eqPyL_iff] at h
    rename_i cs'
    cases hk with | prod hk =>
    cases hw with | prod h1 h2 h3 =>
    have key : ∀ a b, Spe.eqPy a b = true → a ∈ cs → b ∈ cs' → a.den μ = b.den μ ∧ a.symbols = b.symbols ∧ a.WF c L μ := fun a b hab ha hb =>
      ih a ha (hk a ha) (hs.sub (.prod ha .refl)) b (ht.sub (.prod hb .refl)) hab (h1 b hb)
    have e1 : cs.map (Spe.den μ) = cs'.map (Spe.den μ) := forall₂_map_eq h (fun a b hab ha hb => (key a b hab ha hb).1)
    have e2 : cs.map Spe.symbols = cs'.map Spe.symbols := forall₂_map_eq h (fun a b hab ha hb => (key a b hab ha hb).2.1)
    refine ⟨by simp only [Spe.den, Spe.denL_eq, Spe.symbolsL_eq, e1, e2], by simp only [Spe.symbols, Spe.symbolsL_eq, e2], ?_⟩
    refine .prod ?_ ?_ (by rw [Spe.symbolsL_eq, e2, ← Spe.symbolsL_eq]; exact h3)
    · intro s hs'
      obtain ⟨b, hb, hab⟩ := forall₂_mem_left h hs'
      exact (key s b hab hs' hb).2.2
    · rintro rfl; cases h; exact h2 rfl

/-! ## The dictionary -/

theorem Cache.find_some {m : Cache} {s t : Spe} (h : m.find hash s = some t) : (hash s, t) ∈ m ∧ Spe.eqPy t s = true := by
  unfold Cache.find at h
  obtain ⟨e, he, rfl⟩ := Option.map_eq_some_iff.1 h
  have h1 := List.mem_of_find?_eq_some he
  have h2 := List.find?_some he
  simp only [Bool.and_eq_true, decide_eq_true_eq] at h2
  exact ⟨by rw [← h2.1]; exact h1, h2.2⟩

theorem Cache.find_none {m : Cache} {s : Spe} (h : m.find hash s = none) : ∀ e ∈ m, e.1 = hash s → Spe.eqPy e.2 s ≠ true := by
  unfold Cache.find at h
  rw [Option.map_eq_none_iff, List.find?_eq_none] at h
  intro e he h1 h2
  exact h e he (by simp [h1, h2])

/-- The invariants of the dictionary: hashes are right, nodes of its entries are entries, and entries are not equal. -/
structure CacheOK (hash : Spe → ℤ) (m : Cache) : Prop where
  hsh : ∀ e ∈ m, e.1 = hash e.2
  sub : ∀ e ∈ m, ∀ t : Spe, t.Sub e.2 → (hash t, t) ∈ m
  keyed : ∀ e ∈ m, e.2.Keyed
  uniq : m.Pairwise (fun a b => a.1 = b.1 → Spe.eqPy a.2 b.2 ≠ true)

theorem CacheOK.nil : CacheOK hash [] := ⟨by simp, by simp, by simp, .nil⟩

/-- What a call achieves. -/
structure Cached (hash : Spe → ℤ) (s : Spe) (m : Cache) (s' : Spe) (m' : Cache) : Prop where
  ok : CacheOK hash m'
  mem : (hash s', s') ∈ m'
  hsh : hash s' = hash s
  eq : Spe.eqPy s' s = true
  ext : ∃ n : Cache, m' = m ++ n ∧ ∀ e ∈ n, e.2.size ≤ s.size
  agree : ∀ E, s.Agree E → (∀ e ∈ m, e.2.Agree E) → ∀ e ∈ m', e.2.Agree E

theorem Cached.found {m : Cache} (hm : CacheOK hash m) {s t : Spe} (h : m.find hash s = some t) : Cached hash s m t m := by
  obtain ⟨h1, h2⟩ := Cache.find_some h
  have h3 := hm.hsh _ h1
  simp only at h3
  exact ⟨hm, by rw [← h3]; exact h1, h3.symm, h2, ⟨[], by simp, by simp⟩, fun E _ h => h⟩

/-- A new entry. -/
theorem Cached.add {m m1 n : Cache} {s s' : Spe} (hm : CacheOK hash m1) (hn : m.find hash s = none) (e1 : m1 = m ++ n) (e2 : ∀ e ∈ n, e.2.size < s.size)
    (hh : hash s' = hash s) (he : Spe.eqPy s' s = true) (hk : s'.Keyed) (hsub : ∀ t : Spe, t.Sub s' → t = s' ∨ (hash t, t) ∈ m1)
    (ha : ∀ E, s.Agree E → (∀ e ∈ m, e.2.Agree E) → s'.Agree E ∧ ∀ e ∈ m1, e.2.Agree E) : Cached hash s m s' (m1 ++ [(hash s, s')]) := by
  refine ⟨⟨?_, ?_, ?_, ?_⟩, ?_, hh, he, ⟨n ++ [(hash s, s')], by rw [e1, List.append_assoc], ?_⟩, ?_⟩
  · intro e h; rcases List.mem_append.1 h with h | h
    · exact hm.hsh e h
    · simp at h; subst h; exact hh.symm
  · intro e h t ht; rcases List.mem_append.1 h with h | h
    · exact List.mem_append_left _ (hm.sub e h t ht)
    · simp at h; subst h
      rcases hsub t ht with rfl | h
      · exact List.mem_append_right _ (by simp [hh])
      · exact List.mem_append_left _ h
  · intro e h; rcases List.mem_append.1 h with h | h
    · exact hm.keyed e h
    · simp at h; subst h; exact hk
  · rw [List.pairwise_append]
    refine ⟨hm.uniq, List.pairwise_singleton _ _, ?_⟩
    intro a ha' b hb h1 h2
    simp at hb; subst hb
    simp only at h1 h2
    rw [e1] at ha'
    rcases List.mem_append.1 ha' with h | h
    · exact Cache.find_none hn a h h1 (eqPy_trans _ _ _ h2 he)
    · have := e2 a h
      rw [eqPy_size _ _ h2, eqPy_size _ _ he] at this
      omega
  · exact List.mem_append_right _ (by simp [hh])
  · intro e h; rcases List.mem_append.1 h with h | h
    · exact (e2 e h).le
    · simp at h; subst h; exact (eqPy_size _ _ he).le
  · intro E h1 h2 e h
    obtain ⟨h3, h4⟩ := ha E h1 h2
    rcases List.mem_append.1 h with h | h
    · exact h4 e h
    · simp at h; subst h; exact h3

theorem cacheLeaf_ok {s : Spe} (hs : s.Keyed) (hd : s.hashable = true) (hl : ∀ t : Spe, t.Sub s → t = s) {m : Cache} (hm : CacheOK hash m) :
    ∃ r, cacheLeaf hash s m = .ok r ∧ Cached hash s m r.1 r.2 := by
  unfold cacheLeaf
  rw [if_neg (by simp [hd])]
  split
  · rename_i t h; exact ⟨_, rfl, .found hm h⟩
  · rename_i h
    refine ⟨_, rfl, ?_⟩
    exact .add (n := []) hm h (by simp) (by simp) rfl (eqPy_refl s hs) hs (fun t ht => Or.inl (hl t ht)) (fun E h1 h2 => ⟨h1, h2⟩)

theorem hashableL_iff (cs : List Spe) : Spe.hashableL cs = true ↔ ∀ s ∈ cs, s.hashable = true := by
  induction cs with
  | nil => simp [Spe.hashableL]
  | cons s cs ih => simp [Spe.hashableL, ih]

/-- The children. -/
theorem cacheL_ok : ∀ (cs : List Spe), (∀ s ∈ cs, s.Keyed → s.hashable = true → ∀ m, CacheOK hash m → ∃ r, Spe.cache hash s m = .ok r ∧ Cached hash s m r.1 r.2) →
    (∀ s ∈ cs, s.Keyed) → (∀ s ∈ cs, s.hashable = true) → ∀ m, CacheOK hash m → ∃ r, Spe.cacheL hash cs m = .ok r ∧ CacheOK hash r.2 ∧ r.1.map hash = cs.map hash ∧
      List.Forall₂ (fun s t => Spe.eqPy s t = true) r.1 cs ∧ (∀ s ∈ r.1, (hash s, s) ∈ r.2) ∧
      (∃ n : Cache, r.2 = m ++ n ∧ ∀ e ∈ n, ∃ s ∈ cs, e.2.size ≤ s.size) ∧
      ∀ E, (∀ s ∈ cs, s.Agree E) → (∀ e ∈ m, e.2.Agree E) → ∀ e ∈ r.2, e.2.Agree E := by
  intro cs
  induction cs with
  | nil =>
    intro _ _ _ m hm
    exact ⟨([], m), rfl, hm, rfl, .nil, by simp, ⟨[], by simp, by simp⟩, fun E _ h => h⟩
  | cons s cs ihh =>
    intro ih hk hd m hm
    obtain ⟨r, h1, k⟩ := ih s (by simp) (hk s (by simp)) (hd s (by simp)) m hm
    obtain ⟨q, h2, q1, q2, q3, q4, ⟨n', q5, q6⟩, q7⟩ := ihh (fun s hs => ih s (by simp [hs])) (fun s hs => hk s (by simp [hs])) (fun s hs => hd s (by simp [hs])) r.2 k.ok
    obtain ⟨n, k1, k2⟩ := k.ext
    refine ⟨(r.1 :: q.1, q.2), by simp only [Spe.cacheL, h1, h2, bind, Except.bind], q1, by simp [k.hsh, q2], .cons k.eq q3, ?_, ⟨n ++ n', ?_, ?_⟩, ?_⟩
    · intro t ht; rcases List.mem_cons.1 ht with rfl | ht
      · simp only [q5]; exact List.mem_append_left _ k.mem
      · exact q4 t ht
    · simp only [q5, k1, List.append_assoc]
    · intro e he; rcases List.mem_append.1 he with he | he
      · exact ⟨s, by simp, k2 e he⟩
      · obtain ⟨t, ht, h⟩ := q6 e he; exact ⟨t, by simp [ht], h⟩
    · intro E h3 h4
      exact q7 E (fun s hs => h3 s (by simp [hs])) (k.agree E (h3 s (by simp)) h4)

theorem cache_ok (hh : HashOK hash) : ∀ s : Spe, s.Keyed → s.hashable = true → ∀ m, CacheOK hash m → ∃ r, Spe.cache hash s m = .ok r ∧ Cached hash s m r.1 r.2 := by
  refine Spe.ind ?_ ?_ ?_ ?_ ?_
  · intro k X d supp cond env hk hd m hm
    rw [Spe.cache]; exact cacheLeaf_ok hk hd (fun t ht => by cases ht; rfl) hm
  · intro X v env hk hd m hm
    rw [Spe.cache]; exact cacheLeaf_ok hk hd (fun t ht => by cases ht; rfl) hm
  · intro X dist hk hd m hm
    rw [Spe.cache]; exact cacheLeaf_ok hk hd (fun t ht => by cases ht; rfl) hm
  · intro cs ws ih hk hd m hm
    rw [Spe.cache, if_neg (by simp [hd])]
    split
    · rename_i t h; exact ⟨_, rfl, .found hm h⟩
    · rename_i hnone
      cases hk with | sum hk =>
      obtain ⟨q, h2, q1, q2, q3, q4, ⟨n, q5, q6⟩, q7⟩ := cacheL_ok cs ih hk ((hashableL_iff cs).1 (by simpa [Spe.hashable] using hd)) m hm
      have e := hh.sum (ws := ws) q2
      refine ⟨_, by simp only [h2, bind, Except.bind, if_pos e]; rfl, ?_⟩
      refine .add (n := n) q1 hnone q5 ?_ e ?_ ?_ ?_ ?_
      · intro e he
        obtain ⟨s, hs, h⟩ := q6 e he
        exact lt_of_le_of_lt h (size_lt hs)
      · simp only [Spe.eqPy, decide_true, Bool.and_true, eqPyL_iff]; exact q3
      · exact .sum (fun s hs => q1.keyed _ (q4 s hs))
      · intro t ht; cases ht with
        | refl => exact Or.inl rfl
        | sum hs ht => exact Or.inr (q1.sub _ (q4 _ hs) t ht)
      · intro E h3 h4
        have h5 := q7 E (fun s hs => h3.sub (.sum hs .refl)) h4
        exact ⟨.sum (fun s hs => h5 _ (q4 s hs)), h5⟩
  · intro cs ih hk hd m hm
    rw [Spe.cache, if_neg (by simp [hd])]
    split
    · rename_i t h; exact ⟨_, rfl, .found hm h⟩
    · rename_i hnone
      cases hk with | prod hk =>
      obtain ⟨q, h2, q1, q2, q3, q4, ⟨n, q5, q6⟩, q7⟩ := cacheL_ok cs ih hk ((hashableL_iff cs).1 (by simpa [Spe.hashable] using hd)) m hm
      have e := hh.prod q2
      refine ⟨_, by simp only [h2, bind, Except.bind, if_pos e]; rfl, ?_⟩
      refine .add (n := n) q1 hnone q5 ?_ e ?_ ?_ ?_ ?_
      · intro e he
        obtain ⟨s, hs, h⟩ := q6 e he
        exact lt_of_le_of_lt h (size_lt hs)
      · simp only [Spe.eqPy, eqPyL_iff]; exact q3
      · exact .prod (fun s hs => q1.keyed _ (q4 s hs))
      · intro t ht; cases ht with
        | refl => exact Or.inl rfl
        | prod hs ht => exact Or.inr (q1.sub _ (q4 _ hs) t ht)
      · intro E h3 h4
        have h5 := q7 E (fun s hs => h3.sub (.prod hs .refl)) h4
        exact ⟨.prod (fun s hs => h5 _ (q4 s hs)), h5⟩

/-- Only SPEs that have a hash are cached. -/
theorem cache_hashable {s : Spe} {m : Cache} {r : Spe × Cache} (h : s.cache hash m = .ok r) : s.hashable = true := by
  by_contra hd
  cases s with
  | real => rw [Spe.cache, cacheLeaf, if_pos hd] at h; cases h
  | atomic => rw [Spe.cache, cacheLeaf, if_pos hd] at h; cases h
  | nominal => rw [Spe.cache, cacheLeaf, if_pos hd] at h; cases h
  | sum => rw [Spe.cache, if_pos hd] at h; cases h
  | prod => rw [Spe.cache, if_pos hd] at h; cases h

theorem cache_not_hashable {s : Spe} {m : Cache} (hd : ¬ s.hashable = true) : s.cache hash m = .error .type := by
  cases s with
  | real => rw [Spe.cache, cacheLeaf, if_pos hd]
  | atomic => rw [Spe.cache, cacheLeaf, if_pos hd]
  | nominal => rw [Spe.cache, cacheLeaf, if_pos hd]
  | sum => rw [Spe.cache, if_pos hd]
  | prod => rw [Spe.cache, if_pos hd]

end Sppl
