import Verif.Spe.DensitySpec
import Verif.Spe.CondLemmas

set_option linter.all false

/-!
# Densities of products and mixtures (helper lemmas)
-/

namespace Sppl
open Classical MeasureTheory Topology
open scoped ENNReal ProbabilityTheory

variable {c : Ctx} {L : Lib} {μ : Dist → Measure ℝ}

theorem Spe.pdfMemL_eq (cs : List Spe) : Spe.pdfMemL L cs = cs.map (Spe.pdfMem L) := by
  induction cs with
  | nil => rfl
  | cons s ss ih => simp [Spe.pdfMemL, ih]

theorem Spe.constrainMemL_eq (cs : List Spe) : Spe.constrainMemL L cs = cs.map (Spe.constrainMem L) := by
  induction cs with
  | nil => rfl
  | cons s ss ih => simp [Spe.constrainMemL, ih]

/-! ## Points -/

theorem Point.mem_on {a : Point} {S : Finset String} {p : String × Val ℝ} : p ∈ a.on S ↔ p ∈ a ∧ p.1 ∈ S := by simp [Point.on]

theorem Point.on_all {a : Point} {S : Finset String} (h : ∀ p ∈ a, p.1 ∈ S) : a.on S = a := List.filter_eq_self.2 (fun p hp => by simpa using h p hp)

theorem measurable_const (v : Option (Val ℝ)) : MeasurableSet {u : Option (Val ℝ) | u = v} := by
  match v with
  | none =>
    have h1 := (measurableSet_strs (fun _ => True)).union (measurableSet_nums (B := Set.univ) .univ)
    convert h1.compl using 1
    ext u
    rcases u with _ | u | u <;> simp
  | some (.str x) => simpa using measurableSet_strs (fun y => y = x) |> (by
      intro h
      convert h using 1
      ext u; constructor
      · intro hu; exact ⟨x, hu, rfl⟩
      · rintro ⟨y, hy, rfl⟩; exact hy)
  | some (.num x) => 
      convert measurableSet_nums (B := {x}) (measurableSet_singleton x) using 1
      ext u; constructor
      · intro hu; exact ⟨x, hu, rfl⟩
      · rintro ⟨y, hy, rfl⟩; exact hy

theorem measurable_near (ε : ℝ) (v : Val ℝ) : MeasurableSet {u : Option (Val ℝ) | near ε v u} := by
  cases v with
  | str x => exact measurable_const _
  | num x =>
    refine measurableSet_nums (B := {y | |y - x| ≤ ε}) ?_
    have : {y : ℝ | |y - x| ≤ ε} = Metric.closedBall x ε := by ext y; simp [Real.dist_eq]
    rw [this]; exact measurableSet_closedBall

theorem measurable_allVars {a : Point} {P : Val ℝ → Option (Val ℝ) → Prop} (h : ∀ v, MeasurableSet {u | P v u}) : MeasurableSet {ω : Asg | ∀ p ∈ a, P p.2 (ω p.1)} := by
  induction a with
  | nil => simp
  | cons p a ih =>
    have : {ω : Asg | ∀ q ∈ p :: a, P q.2 (ω q.1)} = (fun ω : Asg => ω p.1) ⁻¹' {u | P p.2 u} ∩ {ω | ∀ q ∈ a, P q.2 (ω q.1)} := by ext ω; simp
    rw [this]
    exact (measurable_pi_apply p.1 (h p.2)).inter ih

theorem Point.measurable_set (a : Point) : MeasurableSet a.set := measurable_allVars (P := fun v u => u = some v) (fun v => measurable_const _)

theorem Point.measurable_box (a : Point) (ε : ℝ) : MeasurableSet (a.box ε) := measurable_allVars (P := fun v u => near ε v u) (fun v => measurable_near _ _)

/-! ## Products -/

/-- What the density of a product is made of: the densities `es` of the children, `(0, 1)` for those without assigned variables. -/
structure PdfParts (L : Lib) (cs : List Spe) (a : Point) (es : List (ℕ × ℝ)) : Prop where
  each : List.Forall₂ (fun s e => (a.on s.symbols = [] → e = (0, 1)) ∧ (a.on s.symbols ≠ [] → s.pdfMem L (a.on s.symbols) = .ok e)) cs es
  vars : ∀ p ∈ a, ∃ s ∈ cs, p.1 ∈ s.symbols

theorem foldl_pairs (ds : List (ℕ × ℝ)) (x : ℕ × ℝ) : ds.foldl (fun x y => (x.1 + y.1, x.2 * y.2)) x = (x.1 + (ds.map Prod.fst).sum, x.2 * (ds.map Prod.snd).prod) := by
  induction ds generalizing x with
  | nil => simp
  | cons d ds ih => simp only [List.foldl_cons, ih, List.map_cons, List.sum_cons, List.prod_cons]; ext <;> simp [add_assoc, mul_assoc]

theorem prodPdf_ok {ds : List (ℕ × ℝ)} {r : ℕ × ℝ} (h : prodPdf ds = .ok r) : r = ((ds.map Prod.fst).sum, (ds.map Prod.snd).prod) := by
  cases ds with
  | nil => cases h
  | cons d ds => simp only [prodPdf] at h; cases h; rw [foldl_pairs]; simp

theorem forall₂_mono_mem {α β : Type} {R S : α → β → Prop} : ∀ {l : List α} {l' : List β}, List.Forall₂ R l l' → (∀ a ∈ l, ∀ b ∈ l', R a b → S a b) → List.Forall₂ S l l'
  | [], [], _, _ => .nil
  | a :: l, b :: l', .cons h1 h2, h => .cons (h a (by simp) b (by simp) h1) (forall₂_mono_mem h2 (fun x hx y hy => h x (by simp [hx]) y (by simp [hy])))

theorem forall₂_map_of {α β : Type} {R : α → β → Prop} {f : α → β} {l : List α} (h : ∀ x ∈ l, R x (f x)) : List.Forall₂ R l (l.map f) := by
  induction l with
  | nil => exact .nil
  | cons x l ih => exact .cons (h x (by simp)) (ih (fun y hy => h y (by simp [hy])))

theorem forall₂_range {α β : Type} {R : α → β → Prop} {l : List α} {g : ℕ → β} (h : ∀ i (hi : i < l.length), R l[i] (g i)) : List.Forall₂ R l ((List.range l.length).map g) := by
  rw [List.forall₂_iff_get]
  refine ⟨by simp, fun i h1 h2 => ?_⟩
  simpa using h i h1

theorem sum_support {D : List ℕ} (hD : D.Nodup) {m : ℕ} (hm : ∀ k ∈ D, k < m) {M : Type} [CommMonoid M] (v : ℕ → M) :
    (D.map v).prod = ((List.range m).map (fun k => if k ∈ D then v k else 1)).prod := by
  rw [← List.prod_toFinset v hD, ← List.prod_toFinset _ List.nodup_range, List.toFinset_range]
  rw [Finset.prod_ite, Finset.prod_const_one, mul_one]
  refine Finset.prod_congr ?_ (fun _ _ => rfl)
  ext k
  simp only [List.mem_toFinset, Finset.mem_filter, Finset.mem_range]
  exact ⟨fun h => ⟨hm k h, h⟩, fun h => h.2⟩

theorem zip_filter_lookup {syms : List (Finset String)} (hd : syms.Pairwise Disjoint) {a : Point} {ks : List ℕ}
    (h : List.Forall₂ (fun p k => lookupChild syms p.1 = .ok k) a ks) {k : ℕ} (hk : k < syms.length) :
    ((a.zip ks).filter (fun q => decide (q.2 = k))).map Prod.fst = a.on syms[k] := by
  induction h with
  | nil => rfl
  | @cons p j a ks h1 h2 ih =>
    have e : (j = k) ↔ p.1 ∈ syms[k] := by
      constructor
      · rintro rfl; exact (lookupChild_ok h1).2
      · intro h; exact lookupChild_eq hd h1 hk h
    simp only [List.zip_cons_cons, List.filter_cons, Point.on]
    by_cases hj : j = k
    · rw [if_pos (by simpa using hj), if_pos (by simpa using e.1 hj), List.map_cons, ih]; rfl
    · rw [if_neg (by simpa using hj), if_neg (by simpa using fun h => hj (e.2 h)), ih]; rfl

theorem pdf_prod_parts {cs : List Spe} (hd : (Spe.symbolsL cs).Pairwise Disjoint) {a : Point} {r : ℕ × ℝ} (h : (Spe.prod cs).pdfMem L a = .ok r) :
    ∃ es, PdfParts L cs a es ∧ r = ((es.map Prod.fst).sum, (es.map Prod.snd).prod) := by
  rw [Spe.pdfMem] at h
  simp only [bind, Except.bind] at h
  split at h; · cases h
  rename_i parts hparts
  split at h; · cases h
  rename_i ds hds
  unfold splitPoint at hparts
  simp only [bind, Except.bind] at hparts
  split at hparts; · cases hparts
  rename_i ks hks
  cases hparts
  have hks := mapM_ok hks
  set D := ks.reverse.dedup.reverse with hDdef
  have hDn : D.Nodup := by rw [hDdef, List.nodup_reverse]; exact List.nodup_dedup _
  have hDm : ∀ k, k ∈ D ↔ k ∈ ks := by intro k; simp [hDdef]
  have hlt : ∀ k ∈ D, k < (Spe.symbolsL cs).length := by
    intro k hk
    obtain ⟨p, -, hp⟩ := forall₂_mem_right hks ((hDm k).1 hk)
    exact (lookupChild_ok hp).1
  have hlen : (Spe.symbolsL cs).length = cs.length := by rw [Spe.symbolsL_eq]; simp
  have hsym : ∀ k (hk : k < cs.length), (Spe.symbolsL cs)[k]'(by omega) = cs[k].symbols := by intro k hk; simp [Spe.symbolsL_eq]
  have hds := mapM_ok hds
  rw [List.forall₂_map_left_iff] at hds
  have hval : ∀ k ∈ D, ∃ v, ∃ hk : k < cs.length, cs[k].pdfMem L (a.on cs[k].symbols) = .ok v := by
    intro k hk
    obtain ⟨v, -, hv⟩ := forall₂_mem_left hds hk
    have hk' : k < cs.length := by have := hlt k hk; omega
    refine ⟨v, hk', ?_⟩
    rw [Spe.pdfMemL_eq] at hv
    simp only [List.getElem?_map, List.getElem?_eq_getElem hk', Option.map_some] at hv
    rw [zip_filter_lookup hd hks (hlt k hk), hsym k hk'] at hv
    exact hv
  choose! v hv using hval
  have hds' : ds = D.map v := by
    refine List.forall₂_eq_eq_eq ▸ ?_
    rw [List.forall₂_map_right_iff]
    have : List.Forall₂ (fun k d => d = v k) D ds := by
      refine forall₂_mono_mem hds ?_
      intro k hk d _ hkd
      obtain ⟨hk', hv'⟩ := hv k hk
      rw [Spe.pdfMemL_eq] at hkd
      simp only [List.getElem?_map, List.getElem?_eq_getElem hk', Option.map_some] at hkd
      rw [zip_filter_lookup hd hks (hlt k hk), hsym k hk', hv'] at hkd
      cases hkd; rfl
    exact this.flip
  refine ⟨(List.range cs.length).map (fun k => if k ∈ D then v k else (0, 1)), ⟨?_, ?_⟩, ?_⟩
  · refine forall₂_range (fun k hk => ?_)
    have key : a.on cs[k].symbols = [] ↔ k ∉ D := by
      rw [hDm]
      constructor
      · intro he hk'
        obtain ⟨p, hp, hl⟩ := forall₂_mem_right hks hk'
        obtain ⟨h1, h2⟩ := lookupChild_ok hl
        have : p ∈ a.on cs[k].symbols := Point.mem_on.2 ⟨hp, by rw [hsym k hk] at h2; exact h2⟩
        rw [he] at this; cases this
      · intro hk'
        rw [List.eq_nil_iff_forall_not_mem]
        intro p hp
        obtain ⟨hp1, hp2⟩ := Point.mem_on.1 hp
        obtain ⟨j, hj, hl⟩ := forall₂_mem_left hks hp1
        have := lookupChild_eq hd hl (j := k) (by omega) (by rw [hsym k hk]; exact hp2)
        exact hk' (this ▸ hj)
    refine ⟨fun he => ?_, fun he => ?_⟩
    · simp [key.1 he]
    · have : k ∈ D := by by_contra hn; exact he (key.2 hn)
      rw [if_pos this]
      exact (hv k this).2
  · intro p hp
    obtain ⟨j, hj, hl⟩ := forall₂_mem_left hks hp
    obtain ⟨h1, h2⟩ := lookupChild_ok hl
    have h3 : j < cs.length := by omega
    exact ⟨cs[j], List.getElem_mem h3, by rw [hsym j h3] at h2; exact h2⟩
  · rw [prodPdf_ok h, hds']
    simp only [List.map_map, Function.comp_def]
    refine Prod.ext ?_ ?_
    · have := sum_support hDn (m := cs.length) (fun k hk => by have := hlt k hk; omega) (M := Multiplicative ℕ) (fun k => Multiplicative.ofAdd (v k).1)
      have h1 : ∀ l : List ℕ, ∀ g : ℕ → ℕ, (l.map (fun k => Multiplicative.ofAdd (g k))).prod = Multiplicative.ofAdd ((l.map g).sum) := by
        intro l g; induction l with
        | nil => rfl
        | cons x l ih => simp [ih]
      rw [h1] at this
      have h2 : (fun k => if k ∈ D then Multiplicative.ofAdd (v k).1 else 1) = fun k => Multiplicative.ofAdd (if k ∈ D then (v k) else (0, 1)).1 := by
        funext k; split <;> simp
      rw [h2, h1] at this
      exact Multiplicative.ofAdd.injective this
    · have := sum_support hDn (m := cs.length) (fun k hk => by have := hlt k hk; omega) (M := ℝ) (fun k => (v k).2)
      show (List.map (fun x => (v x).2) D).prod = _
      rw [this]
      show _ = (List.map (fun x => (if x ∈ D then v x else (0, 1)).2) (List.range cs.length)).prod
      congr 1
      refine List.map_congr_left (fun k _ => ?_)
      split <;> rfl


/-! ## Mixtures -/

theorem mixPdf_none {ws : List ℝ} {ds : List (ℕ × ℝ)} (h : ∀ q ∈ ds, q.2 = 0) : mixPdf ws ds = (0, 0) := by
  have : ds.filter (fun q => decide (q.2 ≠ 0)) = [] := by
    rw [List.filter_eq_nil_iff]; intro q hq; simpa using h q hq
  unfold mixPdf
  rw [this]
  rfl

theorem mixPdf_some {ws : List ℝ} {ds : List (ℕ × ℝ)} (h : ∃ q ∈ ds, q.2 ≠ 0) :
    ∃ m, ((ds.filter (fun q => decide (q.2 ≠ 0))).map Prod.fst).min? = some m ∧ (∃ q ∈ ds, q.2 ≠ 0 ∧ q.1 = m) ∧ (∀ q ∈ ds, q.2 ≠ 0 → m ≤ q.1) ∧
      mixPdf ws ds = (m, (List.zipWith (fun w q => w * (if q.1 = m then q.2 else 0)) ws ds).sum) := by
  obtain ⟨q, hq, hq'⟩ := h
  set M := (ds.filter (fun q => decide (q.2 ≠ 0))).map Prod.fst with hM
  have hmem : ∀ k, k ∈ M ↔ ∃ q ∈ ds, q.2 ≠ 0 ∧ q.1 = k := by
    intro k; simp only [hM, List.mem_map, List.mem_filter, decide_eq_true_eq, and_assoc]
  have hne : M ≠ [] := List.ne_nil_of_mem ((hmem q.1).2 ⟨q, hq, hq', rfl⟩)
  obtain ⟨m, hm⟩ : ∃ m, M.min? = some m := by
    cases h : M.min? with
    | none => rw [List.min?_eq_none_iff] at h; exact absurd h hne
    | some m => exact ⟨m, rfl⟩
  rw [List.min?_eq_some_iff] at hm
  refine ⟨m, by rw [List.min?_eq_some_iff]; exact hm, (hmem m).1 hm.1, fun q hq hq' => hm.2 _ ((hmem _).2 ⟨q, hq, hq', rfl⟩), ?_⟩
  unfold mixPdf
  rw [← hM, List.min?_eq_some_iff.2 hm]
  congr 1
  clear hm hne hmem hM M hq hq' q
  induction ds generalizing ws with
  | nil => simp
  | cons d ds ih =>
    cases ws with
    | nil => simp
    | cons w ws =>
      simp only [List.zip_cons_cons, List.filter_cons, List.zipWith_cons_cons, List.sum_cons]
      by_cases h : d.1 = m
      · have e := (Prod.mk.inj (@ih ws)).2
        simp only [h, decide_true, if_true, List.map_cons, List.sum_cons]; rw [e]
      · have e := (Prod.mk.inj (@ih ws)).2
        simp only [h, decide_false, if_false, Bool.false_eq_true, mul_zero, zero_add]; rw [e]

theorem mixSum_congr {β : Type} {ws ps : List ℝ} {ds : List β} {g : β → ℝ} (h : List.Forall₂ (fun p d => p = g d) ps ds) :
    mixSum ws ps = (List.zipWith (fun w q => w * g q) ws ds).sum := by
  induction h generalizing ws with
  | nil => simp [mixSum]
  | @cons p d ps ds h1 h2 ih =>
    cases ws with
    | nil => simp [mixSum]
    | cons w ws => simp only [mixSum, List.zipWith_cons_cons, List.sum_cons] at ih ⊢; rw [ih, h1]

theorem zipWith_zero {ws : List ℝ} {ds : List (ℕ × ℝ)} {g : ℕ × ℝ → ℝ} (h : ∀ d ∈ ds, g d = 0) :
    (List.zipWith (fun w q => w * g q) ws ds).sum = 0 := by
  induction ds generalizing ws with
  | nil => simp
  | cons d ds ih =>
    cases ws with
    | nil => simp
    | cons w ws =>
      rw [List.zipWith_cons_cons, List.sum_cons, ih (fun d hd => h d (by simp [hd])), h d (by simp)]; simp

/-! ## Exact probabilities -/

theorem real_leaf_on {k X d supp cond env} (h : Spe.WF c L μ (.real k X d supp cond env)) {P : Set (Option (Val ℝ))} (hP : MeasurableSet P) :
    ((Spe.real k X d supp cond env).den μ).real {ω | ω X ∈ P} = (realMeas μ d supp cond).real {x | some (.num x) ∈ P} := by
  obtain ⟨-, h2, -, -⟩ := h.rleaf
  simp only [Spe.den]
  have hm : MeasurableSet {ω : Asg | ω X ∈ P} := measurable_pi_apply X hP
  rw [map_measureReal_apply (measurable_leafAsg X env) hm]
  congr 1
  ext x
  simp only [Set.mem_preimage, Set.mem_setOf_eq]
  rw [h2.built.extend_base _ (.inr rfl)]
  simp [baseAsg]

theorem leafValue_ok {s : Spe} {a : Point} {v : Val ℝ} (h : leafValue s a = .ok v) : ∃ sym env, s.leafEnv = some (sym, env) ∧ a = [(sym, v)] := by
  unfold leafValue at h
  split at h
  · rename_i sym env k v' he
    split at h
    · rename_i hk; cases h; subst hk; exact ⟨_, _, he, rfl⟩
    · cases h
  · cases h

/-- The value of a nominal distribution. -/
theorem nominal_real_on (c : Ctx) (L : Lib) {X : String} {dist : List (String × ℚ)} (hn : (dist.map Prod.fst).Nodup) (h0 : ∀ p ∈ dist, 0 ≤ p.2) {P : Set (Option (Val ℝ))}
    (hP : MeasurableSet P) : ((Spe.nominal X dist).den μ).real {ω | ω X ∈ P} = (dist.map (fun q => if some (.str q.1) ∈ P then (q.2 : ℝ) else 0)).sum := by
  have hm : MeasurableSet {ω : Asg | ω X ∈ P} := measurable_pi_apply X hP
  rw [nominal_real (c := c) (L := L) h0 hm]
  simp [baseAsg]

theorem lookup_sum {dist : List (String × ℚ)} (hn : (dist.map Prod.fst).Nodup) (x : String) :
    (dist.map (fun q => if q.1 = x then (q.2 : ℝ) else 0)).sum = (((dist.lookup x).getD 0 : ℚ) : ℝ) := by
  induction dist with
  | nil => simp
  | cons q dist ih =>
    rw [List.map_cons, List.nodup_cons] at hn
    obtain ⟨y, w⟩ := q
    by_cases h : x = y
    · subst h
      rw [List.lookup_cons_self, List.map_cons, List.sum_cons]
      have : (dist.map (fun q => if q.1 = x then (q.2 : ℝ) else 0)).sum = 0 := by
        refine List.sum_eq_zero ?_
        intro z hz
        obtain ⟨q, hq, rfl⟩ := List.mem_map.1 hz
        rw [if_neg]; rintro rfl; exact hn.1 (List.mem_map.2 ⟨q, hq, rfl⟩)
      simp [this]
    · have hb : (x == y) = false := by simpa using h
      rw [List.lookup_cons, hb, List.map_cons, List.sum_cons, ih hn.2, if_neg (fun e => h e.symm)]; simp

theorem Point.set_single (X : String) (v : Val ℝ) : Point.set [(X, v)] = {ω | ω X ∈ ({some v} : Set (Option (Val ℝ)))} := by ext ω; simp [Point.set]

theorem leafPdf_exact {s : Spe} (hs : s.WF c L μ) {sym : String} {env : Env} (he : s.leafEnv = some (sym, env)) {v : Val ℝ} {w : ℝ}
    (h : leafPdf L s v = .ok w) : (leafDim s = 0 → (s.den μ).real (Point.set [(sym, v)]) = w) ∧ (leafDim s ≠ 0 → (s.den μ).real (Point.set [(sym, v)]) = 0) := by
  have hP : MeasurableSet ({some v} : Set (Option (Val ℝ))) := measurable_const (some v)
  rw [Point.set_single]
  cases s with
  | real k X d supp cond env =>
    cases he
    rw [real_leaf_on hs hP]
    obtain ⟨hr, -, -, -⟩ := hs.rleaf
    cases v with
    | str x =>
      simp only [leafPdf] at h
      cases h
      simp
    | num x =>
      cases k with
      | cont =>
        refine ⟨fun h => by simp [leafDim] at h, fun _ => ?_⟩
        have h0 := hr.dist.cont rfl x
        have : (realMeas μ d supp cond) {x} = 0 := RLeafOK.ac (μ := μ) ⟨.cont, d, supp, cond⟩ h0
        simp [measureReal_def, Set.setOf_eq_eq_singleton, this]
      | disc =>
        simp only [leafPdf] at h
        refine ⟨fun _ => ?_, fun h => by simp [leafDim] at h⟩
        rw [hr.pmf_ok rfl h]
        simp [RLeaf.meas]
  | atomic X v' env => cases v <;> simp [leafPdf] at h
  | nominal X dist =>
    cases he
    refine ⟨fun _ => ?_, fun h => by simp [leafDim] at h⟩
    cases hs with
    | nominal hn h0 h1 =>
    rw [nominal_real_on c L hn h0 hP]
    cases v with
    | num x => simp only [leafPdf] at h; cases h; simp
    | str x =>
      simp only [leafPdf] at h
      have e : (dist.map (fun q => if some (Val.str q.1) ∈ ({some (.str x)} : Set (Option (Val ℝ))) then (q.2 : ℝ) else 0)).sum =
          (dist.map (fun q => if q.1 = x then (q.2 : ℝ) else 0)).sum := by
        congr 1
        refine List.map_congr_left ?_
        intro q _
        by_cases h : q.1 = x <;> simp [h]
      refine Eq.trans ?_ (e.trans ?_)
      · congr 1
        refine List.map_congr_left ?_
        intro q _
        by_cases h : q.1 = x <;> simp [h]
      rw [lookup_sum hn]
      split at h
      · rename_i hl; cases h; simp [hl]
      · rename_i w' hl
        split at h
        · cases h
        · cases h; simp [hl]
  | sum cs ws => cases he
  | prod cs => cases he

theorem leafPdfMem_exact {s : Spe} (hs : s.WF c L μ) {a : Point} {r : ℕ × ℝ} (h : leafPdfMem L s a = .ok r) :
    (r.1 = 0 → (s.den μ).real a.set = r.2) ∧ (r.1 ≠ 0 → (s.den μ).real a.set = 0) := by
  unfold leafPdfMem at h
  simp only [bind, Except.bind] at h
  split at h; · cases h
  rename_i v hv
  split at h; · cases h
  rename_i w hw
  cases h
  obtain ⟨sym, env, he, rfl⟩ := leafValue_ok hv
  exact leafPdf_exact hs he hw

/-! ## Rectangles -/

theorem Rect.mem_on {b : Rect} {S : Finset String} {p : String × Set (Option (Val ℝ))} : p ∈ b.on S ↔ p ∈ b ∧ p.1 ∈ S := by simp [Rect.on]

theorem Rect.on_all {b : Rect} {S : Finset String} (h : ∀ p ∈ b, p.1 ∈ S) : b.on S = b := List.filter_eq_self.2 (fun p hp => by simpa using h p hp)

theorem Rect.measurable {b : Rect} (h : b.Meas) : MeasurableSet b.set := by
  induction b with
  | nil => simp [Rect.set]
  | cons p b ih =>
    have : Rect.set (p :: b) = (fun ω : Asg => ω p.1) ⁻¹' p.2 ∩ Rect.set b := by ext ω; simp [Rect.set]
    rw [this]
    exact (measurable_pi_apply p.1 (h p (by simp))).inter (ih (fun q hq => h q (by simp [hq])))

theorem Rect.Meas.on {b : Rect} (h : b.Meas) (S : Finset String) : (b.on S).Meas := fun p hp => h p (Rect.mem_on.1 hp).1

theorem Rect.depOn {b : Rect} {S : Finset String} (h : ∀ p ∈ b, p.1 ∈ S) : DepOn S b.set := by
  intro ω ω' h'
  simp only [Rect.set, Set.mem_setOf_eq]
  refine forall₂_congr (fun p hp => ?_)
  rw [h' p.1 (h p hp)]

theorem Rect.on_append (b b' : Rect) (S : Finset String) : Rect.on (b ++ b') S = b.on S ++ b'.on S := List.filter_append ..

theorem Rect.set_append (b b' : Rect) : Rect.set (b ++ b') = b.set ∩ b'.set := by
  ext ω; simp only [Rect.set, List.mem_append, Set.mem_setOf_eq, Set.mem_inter_iff, or_imp, forall_and]

/-- The point as a rectangle. -/
def Point.rect (a : Point) : Rect := a.map (fun p => (p.1, {some p.2}))

/-- The box as a rectangle. -/
def Point.boxRect (a : Point) (ε : ℝ) : Rect := a.map (fun p => (p.1, {u | near ε p.2 u}))

theorem Point.rect_set (a : Point) : a.rect.set = a.set := by
  ext ω; simp only [Rect.set, Point.rect, Point.set, Set.mem_setOf_eq, List.forall_mem_map, Set.mem_singleton_iff]

theorem Point.boxRect_set (a : Point) (ε : ℝ) : (a.boxRect ε).set = a.box ε := by
  ext ω; simp only [Rect.set, Point.boxRect, Point.box, Set.mem_setOf_eq, List.forall_mem_map]

theorem Point.rect_meas (a : Point) : a.rect.Meas := by
  intro p hp; obtain ⟨q, -, rfl⟩ := List.mem_map.1 hp; exact measurable_const (some q.2)

theorem Point.boxRect_meas (a : Point) (ε : ℝ) : (a.boxRect ε).Meas := by
  intro p hp; obtain ⟨q, -, rfl⟩ := List.mem_map.1 hp; exact measurable_near ε q.2

theorem Point.rect_on (a : Point) (S : Finset String) : a.rect.on S = (a.on S).rect := by
  simp only [Rect.on, Point.rect, Point.on, List.filter_map]; rfl

theorem Point.boxRect_on (a : Point) (ε : ℝ) (S : Finset String) : (a.boxRect ε).on S = (a.on S).boxRect ε := by
  simp only [Rect.on, Point.boxRect, Point.on, List.filter_map]; rfl

theorem prod_real {cs : List Spe} (hs : (Spe.prod cs).WF c L μ) {b : Rect} (hb : b.Meas) (hv : ∀ p ∈ b, ∃ s ∈ cs, p.1 ∈ s.symbols) :
    ((Spe.prod cs).den μ).real b.set = (cs.map (fun s => (s.den μ).real (b.on s.symbols).set)).prod := by
  cases hs with
  | prod h1 hne hd =>
  simp only [Spe.den]
  have e : b.set = {ω | ∀ B ∈ cs.map (fun s => (b.on s.symbols).set), ω ∈ B} := by
    ext ω
    simp only [Rect.set, Set.mem_setOf_eq, List.forall_mem_map, Rect.mem_on]
    constructor
    · intro h s hs p hp; exact h p hp.1
    · intro h p hp; obtain ⟨s, hs, hps⟩ := hv p hp; exact h s hs p ⟨hp, hps⟩
  rw [e, Spe.symbolsL_eq, Spe.denL_eq, indep_real (l := (cs.map Spe.symbols).zip (cs.map (Spe.den μ))) ?_ ?_ ?_]
  · congr 1
    clear * -
    induction cs with
    | nil => rfl
    | cons s cs ih => simp only [List.map_cons, List.zip_cons_cons, List.zipWith_cons_cons, ih]
  · intro q hq
    obtain ⟨s, hs, hs'⟩ := List.mem_map.1 (List.of_mem_zip hq).2
    rw [← hs']; exact (h1 s hs).prob
  · rw [Spe.symbolsL_eq] at hd
    rw [List.map_fst_zip (by simp)]; exact hd
  · clear * - hb
    induction cs with
    | nil => exact .nil
    | cons s cs ih => exact .cons ⟨Rect.measurable (hb.on _), Rect.depOn (fun p hp => (Rect.mem_on.1 hp).2)⟩ ih

theorem sum_zero_iff {l : List ℕ} : l.sum = 0 ↔ ∀ x ∈ l, x = 0 := by
  simp [List.sum_eq_zero_iff]

/-- `logpdf` in dimension zero. -/
theorem pdf_exact : ∀ s : Spe, s.WF c L μ → ∀ (a : Point) (r : ℕ × ℝ), s.pdfMem L a = .ok r →
    (r.1 = 0 → (s.den μ).real a.set = r.2) ∧ (r.1 ≠ 0 → (s.den μ).real a.set = 0) := by
  refine Spe.ind ?_ ?_ ?_ ?_ ?_
  · intro k X d supp cond env hs a r h; rw [Spe.pdfMem] at h; exact leafPdfMem_exact hs h
  · intro X v env hs a r h; rw [Spe.pdfMem] at h; exact leafPdfMem_exact hs h
  · intro X dist hs a r h; rw [Spe.pdfMem] at h; exact leafPdfMem_exact hs h
  · intro cs ws ih hs a r h
    rw [Spe.pdfMem, Spe.pdfMemL_eq] at h
    simp only [bind, Except.bind, callAll] at h
    split at h; · cases h
    rename_i ds hds
    cases h
    cases hs with
    | @sum _ _ S h1 hne hl hw hsum hS =>
    have hds := mapM_ok hds
    rw [List.forall₂_map_left_iff] at hds
    simp only [Spe.den]
    rw [Spe.denL_eq, mixture_real hw (by intro m hm; obtain ⟨s, hs, rfl⟩ := List.mem_map.1 hm; have := (h1 s hs).prob; infer_instance), List.map_map]
    have key : List.Forall₂ (fun p d => p = if d.1 = 0 then d.2 else 0) (cs.map ((fun m => m.real a.set) ∘ Spe.den μ)) ds := by
      rw [List.forall₂_map_left_iff]
      refine forall₂_mono_mem hds ?_
      intro s hs d _ hd
      obtain ⟨e1, e2⟩ := ih s hs (h1 s hs) a d hd
      by_cases h0 : d.1 = 0
      · simp only [Function.comp, if_pos h0]; exact e1 h0
      · simp only [Function.comp, if_neg h0]; exact e2 h0
    rw [mixSum_congr (g := fun (d : ℕ × ℝ) => if d.1 = 0 then d.2 else 0) key]
    by_cases hnz : ∃ q ∈ ds, q.2 ≠ 0
    · obtain ⟨m, -, ⟨q, hq, hq1, hq2⟩, hmin, e⟩ := mixPdf_some (ws := ws) hnz
      rw [e]
      refine ⟨fun hm => ?_, fun hm => ?_⟩
      · subst hm
        simp
      · have : ∀ d ∈ ds, (if d.1 = 0 then d.2 else 0) = 0 := by
          intro d hd
          split
          · rename_i h0
            by_contra hne'
            have := hmin d hd hne'
            exact hm (by simpa [h0] using this)
          · rfl
        exact zipWith_zero this
    · push Not at hnz
      rw [mixPdf_none hnz]
      refine ⟨fun _ => ?_, fun h => absurd rfl h⟩
      have : ∀ d ∈ ds, (if d.1 = 0 then d.2 else 0) = 0 := by
        intro d hd
        rw [hnz d hd]; simp
      exact zipWith_zero this
  · intro cs ih hs a r h
    have hd : (Spe.symbolsL cs).Pairwise Disjoint := by cases hs; assumption
    obtain ⟨es, hes, rfl⟩ := pdf_prod_parts hd h
    have hw : ∀ s ∈ cs, s.WF c L μ := by cases hs; assumption
    have e := prod_real hs a.rect_meas (by
      intro p hp; obtain ⟨q, hq, rfl⟩ := List.mem_map.1 hp; exact hes.vars q hq)
    rw [← a.rect_set, e]
    simp only [Point.rect_on, Point.rect_set]
    have key : List.Forall₂ (fun s e => (e.1 = 0 → (s.den μ).real (a.on s.symbols).set = e.2) ∧
        (e.1 ≠ 0 → (s.den μ).real (a.on s.symbols).set = 0)) cs es := by
      refine forall₂_mono_mem hes.each ?_
      intro s hs e _ he
      by_cases h0 : a.on s.symbols = []
      · rw [he.1 h0, h0]
        have := (hw s hs).prob
        simp [Point.set]
      · exact ih s hs (hw s hs) _ _ (he.2 h0)
    clear e ih hes h hd hs hw
    simp only [ne_eq, sum_zero_iff]
    induction key with
    | nil => simp
    | @cons s e cs es h1 h2 ih =>
      simp only [List.map_cons, List.prod_cons, List.mem_cons, forall_eq_or_imp]
      refine ⟨fun h => ?_, fun h => ?_⟩
      · rw [h1.1 h.1, ih.1 h.2]
      · by_cases h0 : e.1 = 0
        · rw [ih.2 (fun h' => h ⟨h0, h'⟩)]; simp
        · rw [h1.2 h0]; simp

end Sppl
