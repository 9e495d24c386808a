import Verif.Spe.CondLemmas
import Verif.Spe.TransformLemmas
import Verif.Spe.TotalSpec

set_option linter.all false

/-!
# Lemmas: what conditioning and simplification do to the shape of an SPE
-/

namespace Sppl
open Classical

variable {c : Ctx} {L : Lib} {hash : Spe → ℤ} {R : Spe → Prop}

/-- Every leaf satisfies `R`, and no product is empty. -/
inductive Spe.Lv (R : Spe → Prop) : Spe → Prop
  | real {k X d supp cond env} : R (.real k X d supp cond env) → Spe.Lv R (.real k X d supp cond env)
  | atomic {X v env} : R (.atomic X v env) → Spe.Lv R (.atomic X v env)
  | nominal {X dist} : R (.nominal X dist) → Spe.Lv R (.nominal X dist)
  | sum {cs ws} : (∀ s ∈ cs, Spe.Lv R s) → Spe.Lv R (.sum cs ws)
  | prod {cs} : cs ≠ [] → (∀ s ∈ cs, Spe.Lv R s) → Spe.Lv R (.prod cs)

/-- Restricting the distribution of a leaf keeps `R`. -/
structure Keeps (R : Spe → Prop) : Prop where
  real : ∀ {k X d supp cond env supp' cond'}, R (.real k X d supp cond env) → R (.real k X d supp' cond' env)
  nominal : ∀ {X dist dist'}, R (.nominal X dist) → R (.nominal X dist')

/-- A product of at least two factors. -/
def Spe.Prod2 (s : Spe) : Prop := ∃ cs, s = .prod cs ∧ 2 ≤ cs.length

/-- A product of at least two factors, or a mixture of such. -/
def Spe.Tall (s : Spe) : Prop := s.Prod2 ∨ ∃ ts ws, s = .sum ts ws ∧ ∀ t ∈ ts, t.Prod2

theorem Spe.Tall.wide {s : Spe} (h : s.Tall) : s.Wide := by
  rcases h with ⟨cs, rfl, -⟩ | ⟨ts, ws, rfl, h⟩
  · exact .prod
  · refine .sum (fun t ht => ?_)
    obtain ⟨cs, rfl, -⟩ := h t ht
    exact .prod

theorem Spe.Lv.imp {R' : Spe → Prop} (h : ∀ s, R s → R' s) {s : Spe} (hs : s.Lv R) : s.Lv R' := by
  induction hs with
  | real h0 => exact .real (h _ h0)
  | atomic h0 => exact .atomic (h _ h0)
  | nominal h0 => exact .nominal (h _ h0)
  | sum _ ih => exact .sum ih
  | prod h0 _ ih => exact .prod h0 ih

theorem Spe.Lv.sumChildren {s : Spe} (h : s.Lv R) : ∀ t ∈ s.sumChildren, t.Lv R := by
  intro t ht
  cases h <;> simp only [Spe.sumChildren, List.mem_singleton] at ht
  case sum h => exact h t ht
  all_goals subst ht
  · exact .real ‹_›
  · exact .atomic ‹_›
  · exact .nominal ‹_›
  · exact .prod ‹_› ‹_›

theorem Spe.Lv.prodChildren {s : Spe} (h : s.Lv R) : s.prodChildren ≠ [] ∧ ∀ t ∈ s.prodChildren, t.Lv R := by
  cases h
  case prod h0 h => exact ⟨h0, h⟩
  all_goals
    refine ⟨by simp [Spe.prodChildren], fun t ht => ?_⟩
    simp only [Spe.prodChildren, List.mem_singleton] at ht
    subst ht
  · exact .real ‹_›
  · exact .atomic ‹_›
  · exact .nominal ‹_›
  · exact .sum ‹_›

theorem mkSum_inv {cs : List Spe} {ws : List ℝ} {s : Spe} (h : mkSum cs ws = .ok s) : s = .sum (cs.flatMap Spe.sumChildren) ((cs.zip ws).flatMap (fun p => p.1.sumWeights p.2)) := by
  unfold mkSum at h
  split at h; · cases h
  simp only at h
  split at h; · cases h
  split at h; · cases h
  split at h
  · cases h; rfl
  · cases h

theorem mkProd_inv {cs : List Spe} {s : Spe} (h : mkProd cs = .ok s) : s = .prod (cs.flatMap Spe.prodChildren) ∧ cs.flatMap Spe.prodChildren ≠ [] := by
  unfold mkProd at h
  simp only at h
  split at h; · cases h
  rename_i h0
  split at h
  · cases h; exact ⟨rfl, h0⟩
  · cases h

theorem mkSum_lv {cs : List Spe} {ws : List ℝ} {s : Spe} (hcs : ∀ t ∈ cs, t.Lv R) (h : mkSum cs ws = .ok s) : s.Lv R := by
  rw [mkSum_inv h]
  refine .sum (fun t ht => ?_)
  obtain ⟨u, hu, ht⟩ := List.mem_flatMap.1 ht
  exact (hcs u hu).sumChildren t ht

theorem mkProd_lv {cs : List Spe} {s : Spe} (hcs : ∀ t ∈ cs, t.Lv R) (h : mkProd cs = .ok s) : s.Lv R := by
  obtain ⟨h1, h2⟩ := mkProd_inv h
  rw [h1]
  refine .prod h2 (fun t ht => ?_)
  obtain ⟨u, hu, ht⟩ := List.mem_flatMap.1 ht
  exact (hcs u hu).prodChildren.2 t ht

theorem mkProd_two {cs : List Spe} {s : Spe} (hcs : ∀ t ∈ cs, t.Lv R) (hl : 2 ≤ cs.length) (h : mkProd cs = .ok s) : s.Prod2 := by
  refine ⟨_, (mkProd_inv h).1, ?_⟩
  match cs, hl with
  | a :: b :: cs, _ =>
    have ha := List.length_pos_iff.2 (hcs a (by simp)).prodChildren.1
    have hb := List.length_pos_iff.2 (hcs b (by simp)).prodChildren.1
    simp only [List.flatMap_cons, List.length_append]
    omega

theorem mkSum_tall {cs : List Spe} {ws : List ℝ} {s : Spe} (hcs : ∀ t ∈ cs, t.Tall) (h : mkSum cs ws = .ok s) : ∃ ts ws', s = .sum ts ws' ∧ ∀ t ∈ ts, t.Prod2 := by
  refine ⟨_, _, mkSum_inv h, fun t ht => ?_⟩
  obtain ⟨u, hu, ht⟩ := List.mem_flatMap.1 ht
  rcases hcs u hu with ⟨ds, rfl, hd⟩ | ⟨ts, ws, rfl, h⟩
  · simp only [Spe.sumChildren, List.mem_singleton] at ht
    subst ht
    exact ⟨ds, rfl, hd⟩
  · exact h t ht

theorem listToProd_lv {cs : List Spe} {s : Spe} (hcs : ∀ t ∈ cs, t.Lv R) (h : listToProd cs = .ok s) : s.Lv R := by
  unfold listToProd at h
  split at h
  · cases h; exact hcs _ (by simp)
  · exact mkProd_lv hcs h

theorem listToProd_two {cs : List Spe} {s : Spe} (hcs : ∀ t ∈ cs, t.Lv R) (hl : 2 ≤ cs.length) (h : listToProd cs = .ok s) : s.Prod2 := by
  unfold listToProd at h
  split at h
  · simp at hl
  · exact mkProd_two hcs hl h

theorem keepIdx_sub {l : List Spe} {js : List ℕ} {b : Bool} {s : Spe} (h : s ∈ keepIdx l js b) : s ∈ l := by
  unfold keepIdx at h
  obtain ⟨p, hp, rfl⟩ := List.mem_map.1 h
  have := List.mem_filter.1 hp
  obtain ⟨p1, p2⟩ := p
  exact (List.mem_zipIdx' this.1).2 ▸ List.getElem_mem _

/-- The state of the simplification: at least two factors, or one that is a mixture of products. -/
def StateTall (as : List Spe) : Prop := 2 ≤ as.length ∨ ∃ ts ws, as = [.sum ts ws] ∧ ∀ t ∈ ts, t.Prod2

theorem simplifyStep_shape {st st' : List Spe × ℝ} {bs : List Spe} {wb : ℝ} (ha : ∀ s ∈ st.1, s.Lv R) (hb : ∀ s ∈ bs, s.Lv R) (h : simplifyStep st bs wb = .ok st') :
    (∀ s ∈ st'.1, s.Lv R) ∧ (StateTall st.1 → 2 ≤ bs.length → StateTall st'.1) := by
  unfold simplifyStep at h
  simp only at h
  split at h
  · simp only [bind, Except.bind] at h
    split at h; · cases h
    rename_i pa hpa
    split at h; · cases h
    rename_i pb hpb
    split at h; · cases h
    rename_i s hs
    cases h
    refine ⟨?_, fun h1 h2 => ?_⟩
    · intro t ht
      rw [List.mem_singleton.1 ht]
      refine mkSum_lv ?_ hs
      intro t ht
      simp at ht; rcases ht with rfl | rfl
      · exact listToProd_lv ha hpa
      · exact listToProd_lv hb hpb
    · have tb : pb.Tall := .inl (listToProd_two hb h2 hpb)
      have ta : pa.Tall := by
        rcases h1 with h1 | ⟨ts, ws, h1, h3⟩
        · exact .inl (listToProd_two ha h1 hpa)
        · rw [h1] at hpa
          cases hpa
          exact .inr ⟨ts, ws, rfl, h3⟩
      obtain ⟨ts, ws, rfl, h3⟩ := mkSum_tall (by intro t ht; simp at ht; rcases ht with rfl | rfl <;> assumption) hs
      exact .inr ⟨ts, ws, rfl, h3⟩
  · rename_i h0
    split at h
    · cases h; exact ⟨ha, fun h _ => h⟩
    · simp only [bind, Except.bind] at h
      split at h; · cases h
      rename_i pa hpa
      split at h; · cases h
      rename_i pb hpb
      split at h; · cases h
      rename_i s hs
      cases h
      refine ⟨?_, fun _ _ => .inl ?_⟩
      · intro t ht
        rcases List.mem_cons.1 ht with rfl | ht
        · refine mkSum_lv ?_ hs
          intro t ht
          simp at ht; rcases ht with rfl | rfl
          · exact listToProd_lv (fun s hs => ha s (keepIdx_sub hs)) hpa
          · exact listToProd_lv (fun s hs => hb s (keepIdx_sub hs)) hpb
        · exact ha t (keepIdx_sub ht)
      · rw [List.length_cons]
        have : keepIdx st.1 ((overlapPairs st.1 bs).map Prod.fst) true ≠ [] := by
          obtain ⟨q, hq⟩ := List.exists_mem_of_length_pos (Nat.pos_of_ne_zero h0)
          have hq' := hq
          unfold overlapPairs at hq
          obtain ⟨b, hb1, hb2⟩ := List.mem_flatMap.1 hq
          obtain ⟨a, ha1, ha2⟩ := List.mem_filterMap.1 hb2
          split at ha2
          · cases ha2
            refine List.ne_nil_of_mem (a := a.1) (List.mem_map.2 ⟨a, List.mem_filter.2 ⟨ha1, ?_⟩, rfl⟩)
            have : a.2 ∈ (overlapPairs st.1 bs).map Prod.fst := List.mem_map.2 ⟨_, hq', rfl⟩
            simp [this]
          · cases ha2
        have := List.length_pos_iff.2 this
        omega

theorem fold_shape : ∀ {qs : List (List Spe × ℝ)} {st st' : List Spe × ℝ}, (∀ s ∈ st.1, s.Lv R) → (∀ q ∈ qs, ∀ s ∈ q.1, s.Lv R) →
    qs.foldlM (fun st q => simplifyStep st q.1 q.2) st = .ok st' → (∀ s ∈ st'.1, s.Lv R) ∧ (StateTall st.1 → (∀ q ∈ qs, 2 ≤ q.1.length) → StateTall st'.1)
  | [], st, st', ha, hq, h => by
    simp [pure, Except.pure] at h; subst h
    exact ⟨ha, fun h _ => h⟩
  | q :: qs, st, st', ha, hq, h => by
    simp only [List.foldlM_cons, bind, Except.bind] at h
    split at h; · cases h
    rename_i st1 h1
    obtain ⟨k1, k2⟩ := simplifyStep_shape ha (hq q (by simp)) h1
    obtain ⟨k3, k4⟩ := fold_shape k1 (fun q hq' => hq q (by simp [hq'])) h
    exact ⟨k3, fun t1 t2 => k4 (k2 t1 (t2 q (by simp))) (fun q hq' => t2 q (by simp [hq']))⟩

theorem simplifyProducts_shape {css : List (List Spe)} {ws : List ℝ} {s : Spe} (hcs : ∀ cs ∈ css, ∀ s ∈ cs, s.Lv R) (h : simplifyProducts css ws = .ok s) :
    s.Lv R ∧ ((∀ cs ∈ css, 2 ≤ cs.length) → s.Tall) := by
  unfold simplifyProducts at h
  split at h
  · rename_i cs css w ws
    simp only [bind, Except.bind] at h
    split at h; · cases h
    rename_i r hr
    split at h; swap; · cases h
    obtain ⟨k1, k2⟩ := fold_shape (st := (cs, w)) (hcs cs (by simp)) (fun q hq => hcs q.1 (by simp [(List.of_mem_zip hq).1])) hr
    refine ⟨listToProd_lv k1 h, fun h2 => ?_⟩
    rcases k2 (.inl (h2 cs (by simp))) (fun q hq => h2 q.1 (by simp [(List.of_mem_zip hq).1])) with h3 | ⟨ts, ws, h3, h4⟩
    · exact .inl (listToProd_two k1 h3 h)
    · rw [h3] at h
      cases h
      exact .inr ⟨ts, ws, rfl, h4⟩
  · cases h

theorem simplifySumProduct_shape {cs : List Spe} {ws : List ℝ} {s : Spe} (hcs : ∀ t ∈ cs, t.Lv R) (h : simplifySumProduct cs ws = .ok s) :
    s.Lv R ∧ ((∀ t ∈ cs, t.Prod2) → s.Tall) := by
  unfold simplifySumProduct at h
  split at h
  · cases h
    exact ⟨.sum hcs, fun h => .inr ⟨_, _, rfl, h⟩⟩
  · rename_i css hcss
    have e := mapM_prod hcss
    subst e
    have hh : ∀ ds ∈ css, ∀ s ∈ ds, s.Lv R := by
      intro ds hds s hs
      cases hcs (.prod ds) (List.mem_map.2 ⟨ds, hds, rfl⟩) with
      | prod _ h => exact h s hs
    obtain ⟨k1, k2⟩ := simplifyProducts_shape hh h
    refine ⟨k1, fun h => k2 (fun ds hds => ?_)⟩
    obtain ⟨cs, e, hl⟩ := h (.prod ds) (List.mem_map.2 ⟨ds, hds, rfl⟩)
    cases e
    exact hl

theorem simplifySum_shape {s s' : Spe} (hs : s.Lv R) (h : simplifySum hash s = .ok s') : s'.Lv R ∧ ((∃ ts ws, s = .sum ts ws ∧ ∀ t ∈ ts, t.Prod2) → s'.Tall) := by
  unfold simplifySum at h
  split at h
  · cases h
  · rename_i t cs ws
    cases hs with
    | sum hs =>
    split at h
    · rename_i hl
      refine ⟨?_, ?_⟩
      · unfold simplifySumLeaf at h
        split at h; swap; · cases h
        simp only at h
        split at h; · cases h
        split at h
        · cases h; exact .sum hs
        · split at h
          · cases h; exact hs _ (by simp)
          · refine mkSum_lv ?_ h
            intro u hu
            obtain ⟨b, -, hb⟩ := List.mem_filterMap.1 hu
            obtain ⟨i, -, hi⟩ := Option.bind_eq_some_iff.1 hb
            exact hs u (List.mem_of_getElem? hi)
      · rintro ⟨ts, ws, e, ht⟩
        cases e
        obtain ⟨ds, rfl, -⟩ := ht t (by simp)
        simp [Spe.isLeaf, Spe.leafEnv] at hl
    · split at h
      · obtain ⟨k1, k2⟩ := simplifySumProduct_shape hs h
        refine ⟨k1, ?_⟩
        rintro ⟨ts, ws, e, ht⟩
        cases e
        exact k2 ht
      · cases h
  · cases h

/-! ## Conditioning -/

theorem mkReal_inv {l : RLeaf} {X : String} {env : Env} {s : Spe} (h : mkReal L l X env = .ok s) : s = .real l.k X l.d l.supp l.cond env := by
  unfold mkReal at h
  simp only [bind, Except.bind] at h
  repeat' (split at h)
  all_goals first | (cases h; done) | (injection h with h; exact h.symm)

section
variable (hR : Keeps R)
include hR

theorem leafCondSet_lv {s s' : Spe} {S : SSet EReal} (hs : s.Lv R) (h : leafCondSet c L s S = .ok s') : s'.Lv R := by
  cases hs with
  | @real k X d supp cond env h0 =>
    simp only [leafCondSet, condReal, bind, Except.bind] at h
    split at h; · cases h
    split at h; · cases h
    split at h; · cases h
    split at h
    · cases h; exact .real h0
    split at h; · cases h
    simp only [condIvls, bind, Except.bind] at h
    split at h; · cases h
    split at h; · cases h
    split at h; · cases h
    split at h; · cases h
    rename_i children hch
    have hall : ∀ t ∈ children, t.Lv R := by
      intro t ht
      obtain ⟨q, -, hq⟩ := forall₂_mem_right (mapM_ok hch) ht
      rw [mkReal_inv hq]
      exact .real (hR.real h0)
    split at h
    · cases h; exact hall _ (by simp)
    · exact mkSum_lv hall h
  | atomic h0 =>
    simp only [leafCondSet, bind, Except.bind] at h
    split at h; · cases h
    split at h; · cases h
    cases h
    exact .atomic h0
  | nominal h0 =>
    simp only [leafCondSet, bind, Except.bind] at h
    split at h; · cases h
    split at h
    · cases h
    · split at h; · cases h
      unfold condNominal at h
      split at h; · cases h
      split at h
      · cases h; exact .nominal h0
      · simp only [mkNominal, bind, Except.bind] at h
        split at h; · cases h
        split at h
        · cases h; exact .nominal (hR.nominal h0)
        · cases h
    · cases h
  | sum _ => cases h
  | prod _ _ => cases h

theorem leafCond_lv {n : ℕ} {s s' : Spe} {e : Ev} (hs : s.Lv R) (h : leafCond c L n s e = .ok s') : s'.Lv R := by
  unfold leafCond at h
  split at h; · cases h
  simp only [bind, Except.bind] at h
  split at h; · cases h
  split at h; · cases h
  exact leafCondSet_lv hR hs h

omit hR in
theorem condClause_shape {cs : List Spe} {fs : List (Factor → Res Spe)} {m : Clause String} {ds : List Spe} (hcs : ∀ s ∈ cs, s.Lv R)
    (hfs : ∀ f ∈ fs, ∀ F s', f F = .ok s' → s'.Lv R) (hl : cs.length = fs.length) (h : condClause cs fs m = .ok ds) : (∀ d ∈ ds, d.Lv R) ∧ ds.length = cs.length := by
  unfold condClause at h
  have k := mapM_ok h
  refine ⟨fun d hd => ?_, by rw [← k.length_eq]; simp [hl]⟩
  obtain ⟨q, hq, hqd⟩ := forall₂_mem_right k hd
  have hz := List.of_mem_zip hq
  simp only at hqd
  split at hqd
  · cases hqd; exact hcs _ hz.1
  · exact hfs _ hz.2 _ _ hqd

omit hR in
theorem condProd_shape {cs : List Spe} {pf : List (Factor → Res ℝ)} {fs : List (Factor → Res Spe)} {p : Res ℝ} {F : Factor} {s' : Spe} (hcs : ∀ s ∈ cs, s.Lv R)
    (hfs : ∀ f ∈ fs, ∀ F s', f F = .ok s' → s'.Lv R) (hl : cs.length = fs.length) (h : condProd c hash cs pf fs p F = .ok s') : s'.Lv R ∧ (2 ≤ cs.length → s'.Tall) := by
  unfold condProd at h
  simp only [bind, Except.bind] at h
  split at h; · cases h
  split at h; · cases h
  split at h; · cases h
  split at h; · cases h
  split at h; · cases h
  rename_i dss hdss
  split at h; · cases h
  rename_i products hpr
  have h1 : ∀ ds ∈ dss, (∀ d ∈ ds, d.Lv R) ∧ ds.length = cs.length := by
    intro ds hds
    obtain ⟨q, -, hq⟩ := forall₂_mem_right (mapM_ok hdss) hds
    exact condClause_shape hcs hfs hl hq
  have h2 : ∀ t ∈ products, t.Lv R ∧ (2 ≤ cs.length → t.Prod2) := by
    intro t ht
    obtain ⟨ds, hds, hd⟩ := forall₂_mem_right (mapM_ok hpr) ht
    obtain ⟨g1, g2⟩ := h1 ds hds
    exact ⟨mkProd_lv g1 hd, fun h => mkProd_two g1 (by omega) hd⟩
  unfold condMix at h
  split at h
  · cases h
    obtain ⟨g1, g2⟩ := h2 s' (by simp)
    exact ⟨g1, fun h => .inl (g2 h)⟩
  · simp only [bind, Except.bind] at h
    split at h; · cases h
    rename_i s hs
    obtain ⟨g1, g2⟩ := simplifySum_shape (mkSum_lv (fun t ht => (h2 t ht).1) hs) h
    exact ⟨g1, fun hl2 => g2 (mkSum_tall (fun t ht => .inl ((h2 t ht).2 hl2)) hs)⟩

omit hR in
theorem condSum_shape {P : Spe → Prop} {ws ps : List ℝ} {fs : List (Factor → Res Spe)} {F : Factor} {s' : Spe} (hfs : ∀ f ∈ fs, ∀ F s', f F = .ok s' → P s')
    (hP : ∀ ts ws t, (∀ t ∈ ts, P t) → mkSum ts ws = .ok t → P t) (h : condSum ws ps fs F = .ok s') : P s' := by
  unfold condSum at h
  simp only [bind, Except.bind] at h
  split at h; · cases h
  split at h; · cases h
  rename_i children hch
  have hall : ∀ t ∈ children, P t := by
    intro t ht
    obtain ⟨q, hq, hq'⟩ := forall₂_mem_right (mapM_ok hch) ht
    exact hfs _ (List.of_mem_zip (List.mem_filter.1 hq).1).2 _ _ hq'
  split at h
  · cases h; exact hall _ (by simp)
  · exact hP _ _ _ hall h

omit hR in
theorem Spe.condMemL_length {n : ℕ} : ∀ ss : List Spe, ss.length = (Spe.condMemL c L hash n ss).length
  | [] => rfl
  | s :: ss => by
    simp only [Spe.condMemL, List.length_cons]
    rw [Spe.condMemL_length (n := n) ss]

omit hR in
theorem Spe.condMemL_mem {n : ℕ} : ∀ (ss : List Spe), ∀ f ∈ Spe.condMemL c L hash n ss, ∃ s ∈ ss, f = Spe.condMem c L hash n s
  | [], f, hf => by simp [Spe.condMemL] at hf
  | s :: ss, f, hf => by
    simp only [Spe.condMemL, List.mem_cons] at hf
    rcases hf with rfl | hf
    · exact ⟨s, by simp, rfl⟩
    · obtain ⟨t, ht, rfl⟩ := Spe.condMemL_mem ss f hf
      exact ⟨t, by simp [ht], rfl⟩

mutual
theorem Spe.condMem_lv {n : ℕ} : ∀ s : Spe, s.Lv R → ∀ F s', Spe.condMem c L hash n s F = .ok s' → s'.Lv R
  | .real .., hs, F, s', h => by
    simp only [Spe.condMem, bind, Except.bind] at h
    split at h; · cases h
    exact leafCond_lv hR hs h
  | .atomic .., hs, F, s', h => by
    simp only [Spe.condMem, bind, Except.bind] at h
    split at h; · cases h
    exact leafCond_lv hR hs h
  | .nominal .., hs, F, s', h => by
    simp only [Spe.condMem, bind, Except.bind] at h
    split at h; · cases h
    exact leafCond_lv hR hs h
  | .sum cs ws, hs, F, s', h => by
    simp only [Spe.condMem, bind, Except.bind] at h
    split at h; · cases h
    cases hs with
    | sum hs => exact condSum_shape (P := fun t => t.Lv R) (Spe.condMemL_lv cs hs) (fun ts ws t ht hm => mkSum_lv ht hm) h
  | .prod cs, hs, F, s', h => by
    simp only [Spe.condMem] at h
    cases hs with
    | prod _ hs => exact (condProd_shape hs (Spe.condMemL_lv cs hs) (Spe.condMemL_length cs) h).1
theorem Spe.condMemL_lv {n : ℕ} : ∀ ss : List Spe, (∀ s ∈ ss, s.Lv R) → ∀ f ∈ Spe.condMemL c L hash n ss, ∀ F s', f F = .ok s' → s'.Lv R
  | [], _, f, hf, _, _, _ => by simp [Spe.condMemL] at hf
  | s :: ss, hs, f, hf, F, s', h => by
    simp only [Spe.condMemL, List.mem_cons] at hf
    rcases hf with rfl | hf
    · exact Spe.condMem_lv s (hs s (by simp)) F s' h
    · exact Spe.condMemL_lv ss (fun s h => hs s (by simp [h])) f hf F s' h
end

theorem Spe.condMem_tall {n : ℕ} {s s' : Spe} {F : Factor} (hs : s.Lv R) (ht : s.Tall) (h : Spe.condMem c L hash n s F = .ok s') : s'.Tall := by
  have two : ∀ {t t' : Spe} {F : Factor}, t.Lv R → t.Prod2 → Spe.condMem c L hash n t F = .ok t' → t'.Tall := by
    rintro t t' F h1 ⟨cs, rfl, hl⟩ h2
    simp only [Spe.condMem] at h2
    cases h1 with
    | prod _ h1 => exact (condProd_shape h1 (Spe.condMemL_lv hR cs h1) (Spe.condMemL_length cs) h2).2 hl
  rcases ht with h0 | ⟨ts, ws, rfl, h0⟩
  · exact two hs h0 h
  · simp only [Spe.condMem, bind, Except.bind] at h
    split at h; · cases h
    cases hs with
    | sum hs =>
    refine condSum_shape (P := Spe.Tall) (fun f hf F s' h => ?_) (fun ts ws t ht hm => .inr (mkSum_tall ht hm)) h
    obtain ⟨t, ht, rfl⟩ := Spe.condMemL_mem ts f hf
    exact two (hs t ht) (h0 t ht) h

theorem Spe.condition_shape {n : ℕ} {s s' : Spe} {e : Ev} (hs : s.Lv R) (h : s.condition c L hash n e = .ok s') : s'.Lv R ∧ (s.Tall → s'.Tall) := by
  unfold Spe.condition at h
  split at h
  · rename_i hl
    refine ⟨leafCond_lv hR hs h, fun ht => ?_⟩
    rcases ht with ⟨cs, rfl, -⟩ | ⟨ts, ws, rfl, -⟩ <;> cases hl
  · simp only [bind, Except.bind] at h
    split at h; · cases h
    split at h; · cases h
    split at h; · cases h
    split at h; · cases h
    split at h; · cases h
    exact ⟨Spe.condMem_lv hR _ hs _ _ h, fun ht => Spe.condMem_tall hR hs ht h⟩
end

end Sppl
