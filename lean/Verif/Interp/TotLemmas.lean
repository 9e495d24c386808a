import Verif.Spe.TotKey
import Verif.Interp.TotCases
import Verif.Interp.DepthProps
import Verif.Interp.RunLemmas
import Verif.Spe.ShapeLemmas
import Verif.Spe.TotCondLeaf
import Verif.Spe.DerivProps

set_option linter.all false

/-!
# Lemmas: programs that run return
-/

namespace Sppl
open Classical MeasureTheory
open scoped ENNReal ProbabilityTheory

variable {c : Ctx} {L : Lib} {μ : Dist → Measure ℝ} {hash : Spe → ℤ} {Γ Δ : Scope}

/-! ## The state of the interpreter -/

/-- What a scope says about the leaves. -/
def Scope.Leaf (Γ : Scope) : Spe → Prop
  | .real k X _ _ _ env => (∀ s ∈ Γ.base, s ∈ env.map Prod.fst → s = X) ∧ (k = .disc → X ∉ Γ.cont) ∧
      (((∀ s ∈ env.map Prod.fst, s ∈ Γ.curv) ∧ env.Curves ∧ k ≠ .disc) ∨ ∀ s ∈ env.map Prod.fst, s ∉ Γ.curv)
  | .atomic _ _ _ => False
  | .nominal X _ => X ∉ Γ.nums ∧ X ∉ Γ.curv
  | _ => True

theorem Scope.keeps (Γ : Scope) : Keeps Γ.Leaf := ⟨fun h => h, fun h => h⟩

structure State (c : Ctx) (L : Lib) (μ : Dist → Measure ℝ) (Γ : Scope) (m : Measure Asg) (s : Spe) : Prop where
  rep : Rep c L μ m s
  vars : s.symbols = Γ.vars
  lv : s.Lv Γ.Leaf
  tall : Γ.tall = true → s.Tall

def StateO (c : Ctx) (L : Lib) (μ : Dist → Measure ℝ) (Γ : Scope) (m : Measure Asg) : Option Spe → Prop
  | none => m = start ∧ Γ.vars = ∅
  | some s => State c L μ Γ m s

theorem StateO.rep {m : Measure Asg} {s : Option Spe} (h : StateO c L μ Γ m s) : RepO c L μ m s := by
  cases s with
  | none => exact h.1
  | some s => exact State.rep h

theorem lv_base {V : Finset String} (hV : V ⊆ Γ.base) {s : Spe} (h : s.Lv Γ.Leaf) : s.BaseOn V := by
  induction h with
  | real h => exact .real (fun s hs => h.1 s (hV hs))
  | atomic h => exact h.elim
  | nominal _ => exact .nominal
  | sum _ ih => exact .sum ih
  | prod _ _ ih => exact .prod ih

theorem lv_notDisc {k : String} (hk : k ∈ Γ.cont) {s : Spe} (h : s.Lv Γ.Leaf) : s.NotDisc k := by
  induction h with
  | real h =>
    refine .real (fun h1 h2 => ?_)
    subst h2
    exact h.2.1 h1 hk
  | atomic h => exact h.elim
  | nominal _ => exact .nominal
  | sum _ ih => exact .sum ih
  | prod _ _ ih => exact .prod ih

theorem Ev.Simple.mono {Q Q' : String → EReal → Prop} (hQ : ∀ k x, Q k x → Q' k x) {e : Ev} (h : e.Simple Q) : e.Simple Q' := by
  induction h with
  | ivl h1 h2 => exact .ivl h1 (Piece.Within.mono (hQ _) h2)
  | fin h1 h2 => exact .fin h1 (Piece.Within.mono (hQ _) h2)
  | finEmpty => exact .finEmpty
  | nom h => exact .nom h
  | nomEmpty => exact .nomEmpty
  | or h0 _ ih => exact .or h0 ih
  | and h0 _ ih => exact .and h0 ih

theorem nomFree_empty (e : Ev) : e.NomFree ∅ := by
  rw [nomFree_iff]
  refine Ev.ind ?_ ?_ ?_ e
  · exact fun l t ht => .lit ht (by simp [NumOn])
  · exact fun es ih => .or ih
  · exact fun es ih => .and ih

theorem State.whole {m : Measure Asg} {s : Spe} (hs : State c L μ Γ m s) {k : String} {x : EReal} (h : Γ.Whole k x) : s.Whole k x := by
  rcases h with h | h
  · exact .inl (lv_notDisc h hs.lv)
  · exact .inr h

/-- The leaves of the state, for events about derived variables. -/
theorem lv_curvy {V : Finset String} (hV : V ⊆ Γ.base ∪ Γ.curv) {s : Spe} (h : s.Lv Γ.Leaf) : s.Leaves (Spe.CurvyContLeaf (· ∈ Γ.curv) V) := by
  induction h with
  | @real k X d supp cond env h =>
    refine .leaf rfl ⟨?_, fun hk s hs hm => ?_⟩
    · rcases h.2.2 with h3 | h3
      · exact .inr ⟨h3.2.1, fun k _ hk => h3.1 k hk⟩
      · exact .inl (fun k hk hm => h.1 k ((Finset.mem_union.1 (hV hk)).resolve_right (h3 k hm)) hm)
    · rcases h.2.2 with h3 | h3
      · exact absurd hk h3.2.2
      · exact h.1 s ((Finset.mem_union.1 (hV hs)).resolve_right (h3 s hm)) hm
  | atomic h => exact h.elim
  | nominal _ => exact .leaf rfl trivial
  | sum _ ih => exact .sum ih
  | prod _ _ ih => exact .prod ih

theorem curvy_of_cont {T : String → Prop} {V : Finset String} {s : Spe} (h : s.Leaves (Spe.CurvyContLeaf T V)) : s.Leaves (Spe.CurvyLeaf T V) := by
  induction h with
  | @leaf s hl h =>
    refine .leaf hl ?_
    cases s with
    | real => exact h.1
    | atomic => exact h
    | nominal => trivial
    | sum => exact h
    | prod => exact h
  | sum _ ih => exact .sum ih
  | prod _ ih => exact .prod ih

theorem lv_curv {k : String} (hk : k ∈ Γ.curv) {s : Spe} (hs : s.WF c L μ) (h : s.Lv Γ.Leaf) : s.NotDisc k := by
  induction hs with
  | @real k' X d supp cond env _ h2 =>
    cases h with
    | real h =>
    refine .real (fun h1 h3 => ?_)
    subst h3
    rcases h.2.2 with h4 | h4
    · exact h4.2.2 h1
    · exact h4 _ (by simpa [Env.keys] using h2.built.base_mem) hk
  | atomic => cases h with | atomic h => exact h.elim
  | nominal => exact .nominal
  | sum _ _ _ _ _ _ ih => cases h with | sum h => exact .sum (fun s hs => ih s hs (h s hs))
  | prod _ _ _ ih => cases h with | prod _ h => exact .prod (fun s hs => ih s hs (h s hs))

theorem Ev.Curved.mono {Q Q' : String → EReal → Prop} {T : String → Prop} (hQ : ∀ k x, Q k x → Q' k x) {e : Ev} (h : e.Curved Q T) : e.Curved Q' T := by
  induction h with
  | plain h1 h2 h3 => exact .plain h1 h2 (h3.mono hQ)
  | curve h1 h2 h3 h4 => exact .curve h1 (fun x => hQ _ _ (h2 x)) h3 h4
  | or h0 _ ih => exact .or h0 ih
  | and h0 _ ih => exact .and h0 ih

/-- A leaf whose variables the event is about. -/
theorem bent_leaf {m : Measure Asg} {s : Spe} (hs : State c L μ Γ m s) {e : Ev} (he : e.symbols ⊆ Γ.curv) (hu : Usable c m e) {X : String} {env : Env} (hl : s.leafEnv = some (X, env)) :
    env.Curves ∧ s.NotDisc X ∧ X ∈ Γ.curv := by
  obtain ⟨k, hk⟩ := (Made.symbols_nonempty c).2 e hu.made
  have hks := hu.symbols hs.rep hk
  have hlv := hs.lv
  have hwf := hs.rep.wf
  cases hlv with
  | real h =>
    cases hl
    have hk' : k ∈ List.map Prod.fst env := by simpa [Spe.symbols] using hks
    rcases h.2.2 with h3 | h3
    · refine ⟨h3.2.1, .real (fun h _ => h3.2.2 h), ?_⟩
      cases hwf with
      | real _ h2 => exact h3.1 _ (by simpa [Env.keys] using h2.built.base_mem)
    · exact absurd (he hk) (h3 k hk')
  | atomic h => exact h.elim
  | nominal h =>
    simp only [Spe.symbols, Finset.mem_singleton] at hks
    subst hks
    exact absurd (he hk) h.2
  | sum => cases hl
  | prod => cases hl

theorem tall_notLeaf {s : Spe} (h : s.Tall) : s.isLeaf = false := by
  rcases h with ⟨cs, rfl, -⟩ | ⟨ts, ws, rfl, -⟩ <;> rfl

theorem Tr.Chain.hashable {k : String} {t : Tr} (h : t.Chain k) : t.hashable = true := by
  induction h with
  | id => rfl
  | radical _ _ ih => rw [Tr.hashable]; exact ih
  | exp _ _ ih => rw [Tr.hashable]; exact ih
  | log _ _ ih => rw [Tr.hashable]; exact ih
  | poly _ _ ih => rw [Tr.hashable]; exact ih

theorem AnyLit.hashable {l : Ev} (h : l.AnyLit) : l.hashable = true := by
  obtain ⟨k, h⟩ := h
  cases h with
  | ivl h _ => rw [Ev.hashable]; exact h.hashable
  | one h => rw [Ev.hashable]; exact h.hashable
  | empty h => rw [Ev.hashable]; exact h.hashable

/-- Asking about an event of a scope. -/
theorem State.keyed {m : Measure Asg} {s : Spe} (hs : State c L μ Γ m s) {e : Ev} (he : Γ.Asks c e) (hu : Usable c m e) (n : ℕ) :
    keyed c n s e (s.prob c L n e) = s.prob c L n e ∧ ∀ hash, keyed c n s e (s.condition c L hash n e) = s.condition c L hash n e := by
  rcases he with ⟨he, -⟩ | ⟨-, he⟩
  · exact keyed_base hs.rep.wf he.simple (lv_base he.base hs.lv) n
  · have : NoPiecewise s e := by
      intro X env hl
      have hleaf : s.isLeaf = true := by simp [Spe.isLeaf, hl]
      rcases he.shape with ht | ⟨ha, hsub⟩
      · rw [tall_notLeaf (hs.tall ht)] at hleaf; cases hleaf
      · refine ⟨?_, fun p hp => ?_⟩
        · cases ha with
          | lit h => exact AnyLit.hashable h
          | and _ h => rw [Ev.hashable]; exact hashableL_mem (fun e he => AnyLit.hashable (h e he))
        · obtain ⟨k, hk⟩ := (bent_leaf hs hsub hu hl).1 p hp
          exact hk.hashable
    exact ⟨this.keyed_prob, fun hash => this.keyed_condition⟩

theorem State.prob (hc : c.Correct) {m : Measure Asg} {s : Spe} (hs : State c L μ Γ m s) {e : Ev} (he : Γ.Plain e) (hu : Usable c m e) (ht : Γ.tall = true ∨ e.Single) (n : ℕ) :
    s.prob c L n e = .ok (m.real {ω | e.holds ω}) := by
  have hsym := hu.symbols hs.rep
  have hb := lv_base he.base hs.lv
  have hn : e.NomFree s.atomSyms := by rw [hs.rep.atoms]; exact nomFree_empty e
  rw [← hs.rep.den]
  rcases ht with ht | ⟨k, hk⟩
  · exact C18_total hc hs.rep.wf (hs.tall ht).wide (he.simple.mono (fun _ _ _ => trivial)) hb hsym hn n
  · exact C18_total_basic hc hs.rep.wf hk he.simple hb hsym hn (hu.asks hs.rep).can n

theorem State.asks (hc : c.Correct) {m : Measure Asg} {s : Spe} (hs : State c L μ Γ m s) {e : Ev} (he : Γ.Asks c e) (hu : Usable c m e) :
    ∃ N, ∀ n, N ≤ n → s.prob c L n e = .ok (m.real {ω | e.holds ω}) := by
  rcases he with ⟨he, ht⟩ | ⟨hli, he⟩
  · exact ⟨0, fun n _ => hs.prob hc he hu ht n⟩
  · have hsym := hu.symbols hs.rep
    have hask := hu.asks hs.rep
    have hn : e.NomFree s.atomSyms := by rw [hs.rep.atoms]; exact nomFree_empty e
    rw [← hs.rep.den]
    cases hl : s.leafEnv with
    | none =>
      exact C18_conj_total hc hli hs.rep.wf (by simp [Spe.isLeaf, hl]) (he.curved.mono (fun _ _ _ => trivial)) he.clause (curvy_of_cont (lv_curvy he.vars hs.lv)) hsym hn hask.regular
    | some p =>
      obtain ⟨X, env⟩ := p
      rcases he.shape with ht | ⟨ha, hsub⟩
      · have := tall_notLeaf (hs.tall ht); simp [Spe.isLeaf, hl] at this
      · exact C18_leaf_conj_total hc hli hs.rep.wf hl (bent_leaf hs hsub hu hl).1 ha hask.can hsym hask.regular

theorem State.condition (hc : c.Correct) {m : Measure Asg} {s : Spe} (hs : State c L μ Γ m s) {e : Ev} (he : Γ.Asks c e) (hu : Usable c m e)
    (h0 : m {ω | e.holds ω} ≠ 0) : ∃ N s', (∀ n, N ≤ n → s.condition c L hash n e = .ok s') ∧ State c L μ Γ (m[|{ω | e.holds ω}]) s' := by
  have hsym := hu.symbols hs.rep
  have hn : e.NomFree s.atomSyms := by rw [hs.rep.atoms]; exact nomFree_empty e
  have hpos : 0 < s.den μ {ω | e.holds ω} := by rw [hs.rep.den]; exact pos_iff_ne_zero.2 h0
  have hsu : ∀ᵐ ω ∂(s.den μ), e.Suits ω := by rw [hs.rep.den]; exact hu.suits
  have hask := hu.asks hs.rep
  have key : ∃ N s', s.condition c L hash N e = .ok s' := by
    rcases he with ⟨he, ht⟩ | ⟨hli, he⟩
    · have hb := lv_base he.base hs.lv
      have hsi : e.Simple s.Whole := he.simple.mono (fun _ _ h => hs.whole h)
      rcases ht with ht | ⟨k, hk⟩
      · obtain ⟨N, hN⟩ := C21_total (hash := hash) hc hs.rep.wf (hs.rep.ready (fun _ => [])) (hs.tall ht).wide hsi hb hsym hn hsu hpos
        obtain ⟨s', h, -⟩ := hN N le_rfl
        exact ⟨N, s', h⟩
      · obtain ⟨s', h⟩ := C22_total_basic (hash := hash) hc hs.rep.wf (hs.rep.ready (fun _ => [])) hk hsi hb hsym hn hpos 0
        exact ⟨1, s', h⟩
    · cases hl : s.leafEnv with
      | none =>
        have hcu : e.Curved s.Whole (· ∈ Γ.curv) := he.curved.mono (fun k x h => by
          rcases h with h | h
          · exact .inl (lv_curv h hs.rep.wf hs.lv)
          · exact hs.whole h)
        obtain ⟨N, hN⟩ := C21_conj_total (hash := hash) hc hli hs.rep.wf (hs.rep.ready (fun _ => [])) (by simp [Spe.isLeaf, hl]) hcu he.clause (lv_curvy he.vars hs.lv) hsym hn hask.regular hsu hpos
        obtain ⟨s', h, -⟩ := hN N le_rfl
        exact ⟨N, s', h⟩
      | some p =>
        obtain ⟨X, env⟩ := p
        rcases he.shape with ht | ⟨ha, hsub⟩
        · have := tall_notLeaf (hs.tall ht); simp [Spe.isLeaf, hl] at this
        · obtain ⟨b1, b2, -⟩ := bent_leaf hs hsub hu hl
          obtain ⟨N, hN⟩ := C21_leaf_conj_total (hash := hash) hc hli hs.rep.wf (hs.rep.ready (fun _ => [])) hl b2 b1 ha hask.can hsym hask.regular hsu hpos
          obtain ⟨s', h, -⟩ := hN N le_rfl
          exact ⟨N, s', h⟩
  obtain ⟨N, s', h⟩ := key
  refine ⟨N, s', fun n hn => ?_, ?_⟩
  · have := (C51_condition (c := c) (L := L) (hash := hash) s e N n).2 hn (by rw [h]; simp)
    rw [this, h]
  · have kk := C24_condition_partial hc (⟨hs.rep.wf, hs.rep.ready (fun _ => []), hask, .inr hsu⟩ : CanCond c L μ (fun _ => []) s e) h
    obtain ⟨k1, k2⟩ := Spe.condition_shape Γ.keeps hs.lv h
    exact ⟨(hu.condition hc hs.rep h).1, by rw [kk.2.1, hs.vars], k1, fun ht => k2 (hs.tall ht)⟩

/-! ## Sampling -/

theorem Distr.call_total {X : String} {d : Distr} (h : d.Callable) : ∃ s, d.call L X = .ok s := by
  cases d with
  | nominal dist =>
    have hne : dist ≠ [] := by rintro rfl; simp [Distr.Callable] at h
    obtain ⟨p, ps, rfl⟩ := List.exists_cons_of_ne_nil hne
    refine ⟨.nominal X (p :: ps), ?_⟩
    have : (p.2 :: ps.map Prod.snd).sum = 1 := h
    simp [Distr.call, mkNominal, mkNom, bind, Except.bind, Distr.Callable] at this ⊢
    exact this
  | real k d supp =>
    refine ⟨.real k X d supp false [(X, .id X)], ?_⟩
    simp only [Distr.call, mkReal]
    cases k with
    | cont => rfl
    | disc =>
      obtain ⟨h1, h2⟩ := h rfl
      simp [bind, Except.bind, intOrNegInf_total h1, intOrPosInf_total h2, assertB]

theorem Distr.call_leaf {X : String} {d : Distr} {s : Spe} (h : d.call L X = .ok s) (hb : X ∈ Γ.base) (hc : X ∈ Γ.cont → d.NotDisc) (hn : X ∈ Γ.nums → d.Numeric) (hv : X ∈ Γ.curv → d.NotDisc ∧ d.Numeric) : s.Lv Γ.Leaf := by
  cases d with
  | nominal dist =>
    simp only [Distr.call, mkNominal, bind, Except.bind] at h
    split at h; · cases h
    split at h
    · cases h; exact .nominal ⟨fun h => hn h, fun h => (hv h).2⟩
    · cases h
  | real k d supp =>
    rw [mkReal_inv h]
    refine .real ⟨?_, fun hk hX => hc hX hk, ?_⟩
    · intro s _ hs
      simpa using hs
    · by_cases hX : X ∈ Γ.curv
      · exact .inl ⟨by simpa using hX, by intro p hp; simp only [List.mem_singleton] at hp; subst hp; exact ⟨X, .id⟩, (hv hX).1⟩
      · exact .inr (by simpa using hX)

theorem Source.call_total {X : String} {d : Source} (hd : d.Callable) (hwf : d.WF L μ) : ∃ s, d.call L X = .ok s := by
  cases d with
  | one d => exact Distr.call_total hd
  | mix mx =>
    obtain ⟨h1, h2, h3⟩ := hd
    cases hwf with
    | mix w1 w2 =>
    obtain ⟨cs, hcs, hP⟩ := mapM_total (P := fun s => s.WF ctx0 L μ ∧ s.symbols = {X}) (l := mx.distributions) (f := Distr.call L X) (fun d hd => by
      obtain ⟨s, hs⟩ := Distr.call_total (L := L) (X := X) (h1 d hd)
      have := call_ok (c := ctx0) (w1 d hd) hs
      exact ⟨s, hs, this.1, this.2.1⟩)
    have hlen := (mapM_ok hcs).length_eq
    obtain ⟨s, hs⟩ := mkSum_total (c := ctx0) (L := L) (μ := μ) (cs := cs) (ws := mx.weights) (fun s hs => (hP.2 s hs).1) (by omega) h3 (fun s hs t ht => by rw [(hP.2 s hs).2, (hP.2 t ht).2])
    exact ⟨s, by simp [Source.call, DMix.call, hcs, hs, bind, Except.bind]⟩

theorem Source.call_leaf {X : String} {d : Source} {s : Spe} (h : d.call L X = .ok s) (hb : X ∈ Γ.base) (hc : X ∈ Γ.cont → d.Every Distr.NotDisc) (hn : X ∈ Γ.nums → d.Every Distr.Numeric)
    (hv : X ∈ Γ.curv → d.Every Distr.NotDisc ∧ d.Every Distr.Numeric) : s.Lv Γ.Leaf := by
  cases d with
  | one d => exact Distr.call_leaf h hb hc hn hv
  | mix mx =>
    simp only [Source.call, DMix.call, bind, Except.bind] at h
    split at h; · cases h
    rename_i cs hcs
    refine mkSum_lv ?_ h
    intro t ht
    obtain ⟨d, hd, hdt⟩ := forall₂_mem_right (mapM_ok hcs) ht
    exact Distr.call_leaf hdt hb (fun h => hc h d hd) (fun h => hn h d hd) (fun h => ⟨(hv h).1 d hd, (hv h).2 d hd⟩)

/-! ## Transforms -/

theorem mem_holders {cs : List Spe} {S : Finset String} {j : ℕ} : j ∈ holders cs S ↔ ∃ s, cs[j]? = some s ∧ S ⊆ s.symbols := by
  simp only [holders, List.mem_map, List.mem_filter, decide_eq_true_eq, Prod.exists, exists_eq_right]
  constructor
  · rintro ⟨s, h1, h2⟩; exact ⟨s, by simpa [List.mem_zipIdx_iff_getElem?] using h1, h2⟩
  · rintro ⟨s, h1, h2⟩; exact ⟨s, by simpa [List.mem_zipIdx_iff_getElem?] using h1, h2⟩

theorem holders_nodup (cs : List Spe) (S : Finset String) : (holders cs S).Nodup := by
  unfold holders
  have h1 : ((cs.zipIdx).map Prod.snd).Nodup := by
    rw [List.zipIdx_map_snd]
    exact List.nodup_range'
  exact h1.sublist (List.Sublist.map _ List.filter_sublist)

theorem holders_unique {cs : List Spe} {X : String} {i : ℕ} {s : Spe} (hd : (cs.map Spe.symbols).Pairwise Disjoint) (hi : cs[i]? = some s) (hX : X ∈ s.symbols) : holders cs {X} = [i] := by
  have hmem : ∀ j, j ∈ holders cs {X} ↔ j = i := by
    intro j
    rw [mem_holders]
    constructor
    · rintro ⟨t, ht, hXt⟩
      by_contra hne
      rw [List.pairwise_iff_getElem] at hd
      obtain ⟨hi', rfl⟩ := List.getElem?_eq_some_iff.1 hi
      obtain ⟨hj', rfl⟩ := List.getElem?_eq_some_iff.1 ht
      have hXt' : X ∈ (cs[j]).symbols := hXt (by simp)
      rcases lt_or_gt_of_ne hne with h | h
      · have := hd j i (by simpa using hj') (by simpa using hi') h
        simp only [List.getElem_map] at this
        exact Finset.disjoint_left.1 this hXt' hX
      · have := hd i j (by simpa using hi') (by simpa using hj') h
        simp only [List.getElem_map] at this
        exact Finset.disjoint_left.1 this hX hXt'
    · rintro rfl
      exact ⟨s, hi, by simpa using hX⟩
  have hnd := holders_nodup cs {X}
  have : (holders cs {X}).toFinset = {i} := by
    ext j; simp [hmem]
  match hh : holders cs {X} with
  | [] => have := (hmem i).2 rfl; rw [hh] at this; simp at this
  | [a] => have := (hmem a).1 (by rw [hh]; simp); rw [this]
  | a :: b :: l =>
    have h1 := (hmem a).1 (by rw [hh]; simp)
    have h2 := (hmem b).1 (by rw [hh]; simp)
    rw [hh] at hnd
    simp [h1, h2] at hnd

theorem transform_returns {Y X : String} {t : Tr} (hX : t.symbols = {X}) (ht : t.MadeG true c) (hn : X ∈ Γ.nums) {s : Spe} (hs : s.WF c L μ) :
    s.CanTransform μ t → s.Lv Γ.Leaf → X ∈ s.symbols → Y ∉ s.symbols → ∃ s', s.transform L Y t = .ok s' := by
  induction hs with
  | @real k X' d supp cond env h1 h2 h3 h4 h5 h6 =>
    intro _ _ hXs hYs
    have hXs' : X ∈ env.map Prod.fst := by simpa [Spe.symbols] using hXs
    have hYs' : Y ∉ env.map Prod.fst := by simpa [Spe.symbols] using hYs
    have he : envTransform env Y t = .ok (env ++ [(Y, t)]) := by
      unfold envTransform
      rw [if_neg hYs', if_pos (by rw [hX]; simpa using hXs')]
    have hr := (Spe.WF.real h1 h2 h3 h4 h5 h6).rleaf.1
    exact ⟨_, by simp only [Spe.transform, he, bind, Except.bind]; exact mkReal_mass_total hr (fun hk => hr.ints hk) X' _⟩
  | atomic => intro _ hl; cases hl with | atomic h => exact h.elim
  | nominal =>
    intro _ hl hXs
    cases hl with
    | nominal h =>
    simp only [Spe.symbols, Finset.mem_singleton] at hXs
    subst hXs
    exact (h.1 hn).elim
  | @sum cs ws S h1 hne hl hw0 hs hS ih =>
    intro hc hlv hXs hYs
    cases hc with
    | sum hc =>
    cases hlv with
    | sum hlv =>
    have hsy : (Spe.sum cs ws).symbols = S := by
      obtain ⟨s0, cs0, rfl⟩ := List.exists_cons_of_ne_nil hne
      simp [Spe.symbols, Spe.symbolsL, hS s0]
    rw [hsy] at hXs hYs
    obtain ⟨cs', h7, h8⟩ := mapM_total (P := fun r => r.WF c L μ ∧ r.symbols = insert Y S) (l := cs) (f := Spe.transform L Y t) (fun s hs' => by
      obtain ⟨r, hr⟩ := ih s hs' (hc s hs') (hlv s hs') (by rw [hS s hs']; exact hXs) (by rw [hS s hs']; exact hYs)
      have := transform_ok ht (h1 s hs') (hc s hs') hr
      exact ⟨r, hr, this.wf, by rw [this.syms, hS s hs']⟩)
    obtain ⟨r, hr⟩ := mkSum_total (c := c) (L := L) (μ := μ) (cs := cs') (ws := ws) (fun s hs => (h8.2 s hs).1) (by rw [h8.1, hl]) hs (fun s hs t ht => by rw [(h8.2 s hs).2, (h8.2 t ht).2])
    refine ⟨r, ?_⟩
    have h9 : (Spe.transformL L Y t cs).mapM id = .ok cs' := by
      rw [transformL_eq]
      refine mapM_of_forall₂ ?_
      rw [List.forall₂_map_left_iff]
      exact mapM_ok h7
    simp only [Spe.transform, h9, bind, Except.bind, hr]
  | @prod cs h1 hne hd ih =>
    intro hc hlv hXs hYs
    cases hc with
    | prod hc =>
    cases hlv with
    | prod _ hlv =>
    have hd' : (cs.map Spe.symbols).Pairwise Disjoint := by rw [Spe.symbolsL_eq] at hd; exact hd
    obtain ⟨s0, hs0, hX0⟩ := Spe.mem_symbols_prod.1 hXs
    obtain ⟨i, hi, hi0⟩ := List.getElem_of_mem hs0
    have hi1 : cs[i]? = some s0 := by rw [List.getElem?_eq_getElem hi, hi0]
    have hsub : ∀ s ∈ cs, s.symbols ⊆ (Spe.prod cs).symbols := fun s hs x hx => Spe.mem_symbols_prod.2 ⟨s, hs, hx⟩
    obtain ⟨r, hr⟩ := ih s0 hs0 (hc s0 hs0 (by rw [hX]; simpa using hX0)) (hlv s0 hs0) hX0 (fun h => hYs (hsub s0 hs0 h))
    have hok := transform_ok ht (h1 s0 hs0) (hc s0 hs0 (by rw [hX]; simpa using hX0)) hr
    have hwf : ∀ r' ∈ cs.set i r, r'.WF c L μ := by
      intro r' hr'
      rcases List.mem_or_eq_of_mem_set hr' with h | rfl
      · exact h1 r' h
      · exact hok.wf
    have hdisj : ((cs.set i r).map Spe.symbols).Pairwise Disjoint := by
      rw [List.pairwise_iff_getElem] at hd' ⊢
      intro a b ha hb hab
      simp only [List.length_map, List.length_set] at ha hb
      have hab' := hd' a b (by simpa using ha) (by simpa using hb) hab
      simp only [List.getElem_map, List.getElem_set] at hab' ⊢
      have hYa : Y ∉ cs[a].symbols := fun h => hYs (hsub _ (List.getElem_mem _) h)
      have hYb : Y ∉ cs[b].symbols := fun h => hYs (hsub _ (List.getElem_mem _) h)
      by_cases h1 : i = a
      · subst h1
        rw [if_pos rfl, if_neg (by omega), hok.syms, Finset.disjoint_insert_left]
        exact ⟨hYb, by rw [← hi0]; exact hab'⟩
      · rw [if_neg h1]
        by_cases h2 : i = b
        · subst h2
          rw [if_pos rfl, hok.syms, Finset.disjoint_insert_right]
          exact ⟨hYa, by rw [← hi0]; exact hab'⟩
        · rw [if_neg h2]; exact hab'
    obtain ⟨r', hr'⟩ := mkProd_total hwf (by simpa using hne) hdisj
    refine ⟨r', ?_⟩
    rw [Spe.transform, if_pos (by rw [hX]; simpa using hXs), hX, holders_unique hd' hi1 hX0]
    simp only [transformL_eq, List.getElem?_map, hi1, Option.map_some, hr, bind, Except.bind, hr']

theorem symbols_sum {cs : List Spe} {ws : List ℝ} {S : Finset String} (hne : cs ≠ []) (hS : ∀ s ∈ cs, s.symbols = S) : (Spe.sum cs ws).symbols = S := by
  obtain ⟨s0, cs0, rfl⟩ := List.exists_cons_of_ne_nil hne
  simp [Spe.symbols, Spe.symbolsL, hS s0]

theorem derive_curv {Y : String} {t : Tr} {k : String} (hk : k ≠ Y) (h : k ∈ (Γ.derive Y t).curv) : k ∈ Γ.curv := by
  simp only [Scope.derive] at h
  split at h
  · split at h
    · exact (Finset.mem_insert.1 h).resolve_left hk
    · simp at h
  · exact Finset.mem_of_mem_erase h

theorem derive_or {Y : String} {t : Tr} : (Γ.derive Y t).curv = ∅ ∨ ∀ k, k ≠ Y → (k ∈ (Γ.derive Y t).curv ↔ k ∈ Γ.curv) := by
  simp only [Scope.derive]
  split
  · split
    · exact .inr (fun k hk => by simp [hk])
    · exact .inl rfl
  · exact .inr (fun k hk => by simp [hk])

theorem lv_derive {Y : String} {t : Tr} {s : Spe} (hs : s.WF c L μ) : s.Lv Γ.Leaf → Y ∉ s.symbols → s.Lv (Γ.derive Y t).Leaf := by
  induction hs with
  | @real k X' d supp cond env h1 h2 h3 h4 h5 h6 =>
    intro hl hY
    cases hl with
    | real h =>
      have hY' : ∀ s ∈ env.map Prod.fst, s ≠ Y := by rintro s hs rfl; exact hY (by simpa [Spe.symbols] using hs)
      refine .real ⟨fun s hs => h.1 s (Finset.mem_of_mem_erase hs), h.2.1, ?_⟩
      rcases h.2.2 with h3 | h3
      · rcases derive_or (Γ := Γ) (Y := Y) (t := t) with h4 | h4
        · exact .inr (fun s hs => by rw [h4]; simp)
        · exact .inl ⟨fun s hs => (h4 s (hY' s hs)).2 (h3.1 s hs), h3.2⟩
      · exact .inr (fun s hs hm => h3 s hs (derive_curv (hY' s hs) hm))
  | atomic => intro hl; cases hl with | atomic h => exact h.elim
  | @nominal X dist =>
    intro hl hY
    cases hl with
    | nominal h =>
    have hXY : X ≠ Y := by rintro rfl; exact hY (by simp [Spe.symbols])
    exact .nominal ⟨fun h' => h.1 ((Finset.mem_insert.1 h').resolve_left hXY), fun h' => h.2 (derive_curv hXY h')⟩
  | @sum cs ws S h1 hne hl hw0 hs hS ih =>
    intro hl hY
    rw [symbols_sum hne hS] at hY
    cases hl with
    | sum hl => exact .sum (fun s hs => ih s hs (hl s hs) (by rw [hS s hs]; exact hY))
  | @prod cs h1 hne hd ih =>
    intro hl hY
    cases hl with
    | prod h0 hl => exact .prod h0 (fun s hs => ih s hs (hl s hs) (fun h => hY (Spe.mem_symbols_prod.2 ⟨s, hs, h⟩)))

theorem transform_shape {Y : String} {t : Tr} (hne : t.symbols.Nonempty) {s : Spe} (hs : s.WF c L μ) : ∀ {s'}, s.Lv Γ.Leaf → Y ∉ s.symbols → s.transform L Y t = .ok s' →
    s'.Lv (Γ.derive Y t).Leaf ∧ (s.Prod2 → s'.Prod2) ∧ (s.Tall → s'.Tall) := by
  induction hs with
  | @real k X' d supp cond env h1 h2 h3 h4 h5 h6 =>
    intro s' hl hY h
    simp only [Spe.transform, bind, Except.bind] at h
    split at h; · cases h
    rename_i env' he
    obtain ⟨rfl, -, hts⟩ := envTransform_ok he
    rw [mkReal_inv h]
    cases hl with
    | real hl =>
    refine ⟨.real ⟨fun s hs hm => ?_, hl.2.1, ?_⟩, (by rintro ⟨cs, h, -⟩; cases h), (by rintro (⟨cs, h, -⟩ | ⟨ts, ws, h, -⟩) <;> cases h)⟩
    · simp only [List.map_append, List.map_cons, List.map_nil, List.mem_append, List.mem_singleton] at hm
      rcases hm with hm | hm
      · exact hl.1 s (Finset.mem_of_mem_erase hs) hm
      · exact absurd hm (Finset.ne_of_mem_erase hs)
    · have hY' : ∀ s ∈ env.map Prod.fst, s ≠ Y := by rintro s hs rfl; exact hY (by simpa [Spe.symbols] using hs)
      simp only [List.map_append, List.map_cons, List.map_nil, List.mem_append, List.mem_singleton]
      rcases hl.2.2 with h3 | h3
      · have hsub : t.symbols ⊆ Γ.curv := fun s hs => h3.1 s (hts s hs)
        by_cases hcu : t.Curve
        · left
          have hv : (Γ.derive Y t).curv = insert Y Γ.curv := by simp [Scope.derive, hsub, hcu]
          refine ⟨?_, ?_, h3.2.2⟩
          · rintro s (hs | rfl)
            · rw [hv]; exact Finset.mem_insert_of_mem (h3.1 s hs)
            · rw [hv]; exact Finset.mem_insert_self _ _
          · intro p hp
            rcases List.mem_append.1 hp with hp | hp
            · exact h3.2.1 p hp
            · rw [List.mem_singleton.1 hp]; exact hcu
        · right
          intro s _
          simp [Scope.derive, hsub, hcu]
      · right
        have hsub : ¬ t.symbols ⊆ Γ.curv := by
          intro hsub
          obtain ⟨x, hx⟩ := hne
          exact h3 x (hts x hx) (hsub hx)
        rintro s (hs | rfl)
        · exact fun hm => h3 s hs (derive_curv (hY' s hs) hm)
        · simp [Scope.derive, hsub]
  | atomic => intro s' hl; cases hl with | atomic h => exact h.elim
  | nominal => intro s' hl hY h; simp [Spe.transform] at h
  | @sum cs ws S h1 hne hl hw0 hs hS ih =>
    intro s' hlv hY h
    rw [symbols_sum hne hS] at hY
    cases hlv with
    | sum hlv =>
    simp only [Spe.transform, bind, Except.bind] at h
    split at h; · cases h
    rename_i cs' hcs
    rw [transformL_eq] at hcs
    have hF : List.Forall₂ (fun s r => Spe.transform L Y t s = .ok r) cs cs' := by
      have := mapM_ok hcs
      rw [List.forall₂_map_left_iff] at this
      exact this
    have key : ∀ r ∈ cs', r.Lv (Γ.derive Y t).Leaf ∧ ∃ s ∈ cs, s.Prod2 → r.Prod2 := by
      intro r hr
      obtain ⟨s, hs, k⟩ := forall₂_mem_right hF hr
      have := ih s hs (hlv s hs) (by rw [hS s hs]; exact hY) k
      exact ⟨this.1, s, hs, this.2.1⟩
    refine ⟨mkSum_lv (fun r hr => (key r hr).1) h, (by rintro ⟨cs, h, -⟩; cases h), ?_⟩
    rintro (⟨ds, h', -⟩ | ⟨ts, ws', h', ht⟩); · cases h'
    cases h'
    refine .inr (mkSum_tall (fun r hr => ?_) h)
    obtain ⟨-, s, hs, k⟩ := key r hr
    exact .inl (k (ht s hs))
  | @prod cs h1 hne hd ih =>
    intro s' hlv hY h
    cases hlv with
    | prod _ hlv =>
    simp only [Spe.transform, bind, Except.bind] at h
    split at h; swap; · cases h
    split at h; swap; · cases h
    rename_i i hi
    split at h; swap; · cases h
    rename_i r hr
    split at h; · cases h
    rename_i _ s1
    obtain ⟨s0, hi0, hS0, -⟩ := holders_one hi
    have hs0 : s0 ∈ cs := List.mem_of_getElem? hi0
    rw [transformL_eq, List.getElem?_map, hi0] at hr
    simp only [Option.map_some, Option.some.injEq] at hr
    have hYs : ∀ s ∈ cs, Y ∉ s.symbols := fun s hs h => hY (Spe.mem_symbols_prod.2 ⟨s, hs, h⟩)
    have k := ih s0 hs0 (hlv s0 hs0) (hYs s0 hs0) hr
    have hall : ∀ r ∈ cs.set i s1, r.Lv (Γ.derive Y t).Leaf := by
      intro r hr
      rcases List.mem_or_eq_of_mem_set hr with h | rfl
      · exact lv_derive (h1 r h) (hlv r h) (hYs r h)
      · exact k.1
    have k2 : (Spe.prod cs).Prod2 → s'.Prod2 := by
      rintro ⟨ds, h', hl⟩
      cases h'
      exact mkProd_two hall (by simpa using hl) h
    refine ⟨mkProd_lv hall h, k2, ?_⟩
    rintro (h' | ⟨ts, ws', h', ht⟩)
    · exact .inl (k2 h')
    · cases h'

/-! ## Weakening -/

theorem State.less {m : Measure Asg} {s : Spe} (hs : State c L μ Γ m s) (h : Δ.Less Γ) : State c L μ Δ m s := by
  refine ⟨hs.rep, by rw [hs.vars, h.vars], hs.lv.imp ?_, fun ht => hs.tall (h.tall ht)⟩
  intro l hl
  cases l with
  | real =>
    refine ⟨fun s hs => hl.1 s (h.base hs), fun hk hX => hl.2.1 hk (h.cont hX), ?_⟩
    rcases h.curv with hv | hv
    · rw [hv]; exact hl.2.2
    · exact .inr (fun s _ => by rw [hv]; simp)
  | atomic => exact hl
  | nominal =>
    refine ⟨fun hX => hl.1 (h.nums hX), ?_⟩
    rcases h.curv with hv | hv
    · rw [hv]; exact hl.2
    · rw [hv]; simp
  | sum => trivial
  | prod => trivial

/-! ## Branches -/

/-- What is done with a mixture of products returns, and keeps variables and leaves. -/
def SimpRuns (c : Ctx) (L : Lib) (μ : Dist → Measure ℝ) (simp : Spe → Res Spe) : Prop :=
  ∀ ts ws, (Spe.sum ts ws).WF c L μ → (∀ E, (Spe.sum ts ws).Ready E) → (∀ t ∈ ts, t.Prod2) →
    ∃ t', simp (.sum ts ws) = .ok t' ∧ t'.symbols = (Spe.sum ts ws).symbols ∧ (∀ R : Spe → Prop, (Spe.sum ts ws).Lv R → t'.Lv R) ∧ t'.Tall

theorem lv_true {s : Spe} (hs : s.WF c L μ) : s.Lv (fun _ => True) := by
  induction hs with
  | real => exact .real trivial
  | atomic => exact .atomic trivial
  | nominal => exact .nominal trivial
  | sum _ _ _ _ _ _ ih => exact .sum ih
  | prod _ h0 _ ih => exact .prod h0 ih

theorem simpRuns_none : SimpRuns c L μ .ok := fun ts ws _ _ h => ⟨_, rfl, rfl, fun _ h => h, .inr ⟨ts, ws, rfl, h⟩⟩

theorem simpRuns_guarded (hash : Spe → ℤ) : SimpRuns c L μ (guarded hash) := by
  intro ts ws hwf hr hp
  have hp' : ∀ t ∈ ts, ∃ ds, t = .prod ds := fun t ht => by obtain ⟨ds, h, -⟩ := hp t ht; exact ⟨ds, h⟩
  have hn : NoCollision hash (.sum ts ws) := by
    intro s hs _ _ hl
    obtain ⟨ds, rfl⟩ := hp' s hs
    simp [Spe.isLeaf, Spe.leafEnv] at hl
  have h1 : ws.sum = 1 := by cases hwf; assumption
  obtain ⟨t', ht'⟩ := simplifySum_total (hash := hash) hwf (hr (fun _ => [])) h1 hp'
  refine ⟨t', by simp [guarded, hn, ht'], (simplifySum_ok hwf (hr (fun _ => [])) hn ht').2.1, fun R hR => (simplifySum_shape hR ht').1, ?_⟩
  exact (simplifySum_shape (lv_true hwf) ht').2 ⟨ts, ws, rfl, hp⟩


/-- The branches add up to one. -/
theorem firsts_real {m : Measure Asg} [IsFiniteMeasure m] : ∀ {Fs : List (Set Asg)} {A : Set Asg}, (∀ E ∈ firsts A Fs, NullMeasurableSet E m) →
    ((firsts A Fs).map m.real).sum = m.real {ω | ω ∉ A ∧ ∃ E ∈ Fs, ω ∈ E}
  | [], A, _ => by simp [firsts]
  | E :: Fs, A, h => by
    simp only [firsts, List.map_cons, List.sum_cons]
    rw [firsts_real (fun E hE => h E (by simp [firsts, hE]))]
    have h1 : NullMeasurableSet (E \ A) m := h _ (by simp [firsts])
    have e : {ω | ω ∉ A ∧ ∃ F ∈ E :: Fs, ω ∈ F} = (E \ A) ∪ {ω | ω ∉ A ∪ E ∧ ∃ F ∈ Fs, ω ∈ F} := by
      ext ω
      simp only [List.mem_cons, exists_eq_or_imp, Set.mem_setOf_eq, Set.mem_union, Set.mem_diff, not_or]
      tauto
    rw [e, measureReal_union₀' h1]
    refine Disjoint.aedisjoint ?_
    rw [Set.disjoint_left]
    rintro ω ⟨h1, -⟩ ⟨h2, -⟩
    exact h2 (.inr h1)

theorem interpL_get (o : Opts) (cmds : List Cmd) {i : ℕ} (h : i < (Cmd.interpL o cmds).length) : (Cmd.interpL o cmds)[i] = Cmd.interp o (cmds[i]'(by simpa [interpL_eq] using h)) := by
  simp [interpL_eq]

/-- The events that the interpreter uses for the branches. -/
structure Branch (c : Ctx) (m : Measure Asg) (Γ : Scope) (d : Option Ev) (E : Set Asg) : Prop where
  none : d = none → m E = 0
  some : ∀ e, d = some e → Stands c m e E ∧ Γ.Asks c e

/-- The command returns, from a state of the scope. -/
def Returns (o : Opts) (μ : Dist → Measure ℝ) (Γ Δ : Scope) (m : Measure Asg) (p : Cmd) : Prop :=
  ∀ s, State o.c o.L μ Γ m s → ∃ N t, (∀ n, N ≤ n → p.interp { o with n := n } (some s) = .ok (some t)) ∧ State o.c o.L μ Δ (p.sem μ m) t

theorem block_total {o : Opts} (hc : o.c.Correct) (hrun : SimpRuns o.c o.L μ o.simp) {m : Measure Asg} {s : Spe} (hs : State o.c o.L μ Γ m s) {ds : List (Option Ev)} {Fs : List (Set Asg)}
    {cmds : List Cmd} (hd : List.Forall₂ (Branch o.c m Γ) ds (firsts ∅ Fs)) (hlen : cmds.length = Fs.length) (hcov : ∀ᵐ ω ∂m, ∃ E ∈ Fs, ω ∈ E) (ht : Δ.tall = true)
    (ih : ∀ q ∈ cmds.zip (firsts ∅ Fs), m q.2 ≠ 0 → Returns o μ Γ Δ (m[|q.2]) q.1) :
    ∃ N, ∀ n, N ≤ n → ∃ t, ifBlock { o with n := n } s ds (Cmd.interpL { o with n := n } cmds) = .ok t ∧ t.symbols = Δ.vars ∧ t.Lv Δ.Leaf ∧ t.Tall := by
  have hprob : IsProbabilityMeasure m := by rw [← hs.rep.den]; exact hs.rep.wf.prob
  have hl1 : ds.length = Fs.length := by rw [hd.length_eq, firsts_length]
  have hl2 := firsts_length ∅ Fs
  have hd' := List.forall₂_iff_get.1 hd
  -- every branch
  have step : ∀ i (h1 : i < ds.length) (h2 : i < cmds.length) (h3 : i < (firsts ∅ Fs).length), ∃ N, ∀ n, N ≤ n →
      optProb { o with n := n } s ds[i] = .ok (m.real (firsts ∅ Fs)[i]) ∧ (m.real (firsts ∅ Fs)[i] ≠ 0 →
        ∃ s' t, optCond { o with n := n } s ds[i] = .ok s' ∧ cmds[i].interp { o with n := n } (some s') = .ok (some t) ∧ State o.c o.L μ Δ (cmds[i].sem μ (m[|(firsts ∅ Fs)[i]])) t) := by
    intro i h1 h2 h3
    have hb : Branch o.c m Γ ds[i] (firsts ∅ Fs)[i] := hd'.2 i h1 h3
    cases hdi : ds[i] with
    | none =>
      have h0 := hb.none hdi
      have h0' : m.real (firsts ∅ Fs)[i] = 0 := by simp [measureReal_def, h0]
      exact ⟨0, fun n _ => ⟨by simp [optProb, h0'], fun h => absurd h0' h⟩⟩
    | some e =>
      obtain ⟨b1, b2⟩ := hb.some e hdi
      obtain ⟨N0, hN0⟩ := hs.asks hc b2 b1.usable
      have hE : m.real {ω | e.holds ω} = m.real (firsts ∅ Fs)[i] := measureReal_congr (by filter_upwards [b1.ae] with ω hω; exact propext hω)
      by_cases h0 : m (firsts ∅ Fs)[i] = 0
      · have h0' : m.real (firsts ∅ Fs)[i] = 0 := by simp [measureReal_def, h0]
        refine ⟨N0, fun n hn => ⟨?_, fun h => absurd h0' h⟩⟩
        rw [← hE]
        exact (hs.keyed b2 b1.usable n).1.trans (hN0 n hn)
      · have he : m {ω | e.holds ω} = m (firsts ∅ Fs)[i] := measure_congr (by filter_upwards [b1.ae] with ω hω; exact propext hω)
        obtain ⟨N1, s', c1, c2⟩ := hs.condition (hash := o.hash) hc b2 b1.usable (by rw [he]; exact h0)
        have hce : m[|{ω | e.holds ω}] = m[|(firsts ∅ Fs)[i]] := cond_ae b1.ae
        rw [hce] at c2
        have hq : (cmds[i], (firsts ∅ Fs)[i]) ∈ cmds.zip (firsts ∅ Fs) := by
          have : (cmds.zip (firsts ∅ Fs))[i]'(by simp; omega) = (cmds[i], (firsts ∅ Fs)[i]) := by simp
          rw [← this]; exact List.getElem_mem _
        obtain ⟨N2, t, c3, c4⟩ := ih _ hq h0 s' c2
        refine ⟨max N0 (max N1 N2), fun n hn => ⟨?_, fun _ => ⟨s', t, ((hs.keyed b2 b1.usable n).2 o.hash).trans (c1 n (by omega)), c3 n (by omega), c4⟩⟩⟩
        rw [← hE]
        exact (hs.keyed b2 b1.usable n).1.trans (hN0 n (by omega))
  choose N hN using step
  refine ⟨(List.range ds.length).foldr (fun i k => max k (if h : i < ds.length ∧ i < cmds.length ∧ i < (firsts ∅ Fs).length then N i h.1 h.2.1 h.2.2 else 0)) 0, fun n hn => ?_⟩
  have hbig : ∀ i (h1 : i < ds.length) (h2 : i < cmds.length) (h3 : i < (firsts ∅ Fs).length), N i h1 h2 h3 ≤ n := by
    intro i h1 h2 h3
    refine le_trans ?_ hn
    have gen : ∀ (l : List ℕ) (f : ℕ → ℕ), i ∈ l → f i ≤ l.foldr (fun i k => max k (f i)) 0 := by
      intro l f
      induction l with
      | nil => simp
      | cons a l ih =>
        intro h
        rcases List.mem_cons.1 h with rfl | h
        · simp
        · simp only [List.foldr_cons]; exact le_trans (ih h) (le_max_left _ _)
    have := gen (List.range ds.length) (fun i => if h : i < ds.length ∧ i < cmds.length ∧ i < (firsts ∅ Fs).length then N i h.1 h.2.1 h.2.2 else 0) (by simpa using h1)
    simpa [h1, h2, h3] using this
  have hnull : ∀ E ∈ firsts ∅ Fs, NullMeasurableSet E m := by
    intro E hE
    obtain ⟨d, -, hb⟩ := forall₂_mem_right hd hE
    cases d with
    | none => exact NullMeasurableSet.of_null (hb.none rfl)
    | some e =>
      have h1 := (hb.some e rfl).1
      exact (Ev.measurable e).nullMeasurableSet.congr (by filter_upwards [h1.ae] with ω hω; exact propext hω)
  have hsum : ((firsts ∅ Fs).map m.real).sum = 1 := by
    rw [firsts_real hnull]
    have : m.real {ω | ω ∉ (∅ : Set Asg) ∧ ∃ E ∈ Fs, ω ∈ E} = m.real Set.univ := measureReal_congr (by filter_upwards [hcov] with ω hω; exact propext ⟨fun _ => trivial, fun _ => ⟨by simp, hω⟩⟩)
    rw [this]; simp
  refine ifBlock_total (P := fun t => (∀ E, t.Ready E) ∧ t.Lv Δ.Leaf ∧ t.Tall) (Q := fun t => t.symbols = Δ.vars ∧ t.Lv Δ.Leaf ∧ t.Tall) (c := o.c) (L := o.L) (μ := μ) (S := Δ.vars) (ps := (firsts ∅ Fs).map m.real)
    (by simp [interpL_eq]; omega) ?_ hsum ?_ ?_ (fun t _ h1 h2 => ⟨h1, h2.2⟩)
  · refine List.forall₂_iff_get.2 ⟨by simp [hl1, hl2], fun i h1 h2 => ?_⟩
    simp only [List.length_map] at h2
    simpa using (hN i h1 (by omega) h2 n (hbig _ _ _ _)).1
  · intro i h1 h2 h3 h4
    simp only [List.length_map] at h3
    simp only [List.getElem_map] at h4
    obtain ⟨s', t, k1, k2, k3⟩ := (hN i h1 (by omega) h3 n (hbig _ _ _ _)).2 h4
    exact ⟨s', t, k1, by rw [interpL_get]; exact k2, k3.rep.wf, k3.vars, k3.rep.ready, k3.lv, k3.tall ht⟩
  · intro ts ws t hts hws hsm
    have hwpos : ∀ w ∈ ws, 0 < w := by
      intro w hw
      obtain ⟨h1, h2⟩ := hws w hw
      obtain ⟨E, -, rfl⟩ := List.mem_map.1 h2
      exact lt_of_le_of_ne measureReal_nonneg (Ne.symm h1)
    obtain ⟨m1, m2, -, -, m3, -, -, m4⟩ := mkSum_ok (fun t ht => (hts t ht).1) (fun w hw => (hwpos w hw).le) hsm
    have hlv := mkSum_lv (fun t ht => (hts t ht).2.2.2.1) hsm
    obtain ⟨us, vs, rfl, hus⟩ := mkSum_tall (fun t ht => (hts t ht).2.2.2.2) hsm
    obtain ⟨t', k1, k2, k3, k4⟩ := hrun us vs m1 (fun E => m4 E (fun t ht => (hts t ht).2.2.1 E) hwpos) hus
    refine ⟨t', k1, ?_, k3 _ hlv, k4⟩
    rw [k2]
    have hne : ts ≠ [] := by
      rintro rfl
      have := mkSum_inv hsm
      simp only [List.flatMap_nil, Spe.sum.injEq] at this
      cases m1 with
      | sum _ h0 => exact h0 this.1
    obtain ⟨t0, h0⟩ := List.exists_mem_of_ne_nil _ hne
    rw [← m2 t0 h0, (hts t0 h0).2.1]

/-! ## The events of the branches -/

theorem Scope.Plain.land {e f : Ev} (he : Γ.Plain e) (hf : Γ.Plain f) : ∃ g, e.land c f = .ok g ∧ Γ.Plain g := by
  obtain ⟨g, h1, h2⟩ := (C07_total c he.simple hf.simple).1
  exact ⟨g, h1, h2, Ev.land_symbols h1 he.base hf.base⟩

theorem Scope.Plain.lor {e f : Ev} (he : Γ.Plain e) (hf : Γ.Plain f) : ∃ g, e.lor c f = .ok g ∧ Γ.Plain g := by
  obtain ⟨g, h1, h2⟩ := (C07_total c he.simple hf.simple).2
  exact ⟨g, h1, h2, Ev.lor_symbols h1 he.base hf.base⟩

theorem Scope.Plain.not {e : Ev} (he : Γ.Plain e) (hn : e.All NomSome) : ∃ g, e.not c = .ok g ∧ Γ.Plain g := by
  obtain ⟨g, h1, h2⟩ := C07_not_total c he.simple (hn.mono (fun l t _ h t' h' => by subst h'; exact h))
  exact ⟨g, h1, h2, (Ev.not_symbols he.simple.all.1 h1).trans he.base⟩

theorem branchEvent_total : ∀ {before : List Ev} {e : Ev}, (∀ f ∈ before, Γ.Plain f ∧ f.All NomSome) → Γ.Plain e → ∃ g, branchEvent c before e = .ok g ∧ Γ.Plain g
  | [], e, _, he => ⟨e, rfl, he⟩
  | f :: before, e, hb, he => by
    obtain ⟨hf, hn⟩ := hb f (by simp)
    obtain ⟨f', h1, h2⟩ := hf.not (c := c) hn
    obtain ⟨x, h3, h4⟩ := he.land (c := c) h2
    obtain ⟨g, h5, h6⟩ := branchEvent_total (before := before) (fun f hf => hb f (by simp [hf])) h4
    exact ⟨g, by simp only [branchEvent, List.foldlM_cons, bind, Except.bind, h1, h3]; exact h5, h6⟩

theorem branchEvents_total : ∀ {conds before : List Ev}, (∀ f ∈ before, Γ.Plain f ∧ f.All NomSome) → (∀ f ∈ conds, Γ.Plain f ∧ f.All NomSome) →
    ∃ gs, branchEvents c before conds = .ok gs ∧ ∀ g ∈ gs, Γ.Plain g
  | [], before, _, _ => ⟨[], rfl, by simp⟩
  | e :: conds, before, hb, hcd => by
    obtain ⟨x, h1, h2⟩ := branchEvent_total (c := c) hb (hcd e (by simp)).1
    obtain ⟨xs, h3, h4⟩ := branchEvents_total (before := before ++ [e]) (conds := conds) (by
      intro f hf; simp at hf; rcases hf with hf | rfl
      · exact hb f hf
      · exact hcd f (by simp)) (fun f hf => hcd f (by simp [hf]))
    refine ⟨x :: xs, by simp only [branchEvents, h1, h3, bind, Except.bind], fun g hg => ?_⟩
    rcases List.mem_cons.1 hg with rfl | hg
    · exact h2
    · exact h4 g hg

theorem lors_total : ∀ {es : List Ev} {e : Ev}, Γ.Plain e → (∀ f ∈ es, Γ.Plain f) → ∃ u, es.foldlM (fun x f => x.lor c f) e = .ok u ∧ Γ.Plain u
  | [], e, he, _ => ⟨e, rfl, he⟩
  | f :: es, e, he, hes => by
    obtain ⟨x, h1, h2⟩ := he.lor (c := c) (hes f (by simp))
    obtain ⟨u, h3, h4⟩ := lors_total (es := es) h2 (fun f hf => hes f (by simp [hf]))
    exact ⟨u, by simp only [List.foldlM_cons, bind, Except.bind, h1]; exact h3, h4⟩

theorem ifEvents_total {m : Measure Asg} {conds : List Ev} {els : Bool} (hne : conds ≠ []) (hcd : ∀ f ∈ conds, Γ.Plain f) (hfit : ∀ f ∈ conds, f.Fits c m) :
    ∃ gs, ifEvents c conds els = .ok gs ∧ ∀ g ∈ gs, Γ.Plain g := by
  obtain ⟨xs, h1, h2⟩ := branchEvents_total (c := c) (before := []) (by simp) (fun f hf => ⟨hcd f hf, (hfit f hf).some⟩)
  unfold ifEvents
  cases els with
  | false =>
    rw [if_neg (by simp), if_neg hne]
    exact ⟨xs, h1, h2⟩
  | true =>
    rw [if_pos rfl]
    simp only [h1, bind, Except.bind]
    cases conds with
    | nil => exact absurd rfl hne
    | cons e es =>
      obtain ⟨u, h3, h4⟩ := lors_total (c := c) (es := es) (hcd e (by simp)) (fun f hf => hcd f (by simp [hf]))
      have h5 := (lors_ok (hfit e (by simp)) (fun f hf => hfit f (by simp [hf])) h3).1
      obtain ⟨v, h6, h7⟩ := h4.not (c := c) h5.some
      refine ⟨xs ++ [v], by simp only [h3, h6], fun g hg => ?_⟩
      rcases List.mem_append.1 hg with hg | hg
      · exact h2 g hg
      · rw [List.mem_singleton.1 hg]; exact h7

theorem half_not {e g : Ev} (he : e.Half) (h : e.not c = .ok g) : g.Single := by
  cases he with
  | @below k b o =>
    simp only [Ev.not, SSet.invert, Piece.invert, Ivl.invert, if_true, bind, Except.bind] at h
    split at h; · cases h
    rename_i r hr
    split at hr
    · cases hr; cases h; exact ⟨k, rfl⟩
    · split at hr; · cases hr
      cases hr; cases h; exact ⟨k, rfl⟩
  | @above k a o =>
    simp only [Ev.not, SSet.invert, Piece.invert, Ivl.invert, if_true, bind, Except.bind] at h
    split at h; · cases h
    rename_i r hr
    split at hr
    · cases hr; cases h; exact ⟨k, rfl⟩
    · split at hr; · cases hr
      cases hr; cases h; exact ⟨k, rfl⟩
  | @str k n =>
    simp only [Ev.not, SSet.invert, optNom, Piece.invert, bind, Except.bind] at h
    split at h; · cases h
    rename_i r hr
    unfold notNom at h
    repeat' (split at h)
    all_goals first | (cases h; done) | (cases h; exact ⟨k, rfl⟩)

theorem half_single {e : Ev} (he : e.Half) : e.Single := by
  cases he with
  | @below k b o => exact ⟨k, rfl⟩
  | @above k a o => exact ⟨k, rfl⟩
  | @str k n => exact ⟨k, rfl⟩

theorem ifEvents_half {e : Ev} {els : Bool} {gs : List Ev} (he : e.Half) (h : ifEvents c [e] els = .ok gs) : ∀ g ∈ gs, g.Single := by
  have h1 : branchEvents c [] [e] = .ok [e] := by simp [branchEvents, branchEvent, bind, Except.bind, pure, Except.pure]
  unfold ifEvents at h
  cases els with
  | false =>
    rw [if_neg (by simp), if_neg (by simp), h1] at h
    cases h
    intro g hg
    rw [List.mem_singleton.1 hg]; exact half_single he
  | true =>
    rw [if_pos rfl] at h
    simp only [h1, bind, Except.bind, List.foldlM_nil, pure, Except.pure] at h
    split at h; · cases h
    rename_i v hv
    cases h
    intro g hg
    simp at hg
    rcases hg with rfl | rfl
    · exact half_single he
    · exact half_not he hv

theorem normalize_branch (hc : c.Correct) {m : Measure Asg} {e : Ev} {E : Set Asg} (hst : Stands c m e E) (he : Γ.Plain e) (ht : Γ.tall = true ∨ e.Single) :
    ∃ d, (∀ n, dnfNormalize c n e = .ok d) ∧ Branch c m Γ d E := by
  obtain ⟨d, h1, h2⟩ := C14_total hc he.simple
  have k := normalized (o := ⟨c, ⟨fun _ _ => 0, fun _ _ => 0, fun _ _ => 0⟩, fun _ => 0, 0, .ok⟩) hc (List.Forall₂.cons hst .nil) (.cons (h1 0) .nil)
  cases k with
  | cons k _ =>
  refine ⟨d, h1, k.1, fun r hr => ⟨k.2 r hr, .inl ⟨⟨h2 r hr, ?_⟩, ?_⟩⟩⟩
  · have := (dnfNormalize_ok hc hst.usable.made (h1 0)).2 r hr
    exact (normOK_set this.1).1.trans he.base
  · rcases ht with ht | ht
    · exact .inl ht
    · right
      obtain ⟨v, hv⟩ := ht
      have := h1 0
      rw [dnfNormalize, if_pos (lit_idLit hv).1] at this
      cases this
      cases hr
      exact ⟨v, hv⟩

/-- The other side of a comparison with a number. -/
theorem cut_not {k : String} {e : Ev} (he : e.Cut k) : ∃ g, e.not c = .ok g ∧ g.Cut k := by
  cases he with
  | @below b o =>
    refine ⟨.ivl (.id k) ⟨(b : EReal), ⊤, !o, true⟩, ?_, .above⟩
    simp [Ev.not, SSet.invert, Piece.invert, Ivl.invert, mkIvl, bind, Except.bind, EReal.coe_lt_top]
    rfl
  | @above a o =>
    refine ⟨.ivl (.id k) ⟨⊥, (a : EReal), true, !o⟩, ?_, .below⟩
    simp [Ev.not, SSet.invert, Piece.invert, Ivl.invert, mkIvl, bind, Except.bind, EReal.bot_lt_coe]
    rfl

theorem cut_bent {k : String} {e : Ev} (hk : k ∈ Γ.curv) (he : e.Cut k) : Γ.Bent e := by
  have hlit : e.ChainLit k := by
    cases he with
    | below => exact .ivl .id (by constructor <;> simp)
    | above => exact .ivl .id (by constructor <;> simp)
  have hlive : e.Live := by
    cases he with
    | @below b o => exact .inl ⟨fun _ => some (.num (b - 1)), by cases o <;> simp [Ev.holds, Ev.holdsB, Tr.eval, Ivl.Mem, -EReal.coe_sub, -EReal.coe_add]⟩
    | @above a o => exact .inl ⟨fun _ => some (.num (a + 1)), by cases o <;> simp [Ev.holds, Ev.holdsB, Tr.eval, Ivl.Mem, -EReal.coe_sub, -EReal.coe_add]⟩
  have hs : e.symbols ⊆ Γ.curv := by cases he <;> simpa [Ev.symbols, Tr.symbols] using hk
  exact ⟨.curve hk (fun _ => .inl hk) hlit hlive, by cases he <;> trivial, hs.trans Finset.subset_union_right, .inr ⟨.lit ⟨k, hlit⟩, hs⟩⟩

theorem ifEvents_cut {k : String} {e : Ev} {els : Bool} (he : e.Cut k) : ∃ gs, ifEvents c [e] els = .ok gs ∧ ∀ g ∈ gs, g.Cut k := by
  have h1 : branchEvents c [] [e] = .ok [e] := by simp [branchEvents, branchEvent, bind, Except.bind, pure, Except.pure]
  unfold ifEvents
  cases els with
  | false =>
    rw [if_neg (by simp), if_neg (by simp), h1]
    exact ⟨_, rfl, by intro g hg; rw [List.mem_singleton.1 hg]; exact he⟩
  | true =>
    rw [if_pos rfl]
    obtain ⟨v, hv, hcv⟩ := cut_not (c := c) he
    simp only [h1, hv, bind, Except.bind, List.foldlM_nil, pure, Except.pure]
    refine ⟨_, rfl, fun g hg => ?_⟩
    simp at hg
    rcases hg with rfl | rfl
    · exact he
    · exact hcv

/-- The events of the branches, and what they become. -/
theorem tests_events (hc : c.Correct) {m : Measure Asg} {conds : List Ev} {els : Bool} (hne : conds ≠ []) (h : Γ.Tests c conds) (hfit : ∀ f ∈ conds, f.Fits c m) :
    ∃ gs, ifEvents c conds els = .ok gs ∧ ∀ g ∈ gs, ∀ E, Stands c m g E → ∃ d, (∀ n, dnfNormalize c n g = .ok d) ∧ Branch c m Γ d E := by
  rcases h with ⟨h2, h3⟩ | ⟨hli, k, e, rfl, hk, he⟩
  · obtain ⟨gs, k1, k2⟩ := ifEvents_total (c := c) (els := els) hne h2 hfit
    refine ⟨gs, k1, fun g hg E hst => normalize_branch hc hst (k2 g hg) ?_⟩
    rcases h3 with h | ⟨e, rfl, he⟩
    · exact .inl h
    · exact .inr (ifEvents_half he k1 g hg)
  · obtain ⟨gs, k1, k2⟩ := ifEvents_cut (c := c) (els := els) he
    refine ⟨gs, k1, fun g hg E hst => ⟨some g, fun n => ?_, by simp, fun r hr => ?_⟩⟩
    · have hb : g.basic? = some (.id k) := by cases k2 g hg <;> rfl
      rw [dnfNormalize, if_pos (lit_idLit hb).1]
    · cases hr
      exact ⟨hst, .inr ⟨hli, cut_bent hk (k2 g hg)⟩⟩

/-! ## Programs -/

/-- The command returns, from any state of the scope. -/
def ReturnsO (o : Opts) (μ : Dist → Measure ℝ) (Γ Δ : Scope) (m : Measure Asg) (p : Cmd) : Prop :=
  ∀ s, StateO o.c o.L μ Γ m s → ∃ N s', (∀ n, N ≤ n → p.interp { o with n := n } s = .ok s') ∧ StateO o.c o.L μ Δ (p.sem μ m) s' ∧ (s.isSome = true → s'.isSome = true)

theorem start_ae {P : Asg → Prop} (h : ∀ᵐ ω ∂start, P ω) : P (fun _ => none) := by
  by_contra h0
  have h1 : start {ω | ¬ P ω} = 0 := h
  have h2 := Measure.le_dirac_apply (s := {ω | ¬ P ω}) (a := (fun _ => none : Asg))
  rw [Set.indicator_of_mem (by exact h0)] at h2
  unfold start at h1
  rw [h1] at h2
  simp at h2

theorem not_start {e : Ev} (h : Usable c start e) : False := by
  have h1 := suits_defined (start_ae h.suits)
  obtain ⟨k, hk⟩ := (Made.symbols_nonempty c).2 e h.made
  exact h1 k hk rfl

theorem safeB_mem {m : Measure Asg} : ∀ {cmds : List Cmd} {Es : List (Set Asg)}, Cmd.SafeB c L μ cmds Es m → ∀ q ∈ cmds.zip Es, m q.2 ≠ 0 → q.1.Safe c L μ (m[|q.2])
  | [], _, _, q, hq => by simp at hq
  | _ :: _, [], _, q, hq => by simp at hq
  | p :: ps, E :: Es, h, q, hq => by
    simp only [Cmd.SafeB] at h
    rw [List.zip_cons_cons, List.mem_cons] at hq
    rcases hq with rfl | hq
    · exact h.1
    · exact safeB_mem h.2 q hq

/-- From a run with one depth bound to all larger ones. -/
theorem returns_of {o : Opts} (hc : o.c.Correct) (hsimp : SimpOK o.c o.L μ o.simp) {m : Measure Asg} {p : Cmd} (hp : p.Safe o.c o.L μ m) {s : Spe} (hs : State o.c o.L μ Γ m s) {N : ℕ} {t : Spe}
    (h : p.interp { o with n := N } (some s) = .ok (some t)) (h1 : t.symbols = Δ.vars) (h2 : t.Lv Δ.Leaf) (h3 : Δ.tall = true → t.Tall) :
    ∃ N s', (∀ n, N ≤ n → p.interp { o with n := n } (some s) = .ok s') ∧ StateO o.c o.L μ Δ (p.sem μ m) s' ∧ ((some s).isSome = true → s'.isSome = true) := by
  refine ⟨N, some t, fun n hn => ?_, ?_, fun _ => rfl⟩
  · rw [(C51_program o p (some s) N n).2 hn (by rw [h]; simp), h]
  · have : Rep o.c o.L μ (p.sem μ m) t := interp_ok (o := { o with n := N }) hc hsimp p m hp (some s) (some t) hs.rep h
    exact ⟨this, h1, h2, h3⟩

theorem returns_block {o : Opts} {m : Measure Asg} {p : Cmd} (h : ReturnsO o μ Γ Δ m p) : Returns o μ Γ Δ m p := by
  intro s hs
  obtain ⟨N, s', h1, h2, h3⟩ := h (some s) hs
  cases s' with
  | none => simp at h3
  | some t => exact ⟨N, t, h1, h2⟩

theorem lv_add {X : String} {d : Source} {s : Spe} (hs : s.WF c L μ) (hX : X ∉ s.symbols) : s.Lv Γ.Leaf → s.Lv (Γ.add X d).Leaf := by
  induction hs with
  | @real k X' d' supp cond env h1 h2 h3 h4 h5 h6 =>
    intro hl
    have hXe : X ∉ env.map Prod.fst := by simpa [Spe.symbols] using hX
    have hX' : X' ≠ X := by
      rintro rfl
      exact hXe (by simpa [Env.keys] using h2.built.base_mem)
    cases hl with
    | real h =>
    have hv : ∀ s ∈ env.map Prod.fst, s ∈ (Γ.add X d).curv ↔ s ∈ Γ.curv := by
      intro s hs
      have hsX : s ≠ X := by rintro rfl; exact hXe hs
      simp only [Scope.add]
      split <;> simp [hsX]
    refine .real ⟨fun s hs hm => ?_, fun hk hm => ?_, h.2.2.imp (fun h3 => ⟨fun s hs => (hv s hs).2 (h3.1 s hs), h3.2⟩) (fun h3 s hs hm => h3 s hs ((hv s hs).1 hm))⟩
    · rcases Finset.mem_insert.1 hs with rfl | hs
      · exact absurd hm hXe
      · exact h.1 s hs hm
    · refine h.2.1 hk ?_
      simp only [Scope.add] at hm
      split at hm
      · exact (Finset.mem_insert.1 hm).resolve_left hX'
      · exact Finset.mem_of_mem_erase hm
  | atomic => intro hl; cases hl with | atomic h => exact h.elim
  | @nominal X' dist =>
    intro hl
    cases hl with
    | nominal h =>
    have hX' : X' ≠ X := by rintro rfl; exact hX (by simp [Spe.symbols])
    refine .nominal ⟨fun hm => h.1 ?_, fun hm => h.2 ?_⟩
    all_goals
      simp only [Scope.add] at hm
      split at hm
      · exact (Finset.mem_insert.1 hm).resolve_left hX'
      · exact Finset.mem_of_mem_erase hm
  | @sum cs ws S h1 hne hl hw0 hs hS ih =>
    intro hl
    rw [symbols_sum hne hS] at hX
    cases hl with
    | sum hl => exact .sum (fun s hs => ih s hs (by rw [hS s hs]; exact hX) (hl s hs))
  | @prod cs h1 hne hd ih =>
    intro hl
    cases hl with
    | prod h0 hl => exact .prod h0 (fun s hs => ih s hs (fun h => hX (Spe.mem_symbols_prod.2 ⟨s, hs, h⟩)) (hl s hs))

theorem sample_returns {o : Opts} (hc : o.c.Correct) (hsimp : SimpOK o.c o.L μ o.simp) {m : Measure Asg} {X : String} {d : Source} (hX : X ∉ Γ.vars) (hd : d.Callable) (hp : d.WF o.L μ) :
    ReturnsO o μ Γ (Γ.add X d) m (.sample X d) := by
  intro s hs
  have hsafe : (Cmd.sample X d).Safe o.c o.L μ m := by simpa [Cmd.Safe] using hp
  obtain ⟨leaf, hleaf⟩ := Source.call_total (L := o.L) (X := X) hd hp
  obtain ⟨k1, k2⟩ := source_ok (c := o.c) hp hleaf
  have hlv : leaf.Lv (Γ.add X d).Leaf := by
    refine Source.call_leaf hleaf (by simp [Scope.add]) (fun h => ?_) (fun h => ?_) (fun h => ?_)
    · simp only [Scope.add] at h
      split at h
      · assumption
      · simp at h
    · simp only [Scope.add] at h
      split at h
      · assumption
      · simp at h
    · simp only [Scope.add] at h
      split at h
      · assumption
      · simp at h
  cases s with
  | none =>
    obtain ⟨rfl, hv⟩ := hs
    have h0 : ∀ n, (Cmd.sample X d).interp { o with n := n } none = .ok (some leaf) := fun n => by simp [Cmd.interp, hleaf, bind, Except.bind]
    refine ⟨0, some leaf, fun n _ => h0 n, ?_, by simp⟩
    have : Rep o.c o.L μ ((Cmd.sample X d).sem μ start) leaf := interp_ok hc hsimp _ start hsafe none (some leaf) rfl (h0 o.n)
    exact ⟨this, by rw [k2]; simp [Scope.add, hv], hlv, fun h => by simp [Scope.add, hv] at h⟩
  | some s =>
    replace hs : State o.c o.L μ Γ m s := hs
    have hXs : X ∉ s.symbols := by rw [hs.vars]; exact hX
    have hwf : ∀ t ∈ [s, leaf], t.WF o.c o.L μ := by
      intro t ht; simp at ht; rcases ht with rfl | rfl
      · exact hs.rep.wf
      · exact k1.wf
    obtain ⟨t, ht⟩ := mkProd_total hwf (by simp) (by simpa [k2] using hXs)
    have hall : ∀ t ∈ [s, leaf], t.Lv (Γ.add X d).Leaf := by
      intro t ht; simp at ht; rcases ht with rfl | rfl
      · exact lv_add hs.rep.wf hXs hs.lv
      · exact hlv
    obtain ⟨g1, g2, -, -, g3, -, g4⟩ := mkProd_ok hwf ht
    refine returns_of (N := 0) hc hsimp hsafe hs (t := t) (by simp [Cmd.interp, hleaf, ht, bind, Except.bind]) ?_ (mkProd_lv hall ht) (fun _ => .inl (mkProd_two hall (by simp) ht))
    rw [g2]
    ext x
    simp [Spe.symbols, Spe.symbolsL, k2, Scope.add, hs.vars, or_comm]

theorem transform_return {o : Opts} (hc : o.c.Correct) (hsimp : SimpOK o.c o.L μ o.simp) {m : Measure Asg} {X Y : String} {t : Tr} (ht : t.symbols = {X}) (hX : X ∈ Γ.vars) (hn : X ∈ Γ.nums) (hY : Y ∉ Γ.vars)
    (hp : (Cmd.transform Y t).Safe o.c o.L μ m) : ReturnsO o μ Γ (Γ.derive Y t) m (.transform Y t) := by
  intro s hs
  cases s with
  | none => rw [hs.2] at hX; simp at hX
  | some s =>
    replace hs : State o.c o.L μ Γ m s := hs
    have hp' := hp
    simp only [Cmd.Safe] at hp'
    have hct := canTransform hp'.1 hs.rep.wf (hs.rep.ready (fun _ => [])) hs.rep.atoms (by rw [hs.rep.den]; exact hp'.2)
    have hYs : Y ∉ s.symbols := by rw [hs.vars]; exact hY
    obtain ⟨r, hr⟩ := transform_returns ht hp'.1 hn hs.rep.wf hct hs.lv (by rw [hs.vars]; exact hX) hYs
    obtain ⟨k1, -, k3⟩ := transform_shape (by rw [ht]; simp) hs.rep.wf hs.lv hYs hr
    refine returns_of (N := 0) hc hsimp hp hs (t := r) (by simp [Cmd.interp, needSpe, hr, bind, Except.bind]) ?_ k1 (fun h => k3 (hs.tall h))
    rw [(transform_ok hp'.1 hs.rep.wf hct hr).syms, hs.vars]; rfl

theorem seq_interp (o : Opts) (p : Cmd) (ps : List Cmd) (s : Option Spe) : (Cmd.seq (p :: ps)).interp o s = (p.interp o s).bind (fun x => (Cmd.seq ps).interp o x) := by
  simp only [Cmd.interp, Cmd.interpL, List.foldlM_cons]; rfl

theorem runs_total {o : Opts} (hc : o.c.Correct) (hsimp : SimpOK o.c o.L μ o.simp) (hrun : SimpRuns o.c o.L μ o.simp) {m : Measure Asg} {p : Cmd} (h : Runs o.c μ Γ m p Δ) :
    p.Safe o.c o.L μ m → ReturnsO o μ Γ Δ m p := by
  induction h with
  | skip => intro _ s hs; exact ⟨0, s, fun n _ => by simp [Cmd.interp], by simpa [Cmd.sem] using hs, fun h => h⟩
  | sample hX hd => intro hp; exact sample_returns hc hsimp hX hd (by simpa [Cmd.Safe] using hp)
  | transform h1 h2 h3 h4 => intro hp; exact transform_return hc hsimp h1 h2 h3 h4 hp
  | @condition Γ m e h1 h3 =>
    intro hp s hs
    have hf : e.Fits o.c m := by simpa [Cmd.Safe] using hp
    cases s with
    | none => rw [hs.1] at hf; exact (not_start hf.usable).elim
    | some s =>
      obtain ⟨N, s', k1, k2⟩ := State.condition (hash := o.hash) hc hs h1 hf.usable h3
      exact ⟨N, some s', fun n hn => by simp [Cmd.interp, needSpe, k1 n hn, bind, Except.bind], by rw [Cmd.sem]; exact k2, fun _ => rfl⟩
  | @ifelse Γ Δ m conds els cmds h1 h2 h4 h5 h6 _ ih =>
    intro hp s hs
    have hp' := hp
    simp only [Cmd.Safe] at hp'
    cases s with
    | none =>
      obtain ⟨e, he⟩ := List.exists_mem_of_ne_nil _ h1
      have := (hp'.1 e he).usable
      rw [hs.1] at this
      exact (not_start this).elim
    | some s =>
      replace hs : State o.c o.L μ Γ m s := hs
      obtain ⟨gs, k1, k2⟩ := tests_events (els := els) hc h1 h2 hp'.1
      have k3 := ifEvents_ok hp'.1 k1
      have k5 : ∃ ds, (∀ n, gs.mapM (dnfNormalize o.c n) = .ok ds) ∧ List.Forall₂ (Branch o.c m Γ) ds (firsts ∅ (condSets conds els)) := by
        clear k1 ih
        generalize firsts ∅ (condSets conds els) = Es at k3
        induction k3 with
        | nil => exact ⟨[], fun n => rfl, .nil⟩
        | cons hst _ ih =>
          obtain ⟨d, d1, d2⟩ := k2 _ (by simp) _ hst
          obtain ⟨ds, d3, d4⟩ := ih (fun g hg => k2 g (by simp [hg]))
          exact ⟨d :: ds, fun n => by simp [List.mapM_cons, d1 n, d3 n, bind, Except.bind, pure, Except.pure], .cons d2 d4⟩
      obtain ⟨ds, d1, d2⟩ := k5
      obtain ⟨N, hN⟩ := block_total hc hrun hs d2 h4 h5 h6 (fun q hq hm => returns_block (ih q hq hm (safeB_mem hp'.2 q hq hm)))
      obtain ⟨t, t1, t2, t3, t4⟩ := hN N le_rfl
      refine returns_of (N := N) hc hsimp hp hs (t := t) ?_ t2 t3 (fun _ => t4)
      rw [Cmd.interp]
      simp only [needSpe, k1, d1, t1, bind, Except.bind]
  | @switch Γ Δ m X vals cmds h1 h2 h3 h4 h5 h6 _ ih =>
    intro hp s hs
    have hp' := hp
    simp only [Cmd.Safe] at hp'
    cases s with
    | none => exact (h5 hs.2).elim
    | some s =>
      replace hs : State o.c o.L μ Γ m s := hs
      obtain ⟨es, k1, k2⟩ := cases_events o.c h2 h1
      have k3 := switchEvents_ok hp'.1 k1
      have d2 : List.Forall₂ (Branch o.c m Γ) (es.map some) (firsts ∅ (caseSets (.id X) vals)) := by
        clear k1 ih
        generalize firsts ∅ (caseSets (.id X) vals) = Es at k3
        induction k3 with
        | nil => exact .nil
        | cons hst _ ih =>
          refine .cons ⟨by simp, fun e he => ?_⟩ (ih (fun g hg => k2 g (by simp [hg])))
          cases he
          exact ⟨hst, .inl ⟨(k2 _ (by simp)).1, .inr (k2 _ (by simp)).2⟩⟩
      obtain ⟨N, hN⟩ := block_total hc hrun hs d2 (by simp [caseSets, h3]) h4 h6 (fun q hq hm => returns_block (ih q hq hm (safeB_mem hp'.2 q hq hm)))
      obtain ⟨t, t1, t2, t3, t4⟩ := hN N le_rfl
      refine returns_of (N := N) hc hsimp hp hs (t := t) ?_ t2 t3 (fun _ => t4)
      rw [Cmd.interp]
      simp only [k1, t1, bind, Except.bind]
  | @forr m n0 n1 f Γ _ ih =>
    intro hp s hs
    simp only [Cmd.Safe] at hp
    have key : ∀ K, K ≤ (n1 - n0).toNat → ∃ N s', (∀ n, N ≤ n → ((List.range K).map (fun k : ℕ => n0 + (k : ℤ))).foldlM (fun s i => (f i).interp { o with n := n } s) s = .ok s') ∧
        StateO o.c o.L μ (Γ K) ((List.range K).foldl (fun m (k : ℕ) => (f (n0 + (k : ℤ))).sem μ m) m) s' ∧ (s.isSome = true → s'.isSome = true) := by
      intro K
      induction K with
      | zero => intro _; exact ⟨0, s, fun n _ => rfl, hs, fun h => h⟩
      | succ K ihK =>
        intro hK
        obtain ⟨N1, s1, a1, a2, a3⟩ := ihK (by omega)
        obtain ⟨N2, s2, b1, b2, b3⟩ := ih K (by omega) (hp K (by omega)) s1 a2
        refine ⟨max N1 N2, s2, fun n hn => ?_, ?_, fun h => b3 (a3 h)⟩
        · have e1 := a1 n (by omega)
          have e2 := b1 n (by omega)
          simp only [List.range_succ, List.map_append, List.foldlM_append, List.map_cons, List.map_nil, bind, Except.bind, e1]
          simp only [List.foldlM_cons, List.foldlM_nil, bind, Except.bind, pure, Except.pure, e2]
        · simp only [List.range_succ, List.foldl_append, List.foldl_cons, List.foldl_nil]
          exact b2
    obtain ⟨N, s', a1, a2, a3⟩ := key _ le_rfl
    exact ⟨N, s', fun n hn => by rw [Cmd.interp, intRange]; exact a1 n hn, by simpa [Cmd.sem] using a2, a3⟩
  | nil => intro _ s hs; exact ⟨0, s, fun n _ => by simp [Cmd.interp, Cmd.interpL, pure, Except.pure], by simpa [Cmd.sem, Cmd.semL] using hs, fun h => h⟩
  | @cons Γ Δ Θ m p ps _ _ ih1 ih2 =>
    intro hp s hs
    simp only [Cmd.Safe, Cmd.SafeS] at hp
    obtain ⟨N1, s1, a1, a2, a3⟩ := ih1 hp.1 s hs
    obtain ⟨N2, s2, b1, b2, b3⟩ := ih2 (by simpa [Cmd.Safe] using hp.2) s1 a2
    refine ⟨max N1 N2, s2, fun n hn => ?_, ?_, fun h => b3 (a3 h)⟩
    · rw [seq_interp, a1 n (by omega)]
      exact b1 n (by omega)
    · simpa [Cmd.sem, Cmd.semL] using b2
  | @less Γ Δ Θ m p _ hl ih =>
    intro hp s hs
    obtain ⟨N, s', a1, a2, a3⟩ := ih hp s hs
    refine ⟨N, s', a1, ?_, a3⟩
    cases s' with
    | none => exact ⟨a2.1, by rw [hl.vars]; exact a2.2⟩
    | some t => exact State.less a2 hl

end Sppl
