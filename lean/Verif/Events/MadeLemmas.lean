import Verif.Events.SubstLemmas
import Verif.Sets.TotalLemmas

set_option linter.all false

/-!
# Helper lemmas: what the Boolean operators preserve
-/

namespace Sppl
open Classical
variable {r0 : Bool}

/-- Every basic event occurring in the event satisfies `P`. -/
inductive Ev.All (P : Ev → Prop) : Ev → Prop
  | lit {e t} : e.basic? = some t → P e → Ev.All P e
  | or {es} : (∀ e ∈ es, Ev.All P e) → Ev.All P (.or es)
  | and {es} : (∀ e ∈ es, Ev.All P e) → Ev.All P (.and es)

theorem Ev.all_lit {P : Ev → Prop} {e : Ev} {t : Tr} (h : e.basic? = some t) : e.All P ↔ P e := by
  constructor
  · intro ha
    cases ha with
    | lit _ hp => exact hp
    | or => simp [Ev.basic?] at h
    | and => simp [Ev.basic?] at h
  · exact .lit h

@[simp] theorem Ev.all_ivl {P : Ev → Prop} {t : Tr} {i} : (Ev.ivl t i).All P ↔ P (.ivl t i) := Ev.all_lit rfl
@[simp] theorem Ev.all_fin {P : Ev → Prop} {t : Tr} {i} : (Ev.fin t i).All P ↔ P (.fin t i) := Ev.all_lit rfl
@[simp] theorem Ev.all_nom {P : Ev → Prop} {t : Tr} {i} : (Ev.nom t i).All P ↔ P (.nom t i) := Ev.all_lit rfl
@[simp] theorem Ev.all_or {P : Ev → Prop} {es : List Ev} : (Ev.or es).All P ↔ ∀ e ∈ es, e.All P := by
  constructor
  · intro h
    cases h with
    | lit h => simp [Ev.basic?] at h
    | or h => exact h
  · exact .or
@[simp] theorem Ev.all_and {P : Ev → Prop} {es : List Ev} : (Ev.and es).All P ↔ ∀ e ∈ es, e.All P := by
  constructor
  · intro h
    cases h with
    | lit h => simp [Ev.basic?] at h
    | and h => exact h
  · exact .and

/-- Induction on events. -/
theorem Ev.ind {Q : Ev → Prop} (lit : ∀ e t, e.basic? = some t → Q e)
    (or : ∀ es, (∀ e ∈ es, Q e) → Q (.or es)) (and : ∀ es, (∀ e ∈ es, Q e) → Q (.and es)) : ∀ e, Q e := by
  refine (sizeInd (P := fun _ => True) (Q := Q) (fun _ _ _ => trivial) ?_).2
  intro e _ ih
  cases e with
  | or es => exact or es (fun e he => ih e (Ev.sizeOf_or he))
  | and es => exact and es (fun e he => ih e (Ev.sizeOf_and he))
  | ivl => exact lit _ _ rfl
  | fin => exact lit _ _ rfl
  | nom => exact lit _ _ rfl

theorem Ev.All.mono {P Q : Ev → Prop} {e : Ev} (h : e.All P) (hPQ : ∀ l t, l.basic? = some t → P l → Q l) : e.All Q := by
  induction h with
  | lit h1 h2 => exact .lit h1 (hPQ _ _ h1 h2)
  | or _ ih => exact .or ih
  | and _ ih => exact .and ih

theorem Ev.All.and' {P Q : Ev → Prop} {e : Ev} (h : e.All P) (h' : e.All Q) : e.All (fun l => P l ∧ Q l) := by
  induction h with
  | lit h1 h2 => exact .lit h1 ⟨h2, (Ev.all_lit h1).1 h'⟩
  | or _ ih => exact .or (fun e he => ih e he (Ev.all_or.1 h' e he))
  | and _ ih => exact .and (fun e he => ih e he (Ev.all_and.1 h' e he))

theorem Ev.all_conjuncts {P : Ev → Prop} {e : Ev} : (∀ x ∈ e.conjuncts, x.All P) ↔ e.All P := by
  cases e <;> simp [Ev.conjuncts]
theorem Ev.all_disjuncts {P : Ev → Prop} {e : Ev} : (∀ x ∈ e.disjuncts, x.All P) ↔ e.All P := by
  cases e <;> simp [Ev.disjuncts]

theorem Ev.land_all {P : Ev → Prop} {c : Ctx} (hP : ∀ e f g, P e → P f → Ev.simplify (SSet.and c.σ) e f = .ok (some g) → P g)
    {e f g : Ev} (he : e.All P) (hf : f.All P) (h : e.land c f = .ok g) : g.All P := by
  unfold Ev.land at h
  simp only [bind, Except.bind] at h
  split at h; · cases h
  rename_i o ho
  cases o with
  | none =>
    cases h
    refine Ev.all_and.2 (fun x hx => ?_)
    rcases List.mem_append.1 hx with h | h
    · exact Ev.all_conjuncts.2 he x h
    · exact Ev.all_conjuncts.2 hf x h
  | some g' =>
    cases h
    obtain ⟨t, r, h1, h2, -, h4, -⟩ := Ev.simplify_some ho
    exact .lit h4 (hP e f _ ((Ev.all_lit h1).1 he) ((Ev.all_lit h2).1 hf) ho)

theorem Ev.lor_all {P : Ev → Prop} {c : Ctx} (hP : ∀ e f g, P e → P f → Ev.simplify (SSet.or c.σ) e f = .ok (some g) → P g)
    {e f g : Ev} (he : e.All P) (hf : f.All P) (h : e.lor c f = .ok g) : g.All P := by
  unfold Ev.lor at h
  simp only [bind, Except.bind] at h
  split at h; · cases h
  rename_i o ho
  cases o with
  | none =>
    cases h
    refine Ev.all_or.2 (fun x hx => ?_)
    rcases List.mem_append.1 hx with h | h
    · exact Ev.all_disjuncts.2 he x h
    · exact Ev.all_disjuncts.2 hf x h
  | some g' =>
    cases h
    obtain ⟨t, r, h1, h2, -, h4, -⟩ := Ev.simplify_some ho
    exact .lit h4 (hP e f _ ((Ev.all_lit h1).1 he) ((Ev.all_lit h2).1 hf) ho)

theorem reduceM_ind {α : Type} {Q : α → Prop} {f : α → α → Res α} (hf : ∀ x y z, Q x → Q y → f x y = .ok z → Q z)
    {l : List α} (hl : ∀ x ∈ l, Q x) {r : α} (h : reduceM f l = .ok r) : Q r := by
  have key : ∀ (l : List α), (∀ e ∈ l, Q e) → ∀ s, Q s → ∀ {g}, l.foldlM f s = .ok g → Q g := by
    intro l
    induction l with
    | nil => intro _ s hs g h; simp [pure, Except.pure] at h; subst h; exact hs
    | cons x l ih =>
      intro hl s hs g h
      simp only [List.foldlM_cons, bind, Except.bind] at h
      split at h; · cases h
      rename_i s' hs'
      exact ih (fun e he => hl e (by simp [he])) s' (hf _ _ _ hs (hl x (by simp)) hs') h
  cases l with
  | nil => simp [reduceM] at h
  | cons x l => exact key l (fun e he => hl e (by simp [he])) x (hl x (by simp)) h

theorem Ev.notL_ok {c : Ctx} {es fs : List Ev} (hfs : Ev.notL c es = .ok fs) :
    List.Forall₂ (fun e f => e.not c = .ok f) es fs := by
  induction es generalizing fs with
  | nil => simp [Ev.notL] at hfs; subst hfs; exact .nil
  | cons e es ih =>
    simp only [Ev.notL, bind, Except.bind] at hfs
    split at hfs; · cases hfs
    split at hfs; · cases hfs
    cases hfs
    exact .cons (by assumption) (ih (by assumption))

theorem Ev.not_all' {P Q : Ev → Prop} {c : Ctx} (hA : ∀ e f g, P e → P f → Ev.simplify (SSet.and c.σ) e f = .ok (some g) → P g)
    (hO : ∀ e f g, P e → P f → Ev.simplify (SSet.or c.σ) e f = .ok (some g) → P g)
    (hN : ∀ e g t, e.basic? = some t → Q e → e.not c = .ok g → g.All P) :
    ∀ (e : Ev), e.All Q → ∀ {g : Ev}, e.not c = .ok g → g.All P := by
  refine Ev.ind ?_ ?_ ?_
  · intro e t ht hp g h
    exact hN e g t ht ((Ev.all_lit ht).1 hp) h
  · intro es ih hp g h
    simp only [Ev.not, bind, Except.bind] at h
    split at h; · cases h
    rename_i fs hfs
    have hF := Ev.notL_ok hfs
    refine reduceM_ind (fun x y z hx hy hz => Ev.land_all hA hx hy hz) (fun f hf => ?_) h
    obtain ⟨e, he, hef⟩ := forall₂_mem_right hF hf
    exact ih e he (Ev.all_or.1 hp e he) hef
  · intro es ih hp g h
    simp only [Ev.not, bind, Except.bind] at h
    split at h; · cases h
    rename_i fs hfs
    have hF := Ev.notL_ok hfs
    refine reduceM_ind (fun x y z hx hy hz => Ev.lor_all hO hx hy hz) (fun f hf => ?_) h
    obtain ⟨e, he, hef⟩ := forall₂_mem_right hF hf
    exact ih e he (Ev.all_and.1 hp e he) hef

theorem Ev.not_all {P : Ev → Prop} {c : Ctx} (hA : ∀ e f g, P e → P f → Ev.simplify (SSet.and c.σ) e f = .ok (some g) → P g)
    (hO : ∀ e f g, P e → P f → Ev.simplify (SSet.or c.σ) e f = .ok (some g) → P g)
    (hN : ∀ e g t, e.basic? = some t → P e → e.not c = .ok g → g.All P) :
    ∀ (e : Ev), e.All P → ∀ {g : Ev}, e.not c = .ok g → g.All P := Ev.not_all' hA hO hN

/-- A basic event about strings. -/
def Ev.isNom : Ev → Bool
  | .nom _ _ => true
  | _ => false

/-- Negating a basic event. -/
theorem Ev.not_lit {c : Ctx} {e g : Ev} {t : Tr} (ht : e.basic? = some t) (hv : e.Valid) (h : e.not c = .ok g) :
    g.All (fun l => l.basic? = some t ∧ l.isNom = e.isNom) := by
  have hi : ∀ {u : Un EReal} {l : List Ev} {t : Tr}, ivlArgs t u.args = .ok l →
      (Ev.or l).All (fun l => l.basic? = some t ∧ l.isNom = false) := by
    intro u l t h
    obtain ⟨is, h1, rfl⟩ := ivlArgs_spec h
    refine Ev.all_or.2 (fun x hx => ?_)
    obtain ⟨i, -, rfl⟩ := List.mem_map.1 hx
    exact .lit rfl ⟨rfl, rfl⟩
  cases e with
  | or => simp [Ev.basic?] at ht
  | and => simp [Ev.basic?] at ht
  | ivl t' i =>
    simp [Ev.basic?] at ht; subst ht
    simp only [Ev.not, bind, Except.bind] at h
    split at h; · cases h
    rename_i r hr
    unfold notIvl at h
    split at h
    · cases h; exact .lit rfl ⟨rfl, rfl⟩
    · cases h; exact .lit rfl ⟨rfl, rfl⟩
    · split at h
      · rename_i u _
        cases hl : ivlArgs t' u.args with
        | error e => simp [hl, Except.map] at h
        | ok l => simp [hl, Except.map] at h; subst h; exact hi hl
      · cases h
    · cases h
  | fin t' v =>
    simp [Ev.basic?] at ht; subst ht
    simp only [Ev.not, bind, Except.bind] at h
    split at h; · cases h
    rename_i r hr
    unfold notFin at h
    split at h
    · split at h
      · cases h; exact .lit rfl ⟨rfl, rfl⟩
      · cases h
    · rename_i u
      cases hl : ivlArgs t' u.args with
      | error e => simp [hl, Except.map] at h
      | ok l => simp [hl, Except.map] at h; subst h; exact hi hl
    · cases h
  | nom t' v =>
    simp [Ev.basic?] at ht; subst ht
    simp only [Ev.not, bind, Except.bind] at h
    split at h; · cases h
    rename_i r hr
    unfold notNom at h
    split at h
    · cases h; exact .lit rfl ⟨rfl, rfl⟩
    · cases h; exact .lit rfl ⟨rfl, rfl⟩
    · cases h

/-! ## Predicates that only depend on the compared expression -/

/-- The predicate only depends on the expression of the basic event. -/
def TrOnly (P : Ev → Prop) : Prop := ∀ e f t, e.basic? = some t → f.basic? = some t → P e → P f

theorem TrOnly.and {P : Ev → Prop} (hP : TrOnly P) {op : SSet EReal → SSet EReal → Res (SSet EReal)} :
    ∀ e f g, P e → P f → Ev.simplify op e f = .ok (some g) → P g := by
  intro e f g he hf h
  obtain ⟨t, r, h1, h2, -, h4, -⟩ := Ev.simplify_some h
  exact hP e g t h1 h4 he

theorem TrOnly.not {P : Ev → Prop} (hP : TrOnly P) {c : Ctx} {e g : Ev} (hv : e.Valid) (he : e.All P) (h : e.not c = .ok g) :
    g.All P := by
  have hv' : e.All (fun l => P l ∧ l.Valid) := by
    clear h
    induction he with
    | lit h1 h2 => exact .lit h1 ⟨h2, hv⟩
    | or _ ih => cases hv with | or _ h => exact .or (fun e he => ih e he (h e he))
    | and _ ih => cases hv with | and _ h => exact .and (fun e he => ih e he (h e he))
  have hvl : ∀ {op : SSet EReal → SSet EReal → Res (SSet EReal)}, (∀ a b r : SSet EReal, a.WF → a.Disj → b.WF → b.Disj → op a b = .ok r → r.WF) → ∀ e f g : Ev, (P e ∧ e.Valid) → (P f ∧ f.Valid) → Ev.simplify op e f = .ok (some g) → P g ∧ g.Valid := by
    intro op hop e f g he hf h
    obtain ⟨t, r, h1, h2, h3, h4, h5⟩ := Ev.simplify_some h
    exact ⟨hP.and _ _ _ he.1 hf.1 h, (Ev.valid_basic h4).2 (h5 ▸ hop _ _ _ ((Ev.valid_basic h1).1 he.2) (Ev.values_disj h1) ((Ev.valid_basic h2).1 hf.2) (Ev.values_disj h2) h3)⟩
  refine (Ev.not_all (P := fun l => P l ∧ l.Valid) ?_ ?_ ?_ e hv' h).mono (fun _ _ _ h => h.1)
  · exact hvl (fun a b r h1 h2 h3 h4 h => (SSet.and_spec c.σ a b h1 h2 h3 h4 h).wf)
  · exact hvl (fun a b r h1 h2 h3 h4 h => (SSet.or_spec c.σ a b h1 h2 h3 h4 h).wf)
  · intro e g t ht hp hn
    have hvg := (Ev.not_spec e hp.2 hn).1
    have := Ev.not_lit ht hp.2 hn
    clear hn he hv hv' h
    induction this with
    | lit h1 h2 => exact .lit h1 ⟨hP _ _ _ ht h2.1 hp.1, hvg⟩
    | or _ ih => cases hvg with | or _ h => exact .or (fun e he => ih e he (h e he))
    | and _ ih => cases hvg with | and _ h => exact .and (fun e he => ih e he (h e he))

theorem Ev.regular_all {ω : Asg} {e : Ev} : e.Regular ω ↔ e.All (Ev.Regular ω) := by
  refine Ev.ind (Q := fun e => e.Regular ω ↔ e.All (Ev.Regular ω)) ?_ ?_ ?_ e
  · intro e t ht; rw [Ev.all_lit ht]
  · intro es ih
    rw [Ev.Regular, Ev.regularL_iff, Ev.all_or]
    exact forall₂_congr ih
  · intro es ih
    rw [Ev.Regular, Ev.regularL_iff, Ev.all_and]
    exact forall₂_congr ih

theorem Ev.typed_all {ω : Asg} {e : Ev} : e.Typed ω ↔ e.All (Ev.Typed ω) := by
  refine Ev.ind (Q := fun e => e.Typed ω ↔ e.All (Ev.Typed ω)) ?_ ?_ ?_ e
  · intro e t ht; rw [Ev.all_lit ht]
  · intro es ih
    rw [Ev.Typed, Ev.typedL_iff, Ev.all_or]
    exact forall₂_congr ih
  · intro es ih
    rw [Ev.Typed, Ev.typedL_iff, Ev.all_and]
    exact forall₂_congr ih

theorem Ev.symbols_all {A : Finset String} {e : Ev} : e.symbols ⊆ A ↔ e.All (fun l => l.symbols ⊆ A) := by
  refine Ev.ind (Q := fun e => e.symbols ⊆ A ↔ e.All (fun l => l.symbols ⊆ A)) ?_ ?_ ?_ e
  · intro e t ht; rw [Ev.all_lit ht]
  · intro es ih
    rw [Ev.symbols, Ev.all_or]
    constructor
    · intro h e he
      exact (ih e he).1 (fun s hs => h (Ev.mem_symbolsL.2 ⟨e, he, hs⟩))
    · intro h s hs
      obtain ⟨e, he, hs⟩ := Ev.mem_symbolsL.1 hs
      exact (ih e he).2 (h e he) hs
  · intro es ih
    rw [Ev.symbols, Ev.all_and]
    constructor
    · intro h e he
      exact (ih e he).1 (fun s hs => h (Ev.mem_symbolsL.2 ⟨e, he, hs⟩))
    · intro h s hs
      obtain ⟨e, he, hs⟩ := Ev.mem_symbolsL.1 hs
      exact (ih e he).2 (h e he) hs

theorem Ev.valid_all {e : Ev} (h : e.Valid) : e.All Ev.Valid := by
  induction h with
  | ivl h => exact .lit rfl (.ivl h)
  | fin h => exact .lit rfl (.fin h)
  | nom h => exact .lit rfl (.nom h)
  | or _ _ ih => exact .or ih
  | and _ _ ih => exact .and ih

theorem Ev.made_all {c : Ctx} : ∀ {e : Ev}, e.MadeG r0 c ↔ e.Valid ∧ e.All (Ev.MadeG r0 c) := by
  refine @Ev.ind (fun e => e.MadeG r0 c ↔ e.Valid ∧ e.All (Ev.MadeG r0 c)) ?_ ?_ ?_
  · intro e t ht
    rw [Ev.all_lit ht]
    exact ⟨fun h => ⟨Ev.Made.valid e h, h⟩, fun h => h.2⟩
  · intro es ih
    constructor
    · intro h
      refine ⟨Ev.Made.valid _ h, ?_⟩
      cases h with | or h1 h2 => exact .or (fun e he => ((ih e he).1 (h2 e he)).2)
    · rintro ⟨h1, h2⟩
      cases h1 with
      | or h3 h4 => exact .or h3 (fun e he => (ih e he).2 ⟨h4 e he, Ev.all_or.1 h2 e he⟩)
  · intro es ih
    constructor
    · intro h
      refine ⟨Ev.Made.valid _ h, ?_⟩
      cases h with | and h1 h2 => exact .and (fun e he => ((ih e he).1 (h2 e he)).2)
    · rintro ⟨h1, h2⟩
      cases h1 with
      | and h3 h4 => exact .and h3 (fun e he => (ih e he).2 ⟨h4 e he, Ev.all_and.1 h2 e he⟩)

theorem symbols_of_basic {e : Ev} {t : Tr} (h : e.basic? = some t) : e.symbols = t.symbols := by
  cases e <;> simp [Ev.basic?] at h <;> subst h <;> rfl
theorem regular_of_basic {ω : Asg} {e : Ev} {t : Tr} (h : e.basic? = some t) : e.Regular ω ↔ t.Regular ω := by
  cases e <;> simp [Ev.basic?] at h <;> subst h <;> rfl

theorem trOnly_symbols (A : Finset String) : TrOnly (fun l => l.symbols ⊆ A) := by
  intro e f t h1 h2 h; rw [symbols_of_basic h2]; rwa [symbols_of_basic h1] at h
theorem trOnly_regular (ω : Asg) : TrOnly (Ev.Regular ω) := by
  intro e f t h1 h2 h; rw [regular_of_basic h2]; rwa [regular_of_basic h1] at h

theorem Ev.land_symbols {c : Ctx} {e f g : Ev} (h : e.land c f = .ok g) {A : Finset String} (he : e.symbols ⊆ A) (hf : f.symbols ⊆ A) :
    g.symbols ⊆ A := by
  rw [Ev.symbols_all] at *
  exact Ev.land_all (trOnly_symbols A).and he hf h
theorem Ev.lor_symbols {c : Ctx} {e f g : Ev} (h : e.lor c f = .ok g) {A : Finset String} (he : e.symbols ⊆ A) (hf : f.symbols ⊆ A) :
    g.symbols ⊆ A := by
  rw [Ev.symbols_all] at *
  exact Ev.lor_all (trOnly_symbols A).and he hf h
theorem Ev.not_symbols {c : Ctx} {e g : Ev} (hv : e.Valid) (h : e.not c = .ok g) : g.symbols ⊆ e.symbols := by
  have := (Ev.symbols_all (A := e.symbols) (e := e)).1 (le_refl _)
  rw [Ev.symbols_all]
  exact (trOnly_symbols _).not hv this h
theorem Ev.land_regular {c : Ctx} {e f g : Ev} (h : e.land c f = .ok g) {ω : Asg} (he : e.Regular ω) (hf : f.Regular ω) :
    g.Regular ω := by
  rw [Ev.regular_all] at *
  exact Ev.land_all (trOnly_regular ω).and he hf h
theorem Ev.lor_regular {c : Ctx} {e f g : Ev} (h : e.lor c f = .ok g) {ω : Asg} (he : e.Regular ω) (hf : f.Regular ω) :
    g.Regular ω := by
  rw [Ev.regular_all] at *
  exact Ev.lor_all (trOnly_regular ω).and he hf h
theorem Ev.not_regular {c : Ctx} {e g : Ev} (hv : e.Valid) (h : e.not c = .ok g) {ω : Asg} (he : e.Regular ω) : g.Regular ω := by
  rw [Ev.regular_all] at *
  exact (trOnly_regular ω).not hv he h

/-! ## `Made` is preserved -/

theorem Nom.neg_true {n : Nom} : n.b = some true ↔ n.neg = true := by simp [Nom.neg]

theorem nom_has_str {n : Nom} (h : n.WF) : ∃ x, Val.str x ∈ (SSet.pc (Piece.nom n) : SSet EReal).den := by
  by_cases hb : n.b = some true
  · obtain ⟨x, hx⟩ := exists_str_not_mem n.vals
    exact ⟨x, by simp [Piece.den, hb, hx]⟩
  · rcases h with ⟨x, hx⟩ | h
    · exact ⟨x, by simp [Piece.den, hb, hx]⟩
    · exact absurd h hb

/-- Only nominal basic events have strings among their values. -/
theorem Ev.isNom_of_str {e : Ev} {t : Tr} (ht : e.basic? = some t) {x : String} (h : Val.str x ∈ e.values.den) :
    ∃ n, e = .nom t (some n) ∧ Val.str x ∈ (SSet.pc (Piece.nom n) : SSet EReal).den := by
  cases e with
  | or => simp [Ev.basic?] at ht
  | and => simp [Ev.basic?] at ht
  | ivl t' i => simp [Ev.values] at h
  | fin t' v => cases v <;> simp [Ev.values] at h
  | nom t' v =>
    simp [Ev.basic?] at ht; subst ht
    cases v with
    | none => simp [Ev.values] at h
    | some n => exact ⟨n, rfl, by simpa [Ev.values] using h⟩

theorem Ev.simplify_ofSet {op : SSet EReal → SSet EReal → Res (SSet EReal)} {e f g : Ev}
    (h : Ev.simplify op e f = .ok (some g)) : ∃ t r, Ev.ofSet t r = some g := by
  unfold Ev.simplify at h
  split at h
  · rename_i t u ht hu
    split at h
    · simp only [bind, Except.bind] at h
      split at h
      · cases h
      · rename_i r hr
        simp only [Except.ok.injEq] at h
        exact ⟨t, r, h⟩
    · cases h
  · cases h

theorem Ev.ofSet_ne_none {t t' : Tr} {r : SSet EReal} : Ev.ofSet t r ≠ some (.nom t' none) := by
  cases r with
  | empty => simp [Ev.ofSet]
  | un => simp [Ev.ofSet]
  | pc p => cases p <;> simp [Ev.ofSet]

/-- A basic event with the same expression as two that can be built, whose strings come from theirs. -/
theorem made_combine {c : Ctx} {e f g : Ev} {t : Tr} (he : e.MadeG r0 c) (hf : f.MadeG r0 c) (h1 : e.basic? = some t)
    (h2 : f.basic? = some t) (h4 : g.basic? = some t) (hv : g.Valid) (hg : ∀ t, g ≠ .nom t none)
    (hs : ∀ x, Val.str x ∈ g.values.den → Val.str x ∈ e.values.den ∨ Val.str x ∈ f.values.den) : g.MadeG r0 c := by
  have ht : t.MadeG r0 c := by
    cases he with
    | ivl h => simp [Ev.basic?] at h1; subst h1; exact h
    | fin h => simp [Ev.basic?] at h1; subst h1; exact h
    | nom h => simp [Ev.basic?] at h1; subst h1; exact h
    | or => simp [Ev.basic?] at h1
    | and => simp [Ev.basic?] at h1
  cases g with
  | or => simp [Ev.basic?] at h4
  | and => simp [Ev.basic?] at h4
  | ivl t' i => simp [Ev.basic?] at h4; subst h4; cases hv with | ivl h => exact .ivl ht h
  | fin t' v => simp [Ev.basic?] at h4; subst h4; cases hv with | fin h => exact .fin ht h
  | nom t' v =>
    simp [Ev.basic?] at h4; subst h4
    cases hv with
    | nom h =>
      cases v with
      | none => exact absurd rfl (hg t')
      | some n =>
        have hn := h n rfl
        obtain ⟨x, hx⟩ := nom_has_str hn
        refine .nom ht ?_ ?_
        · rcases hs x hx with h' | h'
          · obtain ⟨m, rfl, -⟩ := Ev.isNom_of_str h1 h'
            cases he with | nom _ h3 _ => exact h3
          · obtain ⟨m, rfl, -⟩ := Ev.isNom_of_str h2 h'
            cases hf with | nom _ h3 _ => exact h3
        · intro n' e'
          cases e'
          refine ⟨hn, fun hr hb => ?_⟩
          by_contra hid
          have key : ∀ {a : Ev}, a.MadeG r0 c → a.basic? = some t' → ∃ F : Finset String, ∀ x, Val.str x ∈ a.values.den → x ∈ F := by
            intro a ha hat
            by_cases hex : ∃ x, Val.str x ∈ a.values.den
            · obtain ⟨x, hx⟩ := hex
              obtain ⟨m, rfl, -⟩ := Ev.isNom_of_str hat hx
              refine ⟨m.vals, fun y hy => ?_⟩
              cases ha with
              | nom _ _ h3 =>
                have hm : m.b ≠ some true := fun hm => hid ((h3 m rfl).2 hr hm)
                simpa [Ev.values, Piece.den, hm] using hy
            · exact ⟨∅, fun x hx => absurd ⟨x, hx⟩ hex⟩
          obtain ⟨F, hF⟩ := key he h1
          obtain ⟨G, hG⟩ := key hf h2
          obtain ⟨y, hy⟩ := exists_str_not_mem (n.vals ∪ F ∪ G)
          simp only [Finset.mem_union, not_or] at hy
          rcases hs y (by simp [Ev.values, Piece.den, hb, hy]) with h' | h'
          · exact hy.1.2 (hF y h')
          · exact hy.2 (hG y h')

theorem made_and {c : Ctx} : ∀ e f g : Ev, e.MadeG r0 c → f.MadeG r0 c → Ev.simplify (SSet.and c.σ) e f = .ok (some g) → g.MadeG r0 c := by
  intro e f g he hf h
  obtain ⟨t, r, h1, h2, h3, h4, h5⟩ := Ev.simplify_some h
  have := SSet.and_spec c.σ _ _ ((Ev.valid_basic h1).1 (Ev.Made.valid _ he)) (Ev.values_disj h1) ((Ev.valid_basic h2).1 (Ev.Made.valid _ hf)) (Ev.values_disj h2) h3
  obtain ⟨t', r', h6⟩ := Ev.simplify_ofSet h
  refine made_combine he hf h1 h2 h4 ((Ev.valid_basic h4).2 (h5 ▸ this.wf)) (fun t e => ?_) (fun x hx => ?_)
  · subst e; exact Ev.ofSet_ne_none h6
  · rw [h5] at hx; exact .inl (this.sub _ hx).1

theorem made_or {c : Ctx} : ∀ e f g : Ev, e.MadeG r0 c → f.MadeG r0 c → Ev.simplify (SSet.or c.σ) e f = .ok (some g) → g.MadeG r0 c := by
  intro e f g he hf h
  obtain ⟨t, r, h1, h2, h3, h4, h5⟩ := Ev.simplify_some h
  have := SSet.or_spec c.σ _ _ ((Ev.valid_basic h1).1 (Ev.Made.valid _ he)) (Ev.values_disj h1) ((Ev.valid_basic h2).1 (Ev.Made.valid _ hf)) (Ev.values_disj h2) h3
  obtain ⟨t', r', h6⟩ := Ev.simplify_ofSet h
  refine made_combine he hf h1 h2 h4 ((Ev.valid_basic h4).2 (h5 ▸ this.wf)) (fun t e => ?_) (fun x hx => ?_)
  · subst e; exact Ev.ofSet_ne_none h6
  · rw [h5] at hx; exact this.sub _ hx

theorem Ev.land_made {c : Ctx} {e f g : Ev} (he : e.MadeG r0 c) (hf : f.MadeG r0 c) (h : e.land c f = .ok g) : g.MadeG r0 c :=
  Ev.made_all.2 ⟨(Ev.land_spec (Ev.Made.valid _ he) (Ev.Made.valid _ hf) h).1,
    Ev.land_all made_and (Ev.made_all.1 he).2 (Ev.made_all.1 hf).2 h⟩

theorem Ev.lor_made {c : Ctx} {e f g : Ev} (he : e.MadeG r0 c) (hf : f.MadeG r0 c) (h : e.lor c f = .ok g) : g.MadeG r0 c :=
  Ev.made_all.2 ⟨(Ev.lor_spec (Ev.Made.valid _ he) (Ev.Made.valid _ hf) h).1,
    Ev.lor_all made_or (Ev.made_all.1 he).2 (Ev.made_all.1 hf).2 h⟩

/-- String-valued basic events only compare plain variables. -/
def NomId : Ev → Prop
  | .nom t _ => t.isId = true
  | _ => True

theorem made_tr {c : Ctx} {e : Ev} {t : Tr} (he : e.MadeG r0 c) (h1 : e.basic? = some t) : t.MadeG r0 c := by
  cases he with
  | ivl h => simp [Ev.basic?] at h1; subst h1; exact h
  | fin h => simp [Ev.basic?] at h1; subst h1; exact h
  | nom h => simp [Ev.basic?] at h1; subst h1; exact h
  | or => simp [Ev.basic?] at h1
  | and => simp [Ev.basic?] at h1

theorem made_lit {c : Ctx} {e : Ev} {t : Tr} (h1 : e.basic? = some t) (ht : t.MadeG r0 c) (hv : e.Valid) (hn : NomId e) : e.MadeG r0 c := by
  cases e with
  | or => simp [Ev.basic?] at h1
  | and => simp [Ev.basic?] at h1
  | ivl t' i => simp [Ev.basic?] at h1; subst h1; cases hv with | ivl h => exact .ivl ht h
  | fin t' v => simp [Ev.basic?] at h1; subst h1; cases hv with | fin h => exact .fin ht h
  | nom t' v =>
    simp [Ev.basic?] at h1; subst h1
    cases hv with
    | nom h =>
      refine .nom ht ?_ (fun n hn' => ⟨h n hn', fun _ _ => hn⟩)
      intro _ ts es ds e; subst e; simp [NomId, Tr.isId] at hn

theorem nomId_of_basic {e : Ev} {t : Tr} (h1 : e.basic? = some t) (ht : t.isId = true) : NomId e := by
  cases e <;> simp [Ev.basic?] at h1 <;> subst h1 <;> simp [NomId, ht]

theorem nomId_simplify {op : SSet EReal → SSet EReal → Res (SSet EReal)} {e f g : Ev} (h : Ev.simplify op e f = .ok (some g))
    (he : NomId e) (hf : NomId f) (hv : g.Valid)
    (hs : ∀ x, Val.str x ∈ g.values.den → Val.str x ∈ e.values.den ∨ Val.str x ∈ f.values.den) : NomId g := by
  obtain ⟨t, r, h1, h2, h3, h4, h5⟩ := Ev.simplify_some h
  obtain ⟨t', r', h6⟩ := Ev.simplify_ofSet h
  cases g with
  | nom t'' v =>
    simp [Ev.basic?] at h4; subst h4
    cases v with
    | none => exact absurd h6 Ev.ofSet_ne_none
    | some n =>
      cases hv with
      | nom hv =>
        obtain ⟨x, hx⟩ := nom_has_str (hv n rfl)
        rcases hs x hx with h' | h'
        · obtain ⟨m, rfl, -⟩ := Ev.isNom_of_str h1 h'; exact he
        · obtain ⟨m, rfl, -⟩ := Ev.isNom_of_str h2 h'; exact hf
  | _ => trivial

/-- Negation preserves `Made` when strings are only compared with plain variables. -/
theorem Ev.not_made {c : Ctx} {e g : Ev} (he : e.MadeG r0 c) (hn : e.All NomId) (h : e.not c = .ok g) :
    g.MadeG r0 c ∧ g.All NomId := by
  have hv := (Ev.not_spec e (Ev.Made.valid _ he) h).1
  have := Ev.not_all (P := fun l => l.MadeG r0 c ∧ NomId l) (c := c) ?_ ?_ ?_ e ((Ev.made_all.1 he).2.and' hn) h
  · exact ⟨Ev.made_all.2 ⟨hv, this.mono (fun _ _ _ h => h.1)⟩, this.mono (fun _ _ _ h => h.2)⟩
  · rintro e f g ⟨he, he'⟩ ⟨hf, hf'⟩ h
    have hm := made_and e f g he hf h
    obtain ⟨t, r, h1, h2, h3, h4, h5⟩ := Ev.simplify_some h
    have := SSet.and_spec c.σ _ _ ((Ev.valid_basic h1).1 (Ev.Made.valid _ he)) (Ev.values_disj h1) ((Ev.valid_basic h2).1 (Ev.Made.valid _ hf)) (Ev.values_disj h2) h3
    exact ⟨hm, nomId_simplify h he' hf' (Ev.Made.valid _ hm) (fun x hx => by rw [h5] at hx; exact .inl (this.sub _ hx).1)⟩
  · rintro e f g ⟨he, he'⟩ ⟨hf, hf'⟩ h
    have hm := made_or e f g he hf h
    obtain ⟨t, r, h1, h2, h3, h4, h5⟩ := Ev.simplify_some h
    have := SSet.or_spec c.σ _ _ ((Ev.valid_basic h1).1 (Ev.Made.valid _ he)) (Ev.values_disj h1) ((Ev.valid_basic h2).1 (Ev.Made.valid _ hf)) (Ev.values_disj h2) h3
    exact ⟨hm, nomId_simplify h he' hf' (Ev.Made.valid _ hm) (fun x hx => by rw [h5] at hx; exact this.sub _ hx)⟩
  · rintro e g t ht ⟨he, he'⟩ h
    have hvg := (Ev.not_spec e (Ev.Made.valid _ he) h).1
    refine ((Ev.not_lit ht (Ev.Made.valid _ he) h).and' (Ev.valid_all hvg)).mono ?_
    rintro l u hl ⟨⟨h1, h2⟩, h3⟩
    have hnl : NomId l := by
      by_cases hln : l.isNom = true
      · refine nomId_of_basic h1 ?_
        rw [hln] at h2
        cases e <;> simp [Ev.isNom] at h2
        simp [Ev.basic?] at ht; subst ht; exact he'
      · cases l <;> first | trivial | simp [Ev.isNom] at hln
    exact ⟨made_lit h1 (made_tr he ht) h3 hnl, hnl⟩

theorem Ev.land_nomId {c : Ctx} {e f g : Ev} (he : e.Valid) (hf : f.Valid) (he' : e.All NomId) (hf' : f.All NomId)
    (h : e.land c f = .ok g) : g.All NomId := by
  have := Ev.land_all (P := fun l => l.Valid ∧ NomId l) (c := c) ?_ ((Ev.valid_all he).and' he') ((Ev.valid_all hf).and' hf') h
  · exact this.mono (fun _ _ _ h => h.2)
  · rintro e f g ⟨he, he'⟩ ⟨hf, hf'⟩ h
    obtain ⟨t, r, h1, h2, h3, h4, h5⟩ := Ev.simplify_some h
    have := SSet.and_spec c.σ _ _ ((Ev.valid_basic h1).1 he) (Ev.values_disj h1) ((Ev.valid_basic h2).1 hf) (Ev.values_disj h2) h3
    have hv : g.Valid := (Ev.valid_basic h4).2 (h5 ▸ this.wf)
    exact ⟨hv, nomId_simplify h he' hf' hv (fun x hx => by rw [h5] at hx; exact .inl (this.sub _ hx).1)⟩

theorem Ev.lor_nomId {c : Ctx} {e f g : Ev} (he : e.Valid) (hf : f.Valid) (he' : e.All NomId) (hf' : f.All NomId)
    (h : e.lor c f = .ok g) : g.All NomId := by
  have := Ev.lor_all (P := fun l => l.Valid ∧ NomId l) (c := c) ?_ ((Ev.valid_all he).and' he') ((Ev.valid_all hf).and' hf') h
  · exact this.mono (fun _ _ _ h => h.2)
  · rintro e f g ⟨he, he'⟩ ⟨hf, hf'⟩ h
    obtain ⟨t, r, h1, h2, h3, h4, h5⟩ := Ev.simplify_some h
    have := SSet.or_spec c.σ _ _ ((Ev.valid_basic h1).1 he) (Ev.values_disj h1) ((Ev.valid_basic h2).1 hf) (Ev.values_disj h2) h3
    have hv : g.Valid := (Ev.valid_basic h4).2 (h5 ▸ this.wf)
    exact ⟨hv, nomId_simplify h he' hf' hv (fun x hx => by rw [h5] at hx; exact this.sub _ hx)⟩

/-- A negated event never holds together with the event. -/
theorem Ev.not_imp {c : Ctx} {ω : Asg} : ∀ e : Ev, e.Valid → ∀ {g : Ev}, e.not c = .ok g → g.holds ω → ¬ e.holds ω := by
  refine Ev.ind ?_ ?_ ?_
  · intro e t ht hv g h hg he
    have hs := Ev.not_spec e hv h
    refine ((hs.2 ω ?_).1 hg) he
    rw [Ev.holds_basic ht] at he
    obtain ⟨v, hv1, hv2⟩ := he
    cases e with
    | or => simp [Ev.basic?] at ht
    | and => simp [Ev.basic?] at ht
    | ivl t' i =>
      simp [Ev.basic?] at ht; subst ht
      cases v with
      | str => simp [Val.lift, Ev.values] at hv2
      | num x => exact ⟨x, hv1⟩
    | fin t' s =>
      simp [Ev.basic?] at ht; subst ht
      cases v with
      | str => cases s <;> simp [Val.lift, Ev.values] at hv2
      | num x => exact ⟨x, hv1⟩
    | nom t' s =>
      simp [Ev.basic?] at ht; subst ht
      cases v with
      | num => cases s <;> simp [Val.lift, Ev.values] at hv2
      | str x => exact ⟨x, hv1⟩
  · intro es ih hv g h hg he
    cases hv with
    | or hne hes =>
      simp only [Ev.not, bind, Except.bind] at h
      split at h; · cases h
      rename_i fs hfs
      have hF := Ev.notL_ok hfs
      have hv : ∀ f ∈ fs, f.Valid := by
        intro f hf
        obtain ⟨e, he, hef⟩ := forall₂_mem_right hF hf
        exact (Ev.not_spec e (hes e he) hef).1
      rw [(reduce_land hv h).2] at hg
      obtain ⟨e, he, heh⟩ := (Ev.holds_or ω es).1 he
      obtain ⟨f, hf, hef⟩ := forall₂_mem_left hF he
      exact ih e he (hes e he) hef (hg f hf) heh
  · intro es ih hv g h hg he
    cases hv with
    | and hne hes =>
      simp only [Ev.not, bind, Except.bind] at h
      split at h; · cases h
      rename_i fs hfs
      have hF := Ev.notL_ok hfs
      have hv : ∀ f ∈ fs, f.Valid := by
        intro f hf
        obtain ⟨e, he, hef⟩ := forall₂_mem_right hF hf
        exact (Ev.not_spec e (hes e he) hef).1
      rw [(reduce_lor hv h).2] at hg
      obtain ⟨f, hf, hfh⟩ := hg
      obtain ⟨e, he', hef⟩ := forall₂_mem_right hF hf
      exact ih e he' (hes e he') hef hfh ((Ev.holds_and ω es).1 he e he')

end Sppl
