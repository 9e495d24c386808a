import Verif.Sets.TotalLemmas
import Mathlib.Algebra.Order.Field.Rat
import Mathlib.Data.Rat.Defs
import Mathlib.Data.List.Rotate

/-!
# Properties C01-C06: the set algebra of `sets.py`

`v ∈ s.den` is the specification of membership (`Verif/Sets/Spec.lean`).  `Val.Proper v` says that `v`
is a string or a *finite* number.  `σ`, `σ'` are arbitrary iteration orders of Python frozensets.
-/

namespace Sppl
variable {E : Type} [LinearOrder E] [BoundedOrder E]

/-- The sets a user can build: the public constructors (sets.py 18, 47, 108, 177, 280) closed under the
three operators, with arbitrary frozenset iteration orders at each step.  Direct calls of `Union` are
only allowed on pairwise disjoint pieces, as in `ExtReals` (sets.py 411). -/
inductive Built : SSet E → Prop
  | empty : Built .empty
  | nom {vals b n} (h : mkNom vals b = .ok n) : Built (.pc (.nom n))
  | fin {s : Finset E} (h : s.Nonempty) : Built (.pc (.fin s))
  | ivl {a b : E} {lo ro i} (h : mkIvl a b lo ro = .ok i) : Built (.pc (.ivl i))
  | union {ps : List (Piece E)} {σ : Orders E} {r} (hp : ∀ p ∈ ps, Built (.pc p))
      (hd : ∀ p ∈ ps, ∀ q ∈ ps, p ≠ q → ∀ v, ¬ (v ∈ p.den ∧ v ∈ q.den))
      (h : mkUnion σ (ps.map .pc) = .ok r) : Built r
  | or {s t r : SSet E} {σ : Orders E} (hs : Built s) (ht : Built t) (h : SSet.or σ s t = .ok r) : Built r
  | and {s t r : SSet E} {σ : Orders E} (hs : Built s) (ht : Built t) (h : SSet.and σ s t = .ok r) : Built r
  | invert {s r : SSet E} {σ : Orders E} (hs : Built s) (h : SSet.invert σ s = .ok r) : Built r

/-! ## C04: pieces of every set are disjoint; equality -/

/-- C04 (invariant): every set a user can build satisfies the representation invariant, and the pieces
of a `Union` are pairwise disjoint. -/
theorem C04_built_disjoint {s : SSet E} (h : Built s) : s.WF ∧ s.Disj := by
  induction h with
  | empty => exact ⟨trivial, trivial⟩
  | nom h =>
    refine ⟨?_, trivial⟩
    unfold mkNom at h
    split at h <;> simp at h
    subst h; assumption
  | fin h => exact ⟨h, trivial⟩
  | ivl h =>
    obtain ⟨h1, rfl⟩ := mkIvl_ok h
    refine ⟨⟨h1, ?_, ?_⟩, trivial⟩ <;> simp <;> intro h <;> simp [h]
  | union hp hd h ih =>
    rename_i ps σ r
    obtain ⟨u, rfl, h3, -, -, -, h2⟩ := mkUnion_ok h
    refine ⟨h2 (by intro p hp'; simp at hp'; exact (ih p hp').1), ?_⟩
    intro p hp' q hq' hne v
    exact hd p (by simpa using (h3 p).1 hp') q (by simpa using (h3 q).1 hq') hne v
  | or _ _ h ih1 ih2 =>
    have := SSet.or_spec _ _ _ ih1.1 ih1.2 ih2.1 ih2.2 h
    exact ⟨this.wf, this.disj⟩
  | and _ _ h ih1 ih2 =>
    have := SSet.and_spec _ _ _ ih1.1 ih1.2 ih2.1 ih2.2 h
    exact ⟨this.wf, this.disj⟩
  | invert _ h ih => exact SSet.invert_wf _ _ ih.1 h

/-- C04 (soundness of `==`): sets that compare equal have the same members. -/
theorem C04_eq_sound {s t : SSet E} (h : s.eqPy t = true) (v : Val E) : v ∈ s.den ↔ v ∈ t.den := by
  rw [SSet.eqPy_den h]

/-- C04 (completeness of `==`, partial): two non-`Union` sets with the same members compare equal.
Missing: `Union` sets, for which it is false (`C04_eq_incomplete`). -/
theorem C04_eq_complete_partial [DenselyOrdered E] {s t : SSet E} (hs : Built s) (ht : Built t)
    (hsu : s.isUnion = false) (htu : t.isUnion = false) (h : ∀ v, v ∈ s.den ↔ v ∈ t.den) :
    s.eqPy t = true := by
  have key : ∀ p : Piece E, p.WF → ∃ v, v ∈ p.den := by
    intro p hp
    cases p with
    | nom n => exact (Nom.WF.exists_has hp).imp' Val.str fun a ha => by simpa [Piece.str_mem_den_nom] using ha
    | fin s => exact Exists.imp' Val.num (fun a ha => by simpa using ha) hp
    | ivl i => exact (Ivl.WF.infinite hp).nonempty.imp' Val.num fun a ha => by simpa using ha
  have hsw := (C04_built_disjoint hs).1
  have htw := (C04_built_disjoint ht).1
  cases s with
  | empty =>
    cases t with
    | empty => rfl
    | pc q => obtain ⟨v, hv⟩ := key q htw; exact absurd ((h v).2 hv) (by simp [SSet.den])
    | un u => simp [SSet.isUnion] at htu
  | pc p =>
    cases t with
    | empty => obtain ⟨v, hv⟩ := key p hsw; exact absurd ((h v).1 hv) (by simp [SSet.den])
    | pc q => exact Piece.ext_den hsw htw h
    | un u => simp [SSet.isUnion] at htu
  | un u => simp [SSet.isUnion] at hsu

/-! ## C01: intersection -/

/-- C01: whenever `s & t` returns, its members among strings and finite numbers are exactly the common
members, and it has no other member. -/
theorem C01_and_exact (σ : Orders E) {s t r : SSet E} (hs : Built s) (ht : Built t)
    (h : SSet.and σ s t = .ok r) :
    (∀ v, v.Proper → (v ∈ r.den ↔ v ∈ s.den ∧ v ∈ t.den)) ∧ (∀ v, v ∈ r.den → v ∈ s.den ∧ v ∈ t.den) := by
  obtain ⟨h1, h2⟩ := C04_built_disjoint hs
  obtain ⟨h3, h4⟩ := C04_built_disjoint ht
  have := SSet.and_spec σ s t h1 h2 h3 h4 h
  exact ⟨fun v hv => ⟨this.sub v, this.sup v hv⟩, this.sub⟩

/-- C01 (all values, including the infinities): exact when one operand is not a `Union`. -/
theorem C01_and_exact_inf (σ : Orders E) {s t r : SSet E} (hs : Built s) (ht : Built t)
    (hu : s.isUnion = false ∨ t.isUnion = false) (h : SSet.and σ s t = .ok r) (v : Val E) :
    v ∈ r.den ↔ v ∈ s.den ∧ v ∈ t.den := by
  obtain ⟨h1, h2⟩ := C04_built_disjoint hs
  obtain ⟨h3, h4⟩ := C04_built_disjoint ht
  cases s with
  | empty => simp [SSet.and] at h; subst h; simp
  | pc p =>
    cases t with
    | empty => simp [SSet.and] at h; subst h; simp
    | pc q =>
      obtain ⟨r', e1, e2⟩ := Piece.and_spec p q h1 h3
      simp only [SSet.and, e1, Except.ok.injEq] at h
      subst h; exact e2.iff v
    | un u => exact (Un.andPiece_spec σ u h3 h4 p h1 h).symm.iff v
  | un u =>
    cases t with
    | empty => simp [SSet.and] at h; subst h; simp
    | pc q => exact (Un.andPiece_spec σ u h1 h2 q h3 h).iff v
    | un w => simp [SSet.isUnion] at hu

/-- C01 (order independence): the members of `s & t` do not depend on hash order. -/
theorem C01_and_order_irrelevant (σ σ' : Orders E) {s t r r' : SSet E} (hs : Built s) (ht : Built t)
    (h : SSet.and σ s t = .ok r) (h' : SSet.and σ' s t = .ok r') (v : Val E) (hv : v.Proper) :
    v ∈ r.den ↔ v ∈ r'.den := by
  rw [(C01_and_exact σ hs ht h).1 v hv, (C01_and_exact σ' hs ht h').1 v hv]

/-! ## C02: union -/

/-- C02: whenever `s | t` returns, its members among strings and finite numbers are exactly those of
`s` and of `t`, and it has no other member. -/
theorem C02_or_exact (σ : Orders E) {s t r : SSet E} (hs : Built s) (ht : Built t)
    (h : SSet.or σ s t = .ok r) :
    (∀ v, v.Proper → (v ∈ r.den ↔ v ∈ s.den ∨ v ∈ t.den)) ∧ (∀ v, v ∈ r.den → v ∈ s.den ∨ v ∈ t.den) := by
  obtain ⟨h1, h2⟩ := C04_built_disjoint hs
  obtain ⟨h3, h4⟩ := C04_built_disjoint ht
  have := SSet.or_spec σ s t h1 h2 h3 h4 h
  exact ⟨fun v hv => ⟨this.sub v, this.sup v hv⟩, this.sub⟩

/-- C02 (order independence). -/
theorem C02_or_order_irrelevant (σ σ' : Orders E) {s t r r' : SSet E} (hs : Built s) (ht : Built t)
    (h : SSet.or σ s t = .ok r) (h' : SSet.or σ' s t = .ok r') (v : Val E) (hv : v.Proper) :
    v ∈ r.den ↔ v ∈ r'.den := by
  rw [(C02_or_exact σ hs ht h).1 v hv, (C02_or_exact σ' hs ht h').1 v hv]

/-- C02: the `make_union` fold over any list of sets. -/
theorem C02_make_union (σ : Orders E) {l : List (SSet E)} {r : SSet E} (hl : ∀ s ∈ l, Built s)
    (h : makeUnion σ l = .ok r) (v : Val E) (hv : v.Proper) : v ∈ r.den ↔ ∃ s ∈ l, v ∈ s.den := by
  obtain ⟨-, -, h3, h4⟩ := reduce_or_spec σ l (fun s hs => C04_built_disjoint (hl s hs)) h
  exact ⟨h3 v, h4 v hv⟩

/-- C01: the `make_intersection` fold over any list of sets. -/
theorem C01_make_intersection (σ : Orders E) {l : List (SSet E)} {r : SSet E} (hl : ∀ s ∈ l, Built s)
    (h : makeIntersection σ l = .ok r) (v : Val E) (hv : v.Proper) : v ∈ r.den ↔ ∀ s ∈ l, v ∈ s.den := by
  obtain ⟨-, -, h3, h4⟩ := reduce_and_spec σ l (fun s hs => C04_built_disjoint (hl s hs)) h
  exact ⟨h3 v, h4 v hv⟩

/-! ## C03: complement -/

/-- C03 (real sets): if `s` contains no string, the members of `~s` are exactly the finite numbers that
are not members of `s`. -/
theorem C03_invert_real (σ : Orders E) {s r : SSet E} (hs : Built s) (hr : ∀ t, Val.str t ∉ s.den)
    (h : SSet.invert σ s = .ok r) :
    (∀ x, Val.num x ∈ r.den ↔ x ≠ ⊥ ∧ x ≠ ⊤ ∧ Val.num x ∉ s.den) ∧ ∀ t, Val.str t ∉ r.den := by
  obtain ⟨h1, h2⟩ := C04_built_disjoint hs
  have := SSet.invert_real σ s h1 (SSet.pureReal_of_str h1 hr) h
  refine ⟨fun x => ?_, this.str⟩
  rw [this.num]; simp [Fin', and_assoc]

/-- C03 (nominal sets): `~s` never raises and its members are exactly the strings not in `s`. -/
theorem C03_invert_nominal (σ : Orders E) {n : Nom} (hs : Built (.pc (.nom n) : SSet E)) :
    ∃ r : SSet E, SSet.invert σ (.pc (.nom n)) = .ok r ∧ (∀ x, Val.num x ∉ r.den) ∧
      ∀ t, Val.str t ∈ r.den ↔ Val.str t ∉ (SSet.pc (.nom n) : SSet E).den := by
  obtain ⟨r, h1, -, -, h4, h5⟩ := Nom.invert_spec (E := E) n (C04_built_disjoint hs).1
  exact ⟨r, h1, h4, fun t => by rw [h5]; simp [SSet.den, Piece.str_mem_den_nom]⟩

/-! ## C05: which operations can raise -/

/-- C05: `|` never raises on two sets without strings. -/
theorem C05_or_total_real (σ : Orders E) {s t : SSet E} (hs : Built s) (ht : Built t)
    (hsr : ∀ x, Val.str x ∉ s.den) (htr : ∀ x, Val.str x ∉ t.den) : ∃ r, SSet.or σ s t = .ok r := by
  have h1 := (C04_built_disjoint hs).1
  have h3 := (C04_built_disjoint ht).1
  exact SSet.or_total_real σ s t h1 h3 (SSet.pureReal_of_str h1 hsr) (SSet.pureReal_of_str h3 htr)

/-- C05: `|` never raises on two sets that are not `Union`s. -/
theorem C05_or_total_basic (σ : Orders E) {s t : SSet E} (hs : Built s) (ht : Built t)
    (hsu : s.isUnion = false) (htu : t.isUnion = false) : ∃ r, SSet.or σ s t = .ok r := by
  have h1 := (C04_built_disjoint hs).1
  have h3 := (C04_built_disjoint ht).1
  cases s <;> cases t <;> simp_all [SSet.or, SSet.isUnion]
  exact (Piece.or_spec σ _ _ h1 h3).imp fun r h => h.1

/-- C05: `|` of a `Union` with a nominal set or an interval never raises. -/
theorem C05_or_total_union (σ : Orders E) {u : Un E} {p : Piece E} (hs : Built (.un u))
    (hp : Built (.pc p)) (hf : ∀ s, p ≠ .fin s) : ∃ r, SSet.or σ (.un u) (.pc p) = .ok r := by
  obtain ⟨h1, h2⟩ := C04_built_disjoint hs
  have h3 := (C04_built_disjoint hp).1
  cases p with
  | nom n => exact (Un.orPiece_nom σ u h1 h2 n h3).imp fun r h => h.1
  | fin s => exact absurd rfl (hf s)
  | ivl i => exact (Un.orPiece_ivl σ u h1 i h3).imp fun r h => h.1

/-- C05: exactly when `Union | FiniteReal` raises: when the `Union` has no interval. -/
theorem C05_or_union_fin_iff (σ : Orders E) {u : Un E} {s : Finset E} (hu : Built (.un u))
    (hs : s.Nonempty) :
    (∃ r, SSet.or σ (.un u) (.pc (.fin s)) = .ok r) ↔ ∃ i, Piece.ivl i ∈ u.values := by
  obtain ⟨h1, h2⟩ := C04_built_disjoint hu
  constructor
  · rintro ⟨r, h⟩
    by_contra hno
    have : u.intervals = [] := by
      rw [List.eq_nil_iff_forall_not_mem]
      intro i hi
      exact hno ⟨i, (h1.mem_values _).2 (.inr (.inr ⟨i, hi, rfl⟩))⟩
    simp [SSet.or, Un.orPiece_fin_error σ u s this] at h
  · rintro ⟨i, hi⟩
    refine (Un.orPiece_fin σ u h1 s hs ?_).imp fun r h => h.1
    intro hnil
    simpa [hnil] using (h1.mem_values _).1 hi

/-- C05: `&` never raises on two sets that are not `Union`s. -/
theorem C05_and_total_basic (σ : Orders E) {s t : SSet E} (hs : Built s) (ht : Built t)
    (hsu : s.isUnion = false) (htu : t.isUnion = false) : ∃ r, SSet.and σ s t = .ok r := by
  have h1 := (C04_built_disjoint hs).1
  have h3 := (C04_built_disjoint ht).1
  cases s <;> cases t <;> simp_all [SSet.and, SSet.isUnion]
  exact (Piece.and_spec _ _ h1 h3).imp fun r h => h.1

/-- C05: `&` with a one-point set never raises. -/
theorem C05_and_total_point (σ : Orders E) {s : SSet E} (hs : Built s) (x : E) :
    ∃ r, SSet.and σ s (.pc (.fin {x})) = .ok r := by
  obtain ⟨h1, h2⟩ := C04_built_disjoint hs
  cases s with
  | empty => exact ⟨_, rfl⟩
  | pc p => exact (Piece.and_spec p (.fin {x}) h1 ⟨x, by simp⟩).imp fun r h => h.1
  | un u => exact Un.andPiece_single σ u h1 h2 x

/-- C05: `~` never raises on an interval or a nominal set. -/
theorem C05_invert_total_partial (σ : Orders E) {p : Piece E} (hp : Built (.pc p))
    (hf : ∀ s, p ≠ .fin s) : ∃ r, SSet.invert σ (.pc p) = .ok r := by
  have h3 := (C04_built_disjoint hp).1
  cases p with
  | nom n => exact (Nom.invert_spec n h3).imp fun r h => h.1
  | fin s => exact absurd rfl (hf s)
  | ivl i => exact (Ivl.invert_spec σ i h3).imp fun r h => h.1

/-! ## C06: membership test -/

/-- C06 (numbers): `x in s` never raises, and is correct unless `s` has a complemented nominal piece. -/
theorem C06_contains_num {s : SSet E} (x : E)
    (hn : ∀ n, n.b = some true → s ≠ .pc (.nom n) ∧ ∀ u, s = .un u → Piece.nom n ∉ u.values) :
    ∃ b, s.contains (.num x) = .ok b ∧ (b = true ↔ Val.num x ∈ s.den) := by
  cases s with
  | empty => exact ⟨false, rfl, by simp⟩
  | pc p =>
    refine Piece.contains_num p x ?_
    rintro n rfl
    by_contra hb
    exact (hn n (by simpa [Nom.neg] using hb)).1 rfl
  | un u =>
    refine anyContains_num u.values x ?_
    intro n hmem
    by_contra hb
    exact (hn n (by simpa [Nom.neg] using hb)).2 u rfl hmem

/-- C06 (strings): whenever `x in s` returns, the answer is correct. -/
theorem C06_contains_str {s : SSet E} {x : String} {b : Bool} (h : s.contains (.str x) = .ok b) :
    b = true ↔ Val.str x ∈ s.den := by
  cases s with
  | empty => simp [SSet.contains] at h; subst h; simp
  | pc p => exact Piece.contains_str p x h
  | un u => exact anyContains_str u.values x h

/-! ## Concrete cases: the hypotheses are met, and the places where the code falls short

Rational endpoints extended by two infinities; frozensets iterate in insertion order. -/

/-- `x` returns a value on which `p` answers `true`. -/
def okAnd {α : Type} (x : Res α) (p : α → Bool) : Bool :=
  match x with | .ok r => p r | .error _ => false

theorem okAnd_iff {α : Type} {x : Res α} {p : α → Bool} :
    okAnd x p = true ↔ ∃ r, x = .ok r ∧ p r = true := by
  cases x <;> simp [okAnd]

/-- The rationals with two infinities. -/
abbrev QE := WithBot (WithTop ℚ)
/-- Inclusion of the rationals. -/
def qe (x : ℚ) : QE := ((x : WithTop ℚ) : WithBot (WithTop ℚ))
/-- Insertion order. -/
def σ₀ : Orders QE := Orders.id QE
/-- Interval literal. -/
def iv (a b : QE) (lo ro : Bool) : Piece QE := .ivl ⟨a, b, lo || decide (a = ⊥), ro || decide (b = ⊤)⟩
/-- Finite nominal literal. -/
def nm (l : Finset String) : Piece QE := .nom ⟨l, none⟩

theorem built_iv {a b : QE} {lo ro : Bool} (h : a < b) : Built (.pc (iv a b lo ro)) :=
  .ivl (a := a) (b := b) (lo := lo) (ro := ro) (by simp [mkIvl, h])
theorem built_nm {l : Finset String} (h : l.Nonempty) : Built (.pc (nm l)) :=
  .nom (vals := l) (b := none) (by simp [mkNom, h])

/-- [0,1] ∪ [2,3] as a user builds it. -/
def u0123 : SSet QE := .un ⟨none, none, [⟨qe 0, qe 1, false, false⟩, ⟨qe 2, qe 3, false, false⟩],
  [iv (qe 0) (qe 1) false false, iv (qe 2) (qe 3) false false],
  [iv (qe 0) (qe 1) false false, iv (qe 2) (qe 3) false false]⟩

theorem u0123_or : SSet.or σ₀ (.pc (iv (qe 0) (qe 1) false false)) (.pc (iv (qe 2) (qe 3) false false)) = .ok u0123 := by
  decide +kernel

theorem built_u0123 : Built u0123 :=
  .or (built_iv (by decide +kernel)) (built_iv (by decide +kernel)) u0123_or

/-- C01/C02/C04 non-vacuity: a mixed nominal/finite/interval union intersected with a union. -/
example : ∃ s, SSet.or σ₀ u0123 (.pc (nm {"a"})) = .ok s ∧ Built s ∧ SSet.isUnion s = true ∧
    ∃ r, SSet.and σ₀ s u0123 = .ok r ∧ SSet.eqPy r u0123 = true := by
  have h : okAnd (SSet.or σ₀ u0123 (.pc (nm {"a"})))
      (fun s => s.isUnion && okAnd (SSet.and σ₀ s u0123) (fun r => r.eqPy u0123)) = true := by
    decide +kernel
  obtain ⟨s, h1, h2⟩ := okAnd_iff.1 h
  rw [Bool.and_eq_true, okAnd_iff] at h2
  exact ⟨s, h1, .or built_u0123 (built_nm (l := {"a"}) (by decide)) h1, h2⟩

/-- C01 non-vacuity, order independence with a different order. -/
def σrev : Orders QE where
  ivls l := l.dedup.reverse
  vals l := l.dedup.reverse
  ivls_perm _ := List.reverse_perm _
  vals_perm _ := List.reverse_perm _

example : SSet.or σ₀ u0123 (.pc (.fin {qe (3/2)})) ≠ SSet.or σrev u0123 (.pc (.fin {qe (3/2)})) ∧
    (∃ r, SSet.or σ₀ u0123 (.pc (.fin {qe (3/2)})) = .ok r) ∧
    (∃ r, SSet.or σrev u0123 (.pc (.fin {qe (3/2)})) = .ok r) := by
  have h : okAnd (SSet.or σ₀ u0123 (.pc (.fin {qe (3/2)}))) (fun _ => true) = true ∧
      okAnd (SSet.or σrev u0123 (.pc (.fin {qe (3/2)}))) (fun _ => true) = true := by decide +kernel
  rw [okAnd_iff, okAnd_iff] at h
  exact ⟨by decide +kernel, h.1.imp fun _ h => h.1, h.2.imp fun _ h => h.1⟩

/-- C03 non-vacuity: the complement of a union of intervals and a point. -/
example : ∃ s, SSet.or σ₀ u0123 (.pc (.fin {qe 5})) = .ok s ∧ ∃ r, SSet.invert σ₀ s = .ok r ∧
    SSet.isUnion r = true := by
  have h : okAnd (SSet.or σ₀ u0123 (.pc (.fin {qe 5}))) (fun s => okAnd (SSet.invert σ₀ s)
      (fun r => r.isUnion)) = true := by decide +kernel
  simpa only [okAnd_iff] using h

/-- C01 counterexample for infinite values: `ExtReals & ExtReals` loses both infinities. -/
theorem C01_and_loses_infinity :
    ∃ s r : SSet QE, Built s ∧ SSet.and σ₀ s s = .ok r ∧ Val.num ⊤ ∈ s.den ∧ Val.num ⊤ ∉ r.den := by
  refine ⟨.un ⟨none, some {⊥, ⊤}, [⟨⊥, ⊤, true, true⟩], [.fin {⊥, ⊤}, iv ⊥ ⊤ true true],
    [.fin {⊥, ⊤}, iv ⊥ ⊤ true true]⟩, .pc (iv ⊥ ⊤ true true), ?_, by decide +kernel, ?_, ?_⟩
  · refine .union (ps := [.fin {⊥, ⊤}, iv ⊥ ⊤ true true]) (σ := σ₀) ?_ ?_ (by decide +kernel)
    · intro p hp
      simp at hp
      rcases hp with rfl | rfl
      · exact .fin ⟨⊥, by simp⟩
      · exact built_iv (by decide +kernel)
    · intro p hp q hq hne v
      simp at hp hq
      rcases hp with rfl | rfl <;> rcases hq with rfl | rfl <;> simp at hne <;> cases v <;>
        simp [iv, Ivl.Mem] <;> grind
  · exact ⟨.fin {⊥, ⊤}, by simp, by simp⟩
  · simp [SSet.den, iv, Ivl.Mem]

/-- C02 counterexample for infinite values: `{-inf} | (-inf, 0]` does not contain `-inf`. -/
theorem C02_or_loses_infinity :
    ∃ s t r : SSet QE, Built s ∧ Built t ∧ SSet.or σ₀ s t = .ok r ∧ Val.num ⊥ ∈ s.den ∧
      Val.num ⊥ ∉ r.den := by
  refine ⟨.pc (.fin {⊥}), .pc (iv ⊥ (qe 0) true false), .pc (iv ⊥ (qe 0) true false),
    .fin ⟨⊥, by simp⟩, built_iv (by decide +kernel), by decide +kernel, by simp [SSet.den], ?_⟩
  simp [SSet.den, iv, Ivl.Mem]

/-- C03 counterexample for mixed sets: `~({'a'} ∪ [0,1])` is `EmptySet`, although `'b'` and `2` are not
members of the set. -/
theorem C03_invert_mixed_wrong :
    ∃ s : SSet QE, Built s ∧ SSet.invert σ₀ s = .ok .empty ∧ Val.str "b" ∉ s.den ∧
      Val.num (qe 2) ∉ s.den := by
  refine ⟨.un ⟨some ⟨{"a"}, none⟩, none, [⟨qe 0, qe 1, false, false⟩],
    [nm {"a"}, iv (qe 0) (qe 1) false false], [nm {"a"}, iv (qe 0) (qe 1) false false]⟩,
    .or (σ := σ₀) (built_nm (l := {"a"}) (by decide))
      (built_iv (a := qe 0) (b := qe 1) (lo := false) (ro := false) (by decide +kernel))
      (by decide +kernel), by decide +kernel, ?_, ?_⟩
  · rintro ⟨p, hp, hv⟩
    simp at hp
    rcases hp with rfl | rfl
    · simp [nm, Piece.str_mem_den_nom, Nom.has, Nom.neg] at hv
    · simp [iv] at hv
  · rintro ⟨p, hp, hv⟩
    simp at hp
    rcases hp with rfl | rfl
    · simp [nm] at hv
    · simp [iv, Ivl.Mem] at hv
      exact absurd hv.2 (by decide +kernel)

/-- C04 counterexample to canonicity: `((0,1) | (1,2)) | [1,3]` has the same members as `(0,3]` but is
the two-piece union `(0,1) ∪ [1,3]`, and `==` answers `False`. -/
theorem C04_eq_incomplete :
    ∃ u r s : SSet QE, SSet.or σ₀ (.pc (iv (qe 0) (qe 1) true true)) (.pc (iv (qe 1) (qe 2) true true)) = .ok u ∧
      SSet.or σ₀ u (.pc (iv (qe 1) (qe 3) false false)) = .ok r ∧ Built r ∧ Built s ∧
      (∀ v, v ∈ r.den ↔ v ∈ s.den) ∧ r.eqPy s = false := by
  have hu : SSet.or σ₀ (.pc (iv (qe 0) (qe 1) true true)) (.pc (iv (qe 1) (qe 2) true true)) =
      .ok (.un ⟨none, none, [⟨qe 0, qe 1, true, true⟩, ⟨qe 1, qe 2, true, true⟩],
        [iv (qe 0) (qe 1) true true, iv (qe 1) (qe 2) true true],
        [iv (qe 0) (qe 1) true true, iv (qe 1) (qe 2) true true]⟩) := by decide +kernel
  refine ⟨_, .un ⟨none, none, [⟨qe 0, qe 1, true, true⟩, ⟨qe 1, qe 3, false, false⟩],
        [iv (qe 0) (qe 1) true true, iv (qe 1) (qe 3) false false],
        [iv (qe 0) (qe 1) true true, iv (qe 1) (qe 3) false false]⟩,
      .pc (iv (qe 0) (qe 3) true false), hu, by decide +kernel,
      .or (σ := σ₀) (.or (built_iv (by decide +kernel)) (built_iv (by decide +kernel)) hu)
        (built_iv (a := qe 1) (b := qe 3) (lo := false) (ro := false) (by decide +kernel))
        (by decide +kernel), built_iv (by decide +kernel), ?_, by decide +kernel⟩
  have h1 : qe 0 < qe 1 := by decide +kernel
  have h2 : qe 1 < qe 3 := by decide +kernel
  have b1 : qe 0 ≠ ⊥ := by decide +kernel
  have b2 : qe 1 ≠ ⊥ := by decide +kernel
  have b3 : qe 3 ≠ ⊤ := by decide +kernel
  intro v
  cases v with
  | str s => simp [SSet.den, iv]
  | num x =>
    simp only [SSet.den, iv, Ivl.Mem, List.mem_cons, List.not_mem_nil, or_false, exists_eq_or_imp,
      exists_eq_left, Set.mem_ofPred_eq, Piece.mem_den_ivl]
    simp [b1, b2, b3]
    grind

/-- C05 counterexample: `([0,1] | [2,3]) & {1/2, 5/2}` raises `AssertionError`. -/
theorem C05_and_union_raises :
    ∃ s t : SSet QE, Built s ∧ Built t ∧ SSet.and σ₀ s t = .error .assertion :=
  ⟨u0123, .pc (.fin {qe (1/2), qe (5/2)}), built_u0123, .fin ⟨qe (1/2), by simp⟩, by decide +kernel⟩

/-- C05 counterexample: `([0,1] | [2,3]) & [1,2]` raises `AssertionError`. -/
theorem C05_and_union_interval_raises :
    ∃ s t : SSet QE, Built s ∧ Built t ∧ SSet.and σ₀ s t = .error .assertion ∧ ∃ i, t = .pc (.ivl i) :=
  ⟨u0123, .pc (iv (qe 1) (qe 2) false false), built_u0123, built_iv (by decide +kernel), by decide +kernel,
    _, rfl⟩

/-- C05 counterexample: `({'a'} | {1}) | {2}` raises `IndexError`. -/
theorem C05_or_raises :
    ∃ s t : SSet QE, Built s ∧ Built t ∧ SSet.or σ₀ s t = .error .index := by
  refine ⟨.un ⟨some ⟨{"a"}, none⟩, some {qe 1}, [], [nm {"a"}, .fin {qe 1}], [nm {"a"}, .fin {qe 1}]⟩,
    .pc (.fin {qe 2}), .or (σ := σ₀) (built_nm (l := {"a"}) (by decide)) (.fin (s := {qe 1}) ⟨qe 1, by simp⟩)
      (by decide +kernel), .fin ⟨qe 2, by simp⟩, by decide +kernel⟩

/-- C05 counterexample: `~{inf}` raises `AssertionError`. -/
theorem C05_invert_infinity_raises :
    ∃ s : SSet QE, Built s ∧ SSet.invert σ₀ s = .error .assertion :=
  ⟨.pc (.fin {⊤}), .fin ⟨⊤, by simp⟩, by decide +kernel⟩

/-- An iteration order that starts with the second of three pieces. -/
def σrot : Orders QE where
  ivls l := l.dedup
  vals l := if l.dedup.length = 3 then l.dedup.rotate 1 else l.dedup
  ivls_perm _ := .refl _
  vals_perm l := by
    split
    · exact List.rotate_perm _ _
    · exact .refl _

/-- C05 counterexample: `~((0,1) | (2,3) | (1,2))` raises `AssertionError` for some hash order. -/
theorem C05_invert_union_raises :
    ∃ (σ : Orders QE) (u : SSet QE),
      SSet.or σ (.pc (iv (qe 0) (qe 1) true true)) (.pc (iv (qe 2) (qe 3) true true)) = .ok u ∧
      ∃ s, SSet.or σ u (.pc (iv (qe 1) (qe 2) true true)) = .ok s ∧ SSet.invert σ s = .error .assertion := by
  have h : okAnd (SSet.or σrot (.pc (iv (qe 0) (qe 1) true true)) (.pc (iv (qe 2) (qe 3) true true)))
    (fun u => okAnd (SSet.or σrot u (.pc (iv (qe 1) (qe 2) true true)))
      (fun s => decide (SSet.invert σrot s = .error .assertion))) = true := by decide +kernel
  simp only [okAnd_iff, decide_eq_true_eq] at h
  exact ⟨σrot, h⟩

/-- C06 counterexample: `3 in ~{'a'}` is `True`. -/
theorem C06_num_in_nominal :
    (SSet.pc (.nom ⟨{"a"}, some true⟩) : SSet QE).contains (.num (qe 3)) = .ok true ∧
      Val.num (qe 3) ∉ (SSet.pc (.nom ⟨{"a"}, some true⟩) : SSet QE).den := by
  refine ⟨by decide +kernel, by simp [SSet.den]⟩

/-- C06 counterexample: whether `'a' in ({'a'} | [0,1])` raises depends on hash order. -/
theorem C06_str_order_dependent :
    ∃ s s' : SSet QE,
      SSet.or σ₀ (.pc (nm {"a"})) (.pc (iv (qe 0) (qe 1) false false)) = .ok s ∧
      SSet.or σrev (.pc (nm {"a"})) (.pc (iv (qe 0) (qe 1) false false)) = .ok s' ∧
      s.contains (.str "a") = .ok true ∧ s'.contains (.str "a") = .error .type := by
  have h : okAnd (SSet.or σ₀ (.pc (nm {"a"})) (.pc (iv (qe 0) (qe 1) false false)))
        (fun s => decide (s.contains (.str "a") = .ok true)) = true ∧
      okAnd (SSet.or σrev (.pc (nm {"a"})) (.pc (iv (qe 0) (qe 1) false false)))
        (fun s => decide (s.contains (.str "a") = .error .type)) = true := by decide +kernel
  simp only [okAnd_iff, decide_eq_true_eq] at h
  obtain ⟨⟨s, h1, h2⟩, ⟨s', h3, h4⟩⟩ := h
  exact ⟨s, s', h1, h3, h2, h4⟩

/-- C06 non-vacuity. -/
example : u0123.contains (.num (qe (5/2))) = .ok true ∧ u0123.contains (.num (qe (3/2))) = .ok false := by
  decide +kernel

end Sppl
