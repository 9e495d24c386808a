import Verif.Sets.Spec
import Mathlib.Tactic.Order
import Mathlib.Tactic.SplitIfs

set_option linter.all false

namespace Sppl
variable {E : Type} [LinearOrder E] [BoundedOrder E]

theorem Ivl.has_iff (i : Ivl E) (x : E) : i.has x = true ↔ i.Mem x := by
  unfold Ivl.has Ivl.Mem
  cases i.lo <;> cases i.ro <;> simp

theorem Ivl.has_iff_false (i : Ivl E) (x : E) : i.has x = false ↔ ¬ i.Mem x := by
  rw [← Ivl.has_iff]; simp

theorem mkIvl_ok {a b : E} {lo ro : Bool} {i : Ivl E} (h : mkIvl a b lo ro = .ok i) :
    a < b ∧ i = ⟨a, b, lo || decide (a = ⊥), ro || decide (b = ⊤)⟩ := by
  unfold mkIvl at h
  split at h
  · simp_all
  · simp at h

theorem mkIvl_eq {a b : E} {lo ro : Bool} (h : a < b) :
    mkIvl a b lo ro = .ok ⟨a, b, lo || decide (a = ⊥), ro || decide (b = ⊤)⟩ := by
  simp [mkIvl, h]

@[simp] theorem Piece.mem_den_ivl (i : Ivl E) (x : E) :
    (Val.num x ∈ (Piece.ivl i).den) ↔ i.Mem x := by simp [Piece.den]
@[simp] theorem Piece.mem_den_fin (s : Finset E) (x : E) :
    (Val.num x ∈ (Piece.fin s).den) ↔ x ∈ s := by simp [Piece.den]
@[simp] theorem Piece.mem_den_nom (n : Nom) (x : E) :
    ¬ (Val.num x ∈ (Piece.nom n : Piece E).den) := by simp [Piece.den]
@[simp] theorem Piece.str_mem_den_ivl (i : Ivl E) (s : String) :
    ¬ (Val.str s ∈ (Piece.ivl i).den) := by simp [Piece.den]
@[simp] theorem Piece.str_mem_den_fin (t : Finset E) (s : String) :
    ¬ (Val.str s ∈ (Piece.fin t).den) := by simp [Piece.den]
theorem Piece.str_mem_den_nom (n : Nom) (s : String) :
    (Val.str s ∈ (Piece.nom n : Piece E).den) ↔ n.has s = true := by
  simp [Piece.den, Nom.has, Nom.neg]

@[simp] theorem SSet.den_empty : (SSet.empty : SSet E).den = ∅ := rfl
@[simp] theorem SSet.den_pc (p : Piece E) : (SSet.pc p).den = p.den := rfl
@[simp] theorem SSet.mem_den_un (u : Un E) (v : Val E) :
    v ∈ (SSet.un u).den ↔ ∃ p ∈ u.values, v ∈ p.den := Iff.rfl

/-- Two intervals without a common point. -/
def Ivl.Apart (i j : Ivl E) : Prop :=
  (i.b < j.a ∨ (i.b = j.a ∧ (i.ro = true ∨ j.lo = true))) ∨
  (j.b < i.a ∨ (j.b = i.a ∧ (j.ro = true ∨ i.lo = true)))

/-- Two intervals that neither overlap nor touch. -/
def Ivl.Sep (i j : Ivl E) : Prop :=
  (i.b < j.a ∨ (i.b = j.a ∧ i.ro = true ∧ j.lo = true)) ∨
  (j.b < i.a ∨ (j.b = i.a ∧ j.ro = true ∧ i.lo = true))

/-- Interval intersection: never raises, well-formed, exact. -/
theorem Ivl.and_spec (i j : Ivl E) (hi : i.WF) (hj : j.WF) :
    ∃ r, Ivl.and i j = .ok r ∧ r.WF ∧ (∀ s, Val.str s ∉ r.den) ∧
      (r = .empty ↔ i.Apart j) ∧
      (∀ x, Val.num x ∈ r.den ↔ i.Mem x ∧ j.Mem x) := by
  obtain ⟨a, b, lo, ro⟩ := i
  obtain ⟨c, d, lo', ro'⟩ := j
  obtain ⟨hi1, hi2, hi3⟩ := hi
  obtain ⟨hj1, hj2, hj3⟩ := hj
  simp only at hi1 hi2 hi3 hj1 hj2 hj3
  unfold Ivl.and
  have key : ∀ (x y : E) (l r : Bool), x < y → (x = ⊥ → l = true) → (y = ⊤ → r = true) →
      mkIvl x y l r = .ok ⟨x, y, l, r⟩ := by
    intro x y l r h h1 h2
    rw [mkIvl_eq h]
    by_cases e1 : x = ⊥ <;> by_cases e2 : y = ⊤ <;> simp_all
  split_ifs with h1 h2 h3 h4 h5 h6 h7 h8 h9 h10
  all_goals try simp only [Bool.and_eq_true, Ivl.has_iff, Ivl.Mem] at *
  · refine ⟨_, rfl, ⟨hj1, hj2, hj3⟩, by simp, ?_, ?_⟩
    · clear key; simp only [reduceCtorEq, Ivl.Apart]; cases lo <;> cases ro <;> cases lo' <;> cases ro' <;> grind
    intro x; clear key; simp_all [Ivl.Mem]
  · refine ⟨_, rfl, ⟨hj1, hj2, hj3⟩, by simp, ?_, ?_⟩
    · clear key; simp only [reduceCtorEq, Ivl.Apart]; cases lo <;> cases ro <;> cases lo' <;> cases ro' <;> grind
    intro x; clear key; simp only [SSet.den_pc, Piece.mem_den_ivl, Ivl.Mem]
    cases lo <;> cases ro <;> cases lo' <;> cases ro' <;> grind
  · refine ⟨_, rfl, ⟨hi1, hi2, hi3⟩, by simp, ?_, ?_⟩
    · clear key; simp only [reduceCtorEq, Ivl.Apart]; cases lo <;> cases ro <;> cases lo' <;> cases ro' <;> grind
    intro x; clear key; simp only [SSet.den_pc, Piece.mem_den_ivl, Ivl.Mem]
    cases lo <;> cases ro <;> cases lo' <;> cases ro' <;> grind
  · refine ⟨_, rfl, by simp [SSet.WF, Piece.WF], by simp, ?_, ?_⟩
    · clear key; simp only [reduceCtorEq, Ivl.Apart]; cases lo <;> cases ro <;> cases lo' <;> cases ro' <;> grind
    intro x; clear key; simp only [SSet.den_pc, Piece.mem_den_fin, Finset.mem_singleton]
    cases lo <;> cases ro <;> cases lo' <;> cases ro' <;> grind
  · refine ⟨_, rfl, trivial, by simp, ?_, ?_⟩
    · clear key; simp only [reduceCtorEq, Ivl.Apart]; cases lo <;> cases ro <;> cases lo' <;> cases ro' <;> grind
    intro x; clear key; simp only [SSet.den_empty, Set.mem_empty_iff_false]
    cases lo <;> cases ro <;> cases lo' <;> cases ro' <;> grind
  · have hlt : c < b := by cases lo <;> cases ro <;> grind
    rw [key c b lo' ro hlt hj2 hi3]
    refine ⟨_, rfl, ⟨hlt, hj2, hi3⟩, by simp, ?_, ?_⟩
    · clear key; simp only [reduceCtorEq, Ivl.Apart]; cases lo <;> cases ro <;> cases lo' <;> cases ro' <;> grind
    intro x; clear key; simp only [SSet.den_pc, Piece.mem_den_ivl, Ivl.Mem]
    cases lo <;> cases ro <;> cases lo' <;> cases ro' <;> grind
  · refine ⟨_, rfl, by simp [SSet.WF, Piece.WF], by simp, ?_, ?_⟩
    · clear key; simp only [reduceCtorEq, Ivl.Apart]; cases lo <;> cases ro <;> cases lo' <;> cases ro' <;> grind
    intro x; clear key; simp only [SSet.den_pc, Piece.mem_den_fin, Finset.mem_singleton]
    cases lo <;> cases ro <;> cases lo' <;> cases ro' <;> grind
  · refine ⟨_, rfl, trivial, by simp, ?_, ?_⟩
    · clear key; simp only [reduceCtorEq, Ivl.Apart]; cases lo <;> cases ro <;> cases lo' <;> cases ro' <;> grind
    intro x; clear key; simp only [SSet.den_empty, Set.mem_empty_iff_false]
    cases lo <;> cases ro <;> cases lo' <;> cases ro' <;> grind
  · have hlt : a < d := by cases lo <;> cases ro <;> grind
    rw [key a d lo ro' hlt hi2 hj3]
    refine ⟨_, rfl, ⟨hlt, hi2, hj3⟩, by simp, ?_, ?_⟩
    · clear key; simp only [reduceCtorEq, Ivl.Apart]; cases lo <;> cases ro <;> cases lo' <;> cases ro' <;> grind
    intro x; clear key; simp only [SSet.den_pc, Piece.mem_den_ivl, Ivl.Mem]
    cases lo <;> cases ro <;> cases lo' <;> cases ro' <;> grind
  · have hlo : a = ⊥ → (lo || lo') = true := by intro h; simp [hi2 h]
    rw [key a b (lo || lo') ro hi1 hlo hi3]
    refine ⟨_, rfl, ⟨hi1, hlo, hi3⟩, by simp, ?_, ?_⟩
    · clear key; simp only [reduceCtorEq, Ivl.Apart]; cases lo <;> cases ro <;> cases lo' <;> cases ro' <;> grind
    intro x; clear key; simp only [SSet.den_pc, Piece.mem_den_ivl, Ivl.Mem]
    cases lo <;> cases ro <;> cases lo' <;> cases ro' <;> grind
  · have hro : b = ⊤ → (ro || ro') = true := by intro h; simp [hi3 h]
    rw [key a b lo (ro || ro') hi1 hi2 hro]
    refine ⟨_, rfl, ⟨hi1, hi2, hro⟩, by simp, ?_, ?_⟩
    · clear key; simp only [reduceCtorEq, Ivl.Apart]; cases lo <;> cases ro <;> cases lo' <;> cases ro' <;> grind
    intro x; clear key; simp only [SSet.den_pc, Piece.mem_den_ivl, Ivl.Mem]
    cases lo <;> cases ro <;> cases lo' <;> cases ro' <;> grind
  · refine ⟨_, rfl, trivial, by simp, ?_, ?_⟩
    · clear key; simp only [reduceCtorEq, Ivl.Apart]; cases lo <;> cases ro <;> cases lo' <;> cases ro' <;> grind
    intro x; clear key; simp only [SSet.den_empty, Set.mem_empty_iff_false]
    cases lo <;> cases ro <;> cases lo' <;> cases ro' <;> grind

end Sppl
