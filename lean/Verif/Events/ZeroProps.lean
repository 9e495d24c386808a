import Verif.Events.Props
import Verif.Events.Chain3Lemmas
import Verif.Events.ChainProps

set_option linter.all false

/-!
# C08: where an event is false

`event.invert(FiniteReal(1))` is where the event holds (`C08_solve_exact`); here is `event.invert(FiniteReal(0))`.
-/

namespace Sppl
open Classical

variable {c : Ctx} {e : Ev} {t : Tr} {n : ℕ} {S : SSet EReal}

theorem Ev.invert_zero (h : Ev.invert c n e (.pc (.fin {0})) = .ok S) :
    ∃ m, n = m + 1 ∧ e.invertFinite c (Tr.invert c m) (Ev.invert c m) {0} = .ok S := by
  cases n with
  | zero => simp [Ev.invert] at h
  | succ m =>
    refine ⟨m, rfl, ?_⟩
    have e1 : SSet.and c.σ (.pc (.fin {0, 1})) (.pc (.fin {0})) = .ok (.pc (.fin ({0} : Finset EReal))) := by
      have : ({0, 1} : Finset EReal) ∩ {0} = {0} := by ext x; simp
      simp [SSet.and, Piece.and, this, finOrEmpty]
    simpa [Ev.invert, e1, bind, Except.bind] using h

theorem makeUnion_zero {v u : SSet EReal} (hv : GoodR v) {f : EReal → Res (SSet EReal)} (hf : f 0 = .ok v) {xs : List (SSet EReal)}
    (hx : (c.iter {0}).mapM f = .ok xs) (h : makeUnion c.σ xs = .ok u) : GoodR u ∧ ∀ x : Val ℝ, x.lift ∈ u.den ↔ x.lift ∈ v.den := by
  have F := mapM_ok hx
  have hall : ∀ y ∈ xs, y = v := by
    intro y hy
    obtain ⟨a, ha, hfa⟩ := forall₂_mem_right F hy
    have : a = 0 := by simpa using (c.mem_iter {0} a).1 ha
    subst this
    rw [hf] at hfa; cases hfa; rfl
  obtain ⟨h1, h2⟩ := reduce_or_good (fun y hy => hall y hy ▸ hv) h
  refine ⟨h1, fun x => ?_⟩
  rw [h2]
  constructor
  · rintro ⟨y, hy, hm⟩; rwa [← hall y hy]
  · intro hm
    obtain ⟨b, hb, -⟩ := forall₂_mem_left F ((c.mem_iter {0} 0).2 (by simp))
    exact ⟨b, hb, by rw [hall b hb]; exact hm⟩

theorem zero_values (hc : c.Correct) (hm : t.Made c) {V : SSet EReal} (hV : GoodR V)
    (h : (do let xs ← (c.iter {0}).mapM (fun y => Ev.finvReal c V y); let u ← makeUnion c.σ xs; Tr.invert c n t u) = .ok S)
    {s : String} (hs : t.symbols = {s}) (ω : Asg) (v : Val ℝ) (hv : ω s = some v) (hr : t.Regular ω) :
    v.lift ∈ S.den ↔ ∃ y : ℝ, t.eval ω = some (.num y) ∧ Val.num (y : EReal) ∉ V.den := by
  simp only [bind, Except.bind] at h
  split at h; · cases h
  rename_i xs hxs
  split at h; · cases h
  rename_i u hu
  obtain ⟨b, hb, hb'⟩ := forall₂_mem_left (mapM_ok hxs) ((c.mem_iter {0} 0).2 (by simp))
  have hi : SSet.invert c.σ V = .ok b := by simpa [Ev.finvReal] using hb'
  have I := SSet.invert_real c.σ V hV.wf (SSet.pureReal_of_str hV.wf hV.str) hi
  obtain ⟨g1, g2⟩ := makeUnion_zero ⟨I.wf, I.disj, I.str⟩ hb' hxs hu
  rw [C09_invert_exact hc hm g1.wf g1.disj h hs ω v hv hr]
  refine exists_congr (fun y => and_congr_right (fun _ => ?_))
  rw [show Val.num (y : EReal) = (Val.num y).lift from rfl, g2]
  show Val.num (y : EReal) ∈ b.den ↔ _
  rw [I.num]
  simp [Fin', Val.lift]

/-- **C08 (where a comparison is false).** A comparison with numbers, inverted at zero, gives exactly the values for which
the expression is defined and the comparison is false. -/
theorem C08_invert_zero (hc : c.Correct) (hm : e.Made c) (hb : e.basic? = some t) (hnum : ∀ v, e ≠ .nom t v) (h0 : Ev.invert c n e (.pc (.fin {0})) = .ok S)
    {s : String} (hs : t.symbols = {s}) (ω : Asg) (v : Val ℝ) (hv : ω s = some v) (hr : t.Regular ω) :
    v.lift ∈ S.den ↔ (∃ y : ℝ, t.eval ω = some (.num y)) ∧ ¬ e.holds ω := by
  obtain ⟨m, rfl, h⟩ := Ev.invert_zero h0
  have fin : ∀ V : SSet EReal, (∃ y : ℝ, t.eval ω = some (.num y) ∧ Val.num (y : EReal) ∉ V.den) ↔
      (∃ y : ℝ, t.eval ω = some (.num y)) ∧ ¬ ∃ y : ℝ, t.eval ω = some (.num y) ∧ Val.num (y : EReal) ∈ V.den := by
    intro V
    constructor
    · rintro ⟨y, h1, h2⟩
      refine ⟨⟨y, h1⟩, ?_⟩
      rintro ⟨z, h3, h4⟩
      rw [h1] at h3; cases h3; exact h2 h4
    · rintro ⟨⟨y, h1⟩, h2⟩
      exact ⟨y, h1, fun h3 => h2 ⟨y, h1, h3⟩⟩
  cases hm with
  | @ivl t' i ht hi =>
    simp only [Ev.basic?, Option.some.injEq] at hb; subst hb
    rw [zero_values hc ht (goodR_ivl hi) h hs ω v hv hr, fin, Ev.holds_ivl]
    simp
  | @fin t' W ht hi =>
    simp only [Ev.basic?, Option.some.injEq] at hb; subst hb
    have gv : GoodR (optFin W) := by
      cases W with
      | none => exact goodR_empty
      | some W => exact goodR_fin (hi W rfl)
    rw [zero_values hc ht gv h hs ω v hv hr, fin, Ev.holds_fin]
    cases W <;> simp [optFin]
  | nom => simp only [Ev.basic?, Option.some.injEq] at hb; subst hb; exact absurd rfl (hnum _)
  | or => simp [Ev.basic?] at hb
  | and => simp [Ev.basic?] at hb

/-- **C08 (where a comparison with strings is false).** Inverting a comparison with strings at zero returns, and gives exactly the strings that
inverting it at one does not give. -/
theorem C08_invert_zero_strings {v : Option Nom} (hv : ∀ m, v = some m → m.WF) : ∃ S₀ S₁, Ev.invert c (n + 1) (.nom t v) (.pc (.fin {0})) = .ok S₀ ∧
    Ev.invert c (n + 1) (.nom t v) (.pc (.fin {1})) = .ok S₁ ∧ (∀ x, Val.num x ∉ S₀.den) ∧ ∀ x, Val.str x ∈ S₀.den ↔ Val.str x ∉ S₁.den := by
  have e0 : SSet.and c.σ (.pc (.fin {0, 1})) (.pc (.fin {0})) = .ok (.pc (.fin ({0} : Finset EReal))) := by
    have : ({0, 1} : Finset EReal) ∩ {0} = {0} := by ext x; simp
    simp [SSet.and, Piece.and, this, finOrEmpty]
  have e1 : SSet.and c.σ (.pc (.fin {0, 1})) (.pc (.fin {1})) = .ok (.pc (.fin ({1} : Finset EReal))) := by
    have : ({0, 1} : Finset EReal) ∩ {1} = {1} := by ext x; simp
    simp [SSet.and, Piece.and, this, finOrEmpty]
  have h10 : ({1} : Finset EReal) ≠ {0} := by simp
  have h01 : (0 : EReal) ≠ 1 := by simp
  have st : ∀ x : String, (Val.str x : Val EReal) ∈ (SSet.strings : SSet EReal).den := by intro x; simp [SSet.strings, SSet.den, Piece.den]
  have nt : ∀ x : EReal, (Val.num x : Val EReal) ∉ (SSet.strings : SSet EReal).den := by intro x; simp [SSet.strings, SSet.den, Piece.den]
  simp only [Ev.invert, e0, e1, bind, Except.bind, Ev.invertFinite, if_true, if_neg h10, Ev.finvNom, if_neg h01]
  cases v with
  | none => exact ⟨_, _, rfl, rfl, nt, fun x => by simp [st x]⟩
  | some m =>
    by_cases hid : t.isId = true
    · obtain ⟨r, h1, -, -, h4, h5⟩ := Nom.invert_spec (E := EReal) m (hv m rfl)
      simp only [hid, if_true]
      exact ⟨r, _, h1, rfl, h4, fun x => by rw [h5]; simp [SSet.den, Piece.str_mem_den_nom]⟩
    · by_cases hneg : m.neg = true
      · simp only [hid, hneg, if_true]
        exact ⟨_, _, rfl, rfl, by simp, fun x => by simp [st x]⟩
      · simp only [hid, hneg]
        exact ⟨_, _, rfl, rfl, nt, fun x => by simp [st x]⟩

/-- **C08 (where a disjunction is false, wrong).** A disjunction inverted at zero is the union of where its parts are false,
not the intersection: `(X << {'a'}) | (X << {'b'})` gives a set with `'a'`. -/
theorem C08_invert_zero_or_wrong (c : Ctx) : ∃ S, Ev.invert c 2 (.or [.nom (.id "X") (some ⟨{"a"}, none⟩), .nom (.id "X") (some ⟨{"b"}, none⟩)]) (.pc (.fin {0})) = .ok S ∧
    (Val.str "a" : Val EReal) ∈ S.den ∧
    (Ev.or [.nom (.id "X") (some ⟨{"a"}, none⟩), .nom (.id "X") (some ⟨{"b"}, none⟩)]).holds (fun _ => some (.str "a")) := by
  have e0 : SSet.and c.σ (.pc (.fin {0, 1})) (.pc (.fin {0})) = .ok (.pc (.fin ({0} : Finset EReal))) := by
    have : ({0, 1} : Finset EReal) ∩ {0} = {0} := by ext x; simp
    simp [SSet.and, Piece.and, this, finOrEmpty]
  refine ⟨.pc (.nom ⟨∅, some true⟩), ?_, by simp [SSet.den, Piece.den], by simp [Tr.eval, Ev.holdsL, Ev.holdsB]⟩
  have h01 : (0 : EReal) ≠ 1 := by simp
  have hab : ({"a"} : Finset String) ∩ {"b"} = ∅ := by decide
  simp [Ev.invert, e0, bind, Except.bind, Ev.invertFinite, Ev.finvNom, Tr.isId, SSet.invert, Nom.invert, mkNom, makeUnion, Nom.neg, Piece.invert, pure, Except.pure, reduceM, SSet.or, Piece.or]
  have ho : Nom.or ⟨{"a"}, some true⟩ ⟨{"b"}, some true⟩ = .ok ⟨∅, some true⟩ := by decide +kernel
  simp [ho]

/-! ## Non-vacuity -/

/-- The strings `a`, and all but `a`. -/
example : (⟨{"a"}, some false⟩ : Nom).WF ∧ (⟨{"a"}, some true⟩ : Nom).WF := by constructor <;> simp [Nom.WF]

/-- `X <= 1` is false above one. -/
example : ctx0.Correct ∧ (Ev.ivl (.id "X") ⟨⊥, ((1 : ℝ) : EReal), true, false⟩).Made ctx0 ∧
    ∃ N S, Ev.invert ctx0 N (.ivl (.id "X") ⟨⊥, ((1 : ℝ) : EReal), true, false⟩) (.pc (.fin {0})) = .ok S := by
  have e0 : SSet.and ctx0.σ (.pc (.fin {0, 1})) (.pc (.fin {0})) = .ok (.pc (.fin ({0} : Finset EReal))) := by
    have : ({0, 1} : Finset EReal) ∩ {0} = {0} := by ext x; simp
    simp [SSet.and, Piece.and, this, finOrEmpty]
  have w1 : (⟨⊥, ((1 : ℝ) : EReal), true, false⟩ : Ivl EReal).WF := ⟨EReal.bot_lt_coe 1, fun _ => rfl, fun h => absurd h (EReal.coe_ne_top 1)⟩
  have w2 : (⟨((1 : ℝ) : EReal), ⊤, true, true⟩ : Ivl EReal).WF := ⟨EReal.coe_lt_top 1, fun h => absurd h (EReal.coe_ne_bot 1), fun _ => rfl⟩
  obtain ⟨N, S, -, hS⟩ := (Tr.Chain.id (k := "X")).invert ctx0_correct ctx0_linear (.pc (.ivl ⟨((1 : ℝ) : EReal), ⊤, true, true⟩)) (.ivl w2)
  refine ⟨ctx0_correct, .ivl (.id _) w1, N + 1, S, ?_⟩
  have hi : Ev.finvReal ctx0 (.pc (.ivl ⟨⊥, ((1 : ℝ) : EReal), true, false⟩)) 0 = .ok (.pc (.ivl ⟨((1 : ℝ) : EReal), ⊤, true, true⟩)) := by
    simp [Ev.finvReal, SSet.invert, Piece.invert, Ivl.invert, mkIvl, bind, Except.bind]
    have a : (1 : EReal) < ⊤ := by exact_mod_cast EReal.coe_lt_top 1
    simp [a, a.ne]
  have hit : ctx0.iter {0} = [0] := Finset.toList_singleton 0
  simp only [Ev.invert, e0, bind, Except.bind, Ev.invertFinite, hit, List.mapM_cons, List.mapM_nil, hi, pure, Except.pure, makeUnion, reduceM, List.foldlM]
  exact hS

end Sppl
