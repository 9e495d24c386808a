import Verif.Events.ZeroProps
import Mathlib.Data.List.Permutation

set_option linter.all false

/-!
# C08: where an event is true or false

`event.invert(FiniteReal(0, 1))`: for comparisons with numbers, where the expression is defined; for comparisons with
strings no set at all, since the code tests for `FiniteReal(1, 2)` (transforms.py 1065).
-/

namespace Sppl
open Classical

variable {c : Ctx} {e : Ev} {t : Tr} {n : ℕ} {S : SSet EReal}

theorem both_and (c : Ctx) : SSet.and c.σ (.pc (.fin {0, 1})) (.pc (.fin {0, 1})) = .ok (.pc (.fin ({0, 1} : Finset EReal))) := by
  simp [SSet.and, Piece.and, finOrEmpty]

theorem both_values (hc : c.Correct) (hm : t.Made c) {V : SSet EReal} (hV : GoodR V)
    (h : (do let xs ← (c.iter {0, 1}).mapM (fun y => Ev.finvReal c V y); let u ← makeUnion c.σ xs; Tr.invert c n t u) = .ok S)
    {s : String} (hs : t.symbols = {s}) (ω : Asg) (v : Val ℝ) (hv : ω s = some v) (hr : t.Regular ω) :
    v.lift ∈ S.den ↔ ∃ y : ℝ, t.eval ω = some (.num y) := by
  simp only [bind, Except.bind] at h
  split at h; · cases h
  rename_i xs hxs
  split at h; · cases h
  rename_i u hu
  have F := mapM_ok hxs
  obtain ⟨b, hb, hb'⟩ := forall₂_mem_left F ((c.mem_iter {0, 1} 0).2 (by simp))
  obtain ⟨d, hd, hd'⟩ := forall₂_mem_left F ((c.mem_iter {0, 1} 1).2 (by simp))
  have hi : SSet.invert c.σ V = .ok b := by simpa [Ev.finvReal] using hb'
  have hd1 : V = d := by simpa [Ev.finvReal] using hd'
  have I := SSet.invert_real c.σ V hV.wf (SSet.pureReal_of_str hV.wf hV.str) hi
  have hg : ∀ y ∈ xs, GoodR y := by
    intro y hy
    obtain ⟨a, ha, hfa⟩ := forall₂_mem_right F hy
    have ha' : a = 0 ∨ a = 1 := by simpa using (c.mem_iter {0, 1} a).1 ha
    rcases ha' with rfl | rfl
    · rw [hb'] at hfa; cases hfa; exact ⟨I.wf, I.disj, I.str⟩
    · rw [hd'] at hfa; cases hfa; exact hd1 ▸ hV
  obtain ⟨g1, g2⟩ := reduce_or_good hg hu
  rw [C09_invert_exact hc hm g1.wf g1.disj h hs ω v hv hr]
  refine exists_congr (fun y => ⟨fun h => h.1, fun h => ⟨h, ?_⟩⟩)
  rw [show Val.num (y : EReal) = (Val.num y).lift from rfl, g2]
  by_cases hy : Val.num (y : EReal) ∈ V.den
  · exact ⟨d, hd, hd1 ▸ hy⟩
  · refine ⟨b, hb, ?_⟩
    show Val.num (y : EReal) ∈ b.den
    rw [I.num]
    simp [Fin', hy]

/-- **C08 (where a comparison is true or false).** A comparison with numbers, inverted at zero and one together, gives
exactly the values for which the expression is defined, whatever it is compared with. -/
theorem C08_invert_both (hc : c.Correct) (hm : e.Made c) (hb : e.basic? = some t) (hnum : ∀ v, e ≠ .nom t v) (h : Ev.invert c n e (.pc (.fin {0, 1})) = .ok S)
    {s : String} (hs : t.symbols = {s}) (ω : Asg) (v : Val ℝ) (hv : ω s = some v) (hr : t.Regular ω) :
    v.lift ∈ S.den ↔ ∃ y : ℝ, t.eval ω = some (.num y) := by
  cases n with
  | zero => simp [Ev.invert] at h
  | succ m =>
    simp only [Ev.invert, both_and, bind, Except.bind] at h
    cases hm with
    | @ivl t' i ht hi =>
      simp only [Ev.basic?, Option.some.injEq] at hb; subst hb
      exact both_values hc ht (goodR_ivl hi) h hs ω v hv hr
    | @fin t' W ht hi =>
      simp only [Ev.basic?, Option.some.injEq] at hb; subst hb
      have gv : GoodR (optFin W) := by
        cases W with
        | none => exact goodR_empty
        | some W => exact goodR_fin (hi W rfl)
      exact both_values hc ht gv h hs ω v hv hr
    | nom => simp only [Ev.basic?, Option.some.injEq] at hb; subst hb; exact absurd rfl (hnum _)
    | or => simp [Ev.basic?] at hb
    | and => simp [Ev.basic?] at hb

/-- **C08 (strings at zero and one, wrong).** A comparison with strings never gives a set when inverted at zero and one together. -/
theorem C08_invert_both_strings_wrong (c : Ctx) (n : ℕ) (t : Tr) (v : Option Nom) : ∀ S, Ev.invert c n (.nom t v) (.pc (.fin {0, 1})) ≠ .ok S := by
  intro S h
  cases n with
  | zero => simp [Ev.invert] at h
  | succ m =>
    have h0 : ({0, 1} : Finset EReal) ≠ {0} := fun h => by
      have : (1 : EReal) ∈ ({0} : Finset EReal) := h ▸ by simp
      simp at this
    have h1 : ({0, 1} : Finset EReal) ≠ {1} := fun h => by
      have : (0 : EReal) ∈ ({1} : Finset EReal) := h ▸ by simp
      simp at this
    simp [Ev.invert, both_and, bind, Except.bind, Ev.invertFinite, h0, h1] at h

/-- **C08 (where a conjunction is false, wrong).** A conjunction inverted at zero is the intersection of where its parts are false,
not the union: `(X << {'a'}) & (X << {'b'})`, which holds nowhere, gives a set without `'a'`. -/
theorem C08_invert_zero_and_wrong (c : Ctx) : ∃ S, Ev.invert c 2 (.and [.nom (.id "X") (some ⟨{"a"}, none⟩), .nom (.id "X") (some ⟨{"b"}, none⟩)]) (.pc (.fin {0})) = .ok S ∧
    (Val.str "a" : Val EReal) ∉ S.den ∧
    ¬ (Ev.and [.nom (.id "X") (some ⟨{"a"}, none⟩), .nom (.id "X") (some ⟨{"b"}, none⟩)]).holds (fun _ => some (.str "a")) := by
  have e0 : SSet.and c.σ (.pc (.fin {0, 1})) (.pc (.fin {0})) = .ok (.pc (.fin ({0} : Finset EReal))) := by
    have : ({0, 1} : Finset EReal) ∩ {0} = {0} := by ext x; simp
    simp [SSet.and, Piece.and, this, finOrEmpty]
  have h01 : (0 : EReal) ≠ 1 := by simp
  refine ⟨.pc (.nom ⟨{"a", "b"}, some true⟩), ?_, by simp [SSet.den, Piece.den], by simp [Tr.eval, Ev.holdsL, Ev.holdsB]⟩
  simp [Ev.invert, e0, bind, Except.bind, Ev.invertFinite, Ev.finvNom, Tr.isId, SSet.invert, Nom.invert, mkNom, makeIntersection, Nom.neg, Piece.invert, pure, Except.pure, reduceM]
  have ho : Nom.and ⟨{"a"}, some true⟩ ⟨{"b"}, some true⟩ = (.ok (.pc (.nom ⟨{"a", "b"}, some true⟩)) : Res (SSet EReal)) := by decide +kernel
  simp [SSet.and, Piece.and, ho]

/-! ## Non-vacuity -/

/-- `X << {}` is true or false for every number. -/
example : ctx0.Correct ∧ (Ev.fin (.id "X") none).Made ctx0 ∧ ∃ N S, Ev.invert ctx0 N (.fin (.id "X") none) (.pc (.fin {0, 1})) = .ok S := by
  obtain ⟨N, S, -, hS⟩ := (Tr.Chain.id (k := "X")).invert ctx0_correct ctx0_linear (.pc (.ivl ⟨⊥, ⊤, true, true⟩)) (.ivl SSet.wf_reals)
  refine ⟨ctx0_correct, .fin (.id _) (by simp), N + 1, S, ?_⟩
  have h0 : Ev.finvReal ctx0 .empty 0 = .ok (.pc (.ivl ⟨⊥, ⊤, true, true⟩)) := by
    simp [Ev.finvReal, SSet.invert, mkIvl, bind, Except.bind]
  have h1 : Ev.finvReal ctx0 .empty 1 = .ok .empty := by simp [Ev.finvReal]
  have hit : ctx0.iter {0, 1} = [0, 1] ∨ ctx0.iter {0, 1} = [1, 0] := by
    have hp : (ctx0.iter {0, 1}).Perm [0, 1] := by
      have : (({0, 1} : Finset EReal)).toList.Perm [0, 1] := by
        rw [List.perm_ext_iff_of_nodup (Finset.nodup_toList _) (by simp)]
        simp
      exact this
    exact List.perm_pair.1 hp
  rcases hit with hit | hit <;>
  · simp only [Ev.invert, both_and, bind, Except.bind, Ev.invertFinite, optFin, hit, List.mapM_cons, List.mapM_nil, h0, h1, pure, Except.pure, makeUnion, reduceM, List.foldlM, SSet.or]
    exact hS

end Sppl
