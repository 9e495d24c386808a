import Verif.Interp.TotalSpec
import Verif.Interp.BinProps

set_option linter.all false

/-!
# The cases of a `Switch` on strings or numbers
-/

namespace Sppl
open Classical

theorem point_invert (σ : Orders EReal) (y : ℝ) : ∃ u : Un EReal, SSet.invert σ (.pc (.fin {(y : EReal)})) = .ok (.un u) ∧ u.atoms = none ∧
    u.intervals.Perm [⟨⊥, (y : EReal), true, true⟩, ⟨(y : EReal), ⊤, true, true⟩] := by
  have hn : (⟨⊥, (y : EReal), true, true⟩ : Ivl EReal) ≠ ⟨(y : EReal), ⊤, true, true⟩ := by
    intro h; simp at h
  have hp := σ.ivls_perm [⟨⊥, (y : EReal), true, true⟩, ⟨(y : EReal), ⊤, true, true⟩]
  rw [List.Nodup.dedup (by simpa using hn)] at hp
  have hv := σ.vals_perm ((σ.ivls [⟨⊥, (y : EReal), true, true⟩, ⟨(y : EReal), ⊤, true, true⟩]).map Piece.ivl)
  have hlen : (σ.vals ((σ.ivls [⟨⊥, (y : EReal), true, true⟩, ⟨(y : EReal), ⊤, true, true⟩]).map Piece.ivl)).length = 2 := by
    rw [hv.length_eq, List.Nodup.dedup, List.length_map, hp.length_eq]
    · rfl
    · refine List.Nodup.map (fun x y h => by simpa using h) ?_
      exact hp.nodup_iff.2 (by simpa using hn)
  refine ⟨⟨none, none, σ.ivls [⟨⊥, (y : EReal), true, true⟩, ⟨(y : EReal), ⊤, true, true⟩], σ.vals ((σ.ivls [⟨⊥, (y : EReal), true, true⟩, ⟨(y : EReal), ⊤, true, true⟩]).map Piece.ivl),
      [.ivl ⟨⊥, (y : EReal), true, true⟩, .ivl ⟨(y : EReal), ⊤, true, true⟩]⟩, ?_, rfl, hp⟩
  simp [SSet.invert, Piece.invert, finInvert, mkIvl, EReal.bot_lt_coe, EReal.coe_lt_top, bind, Except.bind, pure, Except.pure, mkUnion, SSet.isUnion, SSet.piece?, Piece.nom?, Piece.fin?, Piece.ivl?, List.filterMap, hlen]

theorem and_not_point (σ : Orders EReal) {x y : ℝ} (h : x ≠ y) :
    (do
      let n ← SSet.invert σ (.pc (.fin {(y : EReal)}))
      SSet.and σ (.pc (.fin {(x : EReal)})) n) = .ok (.pc (.fin {(x : EReal)})) := by
  obtain ⟨u, e1, e2, e3⟩ := point_invert σ y
  have hL : Piece.and (.ivl ⟨⊥, (y : EReal), true, true⟩) (.fin {(x : EReal)}) = .ok (if x < y then .pc (.fin {(x : EReal)}) else .empty) := by
    by_cases hxy : x < y
    · simp [Piece.and, Finset.filter_singleton, Ivl.has, hxy, finOrEmpty, EReal.bot_lt_coe]
    · simp [Piece.and, Finset.filter_singleton, Ivl.has, hxy, h, finOrEmpty, EReal.bot_lt_coe]
  have hR : Piece.and (.ivl ⟨(y : EReal), ⊤, true, true⟩) (.fin {(x : EReal)}) = .ok (if x < y then .empty else .pc (.fin {(x : EReal)})) := by
    by_cases hxy : x < y
    · simp [Piece.and, Finset.filter_singleton, Ivl.has, hxy, finOrEmpty, EReal.coe_lt_top, hxy.le]
    · have := lt_of_le_of_ne (not_lt.1 hxy) (Ne.symm h)
      simp [Piece.and, Finset.filter_singleton, Ivl.has, hxy, this, finOrEmpty, EReal.coe_lt_top]
  have hm : ∃ l, u.intervals.mapM (fun i => Piece.and (.ivl i) (.fin {(x : EReal)})) = .ok l ∧ l.filter (fun s => !s.isEmpty) = [.pc (.fin {(x : EReal)})] := by
    have : u.intervals = [⟨⊥, (y : EReal), true, true⟩, ⟨(y : EReal), ⊤, true, true⟩] ∨ u.intervals = [⟨(y : EReal), ⊤, true, true⟩, ⟨⊥, (y : EReal), true, true⟩] := by
      generalize u.intervals = l at e3
      clear e1 e2
      have hn : (⟨⊥, (y : EReal), true, true⟩ : Ivl EReal) ≠ ⟨(y : EReal), ⊤, true, true⟩ := by
        intro h; simp at h
      rcases l with _ | ⟨a, _ | ⟨b, _ | ⟨c, l⟩⟩⟩
      · simpa using e3.length_eq
      · simpa using e3.length_eq
      · have ha := e3.subset (by simp : a ∈ [a, b])
        have hb := e3.subset (by simp : b ∈ [a, b])
        have hnd : a ≠ b := by
          have := e3.nodup_iff.2 (by simpa using hn)
          simpa using this
        simp only [List.mem_cons, List.not_mem_nil, or_false] at ha hb
        rcases ha with rfl | rfl <;> rcases hb with rfl | rfl <;> simp_all
      · simpa using e3.length_eq
    rcases this with h | h <;> rw [h]
    · refine ⟨[if x < y then SSet.pc (Piece.fin {(x : EReal)}) else SSet.empty, if x < y then SSet.empty else SSet.pc (Piece.fin {(x : EReal)})], by simp only [List.mapM_cons, List.mapM_nil, hL, hR, bind, Except.bind, pure, Except.pure], ?_⟩
      split <;> simp [SSet.isEmpty]
    · refine ⟨[if x < y then SSet.empty else SSet.pc (Piece.fin {(x : EReal)}), if x < y then SSet.pc (Piece.fin {(x : EReal)}) else SSet.empty], by simp only [List.mapM_cons, List.mapM_nil, hL, hR, bind, Except.bind, pure, Except.pure], ?_⟩
      split <;> simp [SSet.isEmpty]
  obtain ⟨l, f1, f2⟩ := hm
  have hand : SSet.and σ (.pc (.fin {(x : EReal)})) (.un u) = .ok (.pc (.fin {(x : EReal)})) := by
    simp only [SSet.and, Un.andPiece, e2, andOptFin, f1, bind, Except.bind, f2]
    rfl
  simp only [e1, bind, Except.bind, hand]

theorem and_not_str (σ : Orders EReal) {x y : String} (h : x ≠ y) :
    (do
      let n ← SSet.invert σ (.pc (.nom ⟨{y}, none⟩))
      SSet.and σ (.pc (.nom ⟨{x}, none⟩)) n) = .ok (.pc (.nom ⟨{x}, none⟩)) := by
  simp [SSet.invert, Piece.invert, Nom.invert, Nom.neg, mkNom, bind, Except.bind, SSet.and, Piece.and, Nom.and, Nom.has, Finset.filter_singleton, h, nomOrEmpty]

/-- If a set is not changed by taking away any of those before it, it is its own case. -/
theorem caseSet_self (c : Ctx) (S : SSet EReal) : ∀ before : List (SSet EReal), (∀ T ∈ before, (do
    let n ← SSet.invert c.σ T
    SSet.and c.σ S n) = .ok S) → caseSet c before S = .ok S
  | [], _ => rfl
  | T :: before, h => by
    unfold caseSet
    rw [List.foldlM_cons, h T (by simp)]
    exact caseSet_self c S before (fun T hT => h T (by simp [hT]))

theorem caseEvents_self {α : Type} (c : Ctx) (t : Tr) (f : α → SSet EReal) (g : α → Ev) (hg : ∀ x, t.inSet c (f x) = .ok (g x))
    (hf : ∀ x y, x ≠ y → (do
      let n ← SSet.invert c.σ (f y)
      SSet.and c.σ (f x) n) = .ok (f x)) : ∀ (xs before : List α), (before ++ xs).Nodup → caseEvents c t (before.map f) (xs.map f) = .ok (xs.map g)
  | [], _, _ => rfl
  | x :: xs, before, h => by
    have h1 : caseSet c (before.map f) (f x) = .ok (f x) := by
      refine caseSet_self c _ _ ?_
      intro T hT
      obtain ⟨y, hy, rfl⟩ := List.mem_map.1 hT
      refine hf x y ?_
      rintro rfl
      exact (List.nodup_append.1 h).2.2 x hy x (by simp) rfl
    have h2 := caseEvents_self c t f g hg hf xs (before ++ [x]) (by simpa using h)
    rw [List.map_append] at h2
    simp only [List.map_cons, List.map_nil] at h2
    simp only [List.map_cons, caseEvents, h1, hg, h2, bind, Except.bind]

/-- The events of the cases: comparisons of `X` with one set each. -/
theorem cases_events (c : Ctx) {Γ : Scope} {X : String} {vals : List SwVal} (h : Γ.Cases X vals) (hX : X ∈ Γ.base) : ∃ es, caseEvents c (.id X) [] (vals.map SwVal.toSet) = .ok es ∧
    ∀ e ∈ es, Γ.Plain e ∧ e.Single := by
  cases h with
  | @strs xs hnd =>
    refine ⟨xs.map (fun x => .nom (.id X) (some ⟨{x}, none⟩)), ?_, ?_⟩
    · have := caseEvents_self c (.id X) (fun x => .pc (.nom ⟨{x}, none⟩)) (fun x : String => .nom (.id X) (some ⟨{x}, none⟩)) (fun x => rfl) (fun x y h => and_not_str c.σ h) xs [] (by simpa using hnd)
      simpa [Function.comp_def, SwVal.toSet] using this
    · intro e he
      obtain ⟨x, -, rfl⟩ := List.mem_map.1 he
      exact ⟨⟨.nom (by simp [Nom.WF]), by simpa [Ev.symbols, Tr.symbols] using hX⟩, X, rfl⟩
  | @nums xs hnd hw =>
    refine ⟨xs.map (fun x : ℝ => .fin (.id X) (some {(x : EReal)})), ?_, ?_⟩
    · have := caseEvents_self c (.id X) (fun x : ℝ => .pc (.fin {(x : EReal)})) (fun x : ℝ => .fin (.id X) (some {(x : EReal)})) (fun x => rfl) (fun x y h => and_not_point c.σ h) xs [] (by simpa using hnd)
      simpa [Function.comp_def, SwVal.toSet] using this
    · intro e he
      obtain ⟨x, hx, rfl⟩ := List.mem_map.1 he
      refine ⟨⟨.fin (by simp) ?_, by simpa [Ev.symbols, Tr.symbols] using hX⟩, X, rfl⟩
      intro y hy
      rw [Finset.mem_singleton.1 hy]
      exact ⟨EReal.coe_ne_bot _, EReal.coe_ne_top _, hw x hx⟩
  | @bins a b n l hX' hab hn hl =>
    rw [show binspace a b ((n : ℤ) + 1) = .ok (gridBins (cutPoint a b n) 0 n) from binspace_ok hab hn] at hl
    cases hl
    have hm := cut_mono hab hn
    refine ⟨_, by
      have := caseEvents_grid hm c (.id X) n
      simpa [Function.comp_def, SwVal.toSet] using this, ?_⟩
    intro e he
    obtain ⟨i, -, rfl⟩ := List.mem_map.1 he
    refine ⟨⟨.ivl ⟨EReal.coe_lt_coe_iff.2 (hm (Nat.lt_succ_self i)), by simp, by simp⟩ ⟨fun _ => .inl hX', fun _ => .inl hX'⟩, by simpa [Ev.symbols, Tr.symbols] using hX⟩, X, rfl⟩

end Sppl
