import Verif.Events.Chain3Lemmas
import Verif.Sets.CutLemmas

set_option linter.all false

/-!
# Conjunctions and disjunctions of comparisons (helper lemmas)
-/

namespace Sppl
open Classical

theorem Ev.ChainLit.of {k : String} {e : Ev} (h : e.ChainLit k) : ∃ t V, t.Chain k ∧ ChainOf k t V e := by
  cases h with
  | ivl h hi => exact ⟨_, _, h, .ivl hi⟩
  | one h => exact ⟨_, _, h, .one⟩
  | empty h => exact ⟨_, _, h, .empty⟩

theorem SSet.Flat.wf {V : SSet EReal} (h : V.Flat) : V.WF ∧ V.Disj ∧ V.PureReal := by
  cases h with
  | empty => exact ⟨trivial, trivial, trivial⟩
  | ivl h => exact ⟨h, trivial, by intro n; simp⟩
  | @one y => exact ⟨⟨y, by simp⟩, trivial, by intro n; simp⟩

theorem flat_and (σ : Orders EReal) {V W : SSet EReal} (hV : V.Flat) (hW : W.Flat) : ∃ r, SSet.and σ V W = .ok r ∧ r.Flat := by
  cases hV with
  | empty => exact ⟨.empty, rfl, .empty⟩
  | @ivl i hi =>
    obtain ⟨r, h1, h2, -⟩ := rng_and_flat σ (.inl rfl) hi hW
    exact ⟨r, h1, h2⟩
  | @one y =>
    cases hW with
    | empty => exact ⟨.empty, rfl, .empty⟩
    | ivl => exact ⟨_, rfl, finOrEmpty_one (Finset.filter_subset _ _)⟩
    | one => exact ⟨_, rfl, finOrEmpty_one Finset.inter_subset_left⟩

theorem real_or (σ : Orders EReal) (s t : SSet EReal) (hs : s.WF ∧ s.Disj ∧ s.PureReal) (ht : t.WF ∧ t.Disj ∧ t.PureReal) :
    ∃ r, SSet.or σ s t = .ok r ∧ (r.WF ∧ r.Disj ∧ r.PureReal) := by
  obtain ⟨r, hr⟩ := SSet.or_total_real σ s t hs.1 ht.1 hs.2.2 ht.2.2
  have h := SSet.or_spec σ s t hs.1 hs.2.1 ht.1 ht.2.1 hr
  exact ⟨r, hr, h.wf, h.disj, h.pureReal hs.2.2.str ht.2.2.str⟩

theorem mapM_some {α β : Type} {f : ℕ → α → Res β} (hf : ∀ n m a, n ≤ m → Le (f n a) (f m a)) {P : β → Prop} :
    ∀ l : List α, (∀ a ∈ l, ∃ N r, P r ∧ f N a = .ok r) → ∃ N xs, l.mapM (f N) = .ok xs ∧ xs.length = l.length ∧ ∀ x ∈ xs, P x
  | [], _ => ⟨0, [], rfl, rfl, by simp⟩
  | a :: l, h => by
    obtain ⟨N, r, h1, h2⟩ := h a (by simp)
    obtain ⟨M, xs, h3, h4, h5⟩ := mapM_some hf l (fun a ha => h a (by simp [ha]))
    have e1 := hf N (max N M) a (le_max_left _ _) _ h2
    have e2 : l.mapM (f (max N M)) = .ok xs := by
      have gen : ∀ (l : List α) xs, l.mapM (f M) = .ok xs → l.mapM (f (max N M)) = .ok xs := by
        intro l
        induction l with
        | nil => intro xs h; exact h
        | cons b l ih =>
          intro xs h
          simp only [List.mapM_cons, bind, Except.bind] at h ⊢
          cases hb : f M b with
          | error e => simp [hb] at h
          | ok y =>
            rw [hf M (max N M) b (le_max_right _ _) _ hb]
            simp only [hb] at h ⊢
            cases hl : l.mapM (f M) with
            | error e => simp [hl] at h
            | ok ys => rw [ih ys hl]; simp only [hl] at h; exact h
      exact gen l xs h3
    exact ⟨max N M, r :: xs, by simp [e1, e2, bind, Except.bind, pure, Except.pure], by simp [h4], by simpa using ⟨h1, h5⟩⟩

theorem Ev.invert_le' {c : Ctx} (n m : ℕ) (e : Ev) (h : n ≤ m) (V : SSet EReal) : Le (Ev.invert c n e V) (Ev.invert c m e V) :=
  le_of_succ (fun n => Ev.invert_le_succ n e V) h

theorem Ev.ChainAnd.inv {c : Ctx} (hc : c.Correct) (hl : c.Linear) {k : String} {e : Ev} (h : e.ChainAnd k) :
    ∃ N S, S.Flat ∧ Ev.invert c N e (.pc (.fin {1})) = .ok S := by
  cases h with
  | lit h =>
    obtain ⟨t, V, ht, h⟩ := h.of
    exact h.inv hc hl ht
  | @and es hne h =>
    obtain ⟨N, xs, h1, h2, h3⟩ := mapM_some (f := fun n e => Ev.invert c n e (.pc (.fin {1}))) (P := SSet.Flat)
      (fun n m e hnm => Ev.invert_le' n m e hnm _) es (fun e he => by
        obtain ⟨t, V, ht, h⟩ := (h e he).of
        exact h.inv hc hl ht)
    have hx : xs ≠ [] := by intro h; rw [h] at h2; exact hne (List.length_eq_zero_iff.1 h2.symm)
    obtain ⟨r, h4, h5⟩ := reduceM_total (P := SSet.Flat) (fun a b ha hb => flat_and c.σ ha hb) hx h3
    refine ⟨N + 1, r, h5, ?_⟩
    rw [Ev.invert]
    simp only [bool_and_one, bind, Except.bind, Ev.invertFinite, h1]
    exact h4

theorem Ev.ChainDnf.inv {c : Ctx} (hc : c.Correct) (hl : c.Linear) {k : String} {e : Ev} (h : e.ChainDnf k) :
    ∃ N S, Ev.invert c N e (.pc (.fin {1})) = .ok S := by
  cases h with
  | conj h =>
    obtain ⟨N, S, -, h⟩ := h.inv hc hl
    exact ⟨N, S, h⟩
  | @or es hne h =>
    obtain ⟨N, xs, h1, h2, h3⟩ := mapM_some (f := fun n e => Ev.invert c n e (.pc (.fin {1}))) (P := SSet.Flat)
      (fun n m e hnm => Ev.invert_le' n m e hnm _) es (fun e he => (h e he).inv hc hl)
    have hx : xs ≠ [] := by intro h; rw [h] at h2; exact hne (List.length_eq_zero_iff.1 h2.symm)
    obtain ⟨r, h4, h5⟩ := reduceM_total (fun a b ha hb => real_or c.σ a b ha hb) hx (fun x hx => (h3 x hx).wf)
    refine ⟨N + 1, r, ?_⟩
    rw [Ev.invert]
    simp only [bool_and_one, bind, Except.bind, Ev.invertFinite, h1]
    exact h4

theorem Ev.ChainLit.symbols {k : String} {e : Ev} (h : e.ChainLit k) : e.symbols = {k} := by
  cases h with
  | ivl h => simp [Ev.symbols, h.symbols]
  | one h => simp [Ev.symbols, h.symbols]
  | empty h => simp [Ev.symbols, h.symbols]

theorem symbolsL_const {k : String} {es : List Ev} (hne : es ≠ []) (h : ∀ e ∈ es, e.symbols = {k}) : Ev.symbolsL es = {k} := by
  ext x
  rw [Ev.mem_symbolsL]
  constructor
  · rintro ⟨e, he, hx⟩; rw [h e he] at hx; exact hx
  · intro hx
    obtain ⟨e, he⟩ := List.exists_mem_of_ne_nil _ hne
    exact ⟨e, he, by rw [h e he]; exact hx⟩

theorem Ev.ChainAnd.symbols {k : String} {e : Ev} (h : e.ChainAnd k) : e.symbols = {k} := by
  cases h with
  | lit h => exact h.symbols
  | and hne h => rw [Ev.symbols]; exact symbolsL_const hne (fun e he => (h e he).symbols)

theorem Ev.ChainDnf.symbols {k : String} {e : Ev} (h : e.ChainDnf k) : e.symbols = {k} := by
  cases h with
  | conj h => exact h.symbols
  | or hne h => rw [Ev.symbols]; exact symbolsL_const hne (fun e he => (h e he).symbols)

theorem Ev.ChainLit.made {c : Ctx} {k : String} {e : Ev} (h : e.ChainLit k) : e.Made c := by
  cases h with
  | ivl h hi => exact .ivl h.made hi
  | @one _ y h => exact .fin h.made (by intro s hs; cases hs; exact ⟨y, by simp⟩)
  | empty h => exact .fin h.made (by simp)

theorem Ev.ChainAnd.made {c : Ctx} {k : String} {e : Ev} (h : e.ChainAnd k) : e.Made c := by
  cases h with
  | lit h => exact h.made
  | and hne h => exact .and hne (fun e he => (h e he).made)

theorem Ev.ChainDnf.made {c : Ctx} {k : String} {e : Ev} (h : e.ChainDnf k) : e.Made c := by
  cases h with
  | conj h => exact h.made
  | or hne h => exact .or hne (fun e he => (h e he).made)

theorem Ev.ChainDnf.solve {c : Ctx} (hc : c.Correct) (hl : c.Linear) {k : String} {e : Ev} (h : e.ChainDnf k) : ∃ N S, e.solve c N = .ok S := by
  obtain ⟨N, S, h1⟩ := h.inv hc hl
  have hs := h.symbols
  unfold Ev.solve
  split
  · exact ⟨0, _, rfl⟩
  · exact ⟨0, _, rfl⟩
  · exact ⟨0, _, rfl⟩
  · refine ⟨N, S, ?_⟩
    rw [if_neg (by simp [hs])]; exact h1

theorem Ev.ChainAnd.solve {c : Ctx} (hc : c.Correct) (hl : c.Linear) {k : String} {e : Ev} (h : e.ChainAnd k) : ∃ N S, S.Flat ∧ e.solve c N = .ok S := by
  cases h with
  | lit h =>
    obtain ⟨t, V, ht, h⟩ := h.of
    exact h.solve hc hl ht
  | @and es hne h =>
    obtain ⟨N, S, hS, h1⟩ := (Ev.ChainAnd.and hne h).inv hc hl
    refine ⟨N, S, hS, ?_⟩
    rw [Ev.solve, if_neg (by simp [(Ev.ChainAnd.and hne h).symbols])]; exact h1
    all_goals simp

/-! ## Two events that raise -/

theorem fins_union (σ : Orders EReal) (f : EReal → EReal) : ∀ (l : List EReal), l ≠ [] →
    makeUnion σ (l.map (fun y => SSet.pc (.fin {f y}))) = .ok (.pc (.fin (l.toFinset.image f)))
  | a :: l, _ => by
    have gen : ∀ (l : List EReal) (s : Finset EReal), (l.map (fun y => SSet.pc (Piece.fin {f y}))).foldlM (SSet.or σ) (.pc (.fin s)) = .ok (.pc (.fin (s ∪ l.toFinset.image f))) := by
      intro l
      induction l with
      | nil => intro s; simp [pure, Except.pure]
      | cons b l ih =>
        intro s
        simp only [List.map_cons, List.foldlM_cons, SSet.or, Piece.or, bind, Except.bind, ih]
        congr 3
        ext x; simp
    have := gen l {f a}
    simp only [makeUnion, reduceM, List.map_cons, this]
    congr 3
    ext x; simp

theorem mapM_eqMap {α β : Type} {f : α → Res β} {g : α → β} : ∀ l : List α, (∀ a ∈ l, f a = .ok (g a)) → l.mapM f = .ok (l.map g)
  | [], _ => rfl
  | a :: l, h => by simp [h a (by simp), mapM_eqMap l (fun b hb => h b (by simp [hb])), bind, Except.bind, pure, Except.pure]

/-- `ExtReals & {-oo, 0}` raises. -/
theorem ext_mixed (c : Ctx) : ∃ r, extReals c = .ok r ∧ SSet.and c.σ r (.pc (.fin {⊥, 0})) = .error .assertion := by
  obtain ⟨u, h1, -, ha, g3⟩ := mkUnion_finIvl c.σ {⊥, ⊤} ⟨⊥, ⊤, true, true⟩
  refine ⟨_, h1, ?_⟩
  · skip
    have e1 : ({⊥, ⊤} : Finset EReal) ∩ {⊥, 0} = {⊥} := by
      ext x; simp only [Finset.mem_inter, Finset.mem_insert, Finset.mem_singleton]
      constructor
      · rintro ⟨rfl | rfl, h | h⟩ <;> simp_all
      · rintro rfl; simp
    have e2 : ({⊥, 0} : Finset EReal).filter (fun v => (⟨⊥, ⊤, true, true⟩ : Ivl EReal).has v) = {0} := by
      ext x; simp only [Finset.mem_filter, Finset.mem_insert, Finset.mem_singleton, Ivl.has_iff, Ivl.Mem]
      constructor
      · rintro ⟨rfl | rfl, h⟩ <;> simp_all
      · rintro rfl; simp [EReal.bot_lt_zero, EReal.zero_lt_top]
    simp only [SSet.and, Un.andPiece, ha, andOptFin, g3, List.mapM_cons, List.mapM_nil, Piece.and, bind, Except.bind, pure, Except.pure, e1, e2]
    simp [finOrEmpty, SSet.isEmpty, finishAnd, mkUnion, SSet.isUnion, List.filterMap_cons]

theorem expSet_raises (c : Ctx) {b : ℝ} (hb : 1 < b) (n : ℕ) : (Ev.fin (.exp (.id "X") b) (some {0, 1})).solve c (n + 3) = .error .assertion := by
  have h01 : ∀ x ∈ ({0, 1} : Finset EReal), 0 ≤ x := by intro x hx; simp at hx; rcases hx with rfl | rfl <;> simp
  obtain ⟨u, h1, -, hu, g3⟩ := mkUnion_finIvl c.σ {⊤} ⟨0, ⊤, false, true⟩
  have h1 : extRealsPos c = .ok (.un u) := by
    have e : mkIvl (0 : EReal) ⊤ false false = .ok ⟨0, ⊤, false, true⟩ := by simp [mkIvl]
    simp only [extRealsPos, e, bind, Except.bind]; exact h1
  have ha : SSet.and c.σ (.un u) (.pc (.fin {0, 1})) = .ok (.pc (.fin {0, 1})) := by
    · have e2 : ({0, 1} : Finset EReal).filter (fun v => (⟨0, ⊤, false, true⟩ : Ivl EReal).has v) = {0, 1} := by
        rw [Finset.filter_eq_self]
        intro x hx
        rw [Ivl.has_iff, pos_mem]
        refine ⟨h01 x hx, ?_⟩
        simp at hx; rcases hx with rfl | rfl
        · exact EReal.zero_lt_top
        · exact EReal.coe_lt_top 1
      have e1 : andOptFin u.atoms (.fin {0, 1}) = .ok .empty := by
        have h1t : (1 : EReal) ≠ ⊤ := EReal.coe_ne_top 1
        have : ({⊤} : Finset EReal) ∩ {0, 1} = ∅ := by
          ext x; simp only [Finset.mem_inter, Finset.mem_insert, Finset.mem_singleton, Finset.notMem_empty, iff_false]
          rintro ⟨rfl, h' | h'⟩
          · simp at h'
          · exact h1t h'.symm
        simp [hu, andOptFin, Piece.and, finOrEmpty, this]
      simp only [SSet.and, Un.andPiece, e1, g3, List.mapM_cons, List.mapM_nil, Piece.and, bind, Except.bind, pure, Except.pure, e2]
      simp [finOrEmpty, SSet.isEmpty, finishAnd]
  let f : EReal → EReal := fun y => if y = 0 then ⊥ else 0
  have hfi : ∀ y ∈ c.iter {0, 1}, (Tr.exp (.id "X") b).finv c y = .ok (.pc (.fin {f y})) := by
    intro y hy
    have hy := (c.mem_iter _ _).1 hy
    rw [Tr.finv, ifInRange_pos c (h01 y hy)]
    simp only [Finset.mem_insert, Finset.mem_singleton] at hy
    rcases hy with rfl | rfl
    · simp [f]
    · have : ¬ ((1 : EReal) ≤ 0) := by rw [not_le]; exact zero_lt_one
      have h1t : (1 : EReal) ≠ ⊤ := EReal.coe_ne_top 1
      rw [if_neg h1t, if_neg this, if_neg hb.ne']
      have : (1 : EReal).toReal = 1 := EReal.toReal_coe 1
      simp [f, this]
  have hne : c.iter {0, 1} ≠ [] := by
    intro h
    have := (c.mem_iter {0, 1} 0).2 (by simp)
    rw [h] at this; simp at this
  have hm := mapM_eqMap _ hfi
  have hU := fins_union c.σ f _ hne
  have himg : (c.iter {0, 1}).toFinset.image f = {⊥, 0} := by
    have : (c.iter {0, 1}).toFinset = {0, 1} := by ext x; rw [List.mem_toFinset, c.mem_iter]
    rw [this]
    simp [f]
  rw [himg] at hU
  obtain ⟨r', h1', h2'⟩ := ext_mixed c
  obtain ⟨xs, k1, k2⟩ := iterUnion_one (c := c) (y := 1) (f := fun y => Ev.finvReal c (.pc (.fin {0, 1})) y) (X := .pc (.fin {0, 1})) (by simp [Ev.finvReal]) (fin_or_self _ _)
  rw [Ev.solve, if_neg (by simp [Ev.symbols, Tr.symbols])]
  · rw [Ev.invert]
    simp only [bool_and_one, bind, Except.bind, Ev.invertFinite, optFin, k1, k2]
    rw [Tr.invert]
    simp only [Tr.range, h1, bind, Except.bind, ha]
    rw [Tr.invertStep_fin (t := .exp (.id "X") b) trivial]
    simp only [hm, hU, bind, Except.bind]
    show Tr.invert c (n + 1) (.id "X") (.pc (.fin {⊥, 0})) = _
    rw [Tr.invert]
    simp only [Tr.range, h1', bind, Except.bind, h2']
  all_goals simp

/-- `Reciprocal.range()`. -/
theorem recipRange_un (c : Ctx) : ∃ u, recipRange c = .ok (.un u) ∧ u.atoms = none ∧ u.intervals.Perm [⟨⊥, 0, true, true⟩, ⟨0, ⊤, true, true⟩] := by
  have e1 : mkIvl (⊥ : EReal) 0 false true = .ok ⟨⊥, 0, true, true⟩ := by simp [mkIvl]
  have e2 : mkIvl (0 : EReal) ⊤ true false = .ok ⟨0, ⊤, true, true⟩ := by simp [mkIvl]
  have hne : (⟨⊥, 0, true, true⟩ : Ivl EReal) ≠ ⟨0, ⊤, true, true⟩ := by simp
  have ha : Ivl.and (⟨0, ⊤, true, true⟩ : Ivl EReal) ⟨⊥, 0, true, true⟩ = .ok .empty := by
    simp [Ivl.and, Ivl.has]
  have hor : SSet.or c.σ (.pc (.ivl ⟨⊥, 0, true, true⟩)) (.pc (.ivl ⟨0, ⊤, true, true⟩)) =
      mkUnion c.σ [.pc (.ivl ⟨⊥, 0, true, true⟩), .pc (.ivl ⟨0, ⊤, true, true⟩)] := by
    simp only [SSet.or, Piece.or, Ivl.or, if_neg hne, ha, bind, Except.bind]
    simp [SSet.isEmpty, Ivl.has]
  have d1 : ([⟨⊥, 0, true, true⟩, ⟨0, ⊤, true, true⟩] : List (Ivl EReal)).dedup = [⟨⊥, 0, true, true⟩, ⟨0, ⊤, true, true⟩] := by
    rw [List.dedup_eq_self]; simp
  have p1 := c.σ.ivls_perm [⟨⊥, 0, true, true⟩, ⟨0, ⊤, true, true⟩]
  rw [d1] at p1
  have f0 : ([SSet.pc (.ivl ⟨⊥, 0, true, true⟩), .pc (.ivl ⟨0, ⊤, true, true⟩)] : List (SSet EReal)).filterMap SSet.piece? = [.ivl ⟨⊥, 0, true, true⟩, .ivl ⟨0, ⊤, true, true⟩] := rfl
  have f1 : ([.ivl ⟨⊥, 0, true, true⟩, .ivl ⟨0, ⊤, true, true⟩] : List (Piece EReal)).filterMap Piece.nom? = [] := rfl
  have f2 : ([.ivl ⟨⊥, 0, true, true⟩, .ivl ⟨0, ⊤, true, true⟩] : List (Piece EReal)).filterMap Piece.fin? = [] := rfl
  have f3 : ([.ivl ⟨⊥, 0, true, true⟩, .ivl ⟨0, ⊤, true, true⟩] : List (Piece EReal)).filterMap Piece.ivl? = [⟨⊥, 0, true, true⟩, ⟨0, ⊤, true, true⟩] := rfl
  have p2 := c.σ.vals_perm ((c.σ.ivls [⟨⊥, 0, true, true⟩, ⟨0, ⊤, true, true⟩]).map .ivl)
  have hnd : ((c.σ.ivls [⟨⊥, 0, true, true⟩, ⟨0, ⊤, true, true⟩]).map Piece.ivl).Nodup := by
    rw [List.nodup_map_iff (fun a b h => by injection h), p1.nodup_iff]; simp
  rw [List.dedup_eq_self.2 hnd] at p2
  have hlen := p2.length_eq
  simp only [List.length_map, p1.length_eq, List.length_cons, List.length_nil] at hlen
  simp only [recipRange, e1, e2, bind, Except.bind, hor]
  unfold mkUnion
  simp only [f0, f1, f2, f3]
  rw [if_neg (by simp [SSet.isUnion]), if_neg (by simp), if_neg (by simp), if_neg (by simp)]
  simp only [List.map_nil, List.nil_append]
  rw [if_neg (by omega)]
  exact ⟨_, rfl, rfl, p1⟩

/-- `1/X` has the range `(-oo, 0) | (0, oo)`, whose intersection with `{-1, 1}` raises. -/
theorem recipSet_raises (c : Ctx) (n : ℕ) : (Ev.fin (.recip (.id "X")) (some {-1, 1})).solve c (n + 2) = .error .assertion := by
  obtain ⟨u, h1, h2, h3⟩ := recipRange_un c
  have hm : (-1 : EReal) = ((-1 : ℝ) : EReal) := by rw [EReal.coe_neg]; rfl
  have n1 : (-1 : EReal) < 0 := by rw [hm]; exact EReal.coe_neg'.2 (by norm_num)
  have n2 : (0 : EReal) < 1 := zero_lt_one
  have n3 : (⊥ : EReal) < -1 := by rw [hm]; exact EReal.bot_lt_coe _
  have n4 : (1 : EReal) < ⊤ := EReal.coe_lt_top 1
  have a1 : ({-1, 1} : Finset EReal).filter (fun v => (⟨⊥, 0, true, true⟩ : Ivl EReal).has v) = {-1} := by
    ext x; simp only [Finset.mem_filter, Finset.mem_insert, Finset.mem_singleton, Ivl.has_iff, Ivl.Mem, if_true]
    constructor
    · rintro ⟨rfl | rfl, h⟩
      · rfl
      · exact absurd h.2 (not_lt.2 n2.le)
    · rintro rfl; exact ⟨.inl rfl, n3, n1⟩
  have a2 : ({-1, 1} : Finset EReal).filter (fun v => (⟨0, ⊤, true, true⟩ : Ivl EReal).has v) = {1} := by
    ext x; simp only [Finset.mem_filter, Finset.mem_insert, Finset.mem_singleton, Ivl.has_iff, Ivl.Mem, if_true]
    constructor
    · rintro ⟨rfl | rfl, h⟩
      · exact absurd h.1 (not_lt.2 n1.le)
      · rfl
    · rintro rfl; exact ⟨.inr rfl, n2, n4⟩
  have hor : u.intervals = [⟨⊥, 0, true, true⟩, ⟨0, ⊤, true, true⟩] ∨ u.intervals = [⟨0, ⊤, true, true⟩, ⟨⊥, 0, true, true⟩] := by
    have := h3.length_eq
    match hu : u.intervals, this with
    | [x, y], _ =>
      rw [hu] at h3
      have hx : x ∈ [(⟨⊥, 0, true, true⟩ : Ivl EReal), ⟨0, ⊤, true, true⟩] := h3.subset (by simp)
      simp only [List.mem_cons, List.not_mem_nil, or_false] at hx
      rcases hx with rfl | rfl
      · have := (List.perm_cons _).1 h3; left; simpa using this
      · have := h3.trans (List.Perm.swap _ _ _); have := (List.perm_cons _).1 this; right; simpa using this
  have ha : SSet.and c.σ (.un u) (.pc (.fin {-1, 1})) = .error .assertion := by
    rcases hor with h | h <;>
      (simp only [SSet.and, Un.andPiece, h2, andOptFin, h, List.mapM_cons, List.mapM_nil, Piece.and, bind, Except.bind, pure, Except.pure, a1, a2]
       simp [finOrEmpty, SSet.isEmpty, finishAnd, mkUnion, SSet.isUnion, List.filterMap_cons])
  obtain ⟨xs, k1, k2⟩ := iterUnion_one (c := c) (y := 1) (f := fun y => Ev.finvReal c (.pc (.fin {-1, 1})) y) (X := .pc (.fin {-1, 1})) (by simp [Ev.finvReal]) (fin_or_self _ _)
  rw [Ev.solve, if_neg (by simp [Ev.symbols, Tr.symbols])]
  · rw [Ev.invert]
    simp only [bool_and_one, bind, Except.bind, Ev.invertFinite, optFin, k1, k2]
    rw [Tr.invert]
    simp only [Tr.range, h1, bind, Except.bind, ha]
  all_goals simp

end Sppl
