import Verif.Comp.PreSpec
import Mathlib.Tactic.SplitIfs
import Mathlib.Tactic.Tauto

set_option linter.all false

/-!
# Preprocessing (helper lemmas)
-/

namespace Sppl

/-! ## Lists -/

theorem prefix_before {l e B : List Char} {b : Char} (h : l <+: e ++ b :: B) (hb : b ∉ l) : l <+: e := by
  obtain ⟨t, ht⟩ := h
  rcases List.append_eq_append_iff.1 ht with ⟨a, h1, h2⟩ | ⟨a, h1, h2⟩
  · exact ⟨a, h1.symm⟩
  · cases a with
    | nil => simp at h1; exact ⟨[], by simp [h1]⟩
    | cons x a =>
      simp at h2
      exact absurd (by rw [h1]; simp [h2.1]) hb

theorem suffix_after {d A B : List Char} {x : Char} (h : x :: d <:+ A ++ B) (hx : x ∉ A) : x :: d <:+ B := by
  obtain ⟨t, ht⟩ := h
  rcases List.append_eq_append_iff.1 ht with ⟨a, h1, h2⟩ | ⟨a, h1, h2⟩
  · cases a with
    | nil => simp at h2; exact ⟨[], by simp [h2]⟩
    | cons y a =>
      simp at h2
      exact absurd (by rw [h1]; simp [h2.1]) hx
  · exact ⟨a, h2.symm⟩

theorem suffix_within {d A B : List Char} {x : Char} (h : x :: d <:+ A ++ B) (hx : x ∉ B) : ∃ d', x :: d = x :: d' ++ B ∧ x :: d' <:+ A := by
  obtain ⟨t, ht⟩ := h
  rcases List.append_eq_append_iff.1 ht with ⟨a, h1, h2⟩ | ⟨a, h1, h2⟩
  · cases a with
    | nil => simp at h2; exact absurd (by rw [← h2]; simp) hx
    | cons y a =>
      simp only [List.cons_append, List.cons.injEq] at h2
      obtain ⟨rfl, h2⟩ := h2
      exact ⟨a, by simp [h2], ⟨t, h1.symm⟩⟩
  · exact absurd (by rw [h2]; simp) hx

theorem suffix_or {d A B : List Char} {x : Char} (h : x :: d <:+ A ++ B) : x :: d <:+ B ∨ ∃ d', x :: d = x :: d' ++ B ∧ x :: d' <:+ A := by
  obtain ⟨t, ht⟩ := h
  rcases List.append_eq_append_iff.1 ht with ⟨a, h1, h2⟩ | ⟨a, h1, h2⟩
  · cases a with
    | nil => simp at h2; exact .inl ⟨[], by simp [h2]⟩
    | cons y a =>
      simp only [List.cons_append, List.cons.injEq] at h2
      obtain ⟨rfl, h2⟩ := h2
      exact .inr ⟨a, by simp [h2], ⟨t, h1.symm⟩⟩
  · exact .inl ⟨a, h2.symm⟩

theorem dropWhile_all {p : Char → Bool} {w t : List Char} (h : ∀ c ∈ w, p c = true) : (w ++ t).dropWhile p = t.dropWhile p := by
  induction w with
  | nil => rfl
  | cons c w ih =>
    rw [List.cons_append, List.dropWhile_cons, if_pos (h c (by simp))]
    exact ih (fun d hd => h d (by simp [hd]))

theorem dropWhile_stop {p : Char → Bool} {c : Char} {t : List Char} (h : p c = false) : (c :: t).dropWhile p = c :: t := by
  simp [List.dropWhile_cons, h]

/-- Spaces at the start, then the end or another character. -/
theorem ws_split (v : List Char) : (∀ c ∈ v, pyWs c = true) ∨ ∃ w c r, v = w ++ c :: r ∧ (∀ d ∈ w, pyWs d = true) ∧ pyWs c = false := by
  induction v with
  | nil => exact .inl (by simp)
  | cons c v ih =>
    cases hc : pyWs c with
    | false => exact .inr ⟨[], c, v, rfl, by simp, hc⟩
    | true =>
      rcases ih with ih | ⟨w, d, r, rfl, h1, h2⟩
      · exact .inl (by intro d hd; rcases List.mem_cons.1 hd with rfl | hd; exacts [hc, ih d hd])
      · exact .inr ⟨c :: w, d, r, rfl, by intro e he; rcases List.mem_cons.1 he with rfl | he; exacts [hc, h1 e he], h2⟩

/-! ## Repetitions -/

theorem mem_runs {p : Char → Bool} {s : List Char} {q : List Char × List Char} (h : q ∈ runs p s) : s = q.1 ++ q.2 ∧ ∀ c ∈ q.1, p c = true := by
  induction s generalizing q with
  | nil => simp [runs] at h; subst h; simp
  | cons c s ih =>
    rw [runs] at h
    split at h
    · rename_i hc
      simp only [List.mem_append, List.mem_map, List.mem_singleton] at h
      rcases h with ⟨q', hq', rfl⟩ | rfl
      · obtain ⟨h1, h2⟩ := ih hq'
        exact ⟨by simp [h1], by intro d hd; rcases List.mem_cons.1 hd with rfl | hd; exacts [hc, h2 d hd]⟩
      · simp
    · simp at h; subst h; simp

theorem runs_nil_last (p : Char → Bool) (s : List Char) : ∃ D, runs p s = D ++ [([], s)] ∧ ∀ q ∈ D, q.1 ≠ [] := by
  cases s with
  | nil => exact ⟨[], rfl, by simp⟩
  | cons c s =>
    rw [runs]
    split
    · exact ⟨_, rfl, by simp only [List.mem_map]; rintro q ⟨q', -, rfl⟩; simp⟩
    · exact ⟨[], rfl, by simp⟩

theorem runs_append {p : Char → Bool} {x : List Char} (y : List Char) (h : ∀ c ∈ x, p c = true) :
    ∃ R, runs p (x ++ y) = (runs p y).map (fun q => (x ++ q.1, q.2)) ++ R := by
  induction x with
  | nil => exact ⟨[], by simp⟩
  | cons c x ih =>
    obtain ⟨R, hR⟩ := ih (fun d hd => h d (by simp [hd]))
    rw [List.cons_append, runs, if_pos (h c (by simp)), hR]
    exact ⟨_, by rw [List.map_append, List.append_assoc, List.map_map]; rfl⟩

theorem many_none {p : Char → Bool} {plus : Bool} {r : List RePart} {s : List Char} (h : ∀ u v, s = u ++ v → (∀ c ∈ u, p c = true) → reMatch r v = none) :
    reMatch (.many p plus :: r) s = none := by
  rw [reMatch, List.findSome?_eq_none_iff]
  intro q hq
  obtain ⟨h1, h2⟩ := mem_runs (List.mem_filter.1 hq).1
  rw [h _ _ h1 h2]; rfl

theorem many_pick {p : Char → Bool} {plus : Bool} {r : List RePart} {x y : List Char} {m : List (List Char) × List Char} (hx : ∀ c ∈ x, p c = true) (hp : plus = true → x ≠ [])
    (hm : reMatch r y = some m) (hd : ∀ u v, y = u ++ v → u ≠ [] → (∀ c ∈ u, p c = true) → reMatch r v = none) :
    reMatch (.many p plus :: r) (x ++ y) = some (x :: m.1, m.2) := by
  obtain ⟨R, hR⟩ := runs_append y hx
  obtain ⟨D, hD, hD'⟩ := runs_nil_last p y
  rw [reMatch, hR, hD, List.map_append, List.filter_append, List.filter_append, List.findSome?_append, List.findSome?_append]
  have h1 : List.findSome? (fun q : List Char × List Char => (reMatch r q.2).map (fun m => (q.1 :: m.1, m.2)))
      ((D.map (fun q => (x ++ q.1, q.2))).filter (fun q => !plus || !q.1.isEmpty)) = none := by
    rw [List.findSome?_eq_none_iff]
    intro q hq
    obtain ⟨q', hq', rfl⟩ := List.mem_map.1 (List.mem_filter.1 hq).1
    obtain ⟨a, b⟩ := mem_runs (p := p) (s := y) (q := q') (by rw [hD]; simp [hq'])
    rw [show reMatch r (x ++ q'.1, q'.2).2 = none from hd _ _ a (hD' _ hq') b]; rfl
  rw [h1]
  have h2 : (!plus || !x.isEmpty) = true := by
    cases plus with
    | false => rfl
    | true => cases x with
      | nil => exact absurd rfl (hp rfl)
      | cons c x => rfl
  simp only [List.map_cons, List.map_nil, List.filter_cons, List.append_nil, h2, if_true, List.filter_nil, List.findSome?_cons, hm, Option.map_some, Option.none_or, Option.some_or]

/-- Spaces are taken as far as they go. -/
theorem many_max {p : Char → Bool} {plus : Bool} {r : List RePart} {x y : List Char} {c : Char} {m : List (List Char) × List Char} (hx : ∀ c ∈ x, p c = true) (hp : plus = true → x ≠ [])
    (hc : p c = false) (hm : reMatch r (c :: y) = some m) : reMatch (.many p plus :: r) (x ++ c :: y) = some (x :: m.1, m.2) := by
  refine many_pick hx hp hm (fun u v h hu hall => ?_)
  cases u with
  | nil => exact absurd rfl hu
  | cons d u => simp at h; rw [← h.1] at hall; exact absurd (hall c (by simp)) (by simp [hc])

theorem plus_head {p : Char → Bool} {r : List RePart} {s : List Char} (h : ∀ c k, s = c :: k → p c = false) : reMatch (.many p true :: r) s = none := by
  rw [reMatch, List.findSome?_eq_none_iff]
  intro q hq
  obtain ⟨h0, h3⟩ := List.mem_filter.1 hq
  obtain ⟨h1, h2⟩ := mem_runs h0
  rcases q with ⟨_ | ⟨c, x⟩, y⟩
  · simp at h3
  · exact absurd (h2 c (by simp)) (by simp [h c (x ++ y) h1])

theorem lit_some {l y : List Char} {r : List RePart} : reMatch (.lit l :: r) (l ++ y) = reMatch r y := by
  rw [reMatch, if_pos (by simp [List.isPrefixOf_iff_prefix]), List.drop_left]

theorem lit_none {l s : List Char} {r : List RePart} (h : ¬ l <+: s) : reMatch (.lit l :: r) s = none := by
  rw [reMatch, if_neg (by rwa [List.isPrefixOf_iff_prefix])]

/-- Spaces and a word: there is no match if the word is not the next one. -/
theorem word_none {plus : Bool} {l t : List Char} {x : Char} {r : List RePart} (hx : pyWs x = false) (h : ∀ k, t.dropWhile pyWs = x :: l ++ k → reMatch r k = none) :
    reMatch (.many pyWs plus :: .lit (x :: l) :: r) t = none := by
  refine many_none (fun u v ht hu => ?_)
  by_cases hl : x :: l <+: v
  · obtain ⟨k, rfl⟩ := hl
    rw [lit_some]
    exact h k (by rw [ht, dropWhile_all hu, List.cons_append, dropWhile_stop hx])
  · exact lit_none hl

theorem word_some {w l y : List Char} {x : Char} {r : List RePart} {m : List (List Char) × List Char} (hw : ∀ c ∈ w, pyWs c = true) (hx : pyWs x = false) (hm : reMatch r y = some m) :
    reMatch (.many pyWs false :: .lit (x :: l) :: r) (w ++ x :: (l ++ y)) = some (w :: m.1, m.2) :=
  many_max hw (by simp) hx ((lit_some (l := x :: l)).trans hm)

/-- A run of `.` stays on the line. -/
theorem dot_split {L t u v : List Char} (hL : InLine L) (ht : t = [] ∨ ∃ r, t = '\n' :: r) (hu : ∀ c ∈ u, pyDot c = true) (h : L ++ t = u ++ v) : ∃ v', L = u ++ v' ∧ v = v' ++ t := by
  rcases List.append_eq_append_iff.1 h with ⟨a, h1, h2⟩ | ⟨a, h1, h2⟩
  · cases a with
    | nil => exact ⟨[], by simpa using h1.symm, by simpa using h2.symm⟩
    | cons c a =>
      rcases ht with rfl | ⟨r, rfl⟩
      · simp at h2
      · simp at h2
        have := hu '\n' (by rw [h1]; simp [← h2.1])
        simp [pyDot] at this
  · exact ⟨a, h1, h2⟩

theorem inLine_dot {s : List Char} (h : InLine s) : ∀ c ∈ s, pyDot c = true := by
  intro c hc
  simp only [pyDot, bne_iff_ne]
  rintro rfl; exact h hc

/-! ## Headers -/

theorem blank_ws {w : List Char} (h : Blank w) : ∀ c ∈ w, pyWs c = true := fun c hc => (h c hc).1

theorem blank_inLine {w : List Char} (h : Blank w) : InLine w := fun hc => (h _ hc).2 rfl

theorem blank_not {w : List Char} (h : Blank w) {x : Char} (hx : pyWs x = false) : x ∉ w := fun hc => by simp [blank_ws h x hc] at hx

/-- What may follow a header: the end, or a line that does not begin with `)` or the word `in`. -/
def HeadTail (t : List Char) : Prop :=
  t = [] ∨ ∃ r, t = '\n' :: r ∧ (∀ k, r.dropWhile pyWs ≠ ')' :: k) ∧ ∀ c k, pyWs c = true → r.dropWhile pyWs ≠ 'i' :: 'n' :: c :: k

theorem HeadTail.line {t : List Char} (h : HeadTail t) : t = [] ∨ ∃ r, t = '\n' :: r := by
  rcases h with h | ⟨r, h, -⟩
  exacts [.inl h, .inr ⟨r, h⟩]

theorem HeadTail.paren {t : List Char} (h : HeadTail t) (k : List Char) : t.dropWhile pyWs ≠ ')' :: k := by
  rcases h with rfl | ⟨r, rfl, h, -⟩
  · simp
  · rw [List.dropWhile_cons, if_pos (by decide)]; exact h k

theorem HeadTail.word {t : List Char} (h : HeadTail t) {c : Char} (hc : pyWs c = true) (k : List Char) : t.dropWhile pyWs ≠ 'i' :: 'n' :: c :: k := by
  rcases h with rfl | ⟨r, rfl, -, h⟩
  · simp
  · rw [List.dropWhile_cons, if_pos (by decide)]; exact h c k hc

/-- The end of the header: the values reach to the last parenthesis. -/
theorem head_end {w7 w8 t : List Char} (h7 : Blank w7) (h8 : RestOK w8) (ht : HeadTail t) {x : List Char} (hx : x ≠ []) (hl : InLine x) :
    reMatch [.many pyDot true, .many pyWs false, .lit [')'], .many pyWs false, .lit [':']] (x ++ ')' :: (w7 ++ ':' :: (w8 ++ t))) = some ([x, [], w7], w8 ++ t) := by
  have h1 : reMatch [.lit [')'], .many pyWs false, .lit [':']] (')' :: (w7 ++ ':' :: (w8 ++ t))) = some ([w7], w8 ++ t) := by
    rw [show ')' :: (w7 ++ ':' :: (w8 ++ t)) = [')'] ++ (w7 ++ ':' :: (w8 ++ t)) from rfl, lit_some]
    refine many_max (m := ([], w8 ++ t)) (blank_ws h7) (by simp) (by decide) ?_
    rw [show ':' :: (w8 ++ t) = [':'] ++ (w8 ++ t) from rfl, lit_some]; rfl
  have h2 : reMatch [.many pyWs false, .lit [')'], .many pyWs false, .lit [':']] (')' :: (w7 ++ ':' :: (w8 ++ t))) = some ([[], w7], w8 ++ t) :=
    many_max (x := []) (m := ([w7], w8 ++ t)) (by simp) (by simp) (by decide) h1
  refine many_pick (m := ([[], w7], w8 ++ t)) (inLine_dot hl) (fun _ => hx) h2 (fun u v h hu hall => ?_)
  have hL : InLine (')' :: (w7 ++ ':' :: w8)) := by
    have a := blank_inLine h7; have b := h8.line
    simp [InLine] at a b ⊢; exact ⟨a, b⟩
  obtain ⟨v', hv, rfl⟩ := dot_split (L := ')' :: (w7 ++ ':' :: w8)) hL ht.line hall (by simpa using h)
  refine word_none (by decide) (fun k hk => ?_)
  exfalso
  cases u with
  | nil => exact hu rfl
  | cons c u =>
    simp only [List.cons_append, List.cons.injEq] at hv
    have hsuf : v' <:+ w7 ++ ':' :: w8 := ⟨u, hv.2.symm⟩
    rcases ws_split v' with ha | ⟨w, d, r, rfl, hw, hd⟩
    · rw [dropWhile_all ha] at hk; exact ht.paren _ hk
    · rw [List.append_assoc, dropWhile_all hw, List.cons_append, dropWhile_stop hd] at hk
      simp only [List.cons_append, List.cons.injEq] at hk
      obtain ⟨rfl, -⟩ := hk
      have : ')' ∈ w7 ++ ':' :: w8 := hsuf.subset (by simp)
      simp [blank_not h7 (show pyWs ')' = false by decide), h8.paren] at this

/-- The variable and the values: the variable reaches to the last `in `. -/
theorem head_in {w5 V w7 w8 t : List Char} (h5 : Blank w5) (h5' : w5 ≠ []) (h7 : Blank w7) (h8 : RestOK w8) (ht : HeadTail t) (hV : InLine V) (hV' : ∃ c r, V = c :: r ∧ pyWs c = false)
    (hn : ∀ a c b, pyWs c = true → V ≠ a ++ 'i' :: 'n' :: c :: b) {x : List Char} (hx : x ≠ []) (hl : InLine x) :
    reMatch [.many pyDot true, .many pyWs false, .lit ['i', 'n'], .many pyWs true, .many pyDot true, .many pyWs false, .lit [')'], .many pyWs false, .lit [':']]
      (x ++ 'i' :: 'n' :: (w5 ++ (V ++ ')' :: (w7 ++ ':' :: (w8 ++ t))))) = some ([x, [], w5, V, [], w7], w8 ++ t) := by
  obtain ⟨c0, r0, hV0, hc0⟩ := hV'
  have h1 := head_end h7 h8 ht (x := V) (by rw [hV0]; simp) hV
  have h2 : reMatch [.many pyWs true, .many pyDot true, .many pyWs false, .lit [')'], .many pyWs false, .lit [':']]
      (w5 ++ (V ++ ')' :: (w7 ++ ':' :: (w8 ++ t)))) = some ([w5, V, [], w7], w8 ++ t) := by
    rw [hV0] at h1 ⊢
    exact many_max (m := ([c0 :: r0, [], w7], w8 ++ t)) (blank_ws h5) (fun _ => h5') hc0 h1
  have h3 : reMatch [.many pyWs false, .lit ['i', 'n'], .many pyWs true, .many pyDot true, .many pyWs false, .lit [')'], .many pyWs false, .lit [':']]
      ('i' :: 'n' :: (w5 ++ (V ++ ')' :: (w7 ++ ':' :: (w8 ++ t))))) = some ([[], w5, V, [], w7], w8 ++ t) := by
    refine many_max (x := []) (m := ([w5, V, [], w7], w8 ++ t)) (by simp) (by simp) (by decide) ?_
    rw [show 'i' :: 'n' :: (w5 ++ (V ++ ')' :: (w7 ++ ':' :: (w8 ++ t)))) = ['i', 'n'] ++ (w5 ++ (V ++ ')' :: (w7 ++ ':' :: (w8 ++ t)))) from rfl, lit_some]
    exact h2
  refine many_pick (m := ([[], w5, V, [], w7], w8 ++ t)) (inLine_dot hl) (fun _ => hx) h3 (fun u v h hu hall => ?_)
  have hL : InLine ('i' :: 'n' :: (w5 ++ (V ++ ')' :: (w7 ++ ':' :: w8)))) := by
    have a := blank_inLine h7; have b := h8.line; have c := blank_inLine h5
    simp [InLine] at a b c hV ⊢; exact ⟨c, hV, a, b⟩
  obtain ⟨v', hv, rfl⟩ := dot_split (L := 'i' :: 'n' :: (w5 ++ (V ++ ')' :: (w7 ++ ':' :: w8)))) hL ht.line hall (by simpa using h)
  refine word_none (by decide) (fun k hk => ?_)
  refine plus_head (fun c k' hk' => ?_)
  subst hk'
  by_contra hc
  replace hc : pyWs c = true := by simpa using hc
  cases u with
  | nil => exact hu rfl
  | cons c1 u =>
    simp only [List.cons_append, List.cons.injEq] at hv
    have hsuf : v' <:+ ('n' :: w5) ++ (V ++ (')' :: (w7 ++ ':' :: w8))) := ⟨u, by simpa using hv.2.symm⟩
    rcases ws_split v' with ha | ⟨w, d, r, rfl, hw, hd⟩
    · rw [dropWhile_all ha] at hk; exact ht.word hc _ hk
    · rw [List.append_assoc, dropWhile_all hw, List.cons_append, dropWhile_stop hd] at hk
      simp only [List.cons_append, List.nil_append, List.cons.injEq] at hk
      obtain ⟨rfl, hk⟩ := hk
      have s1 : 'i' :: r <:+ ('n' :: w5) ++ (V ++ (')' :: (w7 ++ ':' :: w8))) := (List.suffix_append w _).trans hsuf
      have s2 := suffix_after s1 (by simp [blank_not h5 (show pyWs 'i' = false by decide)])
      have s3 : ¬ 'i' :: r <:+ w8 := by
        rintro ⟨a, e⟩
        cases r with
        | nil =>
          rcases ht.line with rfl | ⟨r', rfl⟩
          · simp at hk
          · simp at hk
        | cons n1 r =>
          simp only [List.cons_append, List.cons.injEq] at hk
          obtain ⟨rfl, hk⟩ := hk
          obtain ⟨c', r', rfl, hc'⟩ := h8.noIn a r e.symm
          simp only [List.cons_append, List.cons.injEq] at hk
          obtain ⟨rfl, -⟩ := hk
          rw [hc] at hc'; cases hc'
      obtain ⟨d', e1, e2⟩ : ∃ d', 'i' :: r = 'i' :: d' ++ (')' :: (w7 ++ ':' :: w8)) ∧ 'i' :: d' <:+ V := by
        rcases suffix_or s2 with s4 | s4
        · refine absurd (suffix_after (A := ')' :: (w7 ++ [':'])) (B := w8) (by simpa using s4) ?_) s3
          simp [blank_not h7 (show pyWs 'i' = false by decide)]
        · exact s4
      have e3 : r = d' ++ ')' :: (w7 ++ ':' :: w8) := by simpa using e1
      have e4 : ['n', c] <+: d' := by
        refine prefix_before (b := ')') (B := w7 ++ ':' :: w8 ++ t) ?_ ?_
        · rw [← List.cons_append, ← List.append_assoc, ← e3, hk]; simp
        · simp only [List.mem_cons, List.not_mem_nil, or_false, not_or]
          refine ⟨by decide, ?_⟩
          rintro rfl; simp [pyWs] at hc
      obtain ⟨b, rfl⟩ := e4
      obtain ⟨a, e5⟩ := e2
      exact hn a c b hc (by rw [← e5]; simp)

/-- The subject: it reaches to the last `) cases (`. -/
theorem head_cases {w2 w3 x w5 V w7 w8 t : List Char} (h2 : Blank w2) (h3 : Blank w3) (h5 : Blank w5) (h5' : w5 ≠ []) (h7 : Blank w7) (h8 : RestOK w8) (ht : HeadTail t) (hV : InLine V)
    (hV' : ∃ c r, V = c :: r ∧ pyWs c = false) (hn : ∀ a c b, pyWs c = true → V ≠ a ++ 'i' :: 'n' :: c :: b) (hx : x ≠ []) (hl : InLine x)
    (hq : ∀ a w b, (∀ c ∈ w, pyWs c = true) → x ++ 'i' :: 'n' :: (w5 ++ V) ≠ a ++ ')' :: (w ++ 'c' :: 'a' :: 's' :: 'e' :: 's' :: b)) {y : List Char} (hy : y ≠ []) (hy' : InLine y) :
    reMatch [.many pyDot true, .lit [')'], .many pyWs false, .lit ['c', 'a', 's', 'e', 's'], .many pyWs false, .lit ['('],
        .many pyDot true, .many pyWs false, .lit ['i', 'n'], .many pyWs true, .many pyDot true, .many pyWs false, .lit [')'], .many pyWs false, .lit [':']]
      (y ++ ')' :: (w2 ++ 'c' :: 'a' :: 's' :: 'e' :: 's' :: (w3 ++ '(' :: (x ++ 'i' :: 'n' :: (w5 ++ (V ++ ')' :: (w7 ++ ':' :: (w8 ++ t)))))))) =
      some ([y, w2, w3, x, [], w5, V, [], w7], w8 ++ t) := by
  have a1 := head_in h5 h5' h7 h8 ht hV hV' hn hx hl
  have a2 : reMatch [.lit ['('], .many pyDot true, .many pyWs false, .lit ['i', 'n'], .many pyWs true, .many pyDot true, .many pyWs false, .lit [')'], .many pyWs false, .lit [':']]
      ('(' :: (x ++ 'i' :: 'n' :: (w5 ++ (V ++ ')' :: (w7 ++ ':' :: (w8 ++ t)))))) = some ([x, [], w5, V, [], w7], w8 ++ t) := by
    rw [← a1]; exact lit_some (l := ['('])
  have a3 := many_max (p := pyWs) (plus := false) (blank_ws h3) (by simp) (by decide) a2
  have a4 : reMatch [.lit ['c', 'a', 's', 'e', 's'], .many pyWs false, .lit ['('],
        .many pyDot true, .many pyWs false, .lit ['i', 'n'], .many pyWs true, .many pyDot true, .many pyWs false, .lit [')'], .many pyWs false, .lit [':']]
      ('c' :: 'a' :: 's' :: 'e' :: 's' :: (w3 ++ '(' :: (x ++ 'i' :: 'n' :: (w5 ++ (V ++ ')' :: (w7 ++ ':' :: (w8 ++ t))))))) = some ([w3, x, [], w5, V, [], w7], w8 ++ t) := by
    rw [← a3]; exact lit_some (l := ['c', 'a', 's', 'e', 's'])
  have a5 := many_max (p := pyWs) (plus := false) (blank_ws h2) (by simp) (by decide) a4
  refine many_pick (m := ([w2, w3, x, [], w5, V, [], w7], w8 ++ t)) (inLine_dot hy') (fun _ => hy) ?_ (fun u v h hu hall => ?_)
  · rw [← a5]; exact lit_some (l := [')'])
  have hL : InLine (')' :: (w2 ++ 'c' :: 'a' :: 's' :: 'e' :: 's' :: (w3 ++ '(' :: (x ++ 'i' :: 'n' :: (w5 ++ (V ++ ')' :: (w7 ++ ':' :: w8))))))) := by
    have a := blank_inLine h7; have b := h8.line; have c := blank_inLine h5; have d := blank_inLine h2; have e := blank_inLine h3
    simp [InLine] at a b c d e hV hl ⊢; exact ⟨d, e, hl, c, hV, a, b⟩
  obtain ⟨v', hv, rfl⟩ := dot_split hL ht.line hall (t := t) (by simpa using h)
  by_cases hp : [')'] <+: v' ++ t
  swap
  · exact lit_none hp
  obtain ⟨k0, hk0⟩ := hp
  rw [← hk0, lit_some]
  refine word_none (by decide) (fun k hk => ?_)
  exfalso
  cases u with
  | nil => exact hu rfl
  | cons c1 u =>
    simp only [List.cons_append, List.cons.injEq] at hv
    cases v' with
    | nil =>
      rcases ht.line with rfl | ⟨r, rfl⟩
      · simp at hk0
      · simp at hk0
    | cons c2 r =>
      simp only [List.cons_append, List.nil_append, List.cons.injEq] at hk0
      obtain ⟨rfl, rfl⟩ := hk0
      have s1 : ')' :: r <:+ (w2 ++ 'c' :: 'a' :: 's' :: 'e' :: 's' :: (w3 ++ ['('])) ++ (x ++ 'i' :: 'n' :: (w5 ++ V) ++ (')' :: (w7 ++ ':' :: w8))) := ⟨u, by simpa using hv.2.symm⟩
      have s2 := suffix_after s1 (by simp [blank_not h2 (show pyWs ')' = false by decide), blank_not h3 (show pyWs ')' = false by decide)])
      obtain ⟨b, hb⟩ := s2
      have n7 := blank_not h7 (show pyWs ')' = false by decide)
      have n8 := h8.paren
      rcases List.append_eq_append_iff.1 hb with ⟨e, e1, e2⟩ | ⟨e, e1, e2⟩
      · cases e with
        | nil =>
          simp only [List.nil_append, List.cons.injEq, true_and] at e2
          rw [e2, List.append_assoc, dropWhile_all (blank_ws h7), List.cons_append, dropWhile_stop (by decide)] at hk
          simp at hk
        | cons c3 e =>
          simp only [List.cons_append, List.cons.injEq] at e2
          obtain ⟨rfl, rfl⟩ := e2
          rcases ws_split e with ha | ⟨w, d, r, rfl, hw, hd⟩
          · rw [List.append_assoc, dropWhile_all ha, List.cons_append, dropWhile_stop (by decide)] at hk
            simp at hk
          · rw [List.append_assoc, List.append_assoc, dropWhile_all hw, List.cons_append, dropWhile_stop hd] at hk
            have e4 : ['c', 'a', 's', 'e', 's'] <+: d :: r := by
              refine prefix_before (b := ')') (B := w7 ++ ':' :: w8 ++ t) ⟨k, ?_⟩ (by decide)
              rw [← hk]; simp
            obtain ⟨q, hq'⟩ := e4
            refine hq b w q hw ?_
            rw [e1, ← hq']; simp
      · cases e with
        | nil =>
          simp only [List.nil_append, List.cons.injEq, true_and] at e2
          rw [← e2, List.append_assoc, dropWhile_all (blank_ws h7), List.cons_append, dropWhile_stop (by decide)] at hk
          simp at hk
        | cons c3 e =>
          simp only [List.cons_append, List.cons.injEq] at e2
          have : ')' ∈ w7 ++ ':' :: w8 := by rw [e2.2]; simp
          simp [n7, n8] at this

theorem tc_in : "in".toList = ['i', 'n'] := by decide
theorem tc_cases : "cases".toList = ['c', 'a', 's', 'e', 's'] := by decide
theorem tc_switch : "switch".toList = ['s', 'w', 'i', 't', 'c', 'h'] := by decide
theorem tc_open : "(".toList = ['('] := by decide
theorem tc_close : ")".toList = [')'] := by decide
theorem tc_colon : ":".toList = [':'] := by decide
theorem tc_for : "for ".toList = ['f', 'o', 'r', ' '] := by decide
theorem tc_sw : " in switch(".toList = [' ', 'i', 'n', ' ', 's', 'w', 'i', 't', 'c', 'h', '('] := by decide
theorem tc_comma : ", ".toList = [',', ' '] := by decide
theorem tc_end : "):".toList = [')', ':'] := by decide
theorem tc_tilde : "~=".toList = ['~', '='] := by decide
theorem tc_eq : "=".toList = ['='] := by decide

theorem head_match {h : SwitchHead} (ok : h.OK) {t : List Char} (ht : HeadTail t) :
    reMatch switchRe (h.src ++ t) = some ([h.ind, h.w1, h.subj, h.w2, h.w3, h.var ++ h.w4, [], h.w5, h.vals ++ h.w6, [], h.w7], h.rest ++ t) := by
  have hx : h.var ++ h.w4 ≠ [] := by simp [ok.var.1]
  have hl : InLine (h.var ++ h.w4) := by
    have a := ok.var.2; have b := blank_inLine ok.w4
    simp [InLine] at a b ⊢; exact ⟨a, b⟩
  have hV : InLine (h.vals ++ h.w6) := by
    have a := ok.vals.1; have b := blank_inLine ok.w6
    simp [InLine] at a b ⊢; exact ⟨a, b⟩
  have hV' : ∃ c r, h.vals ++ h.w6 = c :: r ∧ pyWs c = false := by
    obtain ⟨c, r, e, hc⟩ := ok.vals.2
    exact ⟨c, r ++ h.w6, by rw [e]; rfl, hc⟩
  have hq : ∀ a w b, (∀ c ∈ w, pyWs c = true) → (h.var ++ h.w4) ++ 'i' :: 'n' :: (h.w5 ++ (h.vals ++ h.w6)) ≠ a ++ ')' :: (w ++ 'c' :: 'a' :: 's' :: 'e' :: 's' :: b) := by
    intro a w b hw e
    refine ok.noCases a w b hw ?_
    rw [tc_in, tc_cases]
    simpa only [List.append_assoc, List.cons_append, List.nil_append] using e
  have a1 := head_cases ok.w2 ok.w3 ok.w5 ok.sep ok.w7 ok.rest ht hV hV' ok.noIn hx hl hq ok.subj.1 ok.subj.2
  have a2 := word_some (x := '(') (l := []) (blank_ws ok.w1) rfl a1
  have a3 := word_some (x := 's') (l := ['w', 'i', 't', 'c', 'h']) (blank_ws ok.ind) rfl a2
  have e : h.src ++ t = h.ind ++ 's' :: (['w', 'i', 't', 'c', 'h'] ++ (h.w1 ++ '(' :: ([] ++ (h.subj ++ ')' :: (h.w2 ++ 'c' :: 'a' :: 's' :: 'e' :: 's' ::
      (h.w3 ++ '(' :: ((h.var ++ h.w4) ++ 'i' :: 'n' :: (h.w5 ++ ((h.vals ++ h.w6) ++ ')' :: (h.w7 ++ ':' :: (h.rest ++ t))))))))))) := by
    unfold SwitchHead.src
    simp only [tc_in, tc_cases, tc_switch, tc_open, tc_close, tc_colon]
    simp only [List.append_assoc, List.cons_append, List.nil_append]
  rw [e]
  exact a3

/-! ## Substitution -/

theorem sub_match {c : Char} {s : List Char} {m : List (List Char) × List Char} (h : reMatch switchRe (c :: s) = some m) :
    subSwitch true 0 (c :: s) = switchOut m.1 ++ subSwitch (c == '\n') (s.length - m.2.length) s := by
  rw [subSwitch, h]

theorem sub_nomatch {c : Char} {s : List Char} (h : reMatch switchRe (c :: s) = none) : subSwitch true 0 (c :: s) = c :: subSwitch (c == '\n') 0 s := by
  rw [subSwitch, h]

theorem sub_copy {s : List Char} (h : InLine s) (t : List Char) : subSwitch false 0 (s ++ t) = s ++ subSwitch false 0 t := by
  induction s with
  | nil => rfl
  | cons c s ih =>
    have hc : (c == '\n') = false := by
      simp only [beq_eq_false_iff_ne]; rintro rfl; exact h (by simp)
    rw [List.cons_append, subSwitch, hc, ih (fun hn => h (by simp [hn]))]; rfl

theorem sub_skip {x : List Char} (hx : x.getLast? ≠ some '\n') (hx' : x ≠ []) (b : Bool) (t : List Char) : subSwitch b x.length (x ++ t) = subSwitch false 0 t := by
  induction x generalizing b with
  | nil => exact absurd rfl hx'
  | cons c x ih =>
    rw [List.cons_append, List.length_cons, subSwitch]
    cases x with
    | nil =>
      have hc : (c == '\n') = false := by
        simp only [beq_eq_false_iff_ne]; rintro rfl; exact hx (by simp)
      rw [hc]; rfl
    | cons d x => exact ih (by simpa using hx) (by simp) _

theorem head_colon (h : SwitchHead) : ∃ c A, h.src = (c :: A ++ [':']) ++ h.rest := by
  have e : ∀ A B : List Char, ∃ c D, A ++ "switch".toList ++ B = c :: D := by
    intro A B
    cases A with
    | nil => rw [tc_switch]; exact ⟨_, _, rfl⟩
    | cons a A => exact ⟨_, _, rfl⟩
  obtain ⟨c, D, hD⟩ := e h.ind (h.w1 ++ "(".toList ++ h.subj ++ ")".toList ++ h.w2 ++ "cases".toList ++ h.w3 ++ "(".toList ++ h.var ++ h.w4 ++ "in".toList ++ h.w5 ++ h.vals ++ h.w6 ++
    ")".toList ++ h.w7)
  refine ⟨c, D, ?_⟩
  rw [← hD, ← tc_colon]
  unfold SwitchHead.src
  simp only [List.append_assoc]

theorem head_parts (h : SwitchHead) : ∃ c P, h.src = c :: P ++ h.rest ∧ P.getLast? = some ':' ∧ P ≠ [] := by
  obtain ⟨c, A, hA⟩ := head_colon h
  exact ⟨c, A ++ [':'], hA, List.getLast?_concat, by simp⟩

theorem head_out (h : SwitchHead) (u : List Char) :
    switchOut [h.ind, h.w1, h.subj, h.w2, h.w3, h.var ++ h.w4, [], h.w5, h.vals ++ h.w6, [], h.w7] ++ (h.rest ++ u) = h.out ++ u := by
  unfold SwitchHead.out switchOut
  simp only [tc_for, tc_sw, tc_comma, tc_end, List.getD_cons_zero, List.getD_cons_succ, List.append_assoc, List.cons_append, List.nil_append]

/-- A header is replaced. -/
theorem sub_head {h : SwitchHead} (ok : h.OK) {t : List Char} (ht : HeadTail t) : subSwitch true 0 (h.src ++ t) = h.out ++ subSwitch false 0 t := by
  have hm := head_match ok ht
  obtain ⟨c, P, hP, hP1, hP2⟩ := head_parts h
  have hlen : (P ++ (h.rest ++ t)).length - (h.rest ++ t).length = P.length := by simp
  have e : h.src ++ t = c :: (P ++ (h.rest ++ t)) := by rw [hP]; simp
  rw [e] at hm ⊢
  rw [sub_match hm, hlen, sub_skip (by rw [hP1]; simp) hP2, sub_copy ok.rest.line t]
  exact head_out h _

/-- Other lines are kept. -/
theorem sub_plain {s : List Char} (hs : PlainLine s) (t : List Char) (ht : t = [] ∨ ∃ r, t = '\n' :: r) : subSwitch true 0 (s ++ t) = s ++ subSwitch false 0 t := by
  obtain ⟨w, c, r, rfl, hw, hc, hp, hsw, hin⟩ := hs.start
  have hnone : reMatch switchRe (w ++ c :: r ++ t) = none := by
    rw [switchRe]
    refine word_none (by decide) (fun k hk => ?_)
    rw [List.append_assoc, dropWhile_all hw, List.cons_append, dropWhile_stop hc] at hk
    refine word_none (by decide) (fun k' hk' => ?_)
    exfalso
    have hpre : ['s', 'w', 'i', 't', 'c', 'h'] <+: c :: r := by
      rcases ht with rfl | ⟨r', rfl⟩
      · exact ⟨k, by simpa using hk.symm⟩
      · exact prefix_before (b := '\n') (B := r') ⟨k, by simpa using hk.symm⟩ (by decide)
    obtain ⟨k1, hk1⟩ := hpre
    refine hsw ⟨k1, by rw [← hk1, tc_switch], ?_⟩
    intro d hd
    cases k1 with
    | nil => simp at hd
    | cons d' k1 =>
      simp at hd; subst hd
      have : k = d' :: k1 ++ t := by
        have h2 : ['s', 'w', 'i', 't', 'c', 'h'] ++ (d' :: k1) ++ t = ['s', 'w', 'i', 't', 'c', 'h'] ++ k := by rw [hk1]; simpa using hk
        rw [List.append_assoc] at h2
        exact (List.append_cancel_left h2).symm
      subst this
      rw [List.cons_append, List.dropWhile_cons] at hk'
      split at hk'
      · rename_i hd'
        simp only [pyWs, Bool.or_eq_true, beq_iff_eq] at hd'
        rcases hd' with ((((((((rfl | rfl) | rfl) | rfl) | rfl) | rfl) | rfl) | rfl) | rfl) | rfl <;> decide
      · simp at hk'; rw [hk'.1]; decide
  have key : ∀ x y : List Char, reMatch switchRe (x ++ y) = none → x ≠ [] → InLine x → subSwitch true 0 (x ++ y) = x ++ subSwitch false 0 y := by
    intro x y h1 h2 h3
    cases x with
    | nil => exact absurd rfl h2
    | cons d x =>
      have hd : (d == '\n') = false := by
        simp only [beq_eq_false_iff_ne]; rintro rfl; exact h3 (by simp)
      rw [List.cons_append] at h1 ⊢
      rw [sub_nomatch h1, hd, sub_copy (fun hn => h3 (by simp [hn])) y]; rfl
  exact key _ _ hnone (by simp) hs.line

end Sppl
