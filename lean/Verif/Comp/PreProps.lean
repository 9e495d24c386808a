import Verif.Comp.PreLemmas

set_option linter.all false

/-!
# C59: `~=` and `switch ... cases` are translated to the Python statements that they stand for
-/

namespace Sppl

theorem split_line {l t : List Char} (h : InLine l) : splitLines (l ++ '\n' :: t) = l :: splitLines t := by
  induction l with
  | nil => simp [splitLines]
  | cons c l ih =>
    rw [List.cons_append, splitLines, if_neg (by rintro rfl; exact h (by simp)), ih (fun hn => h (by simp [hn]))]

theorem split_last {l : List Char} (h : InLine l) : splitLines l = [l] := by
  induction l with
  | nil => rfl
  | cons c l ih =>
    rw [splitLines, if_neg (by rintro rfl; exact h (by simp)), ih (fun hn => h (by simp [hn]))]

theorem split_join {ls : List (List Char)} (h : ∀ l ∈ ls, InLine l) (hne : ls ≠ []) : splitLines (joinLines ls) = ls := by
  induction ls with
  | nil => exact absurd rfl hne
  | cons l ls ih =>
    cases ls with
    | nil => rw [joinLines]; exact split_last (h l (by simp))
    | cons l' ls =>
      rw [joinLines, split_line (h l (by simp)), ih (fun x hx => h x (by simp [hx])) (by simp)]
      simp

theorem rt_cons {c : Char} {s : List Char} (h : ¬ ['~', '='] <+: c :: s) : replaceTilde (c :: s) = c :: replaceTilde s := by
  rw [replaceTilde.eq_3]
  rintro s' rfl hs
  subst hs
  exact h ⟨s', rfl⟩

theorem rt_line (a b : List Char) : replaceTilde (a ++ '\n' :: b) = replaceTilde a ++ '\n' :: replaceTilde b := by
  have key : ∀ n (a : List Char), a.length ≤ n → replaceTilde (a ++ '\n' :: b) = replaceTilde a ++ '\n' :: replaceTilde b := by
    intro n
    induction n with
    | zero =>
      intro a ha
      have : a = [] := List.length_eq_zero_iff.1 (by omega)
      subst this
      exact rt_cons (by rintro ⟨t, ht⟩; simp at ht)
    | succ n ih =>
      intro a ha
      cases a with
      | nil => exact rt_cons (by rintro ⟨t, ht⟩; simp at ht)
      | cons c a =>
        by_cases hp : ['~', '='] <+: c :: a
        · obtain ⟨t, ht⟩ := hp
          simp only [List.cons_append, List.nil_append, List.cons.injEq] at ht
          obtain ⟨rfl, rfl⟩ := ht
          show '=' :: replaceTilde (t ++ '\n' :: b) = '=' :: replaceTilde t ++ '\n' :: replaceTilde b
          rw [ih t (by simp at ha; omega)]; rfl
        · rw [List.cons_append, rt_cons, rt_cons hp, ih a (by simpa using ha)]; · rfl
          intro hp'
          rw [← List.cons_append] at hp'
          exact hp (prefix_before hp' (by decide))
  exact key _ a le_rfl

theorem rt_id {s : List Char} (h : ¬ ['~', '='] <:+: s) : replaceTilde s = s := by
  induction s with
  | nil => rfl
  | cons c s ih =>
    rw [rt_cons (fun hp => h hp.isInfix), ih (fun hi => h (hi.trans (List.suffix_cons c s).isInfix))]

theorem rt_sample {a b : List Char} (ha : ¬ ['~', '='] <:+: a) (hb : ¬ ['~', '='] <:+: b) : replaceTilde (a ++ '~' :: '=' :: b) = a ++ '=' :: b := by
  induction a with
  | nil => show '=' :: replaceTilde b = _; rw [rt_id hb]; rfl
  | cons c a ih =>
    rw [List.cons_append, rt_cons, ih (fun hi => ha (hi.trans (List.suffix_cons c a).isInfix))]; · rfl
    intro hp
    obtain ⟨t, ht⟩ := hp
    cases a with
    | nil => simp at ht
    | cons d a =>
      simp only [List.cons_append, List.nil_append, List.cons.injEq] at ht
      exact ha ⟨[], a, by simp [← ht.1, ← ht.2.1]⟩

/-- The line after the replacement of `~=`. -/
def SrcLine.mid : SrcLine → List Char
  | .blank w => w
  | .head h => h.src
  | .sample a b => a ++ "=".toList ++ b
  | .other s => s

def SrcLine.isBlank : SrcLine → Bool
  | .blank _ => true
  | _ => false

def SrcLine.outD : SrcLine → List Char
  | .blank w => w
  | .head h => h.out
  | .sample a b => a ++ "=".toList ++ b
  | .other s => s

theorem head_inLine {h : SwitchHead} (ok : h.OK) : InLine h.src := by
  have a1 := blank_inLine ok.ind; have a2 := blank_inLine ok.w1; have a3 := blank_inLine ok.w2; have a4 := blank_inLine ok.w3; have a5 := blank_inLine ok.w4
  have a6 := blank_inLine ok.w5; have a7 := blank_inLine ok.w6; have a8 := blank_inLine ok.w7; have a9 := ok.rest.line
  have b1 := ok.subj.2; have b2 := ok.var.2; have b3 := ok.vals.1
  unfold InLine SwitchHead.src at *
  simp only [tc_in, tc_cases, tc_switch, tc_open, tc_close, tc_colon, List.mem_append, not_or]
  refine ⟨⟨⟨⟨⟨⟨⟨⟨⟨⟨⟨⟨⟨⟨⟨⟨⟨⟨⟨a1, ?_⟩, a2⟩, ?_⟩, b1⟩, ?_⟩, a3⟩, ?_⟩, a4⟩, ?_⟩, b2⟩, a5⟩, ?_⟩, a6⟩, b3⟩, a7⟩, ?_⟩, a8⟩, ?_⟩, a9⟩ <;> decide

theorem head_start (h : SwitchHead) : ∃ r, h.src = h.ind ++ 's' :: 'w' :: r := by
  refine ⟨"itch".toList ++ (h.w1 ++ ("(".toList ++ (h.subj ++ (")".toList ++ (h.w2 ++ ("cases".toList ++ (h.w3 ++ ("(".toList ++ (h.var ++ (h.w4 ++ ("in".toList ++ (h.w5 ++ (h.vals ++ (h.w6 ++
    (")".toList ++ (h.w7 ++ (":".toList ++ h.rest))))))))))))))))), ?_⟩
  have e : "switch".toList = 's' :: 'w' :: "itch".toList := by decide
  unfold SwitchHead.src
  rw [e]
  simp only [List.append_assoc, List.cons_append]

theorem src_inLine {l : SrcLine} (h : l.OK) : InLine l.src := by
  cases l with
  | blank w => exact blank_inLine h
  | head h' => exact head_inLine h
  | sample a b =>
    have := h.2.2.line
    simp only [SrcLine.src, InLine, tc_tilde, tc_eq, List.mem_append] at this ⊢
    simp at this ⊢; exact this
  | other s => exact h.2.line

theorem src_blank {l : SrcLine} (h : l.OK) : l.src.all pyWs = l.isBlank := by
  have key : ∀ {s : List Char} {c : Char}, c ∈ s → pyWs c = false → s.all pyWs = false := by
    intro s c hc hw
    rw [List.all_eq_false]; exact ⟨c, hc, by simp [hw]⟩
  cases l with
  | blank w => rw [SrcLine.isBlank, List.all_eq_true]; exact blank_ws h
  | head h' =>
    obtain ⟨r, hr⟩ := head_start h'
    exact key (c := 's') (by rw [SrcLine.src, hr]; simp) (by decide)
  | sample a b => exact key (c := '~') (by rw [SrcLine.src, tc_tilde]; simp) (by decide)
  | other s =>
    obtain ⟨w, c, r, rfl, -, hc, -⟩ := h.2.start
    exact key (c := c) (by simp [SrcLine.src]) hc

theorem rt_mid {l : SrcLine} (h : l.OK) (hb : l.isBlank = false) : replaceTilde l.src = l.mid := by
  cases l with
  | blank w => simp [SrcLine.isBlank] at hb
  | head h' => exact rt_id h.noTilde
  | sample a b =>
    rw [SrcLine.src, SrcLine.mid, tc_tilde, tc_eq, List.append_assoc, List.append_assoc]
    exact rt_sample h.1 h.2.1
  | other s => exact rt_id h.1

theorem rt_join {ls : List SrcLine} (h : ∀ l ∈ ls, l.OK ∧ l.isBlank = false) : replaceTilde (joinLines (ls.map SrcLine.src)) = joinLines (ls.map SrcLine.mid) := by
  induction ls with
  | nil => rfl
  | cons l ls ih =>
    obtain ⟨h1, h2⟩ := h l (by simp)
    cases ls with
    | nil => simpa [joinLines] using rt_mid h1 h2
    | cons l' ls =>
      have := ih (fun x hx => h x (by simp [hx]))
      simp only [List.map_cons, joinLines] at this ⊢
      rw [rt_line, rt_mid h1 h2, this]

/-- The first line of what follows is the end of the header before it. -/
theorem mid_tail {l : SrcLine} (h : l.OK) (hb : l.isBlank = false) {t : List Char} (ht : t = [] ∨ ∃ r, t = '\n' :: r) : HeadTail ('\n' :: (l.mid ++ t)) := by
  have plain : ∀ {s : List Char}, PlainLine s → HeadTail ('\n' :: (s ++ t)) := by
    intro s hs
    obtain ⟨w, c, r, rfl, hw, hc, hp, -, hin⟩ := hs.start
    refine .inr ⟨_, rfl, fun k hk => ?_, fun d k hd hk => ?_⟩
    · rw [List.append_assoc, dropWhile_all hw, List.cons_append, dropWhile_stop hc] at hk
      simp at hk; exact hp hk.1
    · rw [List.append_assoc, dropWhile_all hw, List.cons_append, dropWhile_stop hc, ← List.cons_append] at hk
      have hpre : ['i', 'n'] <+: c :: r := by
        rcases ht with rfl | ⟨r', rfl⟩
        · exact ⟨d :: k, by simpa using hk.symm⟩
        · exact prefix_before (b := '\n') (B := r') ⟨d :: k, by simpa using hk.symm⟩ (by decide)
      obtain ⟨k1, hk1⟩ := hpre
      refine hin ⟨k1, by rw [← hk1, tc_in], ?_⟩
      intro d' hd'
      cases k1 with
      | nil => simp at hd'
      | cons x k1 =>
        simp at hd'; subst hd'
        have : x = d := by
          rw [← hk1] at hk
          simp at hk; exact hk.1
        subst this
        simp only [pyWs, Bool.or_eq_true, beq_iff_eq] at hd
        rcases hd with ((((((((rfl | rfl) | rfl) | rfl) | rfl) | rfl) | rfl) | rfl) | rfl) | rfl <;> decide
  cases l with
  | blank w => simp [SrcLine.isBlank] at hb
  | head h' =>
    obtain ⟨r, hr⟩ := head_start h'
    refine .inr ⟨_, rfl, ?_⟩
    rw [SrcLine.mid, hr, List.append_assoc, dropWhile_all (blank_ws h.ind), List.cons_append, dropWhile_stop (by decide)]
    exact ⟨fun k => by simp, fun c k _ => by simp⟩
  | sample a b => exact plain h.2.2
  | other s => exact plain h.2

theorem sub_line {l : SrcLine} (h : l.OK) (hb : l.isBlank = false) {t : List Char} (ht : HeadTail t) : subSwitch true 0 (l.mid ++ t) = l.outD ++ subSwitch false 0 t := by
  cases l with
  | blank w => simp [SrcLine.isBlank] at hb
  | head h' => exact sub_head h ht
  | sample a b => exact sub_plain h.2.2 t ht.line
  | other s => exact sub_plain h.2 t ht.line

theorem join_two (l l' : List Char) (ls : List (List Char)) : joinLines (l :: l' :: ls) = l ++ '\n' :: joinLines (l' :: ls) := rfl

theorem join_tail (l : List Char) (ls : List (List Char)) : ∃ t, joinLines (l :: ls) = l ++ t ∧ (t = [] ∨ ∃ r, t = '\n' :: r) := by
  cases ls with
  | nil => exact ⟨[], by simp [joinLines], .inl rfl⟩
  | cons l' ls => exact ⟨_, rfl, .inr ⟨_, rfl⟩⟩

theorem sub_join {ls : List SrcLine} (h : ∀ l ∈ ls, l.OK ∧ l.isBlank = false) : subSwitch true 0 (joinLines (ls.map SrcLine.mid)) = joinLines (ls.map SrcLine.outD) := by
  induction ls with
  | nil => rfl
  | cons l ls ih =>
    obtain ⟨h1, h2⟩ := h l (by simp)
    cases ls with
    | nil =>
      have := sub_line h1 h2 (t := []) (.inl rfl)
      simpa [joinLines, subSwitch] using this
    | cons l' ls =>
      have ih' := ih (fun x hx => h x (by simp [hx]))
      obtain ⟨h1', h2'⟩ := h l' (by simp)
      simp only [List.map_cons] at ih' ⊢
      obtain ⟨t, e, ht⟩ := join_tail l'.mid (ls.map SrcLine.mid)
      rw [join_two, join_two, ← ih', e]
      exact sub_line h1 h2 (mid_tail h1' h2' ht)

/-- C59: a program text, of any number of lines, is turned into the lines of Python that its lines stand for: `a ~= b` into `a = b`, `switch (s) cases (x in v):` into
`for x in switch(s, v):`; blank lines are dropped and all other lines are kept.
Missing from the full claim: texts in which `~=`, `in ` or `) cases` also occur at other places, such as in strings and in comments after a header (see below); headers that
span lines. -/
theorem C59_preprocess_partial {ls : List SrcLine} (h : ∀ l ∈ ls, l.OK) : preprocess (joinLines (ls.map SrcLine.src)) = joinLines (ls.filterMap SrcLine.out) := by
  have e1 : (splitLines (joinLines (ls.map SrcLine.src))).filter (fun l => !l.all pyWs) = (ls.filter (fun l => !l.isBlank)).map SrcLine.src := by
    cases ls with
    | nil => rfl
    | cons l ls =>
      rw [split_join (by simp only [List.mem_map]; rintro _ ⟨l', hl', rfl⟩; exact src_inLine (h l' hl')) (by simp), List.filter_map]
      congr 1
      refine List.filter_congr (fun x hx => ?_)
      simp [src_blank (h x hx)]
  have h' : ∀ l ∈ ls.filter (fun l => !l.isBlank), l.OK ∧ l.isBlank = false := by
    intro l hl
    obtain ⟨a, b⟩ := List.mem_filter.1 hl
    exact ⟨h l a, by simpa using b⟩
  have e2 : (ls.filter (fun l => !l.isBlank)).map SrcLine.outD = ls.filterMap SrcLine.out := by
    clear e1 h' h
    induction ls with
    | nil => rfl
    | cons l ls ih =>
      cases l with
      | blank w => exact ih
      | head h => exact congrArg (h.out :: ·) ih
      | sample a b => exact congrArg ((a ++ "=".toList ++ b) :: ·) ih
      | other s => exact congrArg (s :: ·) ih
  unfold preprocess
  dsimp only
  rw [e1, rt_join h', sub_join h', e2]

/-! ## The hypotheses can be met -/

/-- The header `switch (X) cases (x in range(0, 3)): # all`. -/
def head0 : SwitchHead := ⟨[], [' '], ['X'], [' '], [' '], ['x'], [' '], [' '], "range(0, 3)".toList, [], [], " # all".toList⟩

theorem head0_ok : head0.OK where
  ind := by simp [head0, Blank]
  w1 := by simp [head0, Blank, pyWs]
  w2 := by simp [head0, Blank, pyWs]
  w3 := by simp [head0, Blank, pyWs]
  w4 := by simp [head0, Blank, pyWs]
  w5 := by simp [head0, Blank, pyWs]
  w6 := by simp [head0, Blank]
  w7 := by simp [head0, Blank]
  rest := ⟨by unfold InLine; decide, by decide, by
    intro a b h
    have : 'i' ∈ head0.rest := by rw [h]; simp
    exact absurd this (by decide)⟩
  subj := ⟨by decide, by unfold InLine; decide⟩
  var := ⟨by decide, by unfold InLine; decide⟩
  sep := by decide
  vals := ⟨by unfold InLine; decide, 'r', "ange(0, 3)".toList, by decide, by decide⟩
  noIn := by
    intro a c b hc h
    have : 'i' ∈ head0.vals ++ head0.w6 := by rw [h]; simp
    revert this; decide
  noCases := by
    intro a w b hw h
    have : 'c' ∈ head0.var ++ head0.w4 ++ "in".toList ++ head0.w5 ++ head0.vals ++ head0.w6 := by rw [h]; simp
    revert this; decide
  noTilde := by
    intro h
    have : '~' ∈ head0.src := h.subset (by simp)
    revert this; decide

/-- C59 non-vacuity: a program with an assignment, a blank line, a header and its body. -/
example : preprocess "X ~= choice({0: .5, 1: .5})\n  \nswitch (X) cases (x in range(0, 3)): # all\n    Y ~= norm(loc=x)".toList =
    "X = choice({0: .5, 1: .5})\nfor x  in switch(X, range(0, 3)): # all\n    Y = norm(loc=x)".toList := by
  have plain : ∀ (a b w : List Char) (c : Char) (r : List Char), ¬ '~' ∈ a → ¬ '~' ∈ b → InLine (a ++ "=".toList ++ b) → a ++ "=".toList ++ b = w ++ c :: r → (∀ d ∈ w, pyWs d = true) →
      pyWs c = false → c ≠ ')' → c ≠ 's' → c ≠ 'i' → (SrcLine.sample a b).OK := by
    intro a b w c r ha hb h1 h2 h3 h4 h5 h6 h7
    refine ⟨fun h => ha (h.subset (by simp)), fun h => hb (h.subset (by simp)), ⟨h1, w, c, r, h2, h3, h4, h5, ?_, ?_⟩⟩
    · rintro ⟨k, hk, -⟩; rw [tc_switch] at hk; simp at hk; exact h6 hk.1
    · rintro ⟨k, hk, -⟩; rw [tc_in] at hk; simp at hk; exact h7 hk.1
  have := C59_preprocess_partial (ls := [.sample "X ".toList " choice({0: .5, 1: .5})".toList, .blank "  ".toList, .head head0, .sample "    Y ".toList " norm(loc=x)".toList]) (by
    intro l hl
    simp only [List.mem_cons, List.not_mem_nil, or_false] at hl
    rcases hl with rfl | rfl | rfl | rfl
    · exact plain _ _ [] 'X' " = choice({0: .5, 1: .5})".toList (by decide) (by decide) (by unfold InLine; decide) (by decide) (by simp) (by decide) (by decide) (by decide) (by decide)
    · simp [SrcLine.OK, Blank, pyWs]
    · exact head0_ok
    · exact plain _ _ "    ".toList 'Y' " = norm(loc=x)".toList (by decide) (by decide) (by unfold InLine; decide) (by decide) (by decide) (by decide) (by decide) (by decide) (by decide))
  have e1 : joinLines (([.sample "X ".toList " choice({0: .5, 1: .5})".toList, .blank "  ".toList, .head head0, .sample "    Y ".toList " norm(loc=x)".toList] : List SrcLine).map SrcLine.src) =
      "X ~= choice({0: .5, 1: .5})\n  \nswitch (X) cases (x in range(0, 3)): # all\n    Y ~= norm(loc=x)".toList := by decide +kernel
  rw [← e1, this]
  decide +kernel

/-! ## Where the preprocessing is wrong -/

/-- C59 counterexample: `~=` is replaced in strings too: the outcome `a~=b` becomes `a=b`. -/
theorem C59_string_wrong : preprocess "X ~= choice({'a~=b': 1})".toList = "X = choice({'a=b': 1})".toList := by decide +kernel

/-- C59 counterexample: the variable of a `switch` reaches to the last `in` before a space, wherever it is: values such as `'born in France'` break the program. -/
theorem C59_in_wrong : preprocess "switch (X) cases (x in ['born in France', 'b']):".toList = "for x in ['born  in switch(X, France', 'b']):".toList := by decide +kernel

end Sppl
