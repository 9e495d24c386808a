import Verif.Comp.Spec

set_option linter.all false

/-!
# Lemmas on the rewriting of comparisons
-/

namespace Sppl
open Classical

section
variable {H : PyHost} {c : Ctx} {ρ : NS}

theorem rewriteCmp_noEq {l : PE} {ops : List CmpOp} {rs : List PE} (h : ∀ op ∈ ops, op.isOrder = true) : rewriteCmp l ops rs = .cmp l ops rs := by
  unfold rewriteCmp
  split <;> first | rfl | (simp [CmpOp.isOrder] at h)

mutual
theorem PE.rewrite_noEq : ∀ p : PE, p.NoEq → p.rewrite = p
  | .cmp l ops rs, h => by simp only [PE.NoEq] at h; simp only [PE.rewrite]; exact rewriteCmp_noEq h
  | .host _ _, _ => by simp only [PE.rewrite]
  | .name _, _ => by simp only [PE.rewrite]
  | .lit _, _ => by simp only [PE.rewrite]
  | .sub x i, h => by simp only [PE.NoEq] at h; simp only [PE.rewrite]; rw [i.rewrite_noEq h]
  | .set es, h => by simp only [PE.NoEq] at h; simp only [PE.rewrite]; rw [PE.rewriteL_noEq es h]
  | .bin op l r, h => by simp only [PE.NoEq] at h; simp only [PE.rewrite]; rw [l.rewrite_noEq h.1, r.rewrite_noEq h.2]
  | .un op e, h => by simp only [PE.NoEq] at h; simp only [PE.rewrite]; rw [e.rewrite_noEq h]
  | .boolOp b es, h => by simp only [PE.NoEq] at h; simp only [PE.rewrite]; rw [PE.rewriteL_noEq es h]
  | .call f es, h => by simp only [PE.NoEq] at h; simp only [PE.rewrite]; rw [PE.rewriteL_noEq es h]
  | .ifexp t a b, h => by simp only [PE.NoEq] at h; simp only [PE.rewrite]; rw [t.rewrite_noEq h.1, a.rewrite_noEq h.2.1, b.rewrite_noEq h.2.2]
theorem PE.rewriteL_noEq : ∀ ps : List PE, PE.NoEqL ps → PE.rewriteL ps = ps
  | [], _ => by simp only [PE.rewriteL]
  | e :: es, h => by simp only [PE.NoEqL] at h; simp only [PE.rewriteL]; rw [e.rewrite_noEq h.1, PE.rewriteL_noEq es h.2]
end

theorem vals_ok {vs : List Obj} {l : List (Val EReal)} (h : Obj.vals vs = .ok l) (ω : Asg) (v : Val ℝ) : v.lift ∈ l ↔ ∃ o ∈ vs, o.at ω = some v := by
  induction vs generalizing l with
  | nil => simp only [Obj.vals] at h; injection h with h; subst h; simp
  | cons o os ih =>
    unfold Obj.vals at h
    split at h
    · cases ‹_ :: _ = _›
    · rename_i s os' he
      rw [List.cons.injEq] at he
      obtain ⟨rfl, rfl⟩ := he
      simp only [bind, Except.bind] at h
      split at h; · cases h
      rename_i r hr
      injection h with h; subst h
      rw [List.mem_cons, ih hr]
      cases v <;> simp [Obj.at, Val.lift, eq_comm]
    · rename_i o' os' hns he
      rw [List.cons.injEq] at he
      obtain ⟨rfl, rfl⟩ := he
      split at h
      · rename_i x hx
        simp only [bind, Except.bind] at h
        split at h; · cases h
        rename_i r hr
        injection h with h; subst h
        rw [List.mem_cons, ih hr]
        have : o.at ω = some (.num x) := by
          cases o <;> simp [Obj.num?] at hx <;> subst hx <;> rfl
        cases v <;> simp [this, Val.lift, eq_comm]
      · cases h

theorem inList_valid (t : Tr) (l : List (Val EReal)) : (t.inList l).Valid := by
  have hn : ∀ h : (numVals l).Nonempty, (Ev.fin t (some (numVals l))).Valid := fun h => .fin (by intro s hs; injection hs with hs; subst hs; exact h)
  have hs : ∀ h : (strVals l).Nonempty, (Ev.nom t (some ⟨strVals l, none⟩)).Valid := fun h => .nom (by intro s hs; injection hs with hs; subst hs; first | trivial | exact h | simp [Nom.WF, h])
  unfold Tr.inList
  split
  · rename_i h
    refine .or (by simp) ?_
    intro e he; simp at he
    rcases he with rfl | rfl
    · exact hn h.1
    · exact hs h.2
  · split
    · exact hn ‹_›
    · split
      · exact hs ‹_›
      · exact .fin (by simp)

/-- `t << r`. -/
theorem shift_ok {t : Tr} {r o : Obj} (hS : ∀ S, r = .set S → S.WF) (h : evalShift H c (.tr t) r = .ok o) :
    ∃ e, o = .ev e ∧ e.Valid ∧ ∀ ω, e.holds ω ↔ ∃ v, t.eval ω = some v ∧ r.Has ω v := by
  cases r with
  | coll vs =>
    simp only [evalShift, bind, Except.bind] at h
    split at h; · cases h
    rename_i l hl
    injection h with h; subst h
    refine ⟨_, rfl, inList_valid _ _, fun ω => ?_⟩
    rw [C11_in_list]
    simp only [vals_ok hl ω, Obj.Has]
  | set S =>
    simp only [evalShift, bind, Except.bind] at h
    split at h; · cases h
    rename_i e he
    injection h with h; subst h
    obtain ⟨h1, h2⟩ := C11_in_set (hS S rfl) he
    exact ⟨e, rfl, h1, h2⟩
  | _ => simp only [evalShift] at h; cases h

theorem evalL_one {r : PE} {vs : List Obj} (h : PE.evalL H c ρ [r] = .ok vs) : ∃ v, r.eval H c ρ = .ok v ∧ vs = [v] := by
  simp only [PE.evalL, bind, Except.bind] at h
  split at h; · cases h
  rename_i v hv
  injection h with h
  exact ⟨v, hv, h.symm⟩

theorem num_at {r : Obj} {x : ℝ} (hr : r.num? = some x) (ω : Asg) : r.at ω = some (.num x) := by
  cases r <;> simp [Obj.num?] at hr <;> subst hr <;> rfl

theorem tr_at {t : Tr} {ω : Asg} : (Obj.tr t).at ω = t.eval ω := rfl

theorem cmpTr_ok {op : CmpOp} {t : Tr} {x : ℝ} {e : Ev} (h : cmpTr op t x = .ok e) {r : Obj} (hr : r.num? = some x) :
    e.Valid ∧ ∀ ω, e.holds ω ↔ op.Holds ω (.tr t) r := by
  have hat := num_at hr
  cases op with
  | lt =>
    simp only [cmpTr, Tr.ltNum] at h
    obtain ⟨h1, h2⟩ := mkIvl_map_ok h
    exact ⟨h1, fun ω => by rw [h2]; simp [CmpOp.Holds, tr_at, hat]⟩
  | le =>
    simp only [cmpTr, Tr.leNum] at h
    obtain ⟨h1, h2⟩ := mkIvl_map_ok h
    exact ⟨h1, fun ω => by rw [h2]; simp [CmpOp.Holds, tr_at, hat]⟩
  | gt =>
    simp only [cmpTr, Tr.gtNum] at h
    obtain ⟨h1, h2⟩ := mkIvl_map_ok h
    exact ⟨h1, fun ω => by rw [h2]; simp [CmpOp.Holds, tr_at, hat]⟩
  | ge =>
    simp only [cmpTr, Tr.geNum] at h
    obtain ⟨h1, h2⟩ := mkIvl_map_ok h
    exact ⟨h1, fun ω => by rw [h2]; simp [CmpOp.Holds, tr_at, hat]⟩
  | _ => cases h

theorem flip_holds {op : CmpOp} (ho : op.isOrder = true) {ω : Asg} {l r : Obj} : op.flip.Holds ω r l ↔ op.Holds ω l r := by
  cases op <;> first | (cases ho; done) | skip
  all_goals
    simp only [CmpOp.flip, CmpOp.Holds]
    constructor
    · rintro ⟨x, y, h1, h2, h3⟩; exact ⟨y, x, h2, h1, h3⟩
    · rintro ⟨x, y, h1, h2, h3⟩; exact ⟨y, x, h2, h1, h3⟩

theorem means_cmp {l r : PE} {op : CmpOp} {v w : Obj} (hl : l.eval H c ρ = .ok v) (hr : r.eval H c ρ = .ok w) (ω : Asg) :
    (PE.cmp l [op] [r]).Means H c ρ ω ↔ op.Holds ω v w := by
  have hw : PE.evalL H c ρ [r] = .ok [w] := by simp only [PE.evalL, hr, bind, Except.bind]
  simp only [PE.Means, hl, hw]
  constructor
  · rintro ⟨v', vs, h1, h2, h3⟩
    injection h1 with h1; injection h2 with h2; subst h1 h2
    simpa [ChainHolds] using h3
  · intro h
    exact ⟨v, [w], rfl, rfl, by simpa [ChainHolds] using h⟩

/-- `l in r` and `l == r`. -/
theorem member_ok {l r : PE} {op : CmpOp} {t : Tr} {o : Obj} (hop : op = .eq ∨ op = .ne ∨ op = .isIn ∨ op = .notIn) (hl : l.eval H c ρ = .ok (.tr t))
    (hS : ∀ S, r.eval H c ρ = .ok (.set S) → S.WF) (h : memberEvent H c ρ l op r = .ok o) :
    ∃ e w, o = .ev e ∧ r.eval H c ρ = .ok w ∧ e.Valid ∧
      (∀ ω, e.holds ω ↔ ∃ v, t.eval ω = some v ∧ (if op = .eq ∨ op = .ne then w.at ω = some v else w.Has ω v)) ∧
      ((op = .eq ∨ op = .ne) → ∀ ω, w.at ω ≠ none) := by
  unfold memberEvent at h
  simp only [PE.eval, hl, bind, Except.bind, evalBin] at h
  split at h; · cases h
  rename_i w hw
  by_cases hq : op = .eq ∨ op = .ne
  · replace hw : (PE.set [r]).eval H c ρ = .ok w := by rcases hq with rfl | rfl <;> exact hw
    simp only [PE.eval, bind, Except.bind] at hw
    split at hw; · cases hw
    rename_i vs hvs
    injection hw with hw; subst hw
    obtain ⟨w, hw, rfl⟩ := evalL_one hvs
    obtain ⟨e, rfl, h1, h2⟩ := shift_ok (by simp) h
    refine ⟨e, w, rfl, hw, h1, fun ω => ?_, fun _ ω => ?_⟩
    · rw [h2]; simp [Obj.Has, hq]
    · simp only [evalShift, bind, Except.bind] at h
      split at h; · cases h
      rename_i l' hl'
      cases w <;> simp [Obj.vals, Obj.num?, bind, Except.bind] at hl' <;> simp [Obj.at]
  · replace hw : r.eval H c ρ = .ok w := by
      rcases hop with rfl | rfl | rfl | rfl
      · simp at hq
      · simp at hq
      · exact hw
      · exact hw
    obtain ⟨e, rfl, h1, h2⟩ := shift_ok (by rintro S rfl; exact hS S hw) h
    exact ⟨e, w, rfl, hw, h1, fun ω => by rw [h2]; simp [hq], fun h => absurd h hq⟩

/-- The test of `_compare`: what is written means what it says. -/
theorem cmp_left_ok {l r : PE} {op : CmpOp} {t : Tr} {o : Obj} (hl : l.eval H c ρ = .ok (.tr t)) (hS : ∀ S, r.eval H c ρ = .ok (.set S) → S.WF)
    (h : (PE.cmp l [op] [r]).rewrite.eval H c ρ = .ok o) :
    ∃ e, o = .ev e ∧ e.Valid ∧ ∀ ω, (PE.cmp l [op] [r]).TypedAt H c ρ ω → (e.holds ω ↔ (PE.cmp l [op] [r]).Means H c ρ ω) := by
  simp only [PE.rewrite] at h
  by_cases ho : op.isOrder = true
  · rw [rewriteCmp_noEq (by simpa using ho)] at h
    simp only [PE.eval, hl, bind, Except.bind, PE.evalChain] at h
    split at h; · cases h
    rename_i w hw
    simp only [evalCmp, if_pos ho] at h
    have hn : (Obj.tr t).num? = none := rfl
    rw [hn] at h
    cases hx : w.num? with
    | none => rw [hx] at h; cases h
    | some x =>
      rw [hx] at h
      simp only [cmpOrder, bind, Except.bind] at h
      split at h; · cases h
      rename_i e he
      injection h with h; subst h
      obtain ⟨h1, h2⟩ := cmpTr_ok he hx
      exact ⟨e, rfl, h1, fun ω _ => by rw [h2, means_cmp hl hw]⟩
  · have hpos : op = .eq ∨ op = .isIn → memberEvent H c ρ l op r = .ok o := by
      rintro (rfl | rfl) <;> exact h
    have hneg : op = .ne ∨ op = .notIn → ∃ o', memberEvent H c ρ l op r = .ok o' ∧ evalUn H c .invert o' = .ok o := by
      have key : ∀ q : PE, (PE.un .invert q).eval H c ρ = .ok o → ∃ o', q.eval H c ρ = .ok o' ∧ evalUn H c .invert o' = .ok o := by
        intro q hq
        rw [PE.eval] at hq
        simp only [bind, Except.bind] at hq
        split at hq; · cases hq
        exact ⟨_, ‹_›, hq⟩
      rintro (rfl | rfl) <;> exact key _ h
    have hcase : (op = .eq ∨ op = .isIn) ∨ (op = .ne ∨ op = .notIn) := by cases op <;> simp [CmpOp.isOrder] at ho ⊢
    rcases hcase with hc | hc
    · obtain ⟨e, w, rfl, hw, h1, h2, -⟩ := member_ok (by tauto) hl hS (hpos hc)
      refine ⟨e, rfl, h1, fun ω _ => ?_⟩
      rw [h2, means_cmp hl hw]
      rcases hc with rfl | rfl <;> simp [CmpOp.Holds, tr_at]
    · obtain ⟨o', h3, h4⟩ := hneg hc
      obtain ⟨e, w, rfl, hw, h1, h2, hd⟩ := member_ok (by tauto) hl hS h3
      simp only [evalUn, bind, Except.bind] at h4
      split at h4; · cases h4
      rename_i g hg
      injection h4 with h4; subst h4
      obtain ⟨g1, g2⟩ := Ev.not_spec e h1 hg
      refine ⟨g, rfl, g1, fun ω hty => ?_⟩
      cases hty with
      | atom h => simp [PE.isAtom] at h
      | cmp hty =>
        obtain ⟨hd1, hty⟩ := hty hc
        rw [g2 ω (hty e h3), h2, means_cmp hl hw]
        obtain ⟨v, hv⟩ := Option.ne_none_iff_exists'.1 (hd1 t hl)
        rcases hc with rfl | rfl
        · obtain ⟨u, hu⟩ := Option.ne_none_iff_exists'.1 (hd (.inr rfl) ω)
          simp [CmpOp.Holds, tr_at, hv, hu, eq_comm]
        · simp [CmpOp.Holds, tr_at, hv]

theorem cmp_right_ok {l r : PE} {op : CmpOp} {t : Tr} {o o' : Obj} {x : ℝ} (ho : op.isOrder = true) (hl : l.eval H c ρ = .ok o') (hx : o'.num? = some x)
    (hr : r.eval H c ρ = .ok (.tr t)) (h : (PE.cmp l [op] [r]).rewrite.eval H c ρ = .ok o) :
    ∃ e, o = .ev e ∧ e.Valid ∧ ∀ ω, (e.holds ω ↔ (PE.cmp l [op] [r]).Means H c ρ ω) := by
  simp only [PE.rewrite] at h
  rw [rewriteCmp_noEq (by simpa using ho)] at h
  simp only [PE.eval, hl, bind, Except.bind, PE.evalChain, hr, evalCmp, if_pos ho, hx] at h
  have hn : (Obj.tr t).num? = none := rfl
  rw [hn] at h
  simp only [cmpOrder, bind, Except.bind] at h
  split at h; · cases h
  rename_i e he
  injection h with h; subst h
  obtain ⟨h1, h2⟩ := cmpTr_ok he hx
  exact ⟨e, rfl, h1, fun ω => by rw [h2, means_cmp hl hr, flip_holds ho]⟩

theorem means_atom {p : PE} (h : p.isAtom = true) (ω : Asg) {e : Ev} (he : p.eval H c ρ = .ok (.ev e)) : p.Means H c ρ ω ↔ e.holds ω := by
  have : p.Means H c ρ ω ↔ (p.eval H c ρ = .ok (.bool true) ∨ ∃ e, p.eval H c ρ = .ok (.ev e) ∧ e.holds ω) := by
    cases p with
    | bin op l r => cases op <;> simp [PE.isAtom] at h <;> simp only [PE.Means]
    | un op l => simp [PE.isAtom] at h
    | boolOp op l => simp [PE.isAtom] at h
    | cmp => simp [PE.isAtom] at h
    | _ => simp only [PE.Means]
  rw [this, he]
  simp

/-- **Tests mean what they say.** -/
theorem plain_ok {p : PE} (hp : p.Plain H c ρ) : ∀ {o : Obj}, p.rewrite.eval H c ρ = .ok o →
    ∃ e, o = .ev e ∧ e.Valid ∧ ∀ ω, p.TypedAt H c ρ ω → (e.holds ω ↔ p.Means H c ρ ω) := by
  induction hp with
  | left h1 h2 => exact fun h => cmp_left_ok h1 h2 h
  | right h1 h2 h3 h4 =>
    intro o h
    obtain ⟨e, h5, h6, h7⟩ := cmp_right_ok h1 h2 h3 h4 h
    exact ⟨e, h5, h6, fun ω _ => h7 ω⟩
  | @and p q _ _ ihp ihq =>
    intro o h
    simp only [PE.rewrite, PE.eval, bind, Except.bind] at h
    split at h; · cases h
    rename_i v hv
    split at h; · cases h
    rename_i w hw
    obtain ⟨e, rfl, e1, e2⟩ := ihp hv
    obtain ⟨f, rfl, f1, f2⟩ := ihq hw
    simp only [evalBin, bind, Except.bind] at h
    split at h; · cases h
    rename_i g hg
    injection h with h; subst h
    obtain ⟨g1, g2⟩ := Ev.land_spec e1 f1 hg
    refine ⟨g, rfl, g1, fun ω ht => ?_⟩
    cases ht with
    | atom h => simp [PE.isAtom] at h
    | and a b => rw [g2, e2 ω a, f2 ω b]; simp only [PE.Means]
  | @or p q _ _ ihp ihq =>
    intro o h
    simp only [PE.rewrite, PE.eval, bind, Except.bind] at h
    split at h; · cases h
    rename_i v hv
    split at h; · cases h
    rename_i w hw
    obtain ⟨e, rfl, e1, e2⟩ := ihp hv
    obtain ⟨f, rfl, f1, f2⟩ := ihq hw
    simp only [evalBin, bind, Except.bind] at h
    split at h; · cases h
    rename_i g hg
    injection h with h; subst h
    obtain ⟨g1, g2⟩ := Ev.lor_spec e1 f1 hg
    refine ⟨g, rfl, g1, fun ω ht => ?_⟩
    cases ht with
    | atom h => simp [PE.isAtom] at h
    | or a b => rw [g2, e2 ω a, f2 ω b]; simp only [PE.Means]
  | @not p _ ih =>
    intro o h
    simp only [PE.rewrite, PE.eval, bind, Except.bind] at h
    split at h; · cases h
    rename_i v hv
    obtain ⟨e, rfl, e1, e2⟩ := ih hv
    simp only [evalUn, bind, Except.bind] at h
    split at h; · cases h
    rename_i g hg
    injection h with h; subst h
    obtain ⟨g1, g2⟩ := Ev.not_spec e e1 hg
    refine ⟨g, rfl, g1, fun ω ht => ?_⟩
    cases ht with
    | atom h => simp [PE.isAtom] at h
    | not a b => rw [g2 ω (b e hv), e2 ω a]; simp only [PE.Means]
  | @atom p e h1 h2 h3 h4 =>
    intro o h
    rw [p.rewrite_noEq h1, h3] at h
    injection h with h; subst h
    exact ⟨e, rfl, h4, fun ω _ => (means_atom h2 ω h3).symm⟩

end

end Sppl
