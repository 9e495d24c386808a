import Verif.Comp.RenderSpec
import Verif.Comp.TotalLemmas

set_option linter.all false

/-!
# Lemmas on `render_sppl`: compiling and running the source
-/

namespace Sppl
open Classical MeasureTheory

/-! ## The shape of the text of transforms -/

/-- Expressions that the compiler copies. -/
def PE.Copied (e : PE) : Prop := e.NoEq ∧ (∀ t a b, e ≠ .ifexp t a b) ∧ ∀ as, e ≠ .call "array" as

theorem copied_bin {op : BinOp} {l r : PE} (hl : l.Copied) (hr : r.Copied) : (PE.bin op l r).Copied := ⟨⟨hl.1, hr.1⟩, by simp, by simp⟩

theorem copied_lit (o : Obj) : (PE.lit o).Copied := ⟨trivial, by simp, by simp⟩

theorem copied_host (ns : List String) (f : NS → Res Obj) : (PE.host ns f).Copied := ⟨trivial, by simp, by simp⟩

/-- A text of such expressions. -/
def TextOK (ts : List Term) : Prop := ∀ t ∈ ts, t.1.Copied ∧ ∀ f ∈ t.2, f.2.Copied

theorem term_copied {t : Term} (h1 : t.1.Copied) (h2 : ∀ f ∈ t.2, f.2.Copied) : t.read.Copied := by
  obtain ⟨a, l⟩ := t
  unfold Term.read
  simp only at *
  induction l generalizing a with
  | nil => exact h1
  | cons f l ih => exact ih _ (copied_bin h1 (h2 f (by simp))) (fun g hg => h2 g (by simp [hg]))

theorem read_copied {ts : List Term} {e : PE} (h : TextOK ts) (he : readTerms ts = .ok e) : e.Copied := by
  cases ts with
  | nil => cases he
  | cons t ts =>
    simp only [readTerms] at he
    injection he with he
    subst he
    have h0 := term_copied (h t (by simp)).1 (h t (by simp)).2
    have hl : ∀ u ∈ ts, u.read.Copied := fun u hu => term_copied (h u (by simp [hu])).1 (h u (by simp [hu])).2
    generalize t.read = a at h0
    clear h
    induction ts generalizing a with
    | nil => exact h0
    | cons u us ih => exact ih (fun v hv => hl v (by simp [hv])) _ (copied_bin h0 (hl u (by simp)))

theorem single_ok {e : PE} (h : e.Copied) : TextOK [(e, [])] := by
  intro t ht; simp at ht; subst ht; exact ⟨h, by simp⟩

theorem polyTerm_ok {ss ts : List Term} {i : ℕ} {a : ℝ} (h : TextOK ss) (he : polyTerm ss i a = .ok ts) : TextOK ts := by
  unfold polyTerm at he
  split at he
  · injection he with he; subst he; intro t ht; cases ht
  split at he
  · injection he with he; subst he; exact single_ok (copied_lit _)
  split at he
  · split at he
    · injection he with he; subst he; exact h
    · simp only [bind, Except.bind] at he
      split at he; · cases he
      injection he with he; subst he; exact single_ok (copied_host _ _)
  · simp only [bind, Except.bind] at he
    split at he; · cases he
    rename_i p hp
    have hp' : p.Copied := read_copied h hp
    split at he
    · injection he with he; subst he; exact single_ok (copied_bin hp' (copied_lit _))
    · injection he with he; subst he
      intro t ht; simp at ht; subst ht
      refine ⟨copied_lit _, ?_⟩
      intro f hf; simp at hf; subst hf
      exact copied_bin hp' (copied_lit _)

theorem polyTerms_ok {ss ts : List Term} {i : ℕ} {as : List ℝ} (h : TextOK ss) (he : polyTerms ss i as = .ok ts) : TextOK ts := by
  induction as generalizing i ts with
  | nil => injection he with he; subst he; intro t ht; cases ht
  | cons a as ih =>
    simp only [polyTerms, bind, Except.bind] at he
    split at he; · cases he
    rename_i t1 h1
    split at he; · cases he
    rename_i t2 h2
    injection he with he; subst he
    intro t ht
    rcases List.mem_append.1 ht with ht | ht
    · exact polyTerm_ok h h1 t ht
    · exact ih h2 t ht

theorem call_copied {f : String} {p : PE} (hf : f ≠ "array") (hp : p.Copied) : (PE.call f [p]).Copied :=
  ⟨⟨hp.1, trivial⟩, by simp, by simp [hf]⟩

theorem text_ok : ∀ (t : Tr) {ts : List Term}, t.text = .ok ts → TextOK ts
  | .id s, ts, h => by
    simp only [Tr.text] at h; split at h; swap; · cases h
    injection h with h; subst h; exact single_ok ⟨trivial, by simp, by simp⟩
  | .radical t n, ts, h => by
    simp only [Tr.text, bind, Except.bind] at h
    split at h; · cases h
    rename_i ss hs
    split at h; · cases h
    rename_i p hp
    injection h with h; subst h
    exact single_ok (copied_bin (read_copied (text_ok t hs) hp) (copied_lit _))
  | .exp t b, ts, h => by
    simp only [Tr.text, bind, Except.bind] at h
    split at h; · cases h
    rename_i ss hs
    split at h; · cases h
    rename_i p hp
    have := read_copied (text_ok t hs) hp
    split at h
    · injection h with h; subst h; exact single_ok (call_copied (by decide) this)
    · injection h with h; subst h; exact single_ok (copied_bin (copied_lit _) this)
  | .log t b, ts, h => by
    simp only [Tr.text, bind, Except.bind] at h
    split at h; · cases h
    rename_i ss hs
    split at h; · cases h
    rename_i p hp
    have := read_copied (text_ok t hs) hp
    split at h
    · injection h with h; subst h; exact single_ok (call_copied (by decide) this)
    · split at h
      · injection h with h; subst h; exact single_ok (call_copied (by decide) this)
      · cases h
  | .abs t, ts, h => by simp only [Tr.text] at h; cases h
  | .recip t, ts, h => by
    simp only [Tr.text, bind, Except.bind] at h
    split at h; · cases h
    rename_i ss hs
    have hss := text_ok t hs
    cases ss with
    | nil => cases h
    | cons u us =>
      simp only [oneOver, bind, Except.bind] at h
      split at h; · cases h
      rename_i p hp
      injection h with h; subst h
      refine single_ok (read_copied ?_ hp)
      intro v hv
      rcases List.mem_cons.1 hv with rfl | hv
      · refine ⟨copied_lit _, ?_⟩
        intro f hf
        rcases List.mem_cons.1 hf with rfl | hf
        · exact (hss u (by simp)).1
        · exact (hss u (by simp)).2 f hf
      · exact hss v (by simp [hv])
  | .poly t cs, ts, h => by
    simp only [Tr.text, bind, Except.bind] at h
    split at h; · cases h
    rename_i ss hs
    exact polyTerms_ok (text_ok t hs) h
  | .pw as es ds, ts, h => by
    simp only [Tr.text] at h; injection h with h; subst h; exact single_ok (copied_host _ _)

theorem source_copied {t : Tr} {e : PE} (h : t.source = .ok e) : e.Copied := by
  simp only [Tr.source, bind, Except.bind] at h
  split at h; · cases h
  rename_i ts hts
  exact read_copied (text_ok t hts) h

theorem PyHost.Choice.dict {D : List String} {H : PyHost} (h : H.Choice D) {dist : List (String × ℚ)} (hn : (dist.map Prod.fst).Nodup) :
    H.call "choice" [dictObj (dist.map (fun p => (p.1, (p.2 : ℝ))))] = .ok (.dist (.one (.nominal dist))) := by
  rw [← h.call dist hn]
  simp only [dictObj, List.map_map]
  rfl

/-! ## The commands of an SPE -/

/-- The domain that Python's distribution has. -/
noncomputable def domOf (H : PyHost) (d : Dist) : Ivl EReal :=
  match H.call d.name (keywords d) with
  | .ok (.dist (.one (.real _ _ dom))) => dom
  | _ => ⟨⊥, ⊤, true, true⟩

/-- What the text of a transform is read as. -/
noncomputable def readAs (D : List String) (H : PyHost) (c : Ctx) (t : Tr) : Tr := if h : ∃ r, t.ReadsAs D H c r then h.choose else t

theorem readAs_ok {D : List String} {H : PyHost} {c : Ctx} {t : Tr} (h : ∃ r, t.ReadsAs D H c r) : t.ReadsAs D H c (readAs D H c t) := by
  unfold readAs; rw [dif_pos h]; exact h.choose_spec

/-- The event of a branch. -/
def branchEv (n i : ℕ) : Ev := .nom (.id (branchVar n)) (some ⟨{toString i}, none⟩)

/-- The command of a body. -/
def block : List Cmd → Cmd
  | [m] => m
  | ms => .seq ms

mutual
/-- The weights of the branch variables of an SPE, in the order in which they are written. -/
def Spe.wss : Spe → List (List ℝ)
  | .nominal _ _ => []
  | .real _ _ _ _ _ _ => []
  | .atomic _ _ _ => []
  | .prod cs => Spe.wssL cs
  | .sum [] _ => []
  | .sum [s] _ => s.wss
  | .sum (s :: t :: cs) ws => ws :: (s.wss ++ Spe.wssL (t :: cs))
/-- See `Spe.wss`. -/
def Spe.wssL : List Spe → List (List ℝ)
  | [] => []
  | s :: ss => s.wss ++ Spe.wssL ss
end

section
variable (D : List String) (H : PyHost) (c : Ctx)

/-- The commands of a real leaf. -/
noncomputable def leafCmds (k : Kind) (X : String) (d : Dist) (supp : Ivl EReal) (cond : Bool) (env : Env) : List Cmd :=
  .sample X (.one (.real k d (domOf H d))) :: ((if cond = true then [.condition (.ivl (.id X) supp)] else []) ++ env.tail.map (fun p => .transform p.1 (readAs D H c p.2)))

mutual
/-- The commands that the source of an SPE becomes; `n` is the number of the next branch variable. -/
noncomputable def Spe.cmds : ℕ → Spe → List Cmd
  | _, .nominal X dist => [.sample X (.one (.nominal dist))]
  | _, .real k X d supp cond env => leafCmds D H c k X d supp cond env
  | _, .atomic _ _ _ => []
  | n, .prod cs => (Spe.cmdsL n cs).flatten
  | _, .sum [] _ => []
  | n, .sum [s] _ => s.cmds n
  | n, .sum (s :: t :: cs) _ => [.ifelse ((List.range (cs.length + 2)).map (branchEv n)) false ((s.cmds (n + 1) :: Spe.cmdsL (n + 1 + s.wss.length) (t :: cs)).map block)]
/-- The commands of each child. -/
noncomputable def Spe.cmdsL : ℕ → List Spe → List (List Cmd)
  | _, [] => []
  | n, s :: ss => s.cmds n :: Spe.cmdsL (n + s.wss.length) ss
end

end

/-- The rational number. -/
noncomputable def ratOf (w : ℝ) : ℚ := if h : ∃ q : ℚ, w = (q : ℝ) then h.choose else 0

theorem ratOf_ok {w : ℝ} (h : ∃ q : ℚ, w = (q : ℝ)) : (ratOf w : ℝ) = w := by
  unfold ratOf; rw [dif_pos h]; exact h.choose_spec.symm

/-- The distribution of a branch variable. -/
noncomputable def branchTable (ws : List ℝ) : List (String × ℚ) := (List.range ws.length).zipWith (fun i w => (toString i, ratOf w)) ws

/-- The commands of the branch variables. -/
noncomputable def branchCmds : ℕ → List (List ℝ) → List Cmd
  | _, [] => []
  | n, ws :: wss => .sample (branchVar n) (.one (.nominal (branchTable ws))) :: branchCmds (n + 1) wss

/-! ## Compiling and running -/

section
variable {D : List String} {H : PyHost} {c : Ctx}

/-- The variables in `S` have been declared. -/
structure Step (st : VS) (S : Finset String) (st' : VS) : Prop where
  first : st'.first = false
  constants : st'.constants = st.constants
  scalar : ∀ p ∈ st'.vars, p ∈ st.vars ∨ p.2 = .scalar
  old : ∀ x, (st.vars.lookup x).isSome → (st'.vars.lookup x).isSome
  new : ∀ x ∈ S, (st'.vars.lookup x).isSome
  only : ∀ x ∉ S, st'.vars.lookup x = st.vars.lookup x

/-- The names of `A` stand for variables, and those of the distributions are not hidden. -/
def Binds (D : List String) (A : Set String) (ρ : NS) : Prop := (∀ x ∈ A, ρ x = some (.tr (.id x))) ∧ ∀ f ∈ D, ρ f = none

/-- All large enough bounds of the recursion give the same result, which is run to the commands `ms`. -/
def Lays (D : List String) (H : PyHost) (c : Ctx) (A : Set String) (F : ℕ → Res (List Tgt × VS)) (st : VS) (S : Finset String) (ms : List Cmd) : Prop :=
  ∃ N ts st', Step st S st' ∧ (∀ n, N ≤ n → F n = .ok (ts, st')) ∧ ∀ ρ, Binds D A ρ → Tgt.runL H c ρ ts = .ok (ms.map Arg.cmd)

/-- The variables can be declared in this context. -/
def Free (ctx : List String) (S : Finset String) (st : VS) : Prop :=
  "for" ∉ ctx ∧ ∀ x ∈ S, if "elif" ∈ ctx then (st.vars.lookup x).isSome else st.vars.lookup x = none

theorem lookup_append_some {α : Type} {l : List (String × α)} {x y : String} {v : α} (h : (l.lookup x).isSome) : ((l ++ [(y, v)]).lookup x).isSome := by
  rw [List.lookup_append]; simp [Option.isSome_or, h]

theorem lookup_append_self {α : Type} {l : List (String × α)} {x : String} {v : α} : ((l ++ [(x, v)]).lookup x).isSome := by
  rw [List.lookup_append]; simp [Option.isSome_or, List.lookup]

theorem lookup_append_ne {α : Type} {l : List (String × α)} {x y : String} {v : α} (h : x ≠ y) : (l ++ [(y, v)]).lookup x = l.lookup x := by
  rw [List.lookup_append]
  have : (x == y) = false := by simpa using h
  simp [List.lookup, this]

theorem declare_step {ctx : List String} {x : String} {st : VS} (h : Free ctx {x} st) (hf : st.first = false) (ds : List String) :
    ∃ st', declare ctx (.name x) { st with distributions := ds } = .ok st' ∧ Step st {x} st' := by
  obtain ⟨h1, h2⟩ := h
  have h2 := h2 x (by simp)
  by_cases he : "elif" ∈ ctx
  · rw [if_pos he] at h2
    refine ⟨{ st with distributions := ds }, by simp [declare, h1, he, h2], hf, rfl, fun p hp => .inl hp, fun _ h => h, ?_, fun _ _ => rfl⟩
    intro y hy; simp at hy; subst hy; exact h2
  · rw [if_neg he] at h2
    refine ⟨{ st with distributions := ds, vars := st.vars ++ [(x, .scalar)] }, by simp [declare, h1, he, h2], hf, rfl, ?_, fun _ h => lookup_append_some h, ?_, ?_⟩
    · intro p hp
      rcases List.mem_append.1 hp with hp | hp
      · exact .inl hp
      · simp at hp; subst hp; exact .inr rfl
    · intro y hy; simp at hy; subst hy; exact lookup_append_self
    · intro y hy; simp at hy; exact lookup_append_ne hy

theorem Step.refl {st : VS} (h : st.first = false) : Step st ∅ st := ⟨h, rfl, fun p hp => .inl hp, fun _ h => h, by simp, fun _ _ => rfl⟩

theorem Step.trans {st st1 st2 : VS} {S T : Finset String} (h1 : Step st S st1) (h2 : Step st1 T st2) : Step st (S ∪ T) st2 := by
  refine ⟨h2.first, h2.constants.trans h1.constants, ?_, fun x hx => h2.old x (h1.old x hx), ?_, ?_⟩
  · intro p hp
    rcases h2.scalar p hp with hp | hp
    · exact h1.scalar p hp
    · exact .inr hp
  · intro x hx
    rcases Finset.mem_union.1 hx with hx | hx
    · exact h2.old x (h1.new x hx)
    · exact h2.new x hx
  · intro x hx
    simp only [Finset.mem_union, not_or] at hx
    rw [h2.only x hx.2, h1.only x hx.1]

theorem Free.mono {ctx : List String} {S T : Finset String} {st : VS} (h : Free ctx S st) (hT : T ⊆ S) : Free ctx T st := ⟨h.1, fun x hx => h.2 x (hT hx)⟩

/-- After some variables, others are still free. -/
theorem Free.after {ctx : List String} {S T : Finset String} {st st' : VS} (h : Free ctx T st) (hs : Step st S st') (hd : Disjoint S T) : Free ctx T st' := by
  refine ⟨h.1, fun x hx => ?_⟩
  have hn : x ∉ S := fun h => Finset.disjoint_left.1 hd h hx
  rw [hs.only x hn]
  exact h.2 x hx

theorem Lays.nil {A : Set String} {st : VS} {f : ℕ → Stmt → VS → Res (List Tgt × VS)} (h : st.first = false) : Lays D H c A (fun n => visitItems (f n) [] st) st ∅ [] :=
  ⟨0, [], st, Step.refl h, fun _ _ => rfl, fun _ _ => rfl⟩

theorem lays_append {A : Set String} {st : VS} {ctx : List String} {l1 l2 : List Stmt} {S T : Finset String} {m1 m2 : List Cmd}
    (h1 : Lays D H c A (fun n => visitItems (visit D n ctx) l1 st) st S m1) (h2 : ∀ st', Step st S st' → Lays D H c A (fun n => visitItems (visit D n ctx) l2 st') st' T m2) :
    Lays D H c A (fun n => visitItems (visit D n ctx) (l1 ++ l2) st) st (S ∪ T) (m1 ++ m2) := by
  obtain ⟨N1, ts1, st1, s1, v1, r1⟩ := h1
  obtain ⟨N2, ts2, st2, s2, v2, r2⟩ := h2 st1 s1
  refine ⟨max N1 N2, ts1 ++ ts2, st2, s1.trans s2, ?_, ?_⟩
  · intro n hn
    have a1 := v1 n (le_trans (le_max_left _ _) hn)
    have a2 := v2 n (le_trans (le_max_right _ _) hn)
    simp only at a1 a2 ⊢
    clear v1 v2 s1 s2 r1 r2 h2
    induction l1 generalizing st ts1 with
    | nil =>
      simp only [visitItems] at a1
      injection a1 with a1
      injection a1 with e1 e2
      subst e1 e2
      simpa using a2
    | cons s l ih =>
      simp only [visitItems, bind, Except.bind] at a1
      split at a1; · cases a1
      rename_i r hr
      split at a1; · cases a1
      rename_i q hq
      injection a1 with a1
      injection a1 with e1 e2
      subst e1 e2
      simp only [List.cons_append, visitItems, bind, Except.bind, hr]
      rw [ih q.1 hq]
      simp
  · intro ρ hρ
    have := runL_append_ok (r1 ρ hρ) (r2 ρ hρ)
    simpa using this

theorem lays_one {A : Set String} {st : VS} {ctx : List String} {s : Stmt} {S : Finset String} {ms : List Cmd} (h : Lays D H c A (fun n => visit D n ctx s st) st S ms) :
    Lays D H c A (fun n => visitItems (visit D n ctx) [s] st) st S ms := by
  obtain ⟨N, ts, st1, s1, v1, r1⟩ := h
  refine ⟨N, ts, st1, s1, ?_, r1⟩
  intro n hn
  have := v1 n hn
  simp only at this
  simp only [visitItems, bind, Except.bind, this]
  simp

/-- `X ~= f(...)`. -/
theorem lays_sample {A : Set String} {st : VS} {ctx : List String} {x f : String} {args : List Obj} {d : Source} (hf : f ∈ D) (hfa : f ≠ "array") (h : Free ctx {x} st)
    (hst : st.first = false) (hA : x ∈ A) (hcall : H.call f args = .ok (.dist d)) :
    Lays D H c A (fun n => visit D n ctx (.assign (.name x) (.call f (args.map PE.lit))) st) st {x} [.sample x d] := by
  obtain ⟨st', h1, h2⟩ := declare_step h hst (st.distributions ++ (PE.call f (args.map PE.lit)).names.filter (· ∈ D))
  have hl : PE.NoEqL (args.map PE.lit) := by
    clear hcall h1
    induction args with
    | nil => trivial
    | cons a as ih => exact ⟨trivial, ih⟩
  refine ⟨1, [.sample (.name x) (.call f (args.map PE.lit))], st', h2, ?_, ?_⟩
  · intro n hn
    obtain ⟨n, rfl⟩ := Nat.exists_eq_add_of_le' hn
    simp only
    rw [visit_assign (by simp), visitAssign_call hf hfa]
    simp only [visitRandom, bind, Except.bind]
    rw [h1]
    simp [PE.rewrite_noEq (.call f (args.map PE.lit)) hl, Target.expr]
  · intro ρ hρ
    have hev : PE.evalL H c ρ (args.map PE.lit) = .ok args := by
      clear hcall hl h1
      induction args with
      | nil => rfl
      | cons a as ih => simp only [List.map_cons, PE.evalL, PE.eval, ih, bind, Except.bind]
    simp [Tgt.runL, Tgt.run, PE.eval, hρ.1 x hA, hρ.2 f hf, Obj.var, hev, hcall, bind, Except.bind]

/-- `Y ~= e`. -/
theorem lays_transform {A : Set String} {st : VS} {ctx : List String} {x : String} {t r : Tr} {e : PE} (hr : t.ReadsAs D H c r) (he : t.source = .ok e) (h : Free ctx {x} st)
    (hst : st.first = false) (hA : x ∈ A) (hsub : ∀ y ∈ t.symbols, y ∈ A) (hdecl : ∀ y ∈ t.symbols, (st.vars.lookup y).isSome) :
    Lays D H c A (fun n => visit D n ctx (.assign (.name x) e) st) st {x} [.transform x r] := by
  obtain ⟨⟨e', he', ⟨y, hy, hyt⟩, hD, hev⟩, -, -, -⟩ := hr
  rw [he] at he'
  injection he' with he'
  subst he'
  obtain ⟨c1, c2, c3⟩ := source_copied he
  have hds : e.names.filter (· ∈ D) = [] := by simpa using hD
  have hvs : e.names.filter (fun x => (st.vars.lookup x).isSome) ≠ [] := filter_ne_nil hy (hdecl y hyt)
  obtain ⟨st', h1, h2⟩ := declare_step h hst st.distributions
  refine ⟨1, [.transform (.name x) e], st', h2, ?_, ?_⟩
  · intro n hn
    obtain ⟨n, rfl⟩ := Nat.exists_eq_add_of_le' hn
    simp only
    rw [visit_assign c2, visitAssign_plain c3 hds, if_pos hvs]
    simp only [visitRandom, bind, Except.bind]
    rw [h1]
    simp [PE.rewrite_noEq e c1, Target.expr]
  · intro ρ hρ
    have := hev ρ (fun y hy => hρ.1 y (hsub y hy))
    simp [Tgt.runL, Tgt.run, PE.eval, hρ.1 x hA, Obj.var, this, bind, Except.bind]

theorem support_eval {X : String} {i : Ivl EReal} (hi : i.WF) {ρ : NS} (hρ : ρ X = some (.tr (.id X))) :
    (supportText X i).rewrite.eval H c ρ = .ok (.ev (.ivl (.id X) i)) := by
  obtain ⟨h1, h2, h3⟩ := hi
  obtain ⟨a, b, lo, ro⟩ := i
  simp only at h1 h2 h3
  have hw : (supportText X ⟨a, b, lo, ro⟩).NoEq := by
    unfold supportText
    cases lo <;> cases ro <;> (simp only; split <;> split <;> simp [PE.NoEq, CmpOp.isOrder])
  rw [PE.rewrite_noEq _ hw]
  have hb' : b ≠ ⊥ := fun h => by subst h; exact not_lt_bot h1
  have ha' : a ≠ ⊤ := fun h => by subst h; exact not_top_lt h1
  unfold supportText
  simp only
  by_cases ha : a = ⊥
  · rw [if_pos ha]
    subst ha
    have hlo := h2 rfl
    subst hlo
    by_cases hb : b = ⊤
    · rw [if_pos hb]
      subst hb
      have hro := h3 rfl
      subst hro
      simp [PE.eval, hρ, Tr.ltNum, mkIvl, Except.map, bind, Except.bind]
    · rw [if_neg hb]
      have hc : ((b.toReal : ℝ) : EReal) = b := EReal.coe_toReal hb hb'
      cases ro <;> simp [PE.eval, PE.evalChain, hρ, evalCmp, CmpOp.isOrder, Obj.num?, cmpOrder, cmpTr, Tr.ltNum, Tr.leNum, mkIvl, hc, h1, hb, Except.map, bind, Except.bind]
  · rw [if_neg ha]
    have hca : ((a.toReal : ℝ) : EReal) = a := EReal.coe_toReal ha' ha
    have h1' : a < ⊤ := lt_of_lt_of_le h1 le_top
    by_cases hb : b = ⊤
    · rw [if_pos hb]
      subst hb
      have hro := h3 rfl
      subst hro
      cases lo <;> simp [PE.eval, PE.evalChain, hρ, evalCmp, CmpOp.isOrder, CmpOp.flip, Obj.num?, cmpOrder, cmpTr, Tr.gtNum, Tr.geNum, mkIvl, hca, h1, ha, Except.map, bind, Except.bind]
    · rw [if_neg hb]
      have hcb : ((b.toReal : ℝ) : EReal) = b := EReal.coe_toReal hb hb'
      cases lo <;> cases ro <;> simp [PE.eval, PE.evalChain, hρ, evalCmp, CmpOp.isOrder, CmpOp.flip, Obj.num?, cmpOrder, cmpTr, cmpIvl, chainLt, sympyInterval, Tr.gtNum, Tr.geNum, mkIvl, hca, hcb, h1, h1', ha, hb,
        not_lt_of_gt h1, ne_of_lt h1, Except.map, bind, Except.bind]

/-- `condition(...)`. -/
theorem lays_condition {A : Set String} {st : VS} {ctx : List String} {X : String} {i : Ivl EReal} (hi : i.WF) (hA : X ∈ A) (hst : st.first = false) :
    Lays D H c A (fun n => visit D n ctx (.condition (supportText X i)) st) st ∅ [.condition (.ivl (.id X) i)] := by
  refine ⟨1, [.condition (supportText X i).rewrite], st, Step.refl hst, ?_, ?_⟩
  · intro n hn
    obtain ⟨n, rfl⟩ := Nat.exists_eq_add_of_le' hn
    simp [visit]
  · intro ρ hρ
    have := support_eval (H := H) (c := c) hi (hρ.1 X hA)
    simp [Tgt.runL, Tgt.run, this, bind, Except.bind]

/-- The body of a branch. -/
theorem lays_body {A : Set String} {st : VS} {ctx : List String} {b : List Stmt} {S : Finset String} {ms : List Cmd} (hne : b ≠ []) (hlen : ms.length = b.length)
    (hst : st.first = false) (h : Lays D H c A (fun n => visitItems (visit D n ctx) b st) st S ms) : Lays D H c A (fun n => visitModule (visit D n ctx) b st) st S [block ms] := by
  obtain ⟨N, ts, st1, s1, v1, r1⟩ := h
  have hst' : ({ st with first := false } : VS) = st := by cases st; simp_all
  by_cases hb : 1 < b.length
  · refine ⟨N, [.seq ts], st1, s1, ?_, ?_⟩
    · intro n hn
      have := v1 n hn
      simp only at this
      simp only [visitModule, hst', this, bind, Except.bind, sequenceBlock]
      simp [hb]
    · intro ρ hρ
      have := r1 ρ hρ
      have hbl : block ms = .seq ms := by
        unfold block
        split
        · simp at hlen; omega
        · rfl
      simp [Tgt.runL, Tgt.run, this, allCmds_ok, hbl, bind, Except.bind]
  · refine ⟨N, ts, st1, s1, ?_, ?_⟩
    · intro n hn
      have := v1 n hn
      simp only at this
      simp only [visitModule, hst', this, bind, Except.bind, sequenceBlock]
      simp [hb, hst]
    · intro ρ hρ
      have hl : ms.length = 1 := by have := List.length_pos_iff.2 hne; omega
      obtain ⟨m, rfl⟩ := List.length_eq_one_iff.1 hl
      exact r1 ρ hρ

/-- The tests and the bodies. -/
def armsOf (n : ℕ) : ℕ → List (List Stmt) → List (PE × List Stmt)
  | _, [] => []
  | i, b :: bs => (branchTest n i, b) :: armsOf n (i + 1) bs

/-- What they are run to. -/
def armArgs (n : ℕ) : ℕ → List (List Cmd) → List Arg
  | _, [] => []
  | i, ms :: mss => .test (.ev (branchEv n i)) :: .cmd (block ms) :: armArgs n (i + 1) mss

theorem elifs_ok {n i : ℕ} {bs : List (List Stmt)} (h : ∀ b ∈ bs, b ≠ []) : ∃ o, renderElifs n i bs = .ok o ∧ restOf o = armsOf n i bs := by
  induction bs generalizing i with
  | nil => exact ⟨[], rfl, rfl⟩
  | cons b bs ih =>
    obtain ⟨o, h1, h2⟩ := ih (i := i + 1) (fun b hb => h b (by simp [hb]))
    have hb := h b (by simp)
    refine ⟨[.ifs (branchTest n i) b o], by simp [renderElifs, h1, hb, bind, Except.bind], ?_⟩
    rw [restOf, unrollIf_rest, h2, armsOf]

theorem test_eval {n i : ℕ} {ρ : NS} (hρ : ρ (branchVar n) = some (.tr (.id (branchVar n)))) : (branchTest n i).rewrite.eval H c ρ = .ok (.ev (branchEv n i)) := by
  simp [branchTest, PE.rewrite, rewriteCmp, PE.eval, PE.evalL, hρ, evalBin, evalShift, Obj.vals, bind, Except.bind, Tr.inList, numVals, strVals, branchEv]

theorem splitArgs_arms {n i : ℕ} (mss : List (List Cmd)) : splitArgs (armArgs n i mss) = .ok ((List.range' i mss.length).map (fun j => .ev (branchEv n j)), mss.map block) := by
  induction mss generalizing i with
  | nil => rfl
  | cons ms mss ih => simp [armArgs, splitArgs, ih, bind, Except.bind, List.range'_succ]

theorem splitConds_evs (es : List Ev) : splitConds (es.map Obj.ev) = .ok (es, false) := by
  induction es with
  | nil => rfl
  | cons e es ih => simp [splitConds, ih, bind, Except.bind]

/-- The branches. -/
theorem lays_arms {A : Set String} {n : ℕ} {S : Finset String} (hA : branchVar n ∈ A) (ctx : List String) (hfor : "for" ∉ ctx) :
    ∀ (bs : List (List Stmt)) (mss : List (List Cmd)) (i : ℕ) (first : Bool) (st : VS), st.first = false →
    (if first = true then Free ctx S st else ∀ x ∈ S, (st.vars.lookup x).isSome) →
    List.Forall₂ (fun b ms => b ≠ [] ∧ ms.length = b.length ∧ ∀ ctx st, st.first = false → Free ctx S st → Lays D H c A (fun n => visitItems (visit D n ctx) b st) st S ms) bs mss →
    ∃ N ts st', (∃ T, T ⊆ S ∧ Step st T st' ∧ (bs ≠ [] → T = S)) ∧ (∀ k, N ≤ k → visitBranches (fun ctx => visitModule (visit D k ctx)) ctx first (armsOf n i bs) st = .ok (ts, st')) ∧
      ∀ ρ, Binds D A ρ → Tgt.runL H c ρ ts = .ok (armArgs n i mss) := by
  intro bs mss i first st hst hfree h
  induction h generalizing i first st with
  | nil => exact ⟨0, [], st, ⟨∅, by simp, Step.refl hst, by simp⟩, fun _ _ => rfl, fun _ _ => rfl⟩
  | @cons b ms bs mss h1 h2 ih =>
    obtain ⟨hne, hlen, hb⟩ := h1
    have hfr : Free (if first = true then ctx else ctx ++ ["elif"]) S st := by
      cases first with
      | true => simpa using hfree
      | false => exact ⟨by simp [hfor], fun x hx => by simpa using hfree x hx⟩
    obtain ⟨N1, ts1, st1, s1, v1, r1⟩ := lays_body hne hlen hst (hb _ st hst hfr)
    obtain ⟨N2, ts2, st2, ⟨T, hT, s2, -⟩, v2, r2⟩ := ih (i := i + 1) (first := false) (st := st1) s1.first (by simpa using s1.new)
    have hS : S ∪ T = S := Finset.union_eq_left.2 hT
    refine ⟨max N1 N2, .test (branchTest n i).rewrite :: ts1 ++ ts2, st2, ⟨S, subset_rfl, hS ▸ s1.trans s2, fun _ => rfl⟩, ?_, ?_⟩
    · intro k hk
      have a1 := v1 k (le_trans (le_max_left _ _) hk)
      have a2 := v2 k (le_trans (le_max_right _ _) hk)
      simp only at a1 a2
      simp only [armsOf, visitBranches, bind, Except.bind]
      rw [a1]
      simp only
      rw [a2]
    · intro ρ hρ
      have := runL_append_ok (r1 ρ hρ) (r2 ρ hρ)
      simp only [List.map_cons, List.map_nil, List.cons_append, List.nil_append] at this
      simp only [List.cons_append, Tgt.runL, Tgt.run, test_eval (hρ.1 _ hA), this, bind, Except.bind, armArgs]

/-- `if`, `elif`, .... -/
theorem lays_if {A : Set String} {n : ℕ} {S : Finset String} (hA : branchVar n ∈ A) {ctx : List String} {st : VS} {b : List Stmt} {bs : List (List Stmt)} {mss : List (List Cmd)}
    {o : List Stmt} (ho : restOf o = armsOf n 1 bs) (hbs : bs ≠ []) (hst : st.first = false) (hfree : Free ctx S st)
    (h : List.Forall₂ (fun b ms => b ≠ [] ∧ ms.length = b.length ∧ ∀ ctx st, st.first = false → Free ctx S st → Lays D H c A (fun n => visitItems (visit D n ctx) b st) st S ms) (b :: bs) mss) :
    Lays D H c A (fun k => visit D k ctx (.ifs (branchTest n 0) b o) st) st S [.ifelse ((List.range mss.length).map (branchEv n)) false (mss.map block)] := by
  have hfor : "for" ∉ ctx ++ ["if"] := by simp [hfree.1]
  have hfr : Free (ctx ++ ["if"]) S st := ⟨hfor, fun x hx => by simpa using hfree.2 x hx⟩
  obtain ⟨N, ts, st', ⟨T, -, s, hT⟩, v, r⟩ := lays_arms hA (ctx ++ ["if"]) hfor (b :: bs) mss 0 true st hst (by simpa using hfr) h
  rw [hT (by simp)] at s
  refine ⟨N + 1, [.ifelse ts], st', s, ?_, ?_⟩
  · intro k hk
    obtain ⟨k, rfl⟩ := Nat.exists_eq_add_of_le' (le_trans (Nat.le_add_left 1 N) hk)
    have a := v k (by omega)
    have hl : (armsOf n 1 bs).length ≠ 0 := by
      cases bs with
      | nil => exact absurd rfl hbs
      | cons => simp [armsOf]
    simp only [visit, unrollIf_rest, ho, bind, Except.bind]
    rw [armsOf] at a
    rw [if_neg (by simp only [List.length_cons]; omega), a]
  · intro ρ hρ
    have e1 := splitArgs_arms (n := n) (i := 0) mss
    have e2 := splitConds_evs ((List.range mss.length).map (branchEv n))
    rw [List.map_map] at e2
    have e3 : (List.range' 0 mss.length).map (fun j => Obj.ev (branchEv n j)) = (List.range mss.length).map (Obj.ev ∘ branchEv n) := by
      rw [List.range_eq_range']; rfl
    rw [e3] at e1
    simp [Tgt.runL, Tgt.run, r ρ hρ, mkIfElse, e1, e2, bind, Except.bind]

end

end Sppl
