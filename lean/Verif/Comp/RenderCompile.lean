import Verif.Comp.RenderLemmas

set_option linter.all false

/-!
# Lemmas on `render_sppl`: the source of an SPE is compiled and run to its commands
-/

namespace Sppl
open Classical MeasureTheory

section
variable {D : List String} {H : PyHost} {c : Ctx} {L : Lib} {μ : Dist → Measure ℝ}

/-- The statements `l` of the SPE are compiled and run to its commands. -/
def Laid (D : List String) (H : PyHost) (c : Ctx) (s : Spe) (n : ℕ) (l : List Stmt) : Prop :=
  l ≠ [] ∧ (s.cmds D H c n).length = l.length ∧ ∀ A : Set String, (∀ x ∈ s.symbols, x ∈ A) → (∀ j, j < n + s.wss.length → branchVar j ∈ A) →
    ∀ ctx st, st.first = false → Free ctx s.symbols st → Lays D H c A (fun k => visitItems (visit D k ctx) l st) st s.symbols (s.cmds D H c n)

/-- The same for a list. -/
inductive AllLaid (D : List String) (H : PyHost) (c : Ctx) : List Spe → ℕ → List (List Stmt) → Prop
  | nil {n} : AllLaid D H c [] n []
  | cons {s ss n l ls} : Laid D H c s n l → AllLaid D H c ss (n + s.wss.length) ls → AllLaid D H c (s :: ss) n (l :: ls)

theorem renderEnv_ok {env : Env} (hn : ∀ x ∈ env.map Prod.fst, isName x = true) (h : ∀ p ∈ env, ∃ r, p.2.ReadsAs D H c r) : ∃ l, renderEnv env = .ok l ∧ List.Forall₂ (fun p s => ∃ e, p.2.source = .ok e ∧ s = .assign (.name p.1) e) env l := by
  induction env with
  | nil => exact ⟨[], rfl, .nil⟩
  | cons p env ih =>
    obtain ⟨l, h1, h2⟩ := ih (fun x hx => hn x (by simp only [List.map_cons, List.mem_cons]; exact .inr hx)) (fun q hq => h q (by simp [hq]))
    have hn0 := hn p.1 (by simp)
    obtain ⟨r, hr⟩ := h p (by simp)
    obtain ⟨e, he, -⟩ := hr.read
    exact ⟨.assign (.name p.1) e :: l, by simp [renderEnv, he, h1, hn0, bind, Except.bind], .cons ⟨e, he, rfl⟩ h2⟩

/-- The derived variables of a leaf. -/
theorem env_lays {A : Set String} {ctx : List String} {env : Env} {l : List Stmt} {st : VS} {pre : Finset String}
    (hl : List.Forall₂ (fun p s => ∃ e, p.2.source = .ok e ∧ s = .assign (.name p.1) e) env l) (hr : ∀ p ∈ env, ∃ r, p.2.ReadsAs D H c r)
    (hA : ∀ x ∈ (env.map Prod.fst), x ∈ A) (hpA : ∀ x ∈ pre, x ∈ A) (hst : st.first = false) (hfree : Free ctx (env.map Prod.fst).toFinset st) (hnd : (env.map Prod.fst).Nodup)
    (hpre : ∀ x ∈ pre, (st.vars.lookup x).isSome)
    (hsym : ∀ q p r, env = q ++ p :: r → ∀ x ∈ p.2.symbols, x ∈ pre ∨ x ∈ q.map Prod.fst) :
    Lays D H c A (fun k => visitItems (visit D k ctx) l st) st (env.map Prod.fst).toFinset (env.map (fun p => .transform p.1 (readAs D H c p.2))) := by
  induction hl generalizing st pre with
  | nil => exact Lays.nil hst
  | @cons p s env l h1 h2 ih =>
    obtain ⟨e, he, rfl⟩ := h1
    simp only [List.map_cons, List.nodup_cons] at hnd hA
    have hp0 : ∀ x ∈ p.2.symbols, x ∈ pre := fun x hx => by
      rcases hsym [] p env rfl x hx with h | h
      · exact h
      · cases h
    have a1 := lays_one (lays_transform (readAs_ok (hr p (by simp))) he (hfree.mono (T := {p.1}) (by simp)) hst (hA p.1 (by simp)) (fun y hy => hpA y (hp0 y hy))
      (fun y hy => hpre y (hp0 y hy)))
    have a2 := lays_append a1 (l2 := l) (T := (env.map Prod.fst).toFinset) (m2 := env.map (fun p => .transform p.1 (readAs D H c p.2))) (by
      intro st' hs
      refine ih (pre := insert p.1 pre) (fun q hq => hr q (by simp [hq])) (fun x hx => hA x (by simp only [List.mem_cons]; exact .inr hx)) ?_ hs.first ?_ hnd.2 ?_ ?_
      · intro x hx
        rcases Finset.mem_insert.1 hx with rfl | hx
        · exact hA _ (by simp)
        · exact hpA x hx
      · refine (hfree.mono (T := (env.map Prod.fst).toFinset) (by simp)).after hs ?_
        rw [Finset.disjoint_left]
        intro x hx hx'
        simp only [Finset.mem_singleton] at hx
        subst hx
        exact hnd.1 (by simpa using hx')
      · intro x hx
        rcases Finset.mem_insert.1 hx with rfl | hx
        · exact hs.new _ (by simp)
        · exact hs.old x (hpre x hx)
      · intro q p' r hq x hx
        rcases hsym (p :: q) p' r (by rw [hq]; rfl) x hx with h | h
        · exact .inl (by simp [h])
        · simp only [List.map_cons, List.mem_cons] at h
          rcases h with rfl | h
          · exact .inl (by simp)
          · exact .inr h)
    have e1 : ({p.1} : Finset String) ∪ (env.map Prod.fst).toFinset = ((p :: env).map Prod.fst).toFinset := by ext; simp
    rw [e1] at a2
    exact a2

theorem EnvBuilt.distinct {X : String} {env : Env} (h : EnvBuilt X env) : (env.map Prod.fst).Nodup := by
  induction h with
  | base => simp
  | @step env Y f _ hY _ _ ih =>
    rw [List.map_append, List.nodup_append]
    refine ⟨ih, by simp, ?_⟩
    intro a ha b hb
    simp at hb
    subst hb
    exact fun h => hY (h ▸ ha)

theorem EnvBuilt.order {X : String} {env : Env} (h : EnvBuilt X env) : ∃ es, env = (X, .id X) :: es ∧ ∀ q p r, es = q ++ p :: r → ∀ x ∈ p.2.symbols, x = X ∨ x ∈ q.map Prod.fst := by
  induction h with
  | base => exact ⟨[], rfl, by intro q p r h; simp at h⟩
  | @step env Y f _ hY hf _ ih =>
    obtain ⟨es, rfl, h2⟩ := ih
    refine ⟨es ++ [(Y, f)], rfl, ?_⟩
    intro q p r hq x hx
    rcases List.eq_nil_or_concat r with rfl | ⟨r', z, rfl⟩
    · have hq' : es ++ [(Y, f)] = q ++ [p] := hq
      have := List.append_inj' hq' rfl
      obtain ⟨rfl, e2⟩ := this
      injection e2 with e2
      subst e2
      have := hf x hx
      simpa [Env.keys] using this
    · rw [List.concat_eq_append] at hq
      have hq' : es ++ [(Y, f)] = (q ++ p :: r') ++ [z] := by rw [hq]; simp
      obtain ⟨e1, -⟩ := List.append_inj' hq' rfl
      exact h2 q p r' e1 x hx

theorem domOf_eq {k : Kind} {d : Dist} {dom : Ivl EReal} (h : H.call d.name (keywords d) = .ok (.dist (.one (.real k d dom)))) : domOf H d = dom := by
  unfold domOf; rw [h]

theorem laid_prod {cs : List Spe} {n : ℕ} {ls : List (List Stmt)} (h : AllLaid D H c cs n ls) (hd : (Spe.symbolsL cs).Pairwise Disjoint) :
    ((Spe.cmdsL D H c n cs).flatten.length = ls.flatten.length) ∧ (cs ≠ [] → ls.flatten ≠ []) ∧ ∀ A : Set String, (∀ S ∈ Spe.symbolsL cs, ∀ x ∈ S, x ∈ A) → (∀ j, j < n + (Spe.wssL cs).length → branchVar j ∈ A) →
    ∀ ctx st, st.first = false → Free ctx ((Spe.symbolsL cs).foldr (· ∪ ·) ∅) st →
      Lays D H c A (fun k => visitItems (visit D k ctx) ls.flatten st) st ((Spe.symbolsL cs).foldr (· ∪ ·) ∅) (Spe.cmdsL D H c n cs).flatten := by
  induction h with
  | nil => exact ⟨rfl, by simp, fun A _ _ ctx st hst _ => Lays.nil hst⟩
  | @cons s ss n l ls h1 h2 ih =>
    obtain ⟨a1, a2, a3⟩ := h1
    simp only [Spe.symbolsL, List.pairwise_cons] at hd
    obtain ⟨b1, -, b2⟩ := ih hd.2
    refine ⟨by simp only [Spe.cmdsL, List.flatten_cons, List.length_append, a2, b1], fun _ => by simp [a1], ?_⟩
    intro A hA hB ctx st hst hfree
    simp only [Spe.symbolsL, List.foldr_cons, List.mem_cons, forall_eq_or_imp, Spe.wssL, List.length_append] at hA hB hfree ⊢
    simp only [Spe.cmdsL, List.flatten_cons]
    refine lays_append (a3 A hA.1 (fun j hj => hB j (by omega)) ctx st hst (hfree.mono Finset.subset_union_left)) ?_
    intro st' hs
    refine b2 A hA.2 (fun j hj => hB j (by omega)) ctx st' hs.first ((hfree.mono Finset.subset_union_right).after hs ?_)
    rw [Finset.disjoint_left]
    intro x hx hx'
    obtain ⟨S, hS, hxS⟩ := mem_foldr_union.1 hx'
    exact Finset.disjoint_left.1 (hd.1 S hS) hx hxS

theorem laid_sum {cs : List Spe} {n : ℕ} {ls : List (List Stmt)} {S : Finset String} (h : AllLaid D H c cs n ls) (hS : ∀ s ∈ cs, s.symbols = S) {A : Set String} (hA : ∀ x ∈ S, x ∈ A)
    (hB : ∀ j, j < n + (Spe.wssL cs).length → branchVar j ∈ A) :
    List.Forall₂ (fun b ms => b ≠ [] ∧ ms.length = b.length ∧ ∀ ctx st, st.first = false → Free ctx S st → Lays D H c A (fun n => visitItems (visit D n ctx) b st) st S ms) ls (Spe.cmdsL D H c n cs) := by
  induction h with
  | nil => exact .nil
  | @cons s ss n l ls h1 h2 ih =>
    obtain ⟨a1, a2, a3⟩ := h1
    have hs := hS s (by simp)
    simp only [Spe.wssL, List.length_append] at hB
    rw [hs] at a3
    exact .cons ⟨a1, a2, fun ctx st => a3 A hA (fun j hj => hB j (by omega)) ctx st⟩ (ih (fun t ht => hS t (by simp [ht])) (fun j hj => hB j (by omega)))

theorem allLaid_length {cs : List Spe} {n : ℕ} {ls : List (List Stmt)} (h : AllLaid D H c cs n ls) : (Spe.cmdsL D H c n cs).length = cs.length ∧ ls.length = cs.length ∧ ∀ l ∈ ls, l ≠ [] := by
  induction h with
  | nil => simp [Spe.cmdsL]
  | cons h1 h2 ih => simp [Spe.cmdsL, ih.1, ih.2.1, h1.1]; exact ih.2.2

theorem render_sum (s t : Spe) (cs : List Spe) (ws : List ℝ) (bs : List (List ℝ)) : (Spe.sum (s :: t :: cs) ws).render bs = (do
    let q ← Spe.renderL (s :: t :: cs) (bs ++ [ws])
    let e ← renderElifs bs.length 0 q.1
    .ok (e, q.2)) := by
  rw [Spe.render, Spe.renderL]
  simp only [bind, Except.bind]
  cases s.render (bs ++ [ws]) with
  | error e => rfl
  | ok r =>
    simp only
    cases Spe.renderL (t :: cs) r.2 with
    | error e => rfl
    | ok q => rfl

/-- The main lemma. -/
theorem render_laid (hch : H.Choice D) (s : Spe) : ∀ bs : List (List ℝ), s.WF c L μ → s.CanRender D H c L μ → ∃ l, s.render bs = .ok (l, bs ++ s.wss) ∧ Laid D H c s bs.length l := by
  have hlist : ∀ cs : List Spe, (∀ s ∈ cs, ∀ bs : List (List ℝ), s.WF c L μ → s.CanRender D H c L μ → ∃ l, s.render bs = .ok (l, bs ++ s.wss) ∧ Laid D H c s bs.length l) →
      (∀ s ∈ cs, s.WF c L μ) → (∀ s ∈ cs, s.CanRender D H c L μ) → ∀ bs : List (List ℝ), ∃ ls, Spe.renderL cs bs = .ok (ls, bs ++ Spe.wssL cs) ∧ AllLaid D H c cs bs.length ls := by
    intro cs
    induction cs with
    | nil => intro _ _ _ bs; exact ⟨[], by simp [Spe.renderL, Spe.wssL], .nil⟩
    | cons s ss ih =>
      intro h hw hc bs
      obtain ⟨l, h1, h2⟩ := h s (by simp) bs (hw s (by simp)) (hc s (by simp))
      obtain ⟨ls, h3, h4⟩ := ih (fun t ht => h t (by simp [ht])) (fun t ht => hw t (by simp [ht])) (fun t ht => hc t (by simp [ht])) (bs ++ s.wss)
      refine ⟨l :: ls, by simp [Spe.renderL, h1, h3, bind, Except.bind, Spe.wssL], .cons h2 ?_⟩
      simpa using h4
  refine Spe.ind (Q := fun s => ∀ bs : List (List ℝ), s.WF c L μ → s.CanRender D H c L μ → ∃ l, s.render bs = .ok (l, bs ++ s.wss) ∧ Laid D H c s bs.length l) ?_ ?_ ?_ ?_ ?_ s
  · intro k X d supp cond env bs hw hc
    cases hw with
    | real hd hE hsupp hdisc hmass hreg =>
    cases hc with
    | real hnm hD hDa hcall hwf hread =>
    obtain ⟨es, rfl, hord⟩ := hE.built.order
    have hnd := hE.built.distinct
    simp only [List.tail_cons] at hread
    have hnX : isName X = true := hnm X (by simp)
    obtain ⟨l, hl1, hl2⟩ := renderEnv_ok (fun x hx => hnm x (by simp only [List.map_cons, List.mem_cons]; exact .inr hx)) hread
    have hlen : es.length = l.length := hl2.length_eq
    refine ⟨.assign (.name X) (.call d.name ((keywords d).map PE.lit)) :: ((if cond = true then [.condition (supportText X supp)] else []) ++ l), by
      simp [Spe.render, hl1, hnX, bind, Except.bind, Spe.wss], by simp, ?_, ?_⟩
    · cases cond <;> simp [Spe.cmds, leafCmds, hlen]
    · intro A hA hB ctx st hst hfree
      simp only [Spe.symbols, List.map_cons, List.toFinset_cons] at hA hfree ⊢
      simp only [Spe.cmds, leafCmds, domOf_eq hcall, List.tail_cons]
      have hXA : X ∈ A := hA X (by simp)
      simp only [List.map_cons, List.nodup_cons] at hnd
      have a1 := lays_one (lays_sample (c := c) (A := A) hD hDa (hfree.mono (T := {X}) (by simp)) hst hXA hcall)
      have a2 : ∀ st', Step st {X} st' → Lays D H c A (fun n => visitItems (visit D n ctx) ((if cond = true then [.condition (supportText X supp)] else []) ++ l) st') st' (es.map Prod.fst).toFinset
          ((if cond = true then [.condition (.ivl (.id X) supp)] else []) ++ es.map (fun p => .transform p.1 (readAs D H c p.2))) := by
        intro st' hs
        have a3 : ∀ st'', Step st' ∅ st'' → Lays D H c A (fun n => visitItems (visit D n ctx) l st'') st'' (es.map Prod.fst).toFinset (es.map (fun p => .transform p.1 (readAs D H c p.2))) := by
          intro st'' hs'
          refine env_lays (pre := {X}) hl2 hread (fun x hx => hA x (by simp only [Finset.mem_insert, List.mem_toFinset]; exact .inr hx)) (by simpa using hXA) hs'.first ?_ hnd.2 ?_ ?_
          · refine ((hfree.mono (T := (es.map Prod.fst).toFinset) (by simp)).after (S := {X} ∪ ∅) (hs.trans hs') ?_)
            rw [Finset.disjoint_left]
            intro x hx hx'
            simp at hx
            subst hx
            exact hnd.1 (by simpa using hx')
          · intro x hx
            exact hs'.old x (hs.new x hx)
          · intro q p r hq x hx
            simpa using hord q p r hq x hx
        cases cond with
        | false => simpa using a3 st' (Step.refl hs.first)
        | true =>
          simp only [if_true]
          have := lays_append (lays_one (lays_condition (D := D) (H := H) (c := c) (A := A) (ctx := ctx) hsupp hXA hs.first)) a3
          rw [Finset.empty_union] at this
          exact this
      have := lays_append a1 a2
      rw [show ({X} : Finset String) ∪ (es.map Prod.fst).toFinset = insert X (es.map Prod.fst).toFinset from rfl] at this
      exact this
  · intro X v env bs hw hc; cases hc
  · intro X dist bs hw hc
    cases hw with
    | nominal hnd h0 h1 =>
    cases hc with
    | nominal hnX hk =>
    have hr : renderChoice X (dist.map (fun p => (p.1, (p.2 : ℝ)))) = .ok (.assign (.name X) (.call "choice" ([dictObj (dist.map (fun p => (p.1, (p.2 : ℝ))))].map PE.lit))) := by
      unfold renderChoice
      rw [if_pos]
      · rfl
      · simp only [hnX, Bool.true_and, List.all_map, List.all_eq_true]
        exact fun p hp => hk p hp
    refine ⟨_, by simp only [Spe.render, hr, bind, Except.bind, Spe.wss, List.append_nil]; rfl, by simp, by simp [Spe.cmds], ?_⟩
    intro A hA hB ctx st hst hfree
    exact lays_one (lays_sample hch.mem (by decide) hfree hst (hA X (by simp [Spe.symbols])) (hch.dict hnd))
  · intro cs ws ih bs hw hc
    cases hw with
    | @sum _ _ S hws hne hlen hw0 hw1 hS =>
    cases hc with
    | sum hcs hq =>
    match cs, hne, ih, hws, hcs, hS, hlen with
    | [s], _, ih, hws, hcs, hS, hlen =>
      obtain ⟨l, h1, h2⟩ := ih s (by simp) bs (hws s (by simp)) (hcs s (by simp))
      refine ⟨l, by simpa [Spe.render, Spe.wss] using h1, ?_⟩
      simpa only [Laid, Spe.cmds, Spe.wss, Spe.symbols, Spe.symbolsL, List.headD_cons] using h2
    | s :: t :: cs, _, ih, hws, hcs, hS, hlen =>
      obtain ⟨ls, h1, h2⟩ := hlist (s :: t :: cs) ih hws hcs (bs ++ [ws])
      obtain ⟨n1, n2, n3⟩ := allLaid_length h2
      match ls, n2 with
      | l :: ls, n2 =>
      obtain ⟨o, ho, hro⟩ := elifs_ok (n := bs.length) (i := 1) (bs := ls) (fun b hb => n3 b (by simp [hb]))
      have hl0 : l ≠ [] := n3 l (by simp)
      have hr : (Spe.sum (s :: t :: cs) ws).render bs = .ok ([.ifs (branchTest bs.length 0) l o], bs ++ (Spe.sum (s :: t :: cs) ws).wss) := by
        rw [render_sum, h1]
        simp only [bind, Except.bind, renderElifs, ho]
        rw [if_neg hl0]
        simp [Spe.wss, Spe.wssL]
      refine ⟨[.ifs (branchTest bs.length 0) l o], hr, by simp, by simp [Spe.cmds], ?_⟩
      intro A hA hB ctx st hst hfree
      have hSy : (Spe.sum (s :: t :: cs) ws).symbols = S := by simp [Spe.symbols, Spe.symbolsL, hS s (by simp)]
      have hwl : (Spe.sum (s :: t :: cs) ws).wss.length = 1 + (Spe.wssL (s :: t :: cs)).length := by simp [Spe.wss, Spe.wssL]; omega
      rw [hSy] at hA hfree ⊢
      rw [hwl] at hB
      have h3 := laid_sum h2 hS hA (fun j hj => hB j (by simp at hj; omega))
      have h4 := lays_one (lays_if (hB bs.length (by omega)) hro (by
        rintro rfl
        simp at n2) hst hfree h3)
      rw [n1] at h4
      simpa only [Spe.cmds, Spe.cmdsL, List.length_cons, List.length_append, List.length_nil, zero_add] using h4
  · intro cs ih bs hw hc
    cases hw with
    | prod hws hne hdj =>
    cases hc with
    | prod hcs =>
    obtain ⟨ls, h1, h2⟩ := hlist cs ih hws hcs bs
    obtain ⟨b1, b2, b3⟩ := laid_prod h2 hdj
    refine ⟨ls.flatten, by simp [Spe.render, h1, bind, Except.bind, Spe.wss], b2 hne, by simpa only [Spe.cmds] using b1, ?_⟩
    intro A hA hB ctx st hst hfree
    simp only [Spe.symbols, Spe.wss, Spe.cmds] at hA hB hfree ⊢
    exact b3 A (fun S hS x hx => hA x (mem_foldr_union.2 ⟨S, hS, hx⟩)) hB ctx st hst hfree

end

end Sppl
