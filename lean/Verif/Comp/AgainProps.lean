import Verif.Comp.Again2Lemmas
import Verif.Interp.BinProps

/-!
# C62: the command of a compiled program can be interpreted again

Full claim: the object `command` of a compiled module does, each time that it is interpreted, what it does the first
time.  It fails for programs with `switch ... cases (i, x in enumerate(...))` (`C62_compiled_enumerate_raises`).
-/

namespace Sppl
open Classical MeasureTheory

/-- C62, partial, for compiled programs: if the source has no `switch` over `enumerate(...)` outside the bodies of
loops and other `switch`es, then the object `command` of its module can be interpreted any number of times, with
any states: each time it does what the command of C46 and C60 does. -/
theorem C62_compiled_partial (o : Opts) {D : List String} {n : ℕ} {source : List Stmt} {p : Prog} {H : PyHost} {c : Ctx} {ρ : NS} {cmd : Cmd}
    (hs : Stmt.AgainL source) (hp : compile D n source = .ok p) (hr : p.run H c ρ = .ok cmd) :
    ∃ m, p.runO H c ρ = .ok m ∧ ∀ ss : List (Option Spe), m.runs o ss = ss.map (cmd.interp o) := by
  have h := Prog.runO_plain H c ρ p
  rw [hr] at h
  cases hm : p.runO H c ρ with
  | error x => rw [hm] at h; cases h
  | ok m =>
    rw [hm] at h
    simp only [Except.map, Except.ok.injEq] at h
    subst h
    refine ⟨m, rfl, C62_again_partial o ?_⟩
    obtain ⟨r, ρ', as, ms, h1, h2, h3, rfl⟩ := runO_seq hp hm
    have ha := visitItems_again source _ (fun s h st r hr => visit_again D n _ s st ((Stmt.againL_iff _).1 hs s h) hr) h1
    exact allCmdsO_reusable as (runOL_reusable H c ρ' _ ha h2) h3

/-- Non-vacuity: `Y ~= coin()`; `if Y == 'a': X ~= uniform()`, `else: X ~= zed()` is such a source. -/
example : Stmt.AgainL source0 ∧ compile ["coin", "uniform", "zed"] 5 source0 = .ok compiled0 ∧ compiled0.run pyHost0 ctx0 ns0 = .ok prog0 :=
  ⟨by simp [source0, Stmt.AgainL, Stmt.Again], source0_compile, compiled0_run⟩

/-- C62: **a compiled program with `switch ... enumerate` at its top cannot be interpreted again**: if it returns the
first time, then it raises `AssertionError` the second time. -/
theorem C62_compiled_enumerate_raises (o : Opts) {D : List String} {n : ℕ} {pre post body : List Stmt} {i x : String} {symbol values : PE} {p : Prog} {H : PyHost} {c : Ctx} {ρ : NS}
    {cmd : Cmd} {s r : Option Spe} (hpre : Stmt.AgainL pre) (hp : compile D n (pre ++ .switch (some i) x symbol values body :: post) = .ok p)
    (hr : p.run H c ρ = .ok cmd) (h : cmd.interp o s = .ok r) :
    ∃ m, p.runO H c ρ = .ok m ∧ m.runs o [s, s] = [.ok r, .error .assertion] := by
  have hq := Prog.runO_plain H c ρ p
  rw [hr] at hq
  cases hm : p.runO H c ρ with
  | error x => rw [hm] at hq; cases hq
  | ok m =>
    rw [hm] at hq
    simp only [Except.map, Except.ok.injEq] at hq
    subst hq
    refine ⟨m, rfl, ?_⟩
    obtain ⟨w, ρ', as, ms, h1, h2, h3, rfl⟩ := runO_seq hp hm
    obtain ⟨a, b, k1, k2, rfl⟩ := visitItems_split pre _ _ h1
    have ha := visitItems_again pre _ (fun s h st r hr => visit_again D n _ s st ((Stmt.againL_iff _).1 hpre s h) hr) k1
    obtain ⟨a', b', l1, l2, rfl⟩ := runOL_append H c ρ' _ _ h2
    obtain ⟨cs, ds, q1, q2, rfl⟩ := allCmdsO_append _ _ h3
    have hcs : CmdO.ReusableL cs := allCmdsO_reusable _ (runOL_reusable H c ρ' _ ha l1) q1
    obtain ⟨t, vals, cmds, ds', rfl⟩ : ∃ t vals cmds ds', ds = .switch .enum t vals cmds :: ds' := by
      simp only [visitItems, bind, Except.bind] at k2
      cases hv : visit D n ["global"] (.switch (some i) x symbol values body) a.2 with
      | error x => simp [hv] at k2
      | ok v =>
        simp only [hv] at k2
        cases hw : visitItems (visit D n ["global"]) post v.2 with
        | error x => simp [hw] at k2
        | ok w =>
          simp only [hw, Except.ok.injEq] at k2
          subst k2
          obtain ⟨tb, hb⟩ := visit_switch hv
          simp only [hb, List.cons_append, List.nil_append, Tgt.runOL, bind, Except.bind] at l2
          cases hu : Tgt.runO H c ρ' (.switch symbol values (some i) x tb) with
          | error x => simp [hu] at l2
          | ok u =>
            simp only [hu] at l2
            cases hz : Tgt.runOL H c ρ' w.1 with
            | error x => simp [hz] at l2
            | ok z =>
              simp only [hz, Except.ok.injEq] at l2
              subst l2
              obtain ⟨t, ss, qs, rfl⟩ := runO_switch hu
              simp only [allCmdsO, bind, Except.bind] at q2
              cases hy : allCmdsO z with
              | error x => simp [hy] at q2
              | ok y =>
                simp only [hy, Except.ok.injEq] at q2
                exact ⟨t, ss, qs, y, q2.symm⟩
    exact C62_enumerate_raises o hcs t vals cmds (by rw [C62_first]; exact h)

/-- `X ~= uniform()`; `switch X cases (i, b in enumerate(bins)): Y ~= coin()`. -/
def binSource (l : List (SSet EReal)) : List Stmt :=
  [.assign (.name "X") (.call "uniform" []), .switch (some "i") "b" (.name "X") (.lit (.coll (l.map .set))) [.assign (.name "Y") (.call "coin" [])]]

/-- Non-vacuity: the source with `binspace(0, 1, 5)` compiles and returns the first time, so it raises the second time. -/
theorem C62_compiled_wrong : ∃ l p m r, binspace 0 1 5 = .ok l ∧ compile ["coin", "uniform"] 5 (binSource l) = .ok p ∧ p.runO pyHost0 ctx0 ns0 = .ok m ∧
    m.runs opts0 [none, none] = [.ok (some r), .error .assertion] := by
  obtain ⟨l, r, h1, h2⟩ := bins_return
  have hl : l.length = 4 := by
    obtain ⟨l', h, h', -⟩ := C50_bins (a := 0) (b := 1) (by norm_num) (n := 4) (by norm_num)
    rw [show ((4 : ℕ) : ℤ) + 1 = 5 by norm_num, h1] at h
    cases h; exact h'
  let p : Prog := ⟨[], ["X", "Y"], [], [.seq [.sample (.name "X") (.call "uniform" []), .switch (.name "X") (.lit (.coll (l.map .set))) (some "i") "b" [.sample (.name "Y") (.call "coin" [])]]]⟩
  have hp : compile ["coin", "uniform"] 5 (binSource l) = .ok p := by
    have a1 : visit ["coin", "uniform"] 5 ["global"] (.assign (.name "X") (.call "uniform" [])) ⟨false, [], [], []⟩ =
        .ok ([.sample (.name "X") (.call "uniform" [])], ⟨false, [], [("X", .scalar)], ["uniform"]⟩) := visit_dist (by simp) (by simp) (by simp [declare])
    have a2 : visit ["coin", "uniform"] 4 ["global", "switch"] (.assign (.name "Y") (.call "coin" [])) ⟨false, [], [("X", .scalar)], ["uniform"]⟩ =
        .ok ([.sample (.name "Y") (.call "coin" [])], ⟨false, [], [("X", .scalar), ("Y", .scalar)], ["uniform", "coin"]⟩) :=
      visit_dist (by simp) (by simp) (by simp [declare, List.lookup])
    have a3 : visit ["coin", "uniform"] 5 ["global"] (.switch (some "i") "b" (.name "X") (.lit (.coll (l.map .set))) [.assign (.name "Y") (.call "coin" [])]) ⟨false, [], [("X", .scalar)], ["uniform"]⟩ =
        .ok ([.switch (.name "X") (.lit (.coll (l.map .set))) (some "i") "b" [.sample (.name "Y") (.call "coin" [])]], ⟨false, [], [("X", .scalar), ("Y", .scalar)], ["uniform", "coin"]⟩) := by
      rw [visit]
      simp only [visitModule, visitItems, List.cons_append, List.nil_append, a2, bind, Except.bind]
      simp [sequenceBlock]
    simp only [compile, binSource, visitModule, visitItems, a1, a3, bind, Except.bind]
    simp [sequenceBlock, VS.varNames, VS.arrays, p]
  have hsw : ∀ q : List (SSet EReal), (q.map Obj.set).mapM Obj.swVal = .ok (q.map .set) := by
    intro q
    induction q with
    | nil => rfl
    | cons a q ih => rw [List.map_cons, List.mapM_cons, ih]; rfl
  have hconst : ∀ (q : List (Obj × ℕ)) (f : Obj × ℕ → Res Cmd), (∀ v, f v = .ok (.sample "Y" (.one coinD))) → q.mapM f = .ok ((List.range q.length).map (fun _ => .sample "Y" (.one coinD))) := by
    intro q f hf
    induction q with
    | nil => rfl
    | cons a q ih => rw [List.mapM_cons, ih, hf]; simp [bind, Except.bind, pure, Except.pure, List.range_succ_eq_map, List.map_map, Function.comp_def]
  have hrun : p.run pyHost0 ctx0 ns0 = .ok (.seq [.sample "X" (.one (.real .cont d0 unitIvl)), .switch (.id "X") (l.map .set) ((List.range 4).map (fun _ => .sample "Y" (.one coinD)))]) := by
    have hn : p.names pyHost0 ctx0 ns0 = .ok ((ns0.bind "X" (.tr (.id "X"))).bind "Y" (.tr (.id "Y"))) := by
      simp [Prog.names, p, runConstants, runVariables, runArrays, bind, Except.bind]
    unfold Prog.run
    rw [hn]
    have hc := hconst (l.map Obj.set).zipIdx (fun v => do
      let as ← Tgt.runL pyHost0 ctx0 (bindCase ((ns0.bind "X" (.tr (.id "X"))).bind "Y" (.tr (.id "Y"))) (some "i") "b" v.2 v.1) [.sample (.name "Y") (.call "coin" [])]
      oneCmd as) (fun v => by
        simp [Tgt.runL, Tgt.run, PE.eval, PE.evalL, bindCase, ns0, NS.bind, pyHost0, Obj.var, oneCmd, bind, Except.bind])
    simp only [List.length_zipIdx, List.length_map, hl] at hc
    have e1 : Tgt.run pyHost0 ctx0 ((ns0.bind "X" (.tr (.id "X"))).bind "Y" (.tr (.id "Y"))) (.sample (.name "X") (.call "uniform" [])) = .ok (.cmd (.sample "X" (.one (.real .cont d0 unitIvl)))) := by
      simp [Tgt.run, PE.eval, PE.evalL, ns0, NS.bind, pyHost0, Obj.var, bind, Except.bind]
    have e2 : Tgt.run pyHost0 ctx0 ((ns0.bind "X" (.tr (.id "X"))).bind "Y" (.tr (.id "Y"))) (.switch (.name "X") (.lit (.coll (l.map .set))) (some "i") "b" [.sample (.name "Y") (.call "coin" [])]) =
        .ok (.cmd (.switch (.id "X") (l.map .set) ((List.range 4).map (fun _ => .sample "Y" (.one coinD))))) := by
      have v1 : (PE.name "X").eval pyHost0 ctx0 ((ns0.bind "X" (.tr (.id "X"))).bind "Y" (.tr (.id "Y"))) = .ok (.tr (.id "X")) := by simp [PE.eval, NS.bind]
      have v2 : (PE.lit (.coll (l.map .set))).eval pyHost0 ctx0 ((ns0.bind "X" (.tr (.id "X"))).bind "Y" (.tr (.id "Y"))) = .ok (.coll (l.map .set)) := by simp [PE.eval]
      rw [Tgt.run]
      simp only [v1, v2, bind, Except.bind, hsw]
      simp only [bind, Except.bind] at hc
      rw [hc]
    simp only [bind, Except.bind, p, Tgt.runL]
    rw [Tgt.run]
    simp only [Tgt.runL, e1, e2, bind, Except.bind, allCmds, oneCmd]
  have hint : (Cmd.seq [.sample "X" (.one (.real .cont d0 unitIvl)), .switch (.id "X") (l.map .set) ((List.range 4).map (fun _ => .sample "Y" (.one coinD)))]).interp opts0 none = .ok (some r) := by
    have hx : (Cmd.sample "X" (.one (.real .cont d0 unitIvl))).interp opts0 none = .ok (some (leafX "X")) := by
      have d2 : (Distr.real .cont d0 unitIvl).call (libOf muU) "X" = .ok (leafX "X") := by simp [Distr.call, mkReal, leafX]; rfl
      simp [Cmd.interp, Source.call, opts0, d2, bind, Except.bind]
    simp only [Cmd.interp, Cmd.interpL, List.foldlM_cons, List.foldlM_nil] at hx h2 ⊢
    simp only [bind, Except.bind, pure, Except.pure] at hx h2 ⊢
    rw [hx]
    simp only [h2]
  obtain ⟨m, hm, hq⟩ := C62_compiled_enumerate_raises opts0 (pre := [.assign (.name "X") (.call "uniform" [])]) (post := []) (by simp [Stmt.AgainL, Stmt.Again]) hp hrun hint
  exact ⟨l, p, m, r, h1, hp, hm, hq⟩

end Sppl
