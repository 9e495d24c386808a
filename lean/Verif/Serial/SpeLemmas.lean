import Verif.Serial.Lemmas
import Verif.Spe.CondLeaf
import Verif.Spe.PartialLemmas
import Verif.Spe.ConstrainLemmas

set_option linter.all false

/-!
# `spe_from_dict` inverts `spe_to_dict`
-/

namespace Sppl
open Classical MeasureTheory
open scoped ENNReal

variable {c : Ctx} {H : Host} {L : Lib} {μ : Dist → Measure ℝ} {n : ℕ}

/-! ## Constructors return -/

theorem RLeafOK.Z_total {l : RLeaf} (h : RLeafOK L μ l) (hm : μ l.d l.supp.reals ≠ 0) : ∃ z, l.Z L = .ok z := by
  have hp := h.dist.prob
  have hlt : l.low < l.xu := by
    by_contra hn
    apply hm
    have : ∀ᵐ y : ℝ ∂(μ l.d), y ∉ l.supp.reals := by
      filter_upwards [h.supp_ae] with y hy hs
      have := hy.1 hs
      exact hn (this.1.trans_le this.2)
    exact measure_eq_zero_iff_ae_notMem.2 this
  unfold RLeaf.Z pdiff
  rw [RLeaf.Fl_eq, h.dist.cdf, h.dist.cdf]
  have hle : (μ l.d).real {y | (y : EReal) ≤ l.low} ≤ (μ l.d).real {y | (y : EReal) ≤ l.xu} :=
    measureReal_mono (fun y hy => le_trans hy hlt.le)
  rcases hle.lt_or_eq with h1 | h1
  · rw [if_pos h1]; exact ⟨_, rfl⟩
  · rw [if_neg (by rw [h1]; exact lt_irrefl _), if_pos h1]; exact ⟨_, rfl⟩

theorem mkReal_total {l : RLeaf} {X : String} {env : Env} (h : RLeafOK L μ l) : mkReal L l X env = .ok (.real l.k X l.d l.supp l.cond env) := by
  have hmain : (if l.cond then do
      let _ ← l.Z L
      Except.ok (Spe.real l.k X l.d l.supp l.cond env)
    else Except.ok (Spe.real l.k X l.d l.supp l.cond env)) = (.ok (.real l.k X l.d l.supp l.cond env) : Res Spe) := by
    cases hc : l.cond with
    | false => simp
    | true =>
      have hm := h.mass
      rw [if_pos hc] at hm
      obtain ⟨z, hz⟩ := h.Z_total hm
      simp [hz]
  unfold mkReal
  cases hk : l.k with
  | cont =>
    rw [hk] at hmain
    simpa using hmain
  | disc =>
    obtain ⟨h1, h2⟩ := h.ints hk
    have a1 : intOrNegInf l.supp.a = .ok true := by
      rcases h1 with h1 | ⟨m, h1⟩
      · simp [intOrNegInf, h1]
      · rw [intOrNegInf, h1, if_neg (EReal.coe_ne_bot _), if_neg (EReal.coe_ne_top _), isInt_iff.2 ⟨m, rfl⟩]
    have a2 : intOrPosInf l.supp.b = .ok true := by
      rcases h2 with h1 | ⟨m, h1⟩
      · simp [intOrPosInf, h1]
      · rw [intOrPosInf, h1, if_neg (EReal.coe_ne_top _), if_neg (EReal.coe_ne_bot _), isInt_iff.2 ⟨m, rfl⟩]
    rw [hk] at hmain
    simp only [a1, a2, ok_bind, assertB, if_true]
    simpa using hmain

/-! ## Dictionaries -/

theorem dictOf_nodup {α : Type} {l : List (String × α)} (h : (l.map Prod.fst).Nodup) : dictOf l = l := by
  have : ∀ (r d : List (String × α)), ((d ++ r).map Prod.fst).Nodup → r.foldl (fun d p => dictSet d p.1 p.2) d = d ++ r := by
    intro r
    induction r with
    | nil => simp
    | cons p r ih =>
      intro d hd
      have hp : p.1 ∉ d.map Prod.fst := by
        rw [List.map_append, List.nodup_append] at hd
        intro hp
        exact hd.2.2 _ hp _ (by simp) rfl
      rw [List.foldl_cons, dictSet, if_neg hp, ih _ (by simpa using hd)]
      simp
  have h' := this l [] (by simpa using h)
  rw [List.nil_append] at h'
  exact h'

theorem EnvBuilt.nodup {X : String} {env : Env} (h : EnvBuilt X env) : (env.map Prod.fst).Nodup := by
  induction h with
  | base => simp
  | step _ h _ _ ih =>
    rw [List.map_append, List.nodup_append]
    refine ⟨ih, by simp, ?_⟩
    intro a ha b hb hab
    simp only [List.map_cons, List.map_nil, List.mem_singleton] at hb
    subst hb; subst hab
    exact h ha

theorem EnvBuilt.single {X : String} {env : Env} (h : EnvBuilt X env) (hl : env.length = 1) : env = [(X, .id X)] := by
  cases h with
  | base => rfl
  | @step env' _ _ h _ _ _ =>
    have := h.base_mem
    cases env' with
    | nil => simp [Env.keys] at this
    | cons => simp at hl

theorem envFromDict_toDict {X : String} {env : Env} (h : EnvOK c X env) (hp : ∀ p ∈ env, p.2.Printable H) :
    Ev8 (fun n => envFromDict c H n X (envToDict c H env) = .ok env) := by
  unfold envToDict
  split
  · rename_i hl
    rw [h.built.single hl]
    exact Ev8.of (fun n => by rw [envFromDict])
  · have := Ev8.all env (P := fun p n => (p.2.repr c H).eval c H n = .ok (.tr p.2)) (fun p hp' => repr_eval.1 p.2 (h.made p hp') (hp p hp'))
    refine this.mono (fun n hn => ?_)
    have hm : (env.map (fun p => ((Tr.id p.1).repr c H, p.2.repr c H))).mapM (evalEnvEntry c H n) = .ok env := by
      refine mapM_const (fun p hp => ?_)
      have hid : ((Tr.id p.1).repr c H).eval c H n = .ok (.tr (.id p.1)) := by
        rw [Tr.repr, Py.eval_call]
        simp [Args.eval, Py.eval, callPy, bindArgs]
      rw [evalEnvEntry]
      simp only [hid, hn p hp, ok_bind]
    have hne : env ≠ [] := by
      intro h'
      have := h.built.base_mem
      simp [h', Env.keys] at this
    rw [envFromDict]
    simp [hm, hne, dictOf_nodup h.built.nodup]

@[simp] theorem jsl_list (l : List Js) : (jsl l).list = l := by
  induction l with
  | nil => rfl
  | cons a l ih => simp [jsl, Jsl.list, ih]

@[simp] theorem jso_list (l : List (String × Js)) : (jso l).list = l := by
  induction l with
  | nil => rfl
  | cons a l ih => obtain ⟨k, j⟩ := a; simp [jso, Jso.list, ih]

theorem mapM_real (l : List ℝ) : (l.map Js.real).mapM Js.toReal = .ok l := mapM_const (fun _ _ => rfl)

theorem mapM_real' (l : List ℝ) : l.mapM (Js.toReal ∘ Js.real) = .ok l := by
  have := mapM_real l
  simpa using this

theorem distFromDict_toDict {d : Dist} (h : H.stats d.name = true) (hv : d.values = []) : distFromDict H (distToDict d) = .ok d := by
  have hk : (d.kwds.map (fun p => (p.1, Js.real p.2))).mapM (fun p => do
      let v ← p.2.toReal
      (.ok (p.1, v) : Res (String × ℝ))) = .ok d.kwds := mapM_const (fun _ _ => rfl)
  simp only [distFromDict, distToDict, Js.toObj, ok_bind, Jso.get, jso_list]
  simp only [List.lookup]
  simp [Js.toStr, h, Js.toArr, mapM_real', Js.toObj, hk]
  cases d; simp_all

theorem outcome_back (p : String × ℚ) : outcomeFromDict (.arr (jsl [.str p.1, .arr (jsl [.int p.2.num, .int p.2.den])])) = .ok p := by
  simp only [jsl, outcomeFromDict]
  rw [if_neg (by exact_mod_cast p.2.den_nz)]
  have : (p.2.num : ℚ) / ((p.2.den : ℤ) : ℚ) = p.2 := by
    have := Rat.num_div_den p.2
    simpa using this
  rw [this]

theorem mkNominal_total {X : String} {dist : List (String × ℚ)} (h : (dist.map Prod.snd).sum = 1) : mkNominal X dist = .ok (.nominal X dist) := by
  have hne : (dist.map Prod.fst).toFinset.Nonempty := by
    cases dist with
    | nil => simp at h
    | cons p l => exact ⟨p.1, by simp⟩
  unfold mkNominal mkNom
  rw [if_pos (Or.inl hne)]
  simp [h]

theorem itemsFromDict_map {g : Spe → Spe} {cs : List Spe} (h : ∀ s ∈ cs, fromDict c L H n (s.toDict c H) = .ok (g s)) :
    itemsFromDict c L H n (Spe.toDictL c H cs) = .ok (cs.map g) := by
  induction cs with
  | nil => rw [Spe.toDictL, itemsFromDict]; rfl
  | cons s cs ih =>
    rw [Spe.toDictL, itemsFromDict, h s (by simp), ih (fun s hs => h s (by simp [hs]))]
    rfl

theorem fromDict_sum {cs cs' : List Spe} {ws : List ℝ} (h : itemsFromDict c L H n (Spe.toDictL c H cs) = .ok cs') :
    fromDict c L H n ((Spe.sum cs ws).toDict c H) = mkSum cs' ws := by
  rw [Spe.toDict, fromDict]
  have h1 : childrenFromDict c L H n (jso [("class", .str "SumSPE"), ("children", .arr (Spe.toDictL c H cs)), ("weights", .arr (jsl (ws.map .real)))]) = .ok cs' := by
    simp only [jso]
    rw [childrenFromDict, if_neg (by decide), childrenFromDict, if_pos rfl, listFromDict, h]
  simp only [h1]
  simp only [Jso.get, jso_list]
  simp [List.lookup, Js.toStr, Js.toArr, mapM_real']

theorem fromDict_prod {cs cs' : List Spe} (h : itemsFromDict c L H n (Spe.toDictL c H cs) = .ok cs') :
    fromDict c L H n ((Spe.prod cs).toDict c H) = mkProd cs' := by
  rw [Spe.toDict, fromDict]
  have h1 : childrenFromDict c L H n (jso [("class", .str "ProductSPE"), ("children", .arr (Spe.toDictL c H cs))]) = .ok cs' := by
    simp only [jso]
    rw [childrenFromDict, if_neg (by decide), childrenFromDict, if_pos rfl, listFromDict, h]
  simp only [h1]
  simp only [Jso.get, jso_list]
  simp [List.lookup, Js.toStr]

theorem fromDict_real {k X d supp cond env} (hs : Spe.WF c L μ (.real k X d supp cond env)) (hp : Spe.Printable H (.real k X d supp cond env)) :
    Ev8 (fun n => fromDict c L H n ((Spe.real k X d supp cond env).toDict c H) = .ok (.real k X d supp cond env)) := by
  obtain ⟨hr, he, -, -⟩ := hs.rleaf
  cases hp with
  | real h1 hv h2 h3 h4 =>
    refine (envFromDict_toDict he h4).mono (fun n hn => ?_)
    have hm : ∀ cls, realFromDict c L H n k (jso [("class", .str cls), ("symbol", .str X), ("dist", distToDict d),
      ("support", .src (supp.repr H)), ("conditioned", .bool cond), ("env", envToDict c H env)]) = .ok (.real k X d supp cond env) := by
      intro cls
      unfold realFromDict
      simp only [Jso.get, jso_list]
      have := mkReal_total (X := X) (env := env) hr
      simp [List.lookup, Js.toStr, Js.toBool, distFromDict_toDict h1 hv, Ivl.repr_eval (c := c) (n := n) hr.wf h2 h3, hn, this]
    have hcls : ∀ cls, Jso.get (jso [("class", .str cls), ("symbol", .str X), ("dist", distToDict d),
      ("support", .src (supp.repr H)), ("conditioned", .bool cond), ("env", envToDict c H env)]) "class" = .ok (.str cls) := by
      intro cls
      simp [Jso.get, List.lookup]
    rw [Spe.toDict, fromDict]
    cases k <;> simp [hcls, hm, Js.toStr, Kind.className]

theorem fromDict_atomic {X v env} (hs : Spe.WF c L μ (.atomic X v env)) (hp : Spe.Printable H (.atomic X v env)) :
    Ev8 (fun n => fromDict c L H n ((Spe.atomic X v env).toDict c H) = .ok (.atomic X v env)) := by
  cases hs with
  | atomic he _ _ =>
  cases hp with
  | atomic h1 h4 =>
    refine (envFromDict_toDict he h4).mono (fun n hn => ?_)
    rw [Spe.toDict, fromDict]
    simp only [Jso.get, jso_list]
    simp [List.lookup, Js.toStr, Js.toReal, hn, h1]

theorem fromDict_nominal {X dist} (hs : Spe.WF c L μ (.nominal X dist)) :
    fromDict c L H n ((Spe.nominal X dist).toDict c H) = .ok (.nominal X dist) := by
  cases hs with
  | nominal h1 h2 h3 =>
    have hm : (dist.map (fun p => Js.arr (jsl [.str p.1, .arr (jsl [.int p.2.num, .int p.2.den])]))).mapM outcomeFromDict = .ok dist :=
      mapM_const (fun p _ => outcome_back p)
    rw [Spe.toDict, fromDict]
    simp only [Jso.get, jso_list]
    simp only [List.lookup]
    simp [Js.toStr, Js.toArr, hm, dictOf_nodup h1, mkNominal_total h3]

/-! ## Flat SPEs come back as they are -/

theorem sumChildren_flat {cs : List Spe} (h : ∀ s ∈ cs, ¬ s.isSum) : cs.flatMap Spe.sumChildren = cs := by
  induction cs with
  | nil => rfl
  | cons s cs ih =>
    have h0 := h s (by simp)
    rw [List.flatMap_cons, ih (fun s hs => h s (by simp [hs]))]
    cases s <;> simp_all [Spe.sumChildren, Spe.isSum]

theorem sumWeights_flat {cs : List Spe} {ws : List ℝ} (hl : cs.length = ws.length) (h : ∀ s ∈ cs, ¬ s.isSum) :
    (cs.zip ws).flatMap (fun p => p.1.sumWeights p.2) = ws := by
  induction cs generalizing ws with
  | nil => cases ws <;> simp_all
  | cons s cs ih =>
    cases ws with
    | nil => simp at hl
    | cons w ws =>
      have h0 := h s (by simp)
      rw [List.zip_cons_cons, List.flatMap_cons, ih (by simpa using hl) (fun s hs => h s (by simp [hs]))]
      cases s <;> simp_all [Spe.sumWeights, Spe.isSum]

theorem prodChildren_flat {cs : List Spe} (h : ∀ s ∈ cs, ¬ s.isProd) : cs.flatMap Spe.prodChildren = cs := by
  induction cs with
  | nil => rfl
  | cons s cs ih =>
    have h0 := h s (by simp)
    rw [List.flatMap_cons, ih (fun s hs => h s (by simp [hs]))]
    cases s <;> simp_all [Spe.prodChildren, Spe.isProd]

theorem fromDict_flat : ∀ s : Spe, s.WF c L μ → s.Printable H → s.Flat → Ev8 (fun n => fromDict c L H n (s.toDict c H) = .ok s) := by
  intro s
  induction s using Spe.ind with
  | hr => exact fun h1 h2 _ => fromDict_real h1 h2
  | ha => exact fun h1 h2 _ => fromDict_atomic h1 h2
  | hn => exact fun h1 h2 _ => Ev8.of (fun n => fromDict_nominal h1)
  | hs cs ws ih =>
    intro h1 h2 h3
    have h1' := h1
    cases h1 with
    | sum w1 w2 w3 w4 w5 w6 =>
    cases h2 with
    | sum p =>
    cases h3 with
    | sum f f' =>
    refine (Ev8.all cs (fun s hs => ih s hs (w1 s hs) (p s hs) (f s hs))).mono (fun n hn => ?_)
    have := itemsFromDict_map (g := id) hn
    rw [List.map_id] at this
    rw [fromDict_sum this]
    obtain ⟨r, hr⟩ := mkSum_total w1 w3 w5 (fun s hs t ht => by rw [w6 s hs, w6 t ht])
    have hr' := hr
    unfold mkSum at hr
    simp only [sumChildren_flat f', sumWeights_flat w3 f'] at hr
    rw [if_neg (by simpa using w3), if_neg (by simpa using w5), if_neg w2] at hr
    split at hr
    · cases hr; exact hr'
    · cases hr
  | hp cs ih =>
    intro h1 h2 h3
    cases h1 with
    | prod w1 w2 w3 =>
    cases h2 with
    | prod p =>
    cases h3 with
    | prod f f' =>
    refine (Ev8.all cs (fun s hs => ih s hs (w1 s hs) (p s hs) (f s hs))).mono (fun n hn => ?_)
    have := itemsFromDict_map (g := id) hn
    rw [List.map_id] at this
    rw [fromDict_prod this]
    unfold mkProd
    simp only [prodChildren_flat f']
    rw [if_neg w2, if_pos (areDisjoint_iff.2 w3)]

/-! ## All SPEs come back with the same distribution -/

theorem fromDict_den : ∀ s : Spe, s.WF c L μ → s.Printable H →
    ∃ s' : Spe, s'.WF c L μ ∧ s'.den μ = s.den μ ∧ s'.symbols = s.symbols ∧ Ev8 (fun n => fromDict c L H n (s.toDict c H) = .ok s') := by
  intro s
  induction s using Spe.ind with
  | hr => exact fun h1 h2 => ⟨_, h1, rfl, rfl, fromDict_real h1 h2⟩
  | ha => exact fun h1 h2 => ⟨_, h1, rfl, rfl, fromDict_atomic h1 h2⟩
  | hn => exact fun h1 h2 => ⟨_, h1, rfl, rfl, Ev8.of (fun n => fromDict_nominal h1)⟩
  | hs cs ws ih =>
    intro h1 h2
    have h1' := h1
    cases h1 with
    | @sum _ _ S w1 w2 w3 w4 w5 w6 =>
    cases h2 with
    | sum p =>
    choose! g g1 g2 g3 g4 using fun s hs => ih s hs (w1 s hs) (p s hs)
    have hcs : ∀ t ∈ cs.map g, t.WF c L μ := by
      intro t ht
      obtain ⟨s, hs, rfl⟩ := List.mem_map.1 ht
      exact g1 s hs
    have hsym : ∀ t ∈ cs.map g, t.symbols = S := by
      intro t ht
      obtain ⟨s, hs, rfl⟩ := List.mem_map.1 ht
      rw [g3 s hs, w6 s hs]
    obtain ⟨r, hr⟩ := mkSum_total hcs (by simpa using w3) w5 (fun s hs t ht => by rw [hsym s hs, hsym t ht])
    have hok := mkSum_ok hcs w4 hr
    refine ⟨r, hok.1, ?_, ?_, ?_⟩
    · rw [hok.2.2.1, Spe.den, Spe.denL_eq, List.map_map]
      congr 1
      exact List.map_congr_left (fun s hs => g2 s hs)
    · obtain ⟨s, hs⟩ := List.exists_mem_of_ne_nil _ w2
      have hg : g s ∈ cs.map g := List.mem_map.2 ⟨s, hs, rfl⟩
      rw [← hok.2.1 _ hg, hsym _ hg, Spe.symbols_sum w2 w6]
    · refine (Ev8.all cs (fun s hs => g4 s hs)).mono (fun n hn => ?_)
      rw [fromDict_sum (itemsFromDict_map hn), hr]
  | hp cs ih =>
    intro h1 h2
    cases h1 with
    | prod w1 w2 w3 =>
    cases h2 with
    | prod p =>
    choose! g g1 g2 g3 g4 using fun s hs => ih s hs (w1 s hs) (p s hs)
    have hcs : ∀ t ∈ cs.map g, t.WF c L μ := by
      intro t ht
      obtain ⟨s, hs, rfl⟩ := List.mem_map.1 ht
      exact g1 s hs
    have hsym : (cs.map g).map Spe.symbols = cs.map Spe.symbols := by
      rw [List.map_map]
      exact List.map_congr_left (fun s hs => g3 s hs)
    have hden : (cs.map g).map (Spe.den μ) = cs.map (Spe.den μ) := by
      rw [List.map_map]
      exact List.map_congr_left (fun s hs => g2 s hs)
    obtain ⟨r, hr⟩ := mkProd_total hcs (by simpa using w2) (by rw [hsym, ← Spe.symbolsL_eq]; exact w3)
    have hok := mkProd_ok hcs hr
    refine ⟨r, hok.1, ?_, ?_, ?_⟩
    · rw [hok.2.2.1, Spe.den, Spe.den, Spe.denL_eq, Spe.denL_eq, Spe.symbolsL_eq, Spe.symbolsL_eq, hsym, hden]
    · rw [hok.2.1, Spe.symbols, Spe.symbols, Spe.symbolsL_eq, Spe.symbolsL_eq, hsym]
    · refine (Ev8.all cs (fun s hs => g4 s hs)).mono (fun n hn => ?_)
      rw [fromDict_prod (itemsFromDict_map hn), hr]

/-! ## The constructors make flat SPEs -/

theorem Spe.Flat.child_sum {s t : Spe} (h : s.Flat) (ht : t ∈ s.sumChildren) : t.Flat ∧ ¬ t.isSum := by
  cases h with
  | sum f f' => exact ⟨f t ht, f' t ht⟩
  | real => simp only [Spe.sumChildren, List.mem_singleton] at ht; subst ht; exact ⟨.real, id⟩
  | atomic => simp only [Spe.sumChildren, List.mem_singleton] at ht; subst ht; exact ⟨.atomic, id⟩
  | nominal => simp only [Spe.sumChildren, List.mem_singleton] at ht; subst ht; exact ⟨.nominal, id⟩
  | prod f f' => simp only [Spe.sumChildren, List.mem_singleton] at ht; subst ht; exact ⟨.prod f f', id⟩

theorem Spe.Flat.child_prod {s t : Spe} (h : s.Flat) (ht : t ∈ s.prodChildren) : t.Flat ∧ ¬ t.isProd := by
  cases h with
  | prod f f' => exact ⟨f t ht, f' t ht⟩
  | real => simp only [Spe.prodChildren, List.mem_singleton] at ht; subst ht; exact ⟨.real, id⟩
  | atomic => simp only [Spe.prodChildren, List.mem_singleton] at ht; subst ht; exact ⟨.atomic, id⟩
  | nominal => simp only [Spe.prodChildren, List.mem_singleton] at ht; subst ht; exact ⟨.nominal, id⟩
  | sum f f' => simp only [Spe.prodChildren, List.mem_singleton] at ht; subst ht; exact ⟨.sum f f', id⟩

theorem mkSum_flat {cs : List Spe} {ws : List ℝ} {s : Spe} (hcs : ∀ t ∈ cs, t.Flat) (h : mkSum cs ws = .ok s) : s.Flat := by
  unfold mkSum at h
  split at h; · cases h
  simp only at h
  split at h; · cases h
  split at h; · cases h
  split at h
  · cases h
    have : ∀ t ∈ cs.flatMap Spe.sumChildren, t.Flat ∧ ¬ t.isSum := by
      intro t ht
      obtain ⟨u, hu, ht⟩ := List.mem_flatMap.1 ht
      exact (hcs u hu).child_sum ht
    exact .sum (fun t ht => (this t ht).1) (fun t ht => (this t ht).2)
  · cases h

theorem mkProd_flat {cs : List Spe} {s : Spe} (hcs : ∀ t ∈ cs, t.Flat) (h : mkProd cs = .ok s) : s.Flat := by
  unfold mkProd at h
  simp only at h
  split at h; · cases h
  split at h
  · cases h
    have : ∀ t ∈ cs.flatMap Spe.prodChildren, t.Flat ∧ ¬ t.isProd := by
      intro t ht
      obtain ⟨u, hu, ht⟩ := List.mem_flatMap.1 ht
      exact (hcs u hu).child_prod ht
    exact .prod (fun t ht => (this t ht).1) (fun t ht => (this t ht).2)
  · cases h

end Sppl
