import Verif.Serial.Spec
import Verif.Events.FuelLemmas
import Verif.Events.InvertLemmas

set_option linter.all false

/-!
# `eval` inverts `repr` on expressions
-/

namespace Sppl
open Classical

variable {c : Ctx} {H : Host} {n : ℕ} {r0 : Bool}

/-- Eventually in the depth bound. -/
def Ev8 (P : ℕ → Prop) : Prop := ∃ n0, ∀ n, n0 ≤ n → P n

theorem Ev8.of {P : ℕ → Prop} (h : ∀ n, P n) : Ev8 P := ⟨0, fun n _ => h n⟩

theorem Ev8.mono {P Q : ℕ → Prop} (h : Ev8 P) (hPQ : ∀ n, P n → Q n) : Ev8 Q := h.imp (fun _ h n hn => hPQ n (h n hn))

theorem Ev8.and {P Q : ℕ → Prop} (hP : Ev8 P) (hQ : Ev8 Q) : Ev8 (fun n => P n ∧ Q n) := by
  obtain ⟨a, ha⟩ := hP
  obtain ⟨b, hb⟩ := hQ
  exact ⟨max a b, fun n hn => ⟨ha n (le_trans (le_max_left _ _) hn), hb n (le_trans (le_max_right _ _) hn)⟩⟩

theorem Ev8.all {α : Type} {P : α → ℕ → Prop} : ∀ (l : List α), (∀ a ∈ l, Ev8 (P a)) → Ev8 (fun n => ∀ a ∈ l, P a n)
  | [], _ => Ev8.of (by simp)
  | a :: l, h => by
    refine ((h a (by simp)).and (Ev8.all l (fun a ha => h a (by simp [ha])))).mono ?_
    intro n hn b hb
    rcases List.mem_cons.1 hb with rfl | hb
    · exact hn.1
    · exact hn.2 b hb

theorem Ev8.out {P : ℕ → Prop} (h : Ev8 P) : ∃ n0, ∀ n, n0 ≤ n → P n := h

theorem Tr.printableL_iff {ts : List Tr} : Tr.PrintableL H ts ↔ ∀ t ∈ ts, t.Printable H := by
  induction ts with
  | nil => simp [Tr.PrintableL]
  | cons e es ih => simp [Tr.PrintableL, ih]

theorem Ev.printableL_iff {ts : List Ev} : Ev.PrintableL H ts ↔ ∀ t ∈ ts, t.Printable H := by
  induction ts with
  | nil => simp [Ev.PrintableL]
  | cons e es ih => simp [Ev.PrintableL, ih]

@[simp] theorem ok_bind {α β : Type} (a : α) (f : α → Res β) : ((Except.ok a : Res α) >>= f) = f a := rfl

theorem Py.eval_num {x : EReal} (h : H.Keeps x) : (Py.num (H.repr x)).eval c H n = .ok (.num x) := by
  rw [Py.eval, show H.eval (H.repr x) = some x from h]

theorem Py.eval_call {f : String} {e : Py} {a : Args} : (Py.call f (.pos e a)).eval c H n = (do
    let x ← (Args.pos e a).eval c H n
    callPy c n f x.1 x.2) := by
  rw [Py.eval]
  simp

theorem Args.eval_foldr {α : Type} {g : α → Py} {v : α → PyVal} {l : List α} {rest : Args} {p : List PyVal} {k : List (String × PyVal)}
    (h : ∀ a ∈ l, (g a).eval c H n = .ok (v a)) (hr : rest.eval c H n = .ok (p, k)) :
    ((l.map g).foldr .pos rest).eval c H n = .ok (l.map v ++ p, k) := by
  induction l with
  | nil => simpa using hr
  | cons a l ih =>
    simp only [List.map_cons, List.foldr_cons]
    rw [Args.eval, h a (by simp), ih (fun a ha => h a (by simp [ha]))]
    rfl

theorem joinArgs_ne {rest : Args} {l : List Py} (h : l ≠ []) : joinArgs rest l = l.foldr .pos rest := by
  cases l with
  | nil => exact absurd rfl h
  | cons => rfl

theorem Py.eval_join {f : String} {α : Type} {g : α → Py} {v : α → PyVal} {l : List α} {rest : Args} {k : List (String × PyVal)} (hl : l ≠ [])
    (h : ∀ a ∈ l, (g a).eval c H n = .ok (v a)) (hr : rest.eval c H n = .ok ([], k)) :
    (Py.call f (joinArgs rest (l.map g))).eval c H n = callPy c n f (l.map v) k := by
  rw [joinArgs_ne (by simpa using hl)]
  cases l with
  | nil => exact absurd rfl hl
  | cons a l =>
    have := Args.eval_foldr h hr
    simp only [List.map_cons, List.foldr_cons] at this ⊢
    rw [Py.eval_call, this]
    simp

theorem mapM_const {α β : Type} {f : β → Res α} {g : α → β} {l : List α} (h : ∀ a ∈ l, f (g a) = .ok a) : (l.map g).mapM f = .ok l := by
  induction l with
  | nil => rfl
  | cons a l ih =>
    rw [List.map_cons, List.mapM_cons, h a (by simp), ih (fun a ha => h a (by simp [ha]))]
    rfl

theorem Ivl.repr_eval {i : Ivl EReal} (hw : i.WF) (ha : H.Keeps i.a) (hb : H.Keeps i.b) :
    (i.repr H).eval c H n = .ok (.set (.pc (.ivl i))) := by
  rw [Ivl.repr, Py.eval_call]
  have hbool : ∀ b, (Py.bool b).eval c H n = .ok (.bool b) := fun b => by rw [Py.eval]
  simp only [Args.eval, Py.eval_num ha, Py.eval_num hb, hbool, ok_bind]
  have hm : mkIvl i.a i.b i.lo i.ro = .ok i := by
    rw [mkIvl, if_pos hw.1]
    have h1 : (i.lo || decide (i.a = ⊥)) = i.lo := by by_cases h : i.a = ⊥ <;> simp [h, hw.2.1]
    have h2 : (i.ro || decide (i.b = ⊤)) = i.ro := by by_cases h : i.b = ⊤ <;> simp [h, hw.2.2]
    rw [h1, h2]
  have hbind : bindArgs ["a", "b", "left_open", "right_open"] [.num i.a, .num i.b] [("left_open", .bool i.lo), ("right_open", .bool i.ro)] =
      .ok [some (.num i.a), some (.num i.b), some (.bool i.lo), some (.bool i.ro)] := by
    rw [bindArgs, if_neg (by simp), if_pos]
    · simp [List.lookup]
    · simp only [List.all_cons, List.all_nil]
      simp
  simp [callPy, hbind, PyVal.ereal, flagOf, hm]

theorem finRepr_eval {v : Option (Finset EReal)} (hv : ∀ s, v = some s → s.Nonempty) (hk : ∀ s, v = some s → ∀ x ∈ s, H.Keeps x) :
    (finRepr c H v).eval c H n = .ok (.set (optFin v)) := by
  cases v with
  | none => simp [finRepr, Py.eval, optFin]
  | some s =>
    have hne : c.iter s ≠ [] := by
      obtain ⟨x, hx⟩ := hv s rfl
      intro h
      have := (c.mem_iter s x).2 hx
      simp [h] at this
    rw [finRepr, Py.eval_join (v := .num) hne (fun x hx => Py.eval_num (hk s rfl x ((c.mem_iter s x).1 hx))) (k := []) (by rw [Args.eval])]
    have : ((c.iter s).map PyVal.num).mapM PyVal.ereal = .ok (c.iter s) := mapM_const (fun _ _ => rfl)
    have e : (c.iter s).toFinset = s := by ext x; simp [c.mem_iter]
    simp [callPy, this, hne, e, optFin]

theorem nomRepr_eval {v : Option Nom} (hv : NomPrintable v) : (nomRepr H v).eval c H n = .ok (.set (optNom v)) := by
  cases v with
  | none => simp [nomRepr, Py.eval, optNom]
  | some m =>
    obtain ⟨x, hx⟩ := hv
    have hne : H.iter m.vals ≠ [] := by
      intro h
      have := H.iter_set m.vals
      rw [h] at this
      rw [← this] at hx
      simp at hx
    have hb : ∀ b, (optBoolRepr b).eval c H n = .ok (match b with | none => .none | some b => .bool b) := by
      intro b
      cases b <;> simp [optBoolRepr, Py.eval]
    rw [nomRepr, Py.eval_join (v := .str) hne (fun x hx => by rw [Py.eval]) (k := [("b", match m.b with | none => .none | some b => .bool b)])
      (by simp [Args.eval, hb])]
    have : ((H.iter m.vals).map PyVal.str).mapM PyVal.string = .ok (H.iter m.vals) := mapM_const (fun _ _ => rfl)
    have hm : ∀ b, mkNom m.vals b = .ok ⟨m.vals, b⟩ := fun b => by rw [mkNom, if_pos (Or.inl ⟨x, hx⟩)]
    obtain ⟨vals, b⟩ := m
    cases b <;> simp [callPy, this, H.iter_set, optNom] <;> simp_all

theorem toDegree_nat {d : ℕ} (h : d ≠ 0) : toDegree ((d : ℝ) : EReal) = .ok d := by
  have hx : ((d : ℝ) : EReal) ≠ 0 := by
    intro h'
    exact h (by exact_mod_cast h')
  have hn : ∃ n : ℕ, ((d : ℝ) : EReal) = ((n : ℝ) : EReal) := ⟨d, rfl⟩
  rw [toDegree, if_neg hx, dif_pos hn]
  have := hn.choose_spec
  have e : d = hn.choose := by exact_mod_cast this
  rw [← e]

theorem PyVal.real_num (x : ℝ) : (PyVal.num (x : EReal)).real = .ok x := by
  simp [PyVal.real]

theorem Tr.reprL_eval {ts : List Tr} (h : ∀ t ∈ ts, (t.repr c H).eval c H n = .ok (.tr t)) :
    (Tr.reprL c H ts).eval c H n = .ok (ts.map .tr, []) := by
  induction ts with
  | nil => rw [Tr.reprL, Args.eval]; rfl
  | cons t ts ih =>
    rw [Tr.reprL, Args.eval, h t (by simp), ih (fun a ha => h a (by simp [ha]))]
    rfl

theorem Ev.reprL_eval {ts : List Ev} (h : ∀ t ∈ ts, (t.repr c H).eval c H n = .ok (.ev t)) :
    (Ev.reprL c H ts).eval c H n = .ok (ts.map .ev, []) := by
  induction ts with
  | nil => rw [Ev.reprL, Args.eval]; rfl
  | cons t ts ih =>
    rw [Ev.reprL, Args.eval, h t (by simp), ih (fun a ha => h a (by simp [ha]))]
    rfl

theorem repr_eval : (∀ t : Tr, t.MadeG r0 c → t.Printable H → Ev8 (fun n => (t.repr c H).eval c H n = .ok (.tr t))) ∧
    ∀ e : Ev, e.MadeG r0 c → e.Printable H → Ev8 (fun n => (e.repr c H).eval c H n = .ok (.ev e)) := by
  apply sizeInd
  · intro t iht ihe hm hp
    cases hm with
    | id s =>
      refine Ev8.of (fun n => ?_)
      rw [Tr.repr, Py.eval_call]
      simp [Args.eval, Py.eval, callPy, bindArgs]
    | @radical t d h1 h2 =>
      rw [Tr.Printable] at hp
      refine (iht t (by simp; omega) h1 hp.1).mono (fun n hn => ?_)
      rw [Tr.repr, Py.eval_call]
      simp only [Args.eval, hn, Py.eval_num hp.2, ok_bind]
      have hd := toDegree_nat h2
      simp only [EReal.coe_natCast] at hd
      simp [callPy, bindArgs, List.lookup, PyVal.ereal, hd, PyVal.subexpr]
    | @exp t b h1 h2 =>
      rw [Tr.Printable] at hp
      refine (iht t (by simp; omega) h1 hp.1).mono (fun n hn => ?_)
      rw [Tr.repr, Py.eval_call]
      simp only [Args.eval, hn, Py.eval_num hp.2, ok_bind]
      simp [callPy, bindArgs, List.lookup, PyVal.real_num, PyVal.subexpr, show 0 < b by linarith]
    | @log t b h1 h2 =>
      rw [Tr.Printable] at hp
      refine (iht t (by simp; omega) h1 hp.1).mono (fun n hn => ?_)
      rw [Tr.repr, Py.eval_call]
      simp only [Args.eval, hn, Py.eval_num hp.2, ok_bind]
      simp [callPy, bindArgs, List.lookup, PyVal.real_num, PyVal.subexpr, h2]
    | @abs t h1 =>
      rw [Tr.Printable] at hp
      refine (iht t (by simp) h1 hp).mono (fun n hn => ?_)
      rw [Tr.repr, Py.eval_call]
      simp only [Args.eval, hn, ok_bind]
      simp [callPy, bindArgs, List.lookup, PyVal.subexpr]
    | @recip t h1 =>
      rw [Tr.Printable] at hp
      refine (iht t (by simp) h1 hp).mono (fun n hn => ?_)
      rw [Tr.repr, Py.eval_call]
      simp only [Args.eval, hn, ok_bind]
      simp [callPy, bindArgs, List.lookup, PyVal.subexpr]
    | @poly t cs h1 h2 =>
      rw [Tr.Printable] at hp
      refine (iht t (by simp; omega) h1 hp.1).mono (fun n hn => ?_)
      rw [Tr.repr, Py.eval_call]
      have hcs : (seqArgs (cs.map (fun (x : ℝ) => Py.num (H.repr (x : EReal))))).eval c H n = .ok (cs.map (fun (x : ℝ) => PyVal.num (x : EReal)), []) := by
        have := Args.eval_foldr (c := c) (H := H) (n := n) (g := fun (x : ℝ) => Py.num (H.repr (x : EReal))) (v := fun (x : ℝ) => PyVal.num (x : EReal)) (l := cs)
          (rest := .nil) (p := []) (k := []) (fun x hx => Py.eval_num (hp.2 x hx)) (by rw [Args.eval])
        simpa [seqArgs] using this
      simp only [Args.eval, hn, Py.eval, hcs, ok_bind]
      have hm : (cs.map (fun (x : ℝ) => PyVal.num (x : EReal))).mapM PyVal.real = .ok cs := mapM_const (fun x _ => PyVal.real_num x)
      simp [callPy, bindArgs, List.lookup, PyVal.items, PyVal.subexpr, h2, hm]
    | @pw ts es ds m h1 h2 h3 =>
      rw [Tr.Printable, Tr.printableL_iff, Ev.printableL_iff] at hp
      have ht := Ev8.all ts (fun t ht => iht t (by have := List.sizeOf_lt_of_mem ht; simp; omega) (h1 t ht) (hp.1 t ht))
      have he := Ev8.all es (fun t ht => ihe t (by have := List.sizeOf_lt_of_mem ht; simp; omega) (h2 t ht) (hp.2 t ht))
      refine ((ht.and he).and (⟨m, fun n hn => mkPiecewise_le hn ts es _ h3⟩ : Ev8 (fun n => mkPiecewise c n ts es = .ok (.pw ts es ds)))).mono
        (fun n hn => ?_)
      rw [Tr.repr, Py.eval_call]
      simp only [Args.eval, Py.eval, Tr.reprL_eval hn.1.1, Ev.reprL_eval hn.1.2, ok_bind]
      have k1 : (ts.map PyVal.tr).mapM PyVal.subexpr = .ok ts := mapM_const (fun _ _ => rfl)
      have k2 : (es.map PyVal.ev).mapM PyVal.event = .ok es := mapM_const (fun _ _ => rfl)
      simp [callPy, bindArgs, List.lookup, PyVal.items, k1, k2, hn.2]
  · intro e iht ihe hm hp
    cases hm with
    | @ivl t i h1 h2 =>
      rw [Ev.Printable] at hp
      refine (iht t (by simp; omega) h1 hp.1).mono (fun n hn => ?_)
      rw [Ev.repr, Py.eval_call]
      simp only [Args.eval, hn, Ivl.repr_eval h2 hp.2.1 hp.2.2, ok_bind]
      simp [callPy, bindArgs, List.lookup, PyVal.subexpr]
    | @fin t v h1 h2 =>
      rw [Ev.Printable] at hp
      refine (iht t (by simp; omega) h1 hp.1).mono (fun n hn => ?_)
      rw [Ev.repr, Py.eval_call]
      simp only [Args.eval, hn, finRepr_eval h2 hp.2, ok_bind]
      cases v with
      | none => simp [callPy, bindArgs, List.lookup, PyVal.subexpr, optFin]
      | some s =>
        have := (h2 s rfl).ne_empty
        simp [callPy, bindArgs, List.lookup, PyVal.subexpr, optFin, this]
    | @nom t v h1 h2 h3 =>
      rw [Ev.Printable] at hp
      refine (iht t (by simp; omega) h1 hp.1).mono (fun n hn => ?_)
      rw [Ev.repr, Py.eval_call]
      simp only [Args.eval, hn, nomRepr_eval hp.2, ok_bind]
      cases v <;> simp [callPy, bindArgs, List.lookup, PyVal.subexpr, optNom]
    | @or es h1 h2 =>
      rw [Ev.Printable, Ev.printableL_iff] at hp
      refine (Ev8.all es (fun t ht => ihe t (by have := List.sizeOf_lt_of_mem ht; simp; omega) (h2 t ht) (hp t ht))).mono (fun n hn => ?_)
      rw [Ev.repr, Py.eval_call]
      simp only [Args.eval, Py.eval, Ev.reprL_eval hn, ok_bind]
      have k2 : (es.map PyVal.ev).mapM PyVal.event = .ok es := mapM_const (fun _ _ => rfl)
      simp [callPy, bindArgs, PyVal.items, k2, h1]
    | @and es h1 h2 =>
      rw [Ev.Printable, Ev.printableL_iff] at hp
      refine (Ev8.all es (fun t ht => ihe t (by have := List.sizeOf_lt_of_mem ht; simp; omega) (h2 t ht) (hp t ht))).mono (fun n hn => ?_)
      rw [Ev.repr, Py.eval_call]
      simp only [Args.eval, Py.eval, Ev.reprL_eval hn, ok_bind]
      have k2 : (es.map PyVal.ev).mapM PyVal.event = .ok es := mapM_const (fun _ _ => rfl)
      simp [callPy, bindArgs, PyVal.items, k2, h1]

end Sppl
