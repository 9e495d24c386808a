import Verif.Events.Model

set_option linter.all false

/-!
# The depth bound of `invert` does not change results
-/

namespace Sppl
open Classical

/-- The second computation returns whatever the first one returns. -/
def Le {α : Type} (x y : Res α) : Prop := ∀ a, x = .ok a → y = .ok a

theorem Le.rfl {α : Type} {x : Res α} : Le x x := fun _ h => h

theorem Le.bind {α β : Type} {x y : Res α} {f g : α → Res β} (h : Le x y) (hf : ∀ a, Le (f a) (g a)) : Le (x >>= f) (y >>= g) := by
  intro b hb
  cases x with
  | error e => cases hb
  | ok a =>
    rw [h a _root_.rfl]
    exact hf a b hb

theorem Le.mapM {α β : Type} {f g : α → Res β} : ∀ (l : List α), (∀ a ∈ l, Le (f a) (g a)) → Le (l.mapM f) (l.mapM g)
  | [], _ => by simpa using Le.rfl
  | a :: l, h => by
    simp only [List.mapM_cons]
    exact (h a (by simp)).bind (fun b => (Le.mapM l (fun a ha => h a (by simp [ha]))).bind (fun _ => Le.rfl))

variable {c : Ctx} {inv inv' : Tr → SSet EReal → Res (SSet EReal)} {invE invE' : Ev → SSet EReal → Res (SSet EReal)}

theorem pwInverse_le (h : ∀ t V, Le (inv t V) (inv' t V)) (ts : List Tr) (ds : List (SSet EReal)) (V : SSet EReal) :
    Le (pwInverse c inv ts ds V) (pwInverse c inv' ts ds V) :=
  (Le.mapM _ (fun t _ => h t V)).bind (fun _ => Le.rfl)

theorem Tr.invertFinite_le (h : ∀ t V, Le (inv t V) (inv' t V)) (t : Tr) (s : Finset EReal) :
    Le (t.invertFinite c inv s) (t.invertFinite c inv' s) := by
  cases t <;> first | exact Le.rfl | exact pwInverse_le h _ _ _ | exact Le.rfl.bind (fun _ => Le.rfl.bind (fun _ => h _ _))

theorem Tr.invertInterval_le (h : ∀ t V, Le (inv t V) (inv' t V)) (t : Tr) (i : Ivl EReal) :
    Le (t.invertInterval c inv i) (t.invertInterval c inv' i) := by
  cases t <;> first | exact Le.rfl | exact pwInverse_le h _ _ _ | exact Le.rfl.bind (fun _ => h _ _)

theorem Tr.invertStep_le (h : ∀ t V, Le (inv t V) (inv' t V)) (t : Tr) (V : SSet EReal) :
    Le (t.invertStep c inv V) (t.invertStep c inv' V) := by
  match V with
  | .empty => exact Le.rfl
  | .pc (.fin s) => exact Tr.invertFinite_le h t s
  | .pc (.ivl i) => exact Tr.invertInterval_le h t i
  | .un u => exact (Le.mapM _ (fun p _ => h t _)).bind (fun _ => Le.rfl)
  | .pc (.nom _) => exact Le.rfl

theorem Tr.invert_le_succ : ∀ (n : ℕ) (t : Tr) (V : SSet EReal), Le (Tr.invert c n t V) (Tr.invert c (n + 1) t V)
  | 0, t, V => by intro a h; cases h
  | n + 1, t, V => Le.rfl.bind (fun _ => Le.rfl.bind (fun _ => Tr.invertStep_le (Tr.invert_le_succ n) t _))

theorem Ev.invertFinite_le (h : ∀ t V, Le (inv t V) (inv' t V)) (hE : ∀ t V, Le (invE t V) (invE' t V)) (s : Finset EReal) (e : Ev) :
    Le (e.invertFinite c inv invE s) (e.invertFinite c inv' invE' s) := by
  cases e with
  | ivl t i => exact Le.rfl.bind (fun _ => Le.rfl.bind (fun _ => h _ _))
  | fin t v => exact Le.rfl.bind (fun _ => Le.rfl.bind (fun _ => h _ _))
  | nom t v => exact Le.rfl
  | or es => exact (Le.mapM _ (fun p _ => hE _ _)).bind (fun _ => Le.rfl)
  | and es => exact (Le.mapM _ (fun p _ => hE _ _)).bind (fun _ => Le.rfl)

theorem Ev.invert_le_succ : ∀ (n : ℕ) (e : Ev) (V : SSet EReal), Le (Ev.invert c n e V) (Ev.invert c (n + 1) e V)
  | 0, e, V => by intro a h; cases h
  | n + 1, e, V => by
    rw [Ev.invert, Ev.invert]
    refine Le.rfl.bind (fun i => ?_)
    match i with
    | .empty => exact Le.rfl
    | .pc (.fin s) => exact Ev.invertFinite_le (Tr.invert_le_succ n) (Ev.invert_le_succ n) s e
    | .pc (.ivl _) => exact Le.rfl
    | .un _ => exact Le.rfl
    | .pc (.nom _) => exact Le.rfl

theorem Ev.solve_le_succ (n : ℕ) (e : Ev) : Le (e.solve c n) (e.solve c (n + 1)) := by
  have : Le (if 1 < e.symbols.card then .error .value else Ev.invert c n e (.pc (.fin {1})))
      (if 1 < e.symbols.card then .error .value else Ev.invert c (n + 1) e (.pc (.fin {1}))) := by
    split
    · exact Le.rfl
    · exact Ev.invert_le_succ n e _
  unfold Ev.solve
  split <;> first | exact Le.rfl | exact this

theorem mkPiecewise_le_succ (n : ℕ) (ts : List Tr) (es : List Ev) : Le (mkPiecewise c n ts es) (mkPiecewise c (n + 1) ts es) := by
  unfold mkPiecewise
  repeat' (first | exact Le.rfl | (refine (Le.mapM _ (fun e _ => Ev.solve_le_succ n e)).bind (fun _ => Le.rfl)) | split)

theorem le_of_succ {α : Type} {f : ℕ → Res α} (h : ∀ n, Le (f n) (f (n + 1))) {n m : ℕ} (hnm : n ≤ m) : Le (f n) (f m) := by
  induction hnm with
  | refl => exact Le.rfl
  | step _ ih => exact fun a ha => h _ a (ih a ha)

theorem mkPiecewise_le {n m : ℕ} (h : n ≤ m) (ts : List Tr) (es : List Ev) : Le (mkPiecewise c n ts es) (mkPiecewise c m ts es) :=
  le_of_succ (fun n => mkPiecewise_le_succ n ts es) h

theorem Tr.invert_le {n m : ℕ} (h : n ≤ m) (t : Tr) (V : SSet EReal) : Le (Tr.invert c n t V) (Tr.invert c m t V) :=
  le_of_succ (fun n => Tr.invert_le_succ n t V) h

theorem Ev.solve_le {n m : ℕ} (h : n ≤ m) (e : Ev) : Le (e.solve c n) (e.solve c m) := le_of_succ (fun n => Ev.solve_le_succ n e) h

end Sppl
