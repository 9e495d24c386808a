import Verif.Spe.Model

set_option linter.all false

/-!
# Model of magics/magics.py, and C57: the models of a notebook

What the compiler and Python do with a cell is a parameter: `load name source` is `compiler.execute_module()` (sppl_to_python.py 415-420), which returns a namespace
or raises.
-/

namespace Sppl
open Classical

variable {Src NS : Type}

/-- magics.py 22-24: the attribute `programs` of `SPPL_Magics`; of `Model` (magics.py 17) the source and the namespace. -/
abbrev Programs (Src NS : Type) := List (String × Src × NS)

/-- `self.programs.get(name)`. -/
def Programs.get (P : Programs Src NS) (name : String) : Option (Src × NS) := (P.find? (fun p => decide (p.1 = name))).map Prod.snd

/-- magics.py 31-40: the cell magic `%%sppl name`; the result is what remains of `programs`, and the exception if there is one. -/
def runCell (load : String → Src → Res NS) (P : Programs Src NS) (name : String) (src : Src) : Programs Src NS × Res Unit :=
  if name = "" then (P, .ok ())
  else
    let P' := P.filter (fun p => decide (p.1 ≠ name))
    match load name src with
    | .ok ns => ((name, src, ns) :: P', .ok ())
    | .error e => (P', .error e)

/-- Running cells one after the other; an exception in a cell does not stop the notebook. -/
def runCells (load : String → Src → Res NS) : Programs Src NS → List (String × Src) → Programs Src NS
  | P, [] => P
  | P, c :: cs => runCells load (runCell load P c.1 c.2).1 cs

/-- magics.py 26-29 `%sppl_get_spe name`: `getattr(namespace, name)` is `attr`. -/
def getSpe {A : Type} (attr : NS → String → Res A) (P : Programs Src NS) (name : String) : Res A :=
  match P.get name with
  | none => .error .assertion
  | some m => attr m.2 name

/-- magics.py 47-59 `%sppl_to_graph name`: which SPE is drawn; `local_` is `local_ns`. -/
def graphSpe {A : Type} (attr : NS → String → Res A) (local_ : String → Option A) (P : Programs Src NS) (name : String) : Res A :=
  match P.get name with
  | some m => attr m.2 name
  | none =>
    match local_ name with
    | some a => .ok a
    | none => .error .assertion

/-! ## Specification -/

/-- The source of the last cell with a name. -/
def lastCell (cs : List (String × Src)) (name : String) : Option Src := (cs.reverse.find? (fun c => decide (c.1 = name))).map Prod.snd

/-! ## Proofs -/

theorem get_filter (P : Programs Src NS) (name name' : String) :
    Programs.get (P.filter (fun p => decide (p.1 ≠ name))) name' = if name' = name then none else P.get name' := by
  unfold Programs.get
  rw [List.find?_filter]
  by_cases h : name' = name
  · rw [if_pos h, h]
    rw [List.find?_eq_none.2]
    · rfl
    · intro p _
      by_cases hp : p.1 = name <;> simp [hp]
  · rw [if_neg h]
    congr 2
    funext p
    by_cases hp : p.1 = name'
    · simp [hp, h]
    · simp [hp]

theorem get_runCell (load : String → Src → Res NS) (P : Programs Src NS) (name : String) (hn : name ≠ "") (src : Src) (name' : String) :
    Programs.get (runCell load P name src).1 name' =
      if name' = name then (match load name src with | .ok ns => some (src, ns) | .error _ => none) else P.get name' := by
  unfold runCell
  rw [if_neg hn]
  cases h : load name src with
  | error e => simp only; exact get_filter P name name'
  | ok ns =>
    simp only
    by_cases h' : name' = name
    · simp [Programs.get, h']
    · have h1 : ¬ name = name' := fun h => h' h.symm
      have := get_filter P name name'
      rw [if_neg h'] at this
      rw [if_neg h', ← this]
      simp [Programs.get, h1]

theorem get_runCells (load : String → Src → Res NS) : ∀ (cs : List (String × Src)) (P : Programs Src NS) (name : String), name ≠ "" →
    Programs.get (runCells load P cs) name =
      match lastCell cs name with
      | some src => (match load name src with | .ok ns => some (src, ns) | .error _ => none)
      | none => P.get name
  | [], P, name, _ => by simp [runCells, lastCell]
  | c :: cs, P, name, hn => by
    rw [runCells, get_runCells load cs _ name hn]
    unfold lastCell
    rw [List.reverse_cons, List.find?_append]
    cases h : cs.reverse.find? (fun c => decide (c.1 = name)) with
    | some d => simp
    | none =>
      simp only [Option.map_none, Option.none_or]
      by_cases hc : c.1 = name
      · rw [get_runCell load P c.1 (by rw [hc]; exact hn)]
        simp [hc]
      · have h1 : ¬ name = c.1 := fun h => hc h.symm
        by_cases h2 : c.1 = ""
        · simp [runCell, h2, hc, hn.symm]
        · rw [get_runCell load P c.1 h2]
          simp [h1, hc]

/-- **C57.** After any cells, `%sppl_get_spe name` gives the model of the last cell with that name if that cell compiled, and never that of an earlier one: if the last cell
raised, or there was none, it raises. -/
theorem C57_get_spe {A : Type} (load : String → Src → Res NS) (attr : NS → String → Res A) (cs : List (String × Src)) (name : String) (hn : name ≠ "") :
    getSpe attr (runCells load [] cs) name =
      match lastCell cs name with
      | some src => (match load name src with | .ok ns => attr ns name | .error _ => .error .assertion)
      | none => .error .assertion := by
  unfold getSpe
  rw [get_runCells load cs [] name hn]
  cases lastCell cs name with
  | none => simp [Programs.get]
  | some src =>
    simp only
    cases load name src <;> rfl

/-- **C57 (graphs).** `%sppl_to_graph name` draws a local variable only if no cell with the name was compiled last. -/
theorem C57_graph {A : Type} (load : String → Src → Res NS) (attr : NS → String → Res A) (local_ : String → Option A) (cs : List (String × Src)) (name : String) (hn : name ≠ "")
    {a : A} (hl : local_ name = some a) :
    graphSpe attr local_ (runCells load [] cs) name =
      match lastCell cs name with
      | some src => (match load name src with | .ok ns => attr ns name | .error _ => .ok a)
      | none => .ok a := by
  unfold graphSpe
  rw [get_runCells load cs [] name hn]
  cases lastCell cs name with
  | none => simp [Programs.get, hl]
  | some src =>
    simp only
    cases load name src <;> simp [hl]

/-- A model that is compiled, and compiled again with an error: the old one is gone. -/
example (load : String → ℕ → Res ℕ) (h0 : load "m" 0 = .ok 7) (h1 : load "m" 1 = .error .value) :
    getSpe (fun n _ => .ok n) (runCells load [] [("m", 0)]) "m" = .ok 7 ∧ getSpe (fun n _ => .ok n) (runCells load [] [("m", 0), ("m", 1)]) "m" = .error .assertion := by
  constructor
  · rw [C57_get_spe load _ _ _ (by decide)]; simp [lastCell, h0]
  · rw [C57_get_spe load _ _ _ (by decide)]; simp [lastCell, h1]

end Sppl
