import Verif.Render.GraphProps
import Verif.Spe.CacheProps

set_option linter.all false

/-!
# C37, C55: the size of an SPE
-/

namespace Sppl
open Classical MeasureTheory

/-- Whether a node shows an SPE, not the expression of a derived variable. -/
def NodeLabel.isSpe : NodeLabel → Bool
  | .tr _ => false
  | _ => true

mutual
/-- The number of nodes that show SPEs. -/
def Drawing.spes : Drawing → ℕ
  | .node l ks => (if l.isSpe then 1 else 0) + Drawing.spesL ks
/-- See `Drawing.spes`. -/
def Drawing.spesL : List (EdgeLabel × Drawing) → ℕ
  | [] => 0
  | k :: ks => k.2.spes + Drawing.spesL ks
end

theorem sizeL_map : ∀ cs : List Spe, Spe.sizeL cs = cs.map Spe.size
  | [] => rfl
  | s :: ss => by rw [Spe.sizeL, sizeL_map ss]; rfl

theorem drawingL_map (fmt : ℝ → String) : ∀ cs : List Spe, Spe.drawingL fmt cs = cs.map (Spe.drawing fmt)
  | [] => rfl
  | s :: ss => by rw [Spe.drawingL, drawingL_map fmt ss]; rfl

theorem spesL_zip (fmt : ℝ → String) : ∀ (ls : List EdgeLabel) (cs : List Spe), ls.length = cs.length → (∀ s ∈ cs, (s.drawing fmt).spes = s.size) →
    Drawing.spesL (ls.zip (cs.map (Spe.drawing fmt))) = (cs.map Spe.size).sum
  | [], [], _, _ => rfl
  | [], _ :: _, h, _ => by simp at h
  | _ :: _, [], h, _ => by simp at h
  | l :: ls, s :: cs, h, hs => by
    simp only [List.map_cons, List.zip_cons_cons, Drawing.spesL, List.sum_cons]
    rw [hs s (by simp), spesL_zip fmt ls cs (by simpa using h) (fun t ht => hs t (by simp [ht]))]

/-- **C55 (the size).** `size()` is the number of nodes of the drawing that show SPEs: those of derived variables are not
counted, and an SPE that occurs twice is counted twice. -/
theorem C55_size (fmt : ℝ → String) {s : Spe} (hs : s.Weighted) : s.size = (s.drawing fmt).spes := by
  symm
  induction hs with
  | @real k X d supp cond env hX =>
    have : ∀ l : List (String × Tr), Drawing.spesL (l.map (fun p => (EdgeLabel.var p.1, Drawing.node (.tr p.2) []))) = 0 := by
      intro l
      induction l with
      | nil => rfl
      | cons p l ih => simp [Drawing.spesL, Drawing.spes, NodeLabel.isSpe, ih]
    simp only [Spe.drawing, Drawing.spes, NodeLabel.isSpe, if_true, this, Spe.size]
  | atomic => simp [Spe.drawing, Drawing.spes, Drawing.spesL, NodeLabel.isSpe, Spe.size]
  | nominal => simp [Spe.drawing, Drawing.spes, Drawing.spesL, NodeLabel.isSpe, Spe.size]
  | @sum cs ws h hl ih =>
    simp only [Spe.drawing, Drawing.spes, NodeLabel.isSpe, if_true, Spe.size, sizeL_map, drawingL_map]
    rw [spesL_zip fmt _ cs (by simp [hl]) ih]
  | @prod cs h ih =>
    simp only [Spe.drawing, Drawing.spes, NodeLabel.isSpe, if_true, Spe.size, sizeL_map, drawingL_map]
    rw [spesL_zip fmt _ cs (by simp) ih]

/-- **C37 (the size).** `spe_cache_duplicate_subtrees` does not change the size, which counts a shared SPE once for every
place where it occurs. -/
theorem C37_size {c : Ctx} {L : Lib} {μ : Dist → Measure ℝ} {hash : Spe → ℤ} {P : Spe → Prop} {m : Cache} {s : Spe} {r : Spe × Cache}
    (hh : HashOK hash) (hP : ∀ s, P s → s.WF c L μ) (hm : Cache.From hash P m) (hs : s.WF c L μ) (h : s.cache hash m = .ok r) : r.1.size = s.size := by
  obtain ⟨r', h', k, -⟩ := C37_equal hh hP hm hs (cache_hashable h)
  rw [h'] at h; cases h
  exact eqPy_size _ _ k

/-! ## Non-vacuity -/

/-- Two coins: three nodes. -/
example : coins.Weighted ∧ coins.size = 3 := by
  refine ⟨.prod ?_, by simp [coins, coin, Spe.size, Spe.sizeL]⟩
  intro s hs
  simp only [List.mem_cons, List.not_mem_nil, or_false] at hs
  rcases hs with rfl | rfl <;> exact .nominal

/-- The SPE of the example of `CacheProps`, with nothing cached before: seven nodes. -/
example : HashOK hashE ∧ twice.WF ctx0 (libOf muU) muU ∧ Cache.From hashE (fun _ => False) [] ∧ twice.size = 7 :=
  ⟨hashE_ok, twice_wf _ _ _, .nil, by simp [twice, coin, Spe.size, Spe.sizeL]⟩

end Sppl
