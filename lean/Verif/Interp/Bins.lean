import Verif.Interp.Model

/-!
# `binspace`: the bins that a `Switch` on a continuous variable is given (sym_util.py)
-/

namespace Sppl

/-- `numpy.linspace(start, stop, num)`: `start + i * step` for `i < num`, where `step = (stop - start) / (num - 1)`.  Simplified: exact numbers, which
are finite; numpy also sets the last number to `stop`, the same here.  (For `num = 1` the only number is `start`, whatever the step is.) -/
noncomputable def linspace (start stop : ℝ) (num : ℤ) : Res (List ℝ) :=
  if num < 0 then .error .value
  else .ok ((List.range num.toNat).map (fun i : ℕ => start + i * ((stop - start) / (num - 1))))

/-- sym_util.py 35-38 `binspace`. -/
noncomputable def binspace (start stop : ℝ) (num : ℤ) : Res (List (SSet EReal)) := do
  let values ← linspace start stop num
  let bins := values.dropLast.zip values.tail
  bins.mapM (fun b => do
    let i ← mkIvl (b.1 : EReal) (b.2 : EReal) false false
    .ok (.pc (.ivl i)))

end Sppl
