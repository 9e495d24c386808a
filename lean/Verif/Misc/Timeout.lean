import Mathlib.Data.NNReal.Defs

set_option linter.all false

/-!
# Model of timeout.py, and C56: time limits

A process has one alarm (`signal.alarm`) and one handler (`signal.signal(SIGALRM, ...)`).
-/

namespace Sppl
open Classical
open scoped NNReal

/-- Computations: they take time, and use `with timeout(...)` and `try ... except TimeoutError`. -/
inductive Task
  /-- A computation that takes `t` seconds, and does not touch the alarm. -/
  | work (t : ℝ≥0)
  /-- One after the other. -/
  | seq (a b : Task)
  /-- timeout.py 6-17: `with timeout(seconds=n, error_message=msg): body`. -/
  | limit (n : ℕ) (msg : String) (body : Task)
  /-- poly.py 42-46, 112-116: `try: a; except TimeoutError: b`. -/
  | attempt (a b : Task)

/-- The alarm: the seconds that remain, and the message of the handler; `none` if no alarm is set. -/
abbrev Alarm := Option (ℝ≥0 × String)

/-- timeout.py 13-15 `__enter__`: `signal.alarm(n)` replaces the alarm that was set before; `signal.alarm(0)` sets none. -/
def enterAlarm (n : ℕ) (msg : String) : Alarm := if n = 0 then none else some ((n : ℝ≥0), msg)

/-- Running a computation: the time that passed, and either the alarm that is left, or the message of the `TimeoutError`
(timeout.py 11-12 `handle_timeout`), after which no alarm is set. -/
noncomputable def Task.run : Task → Alarm → ℝ≥0 × Except String Alarm
  | .work t, none => (t, .ok none)
  | .work t, some (r, msg) => if t < r then (t, .ok (some (r - t, msg))) else (r, .error msg)
  | .seq a b, al =>
    match a.run al with
    | (t, .ok al') => let q := b.run al'; (t + q.1, q.2)
    | (t, .error m) => (t, .error m)
  | .limit n msg body, _ =>
    match body.run (enterAlarm n msg) with
    -- timeout.py 16-17 `__exit__`: `signal.alarm(0)`
    | (t, .ok _) => (t, .ok none)
    | (t, .error m) => (t, .error m)
  | .attempt a b, al =>
    match a.run al with
    | (t, .ok al') => (t, .ok al')
    | (t, .error _) => let q := b.run none; (t + q.1, q.2)

/-- The time that a computation without limits takes. -/
def Task.duration : Task → ℝ≥0
  | .work t => t
  | .seq a b => a.duration + b.duration
  | .limit _ _ body => body.duration
  | .attempt a _ => a.duration

/-- No limits inside. -/
def Task.Plain : Task → Prop
  | .work _ => True
  | .seq a b => a.Plain ∧ b.Plain
  | .limit _ _ _ => False
  | .attempt _ _ => False

theorem Task.run_plain {msg : String} : ∀ (a : Task), a.Plain → ∀ r : ℝ≥0,
    a.run (some (r, msg)) = if a.duration < r then (a.duration, .ok (some (r - a.duration, msg))) else (r, .error msg)
  | .work t, _, r => by rw [Task.run, Task.duration]
  | .seq a b, h, r => by
    rw [Task.run, Task.run_plain a h.1 r]
    by_cases h1 : a.duration < r
    · simp only [if_pos h1]
      rw [Task.run_plain b h.2]
      by_cases h2 : a.duration + b.duration < r
      · have h3 : b.duration < r - a.duration := by rw [lt_tsub_iff_left]; exact h2
        rw [Task.duration, if_pos h2, if_pos h3, tsub_tsub]
      · have h3 : ¬ b.duration < r - a.duration := by rw [lt_tsub_iff_left]; exact h2
        rw [Task.duration, if_neg h2, if_neg h3]; simp only [add_tsub_cancel_of_le h1.le]
    · have h2 : ¬ a.duration + b.duration < r := fun h => h1 (lt_of_le_of_lt le_self_add h)
      rw [Task.duration, if_neg h2, if_neg h1]

theorem Task.run_free : ∀ (a : Task), a.Plain → a.run none = (a.duration, .ok none)
  | .work t, _ => by simp [Task.run, Task.duration]
  | .seq a b, h => by simp only [Task.run, Task.run_free a h.1, Task.run_free b h.2, Task.duration]

/-- **C56.** A computation under `timeout(n)` that sets no limits itself: if it takes less than `n` seconds it is not disturbed, otherwise `TimeoutError` is raised after `n` seconds.
With `n = 0` there is no limit.  Missing from the full claim: computations that set limits themselves, for which it is false (`C56_nested_wrong`). -/
theorem C56_limit_partial {body : Task} (h : body.Plain) (n : ℕ) (msg : String) (al : Alarm) :
    (Task.limit n msg body).run al = if n = 0 ∨ body.duration < n then (body.duration, .ok none) else ((n : ℝ≥0), .error msg) := by
  rw [Task.run]
  by_cases h0 : n = 0
  · simp only [enterAlarm, if_pos h0, Task.run_free body h, h0, true_or, if_true]
  · rw [enterAlarm, if_neg h0, Task.run_plain body h]
    by_cases h1 : body.duration < n
    · rw [if_pos (Or.inr h1), if_pos h1]
    · rw [if_neg h1, if_neg (by simp [h0, h1])]

/-- poly.py 42-51, 112-121: solving symbolically for `n` seconds at most, and then numerically (if there was no useful solution): it never raises `TimeoutError`, and takes at most `n`
seconds more than the numerical solution. -/
theorem C56_fallback {sym num : Task} (h1 : sym.Plain) (h2 : num.Plain) {n : ℕ} (hn : n ≠ 0) (msg : String) (al : Alarm) :
    ((Task.attempt (.limit n msg sym) (.work 0)).run al).1 ≤ n ∧ ((Task.attempt (.limit n msg sym) (.work 0)).run al).2 = .ok none ∧
    ((Task.seq (.attempt (.limit n msg sym) (.work 0)) num).run al).1 ≤ n + num.duration ∧ ((Task.seq (.attempt (.limit n msg sym) (.work 0)) num).run al).2 = .ok none := by
  have h : ∃ t : ℝ≥0, t ≤ n ∧ (Task.attempt (.limit n msg sym) (.work 0)).run al = (t, .ok none) := by
    rw [Task.run, C56_limit_partial h1]
    by_cases h : sym.duration < n
    · exact ⟨sym.duration, h.le, by simp only [hn, false_or, if_pos h]⟩
    · exact ⟨n, le_refl _, by simp [hn, h, Task.run]⟩
  obtain ⟨t, ht, h⟩ := h
  refine ⟨by rw [h]; exact ht, by rw [h], ?_, ?_⟩
  · rw [Task.run, h]
    simp only [Task.run_free num h2]
    gcongr
  · rw [Task.run, h]
    simp only [Task.run_free num h2]

/-- The full claim is false: the limit of a caller is forgotten when the code solves a polynomial (poly.py 43), since `__exit__` switches the alarm off and the handler of
the caller is not restored: the hundred seconds that follow are not interrupted after two. -/
theorem C56_nested_wrong (msg msg' : String) (al : Alarm) :
    (Task.limit 2 msg (.seq (.attempt (.limit 5 msg' (.work 1)) (.work 1)) (.work 100))).run al = (101, .ok none) := by
  have h : ((1 : ℝ≥0) < ((5 : ℕ) : ℝ≥0)) := by norm_num
  simp [Task.run, enterAlarm, h]
  norm_num

/-- The hypotheses are met. -/
example : (Task.seq (.work 1) (.work 2)).Plain := ⟨trivial, trivial⟩

end Sppl
