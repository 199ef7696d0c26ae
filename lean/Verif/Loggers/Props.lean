import Verif.Loggers.Model
import Mathlib.Tactic.Linarith
import Mathlib.Algebra.BigOperators.Group.List.Basic

/-
  C48: only rank 0 writes, every call of rank 0 produces exactly one line, in order, whatever the other ranks do.
-/

namespace DGA.Log

/-! ### specification -/

/-- The part of a line that does not depend on the clock: kind and text. -/
def Line.text : Line → String × String
  | .header => ("header", "")
  | .memory _ n _ => ("memory", n)
  | .event _ _ _ m => ("event", m)
  | .message _ m => ("message", m)

/-- Kind and text a call of rank 0 must leave in the file. -/
def Call.text : Call → String × String
  | .new _ _ => ("header", "")
  | .logMemory _ n _ => ("memory", n)
  | .logEvent _ _ _ _ m => ("event", m)
  | .logMessage _ m => ("message", m)
  | .logCpuTime _ _ _ _ m => ("event", m)

/-- The call is not the constructor. -/
def Call.isLog : Call → Bool
  | .new _ _ => false
  | _ => true

/-- the clock readings of a call, in the order they are made -/
def Call.clock : Call → List Rat
  | .new a b => [a, b]
  | .logMemory a _ _ => [a]
  | .logEvent a b c d _ => [a, b, c, d]
  | .logMessage a _ => [a]
  | .logCpuTime a b c d _ => [a, b, c, d]

/-! ### who writes -/

/-- A call of any rank other than 0 never changes the log file. -/
theorem nonroot_silent (s s' : State) (r : Nat) (hr : r ≠ 0) (c : Call) (h : step s (r, c) = some s') :
    s'.file = s.file ∧ s'.rt 0 = s.rt 0 := by
  cases c <;> simp only [step, logEvent, hr, if_false] at h
  · simp only [Option.some.injEq] at h; subst h; exact ⟨rfl, by simp [Ne.symm hr]⟩
  all_goals
    split at h
    · simp at h
    · simp only [Option.some.injEq] at h; subst h; exact ⟨rfl, rfl⟩

/-- A logging call of rank 0 appends exactly one line, with the text of the call, and touches nothing else in the file. -/
theorem root_appends_one (s s' : State) (c : Call) (hc : c.isLog = true) (h : step s (0, c) = some s') :
    ∃ l, s'.file = s.file ++ [l] ∧ l.text = c.text ∧ (s'.rt 0).isSome := by
  cases c <;> simp only [step, logEvent, if_true] at h
  · simp [Call.isLog] at hc
  all_goals
    cases hrt : s.rt 0 with
    | none => simp [hrt] at h
    | some r =>
      simp only [hrt, Option.some.injEq] at h
      subst h
      exact ⟨_, rfl, rfl, by simp [hrt]⟩

/-- step only depends on file and own clock: two states that agree for rank 0 stay in agreement under a call of rank 0 -/
theorem step_root_congr (s t : State) (hf : s.file = t.file) (hr : s.rt 0 = t.rt 0) (c : Call) :
    (step s (0, c)).map (fun u => (u.file, u.rt 0)) = (step t (0, c)).map fun u => (u.file, u.rt 0) := by
  cases c <;> simp only [step, logEvent, hf, hr, if_true]
  · simp
  all_goals
    cases t.rt 0 with
    | none => rfl
    | some r => simp [hr]

/-- C48, interleavings. For every schedule of calls by any number of ranks that does not fail, the log file is the one
    rank 0 would have produced alone: it does not depend on the other ranks nor on the interleaving. -/
theorem file_only_root (sched : List (Nat × Call)) (s t s' : State) (hf : s.file = t.file) (hrt : s.rt 0 = t.rt 0)
    (h : run s sched = some s') :
    ∃ t', run t (sched.filter fun rc => rc.1 = 0) = some t' ∧ t'.file = s'.file ∧ t'.rt 0 = s'.rt 0 := by
  induction sched generalizing s t with
  | nil =>
    simp only [run, List.foldlM_nil, Option.pure_def, Option.some.injEq] at h
    subst h
    exact ⟨t, rfl, hf.symm, hrt.symm⟩
  | cons rc sched ih =>
    unfold run at h
    rw [List.foldlM_cons] at h
    cases hs : step s rc with
    | none => simp [hs] at h
    | some s1 =>
      simp only [hs, Option.bind_eq_bind, Option.bind_some] at h
      obtain ⟨r, c⟩ := rc
      by_cases hr : r = 0
      · subst hr
        have hcong := step_root_congr s t hf hrt c
        rw [hs] at hcong
        cases ht : step t (0, c) with
        | none => simp [ht] at hcong
        | some t1 =>
          rw [ht] at hcong
          simp only [Option.map_some, Option.some.injEq, Prod.mk.injEq] at hcong
          obtain ⟨t', e1, e2, e3⟩ := ih s1 t1 hcong.1 hcong.2 h
          refine ⟨t', ?_, e2, e3⟩
          rw [List.filter_cons_of_pos (by simp)]
          unfold run at e1 ⊢
          rw [List.foldlM_cons]
          simpa [ht] using e1
      · obtain ⟨g1, g2⟩ := nonroot_silent s s1 r hr c hs
        obtain ⟨t', e1, e2, e3⟩ := ih s1 t (g1.trans hf) (g2.trans hrt) h
        refine ⟨t', ?_, e2, e3⟩
        rw [List.filter_cons_of_neg (by simp [hr])]
        exact e1

/-- the lines of rank 0's own calls -/
theorem root_run (calls : List Call) (hc : ∀ c ∈ calls, c.isLog = true) (s s' : State)
    (h : run s (calls.map fun c => (0, c)) = some s') :
    ∃ ls, s'.file = s.file ++ ls ∧ ls.map Line.text = calls.map Call.text := by
  induction calls generalizing s with
  | nil =>
    simp only [run, List.map_nil, List.foldlM_nil, Option.pure_def, Option.some.injEq] at h
    subst h
    exact ⟨[], by simp⟩
  | cons c calls ih =>
    unfold run at h
    rw [List.map_cons, List.foldlM_cons] at h
    cases hs : step s (0, c) with
    | none => simp [hs] at h
    | some s1 =>
      simp only [hs, Option.bind_eq_bind, Option.bind_some] at h
      obtain ⟨l, h1, h2, _⟩ := root_appends_one s s1 c (hc c (by simp)) hs
      obtain ⟨ls, h3, h4⟩ := ih (fun x hx => hc x (by simp [hx])) s1 h
      exact ⟨l :: ls, by rw [h3, h1]; simp, by simp [h2, h4]⟩

/-- C48. Rank 0 creates its logger and then makes the logging calls `calls`; the other ranks create loggers and log at
    arbitrary moments.  Whatever the interleaving `sched` and whatever was in the file before, the file holds the header
    and then exactly one line per call of rank 0, in order and with its text; nothing of the other ranks. -/
theorem log_once_in_order (sched : List (Nat × Call)) (t1 t2 : Rat) (calls : List Call)
    (hroot : sched.filter (fun rc => rc.1 = 0) = (0, Call.new t1 t2) :: calls.map fun c => (0, c))
    (hc : ∀ c ∈ calls, c.isLog = true) (s s' : State) (h : run s sched = some s') :
    s'.file.map Line.text = ("header", "") :: calls.map Call.text := by
  obtain ⟨t', e1, e2, _⟩ := file_only_root sched s s s' rfl rfl h
  rw [hroot] at e1
  unfold run at e1
  rw [List.foldlM_cons] at e1
  simp only [step, if_true, Option.bind_eq_bind, Option.bind_some] at e1
  obtain ⟨ls, h1, h2⟩ := root_run calls hc _ t' e1
  rw [← e2, h1]
  simp [h2, Line.text]

/-- No schedule fails in which every rank creates its logger before it logs. -/
theorem run_total (sched : List (Nat × Call)) (s : State)
    (h : ∀ (i : Nat) (r : Nat) (c : Call), sched[i]? = some (r, c) → c.isLog = true →
      (s.rt r).isSome ∨ ∃ (j : Nat) (t1 t2 : Rat), j < i ∧ sched[j]? = some (r, Call.new t1 t2)) :
    ∃ s', run s sched = some s' := by
  induction sched generalizing s with
  | nil => exact ⟨s, rfl⟩
  | cons rc sched ih =>
    obtain ⟨r, c⟩ := rc
    have hstep : ∃ s1, step s (r, c) = some s1 ∧ (∀ k, (s.rt k).isSome → (s1.rt k).isSome) ∧
        (∀ t1 t2, c = Call.new t1 t2 → (s1.rt r).isSome) := by
      cases c with
      | new t1 t2 =>
        refine ⟨_, rfl, fun k hk => ?_, fun _ _ _ => by simp⟩
        simp only
        split <;> simp_all
      | logMemory now name gb =>
        have h0 := h 0 r _ rfl rfl
        obtain ⟨x, hx⟩ := Option.isSome_iff_exists.mp (h0.resolve_right (by rintro ⟨j, _, _, hj, _⟩; omega))
        simp only [step, hx]
        refine ⟨_, rfl, fun k hk => ?_, fun _ _ he => by simp at he⟩
        split <;> exact hk
      | logMessage now m =>
        have h0 := h 0 r _ rfl rfl
        obtain ⟨x, hx⟩ := Option.isSome_iff_exists.mp (h0.resolve_right (by rintro ⟨j, _, _, hj, _⟩; omega))
        simp only [step, hx]
        refine ⟨_, rfl, fun k hk => ?_, fun _ _ he => by simp at he⟩
        split <;> exact hk
      | logEvent now tt a b m =>
        have h0 := h 0 r _ rfl rfl
        obtain ⟨x, hx⟩ := Option.isSome_iff_exists.mp (h0.resolve_right (by rintro ⟨j, _, _, hj, _⟩; omega))
        simp only [step, logEvent, hx]
        by_cases hr : r = 0
        · rw [if_pos hr]
          refine ⟨_, rfl, fun k hk => ?_, fun _ _ he => by simp at he⟩
          simp only
          split <;> simp_all
        · rw [if_neg hr]
          exact ⟨_, rfl, fun k hk => hk, fun _ _ he => by simp at he⟩
      | logCpuTime now tt a b m =>
        have h0 := h 0 r _ rfl rfl
        obtain ⟨x, hx⟩ := Option.isSome_iff_exists.mp (h0.resolve_right (by rintro ⟨j, _, _, hj, _⟩; omega))
        simp only [step, logEvent, hx]
        by_cases hr : r = 0
        · rw [if_pos hr, if_pos hr]
          refine ⟨_, rfl, fun k hk => ?_, fun _ _ he => by simp at he⟩
          simp only
          split <;> simp_all
        · rw [if_neg hr]
          exact ⟨_, rfl, fun k hk => hk, fun _ _ he => by simp at he⟩
    obtain ⟨s1, h1, h2, h3⟩ := hstep
    obtain ⟨s', hs'⟩ := ih s1 (by
      intro i r' c' hi hl
      rcases h (i + 1) r' c' (by simpa using hi) hl with hh | ⟨j, t1, t2, hj, hj2⟩
      · exact Or.inl (h2 _ hh)
      · cases j with
        | zero =>
          simp only [List.getElem?_cons_zero, Option.some.injEq, Prod.mk.injEq] at hj2
          obtain ⟨rfl, hcn⟩ := hj2
          exact Or.inl (h3 t1 t2 hcn)
        | succ j => exact Or.inr ⟨j, t1, t2, by omega, by simpa using hj2⟩)
    exact ⟨s', by unfold run at *; rw [List.foldlM_cons]; simpa [h1] using hs'⟩

/-! ### task times -/

/-- Measuring with a clock that never runs backwards: all task times are non-negative and together they do not exceed the
    time between creation and the last reading. -/
theorem task_times (readings : List (Rat × Rat)) (t1 t2 : Rat)
    (hmono : List.Pairwise (· ≤ ·) (t2 :: readings.flatMap fun p => [p.1, p.2])) :
    let r := readings.foldl (fun r p => r.measure p.1 p.2) (RealTime.new t1 t2)
    (∀ x ∈ r.tm, 0 ≤ x) ∧ r.tm.sum ≤ r.tl - t2 ∧ r.tm.length = readings.length + 1 := by
  have gen : ∀ (readings : List (Rat × Rat)) (r0 : RealTime),
      List.Pairwise (· ≤ ·) (r0.tl :: readings.flatMap fun p => [p.1, p.2]) →
      let r := readings.foldl (fun r p => r.measure p.1 p.2) r0
      ((∀ x ∈ r0.tm, 0 ≤ x) → ∀ x ∈ r.tm, 0 ≤ x) ∧ r.tm.sum - r0.tm.sum ≤ r.tl - r0.tl ∧
        r.tm.length = r0.tm.length + readings.length := by
    intro readings
    induction readings with
    | nil => intro r0 _; exact ⟨fun h => h, by simp, rfl⟩
    | cons p ps ih =>
      intro r0 hm
      rw [List.flatMap_cons, List.cons_append, List.cons_append, List.nil_append] at hm
      obtain ⟨h1, hm1⟩ := List.pairwise_cons.mp hm
      obtain ⟨h2, hm2⟩ := List.pairwise_cons.mp hm1
      have hp1 : r0.tl ≤ p.1 := h1 _ (by simp)
      have hp2 : p.1 ≤ p.2 := h2 _ (by simp)
      obtain ⟨a1, a2, a3⟩ := ih (r0.measure p.1 p.2) hm2
      refine ⟨fun h => a1 ?_, ?_, ?_⟩
      · intro x hx
        simp only [RealTime.measure, List.mem_append, List.mem_singleton] at hx
        rcases hx with hx | rfl
        · exact h x hx
        · linarith
      · rw [List.foldl_cons]
        have e1 : (r0.measure p.1 p.2).tm.sum = r0.tm.sum + (p.1 - r0.tl) := by simp [RealTime.measure]
        have e2 : (r0.measure p.1 p.2).tl = p.2 := rfl
        rw [e1, e2] at a2
        linarith
      · rw [List.foldl_cons, a3]; simp [RealTime.measure]; omega
  obtain ⟨a, b, c⟩ := gen readings (RealTime.new t1 t2) hmono
  refine ⟨a (by simp [RealTime.new]), ?_, by rw [c]; simp [RealTime.new]; omega⟩
  have e : (RealTime.new t1 t2).tm.sum = 0 := by simp [RealTime.new]
  rw [e] at b
  simpa [RealTime.new] using b

/-! ### the times printed in the log file -/

/-- total and task time printed in a line -/
def Line.times : Line → Option (Rat × Rat)
  | .event _ tot task _ => some (tot, task)
  | _ => none

/-- the clock readings of a timed call: for the total time, for the task time, and the new reference -/
def Call.timed : Call → Option (Rat × Rat × Rat)
  | .logEvent _ b c d _ => some (b, c, d)
  | .logCpuTime _ b c d _ => some (b, c, d)
  | _ => none

theorem root_run_times (calls : List Call) (hc : ∀ c ∈ calls, c.isLog = true) (s s' : State) (r : RealTime) (hr : s.rt 0 = some r)
    (h : run s (calls.map fun c => (0, c)) = some s') :
    s'.file.filterMap Line.times = s.file.filterMap Line.times ++
      List.zipWith (fun (e : Rat × Rat × Rat) (prev : Rat) => (e.1 - r.ts, e.2.1 - prev)) (calls.filterMap Call.timed)
        (r.tl :: (calls.filterMap Call.timed).map fun e => e.2.2) := by
  induction calls generalizing s r with
  | nil =>
    simp only [run, List.map_nil, List.foldlM_nil, Option.pure_def, Option.some.injEq] at h
    subst h
    simp
  | cons c calls ih =>
    unfold run at h
    rw [List.map_cons, List.foldlM_cons] at h
    cases hs : step s (0, c) with
    | none => simp [hs] at h
    | some s1 =>
      simp only [hs, Option.bind_eq_bind, Option.bind_some] at h
      have hc' : ∀ x ∈ calls, x.isLog = true := fun x hx => hc x (by simp [hx])
      cases c with
      | new t1 t2 => simpa [Call.isLog] using hc _ (List.mem_cons_self)
      | logMemory now name gb =>
        simp only [step, hr, if_true, Option.some.injEq] at hs
        subst hs
        rw [ih hc' _ r (by exact hr) h]
        simp [List.filterMap_cons, Line.times, Call.timed]
      | logMessage now m =>
        simp only [step, hr, if_true, Option.some.injEq] at hs
        subst hs
        rw [ih hc' _ r (by exact hr) h]
        simp [List.filterMap_cons, Line.times, Call.timed]
      | logEvent now tt a b m =>
        simp only [step, logEvent, hr, if_true, Option.some.injEq] at hs
        subst hs
        rw [ih hc' _ (r.measure a b) (by simp) h]
        simp [Line.times, Call.timed, RealTime.measure]
      | logCpuTime now tt a b m =>
        simp only [step, logEvent, hr, if_true, Option.some.injEq] at hs
        subst hs
        rw [ih hc' _ (r.measure a b) (by simp) h]
        simp [Line.times, Call.timed, RealTime.measure]

/-- C48. The times printed by rank 0: every timed line holds the time since the logger was created and the time since the previous
    timed line (since the creation for the first one), whatever untimed messages and other ranks' calls lie in between. -/
theorem printed_times (sched : List (Nat × Call)) (t1 t2 : Rat) (calls : List Call)
    (hroot : sched.filter (fun rc => rc.1 = 0) = (0, Call.new t1 t2) :: calls.map fun c => (0, c))
    (hc : ∀ c ∈ calls, c.isLog = true) (s s' : State) (h : run s sched = some s') :
    s'.file.filterMap Line.times =
      List.zipWith (fun (e : Rat × Rat × Rat) (prev : Rat) => (e.1 - t1, e.2.1 - prev)) (calls.filterMap Call.timed)
        (t2 :: (calls.filterMap Call.timed).map fun e => e.2.2) := by
  obtain ⟨t', e1, e2, _⟩ := file_only_root sched s s s' rfl rfl h
  rw [hroot] at e1
  unfold run at e1
  rw [List.foldlM_cons] at e1
  simp only [step, if_true, Option.bind_eq_bind, Option.bind_some] at e1
  rw [← e2, root_run_times calls hc _ t' (RealTime.new t1 t2) (by simp) e1]
  simp [Line.times, RealTime.new]

/-! ### non-vacuity -/

example : (run ⟨[Line.message 0 "old"], fun _ => none⟩
    [(1, .new 0 0), (1, .logMessage 1 "x"), (0, .new 1 1), (1, .logEvent 2 2 2 2 "y"), (0, .logMessage 3 "a"),
     (1, .new 3 3), (0, .logCpuTime 4 4 5 5 "b")]).map (fun s => s.file) =
    some [Line.header, Line.message 3 "a", Line.event 4 3 4 "b"] := by
  simp [run, step, logEvent, RealTime.new, RealTime.measure]
  norm_num

end DGA.Log
