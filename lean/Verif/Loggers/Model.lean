/-
  Model of src/dga/loggers.py (`MpiLogger`, `RealTime`).

  The log file is the list of lines written to it.  Clock readings are inputs of the calls (rational seconds); the
  textual formatting of times and memory sizes and the rounding to full seconds are not modelled, a line keeps the
  numbers that are printed.  Every write opens and closes the file, so it is one atomic append.
-/
import Mathlib.Algebra.Order.Ring.Rat

namespace DGA.Log

/-- `RealTime` attributes `_ts`, `_tl`, `_tm` (loggers.py:20-24). -/
structure RealTime where
  ts : Rat
  tl : Rat
  tm : List Rat

/-- loggers.py:20-24 `__init__`; the clock is read twice (`t1` for `_ts`, `t2` for `_tl`). -/
def RealTime.new (t1 t2 : Rat) : RealTime := ⟨t1, t2, [0]⟩

/-- loggers.py:37-39 `measure_time`; the clock is read twice, `t1` for the difference and `t2` for the new reference. -/
def RealTime.measure (r : RealTime) (t1 t2 : Rat) : RealTime := ⟨r.ts, t2, r.tm ++ [t1 - r.tl]⟩

/-- A line of the log file. -/
inductive Line where
  | header                                            -- loggers.py:77
  | memory (local_ : Rat) (name : String) (gb : Rat)  -- loggers.py:88
  | event (local_ tot task : Rat) (message : String)  -- loggers.py:95
  | message (local_ : Rat) (message : String)         -- loggers.py:102
  deriving DecidableEq

/-- A call of a method of the logger together with the clock readings made during the call. -/
inductive Call where
  | new (t1 t2 : Rat)                                          -- loggers.py:69-77
  | logMemory (now : Rat) (name : String) (gb : Rat)           -- loggers.py:83-90
  | logEvent (now tTot t1 t2 : Rat) (message : String)         -- loggers.py:92-97
  | logMessage (now : Rat) (message : String)                  -- loggers.py:99-104
  | logCpuTime (now tTot t1 t2 : Rat) (task : String)          -- loggers.py:106-110

/-- Shared log file and the private `RealTime` of every rank (`none`: no logger yet, a call raises). -/
structure State where
  file : List Line
  rt : Nat → Option RealTime

/-- loggers.py:92-97 `log_event`; `tot_time` is evaluated before `task_time` (argument order of the concatenation), and
    the task time printed is the entry just appended by `measure_time`. -/
def logEvent (s : State) (rank : Nat) (now tTot t1 t2 : Rat) (message : String) : Option State :=
  match s.rt rank with
  | none => none
  | some r =>
    if rank = 0 then
      let r' := r.measure t1 t2
      some ⟨s.file ++ [Line.event now (tTot - r.ts) (r'.tm.getLastD 0) message], fun k => if k = rank then some r' else s.rt k⟩
    else some s

/-- One call by one rank. -/
def step (s : State) (rc : Nat × Call) : Option State :=
  match rc.2 with
  | .new t1 t2 =>
    some ⟨if rc.1 = 0 then [Line.header] else s.file, fun k => if k = rc.1 then some (RealTime.new t1 t2) else s.rt k⟩
  | .logMemory now name gb =>
    match s.rt rc.1 with
    | none => none
    | some _ => some (if rc.1 = 0 then { s with file := s.file ++ [Line.memory now name gb] } else s)
  | .logEvent now tTot t1 t2 message => logEvent s rc.1 now tTot t1 t2 message
  | .logMessage now message =>
    match s.rt rc.1 with
    | none => none
    | some _ => some (if rc.1 = 0 then { s with file := s.file ++ [Line.message now message] } else s)
  | .logCpuTime now tTot t1 t2 task =>
    match s.rt rc.1 with
    | none => none
    | some _ => if rc.1 = 0 then logEvent s rc.1 now tTot t1 t2 task else some s

/-- An interleaving of calls of all ranks. -/
def run (s : State) (sched : List (Nat × Call)) : Option State := sched.foldlM step s

end DGA.Log
