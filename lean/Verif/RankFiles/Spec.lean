/-
  Specification of a distributed write (used by the statements of C05).
-/
import Verif.RankFiles.Lemmas

namespace DGA.RankFiles
open DGA.Mpi

/-- matsubara_frequencies.py:306-313 via config.py:187-189: `wn = arange(-niw, niw + 1)`. -/
def wnRange (niw : Nat) : List Int := Py.arange (-(niw : Int)) ((niw : Int) + 1)

/-- A distributed write: `R` ranks, `n` irreducible q points; rank `r` starts from a file `f0 r` that holds no group
    with the prefix `pre` and writes, for its own tasks, slices that agree with the global vertex `data q w`.
    `files` are the rank files afterwards. -/
structure Written {β : Type} (pre : Str) (n R niw : Nat) (data : Nat → Int → β) (files : List (File β)) : Prop where
  count : files.length = R
  write : ∀ r f, files[r]? = some f → ∃ (ts : List Nat) (loc : Nat → Nat → β) (f0 : File β),
    myTasks n R r = some ts ∧
    (∀ i q, ts[i]? = some q → ∀ j w, (wnRange niw)[j]? = some w → loc i j = data q w) ∧
    (f0.map (·.1)).Nodup ∧ (∀ e ∈ f0, pre.isPrefixOf e.1 = false) ∧
    writeVertex pre ts (wnRange niw) loc f0 = some f

end DGA.RankFiles
