/-
  Concurrent semantics of an MPI program (single program, multiple data), as used by src/dga/dga_main.py and
  src/dga/dga_max_ent.py through mpi4py.

  Every rank runs its own list of actions.  A local action acts on the shared world (file system, objects on disk) and may
  raise; a rank whose next action raises makes no further step.  A collective is entered and left in two separate steps; the
  `k`-th collective of a rank is matched with the `k`-th collective of the other ranks (MPI matches the collectives of one
  communicator in calling order).  Steps of the ranks interleave arbitrarily.

  MPI transport, message payloads and timing are not modelled here (payloads: `Verif.Mpi`).
-/
import Mathlib.Data.List.Basic
import Mathlib.Logic.Relation
import Mathlib.Algebra.BigOperators.Group.Finset.Basic
import Mathlib.Tactic.Linarith

namespace DGA.Spmd

/-- The collectives used by the code: `comm.Barrier()`/`comm.barrier()` (dga_main.py:75, config.py:641), `comm.Allreduce`
    (mpi_aux.py:162), `comm.bcast` (config.py:51, mpi_aux.py:148-149), `comm.Scatterv` (mpi_aux.py:153) and `comm.Gatherv`
    (mpi_aux.py:135). -/
inductive Coll where
  | barrier
  | allreduce
  | bcast (root : Nat)
  | scatterv (root : Nat)
  | gatherv (root : Nat)
deriving DecidableEq, Repr

/-- What the MPI standard guarantees: rank `r` cannot leave the collective before rank `s` has entered it.  Barrier and
    Allreduce: everybody waits for everybody; Bcast and Scatterv: everybody waits for the root; Gatherv: the root waits for
    everybody. -/
def mustWait : Coll → Nat → Nat → Prop
  | .barrier, _, _ => True
  | .allreduce, _, _ => True
  | .bcast root, _, s => s = root
  | .scatterv root, _, s => s = root
  | .gatherv root, r, _ => r = root

/-- An MPI library: it may synchronise more than the standard demands (e.g. a blocking Bcast), never less. -/
structure Lib where
  waits : Coll → Nat → Nat → Prop
  std : ∀ c r s, mustWait c r s → waits c r s

/-- One action of a rank: a local action or a collective. -/
inductive Act (A : Type) where
  | loc (a : A)
  | coll (c : Coll)

/-- The collectives of an action list, in order. -/
def colls {A : Type} : List (Act A) → List Coll
  | [] => []
  | .loc _ :: l => colls l
  | .coll c :: l => c :: colls l

/-- Control state of one rank: number of completed actions, and whether it is inside the collective at that position. -/
structure Rk where
  pc : Nat
  inside : Bool

/-- Global state: control state of every rank and the shared world. -/
structure St (W : Type) where
  rk : Nat → Rk
  w : W

/-- How many collectives a rank with program `p` has entered. -/
def entered {A : Type} (p : List (Act A)) (k : Rk) : Nat := (colls (p.take k.pc)).length + (if k.inside then 1 else 0)

/-- How many collectives it has left. -/
def left {A : Type} (p : List (Act A)) (k : Rk) : Nat := (colls (p.take k.pc)).length

/-- replace the control state of rank `r` -/
def setRk (rk : Nat → Rk) (r : Nat) (k : Rk) : Nat → Rk := fun s => if s = r then k else rk s

/-- One step of one of the `n` ranks. -/
inductive Step {A W : Type} (L : Lib) (n : Nat) (prog : Nat → List (Act A)) (eff : Nat → A → W → Option W) :
    St W → St W → Prop
  | loc (st : St W) (r : Nat) (a : A) (w' : W) (hr : r < n) (hi : (st.rk r).inside = false)
      (ha : (prog r)[(st.rk r).pc]? = some (.loc a)) (he : eff r a st.w = some w') :
      Step L n prog eff st ⟨setRk st.rk r ⟨(st.rk r).pc + 1, false⟩, w'⟩
  | enter (st : St W) (r : Nat) (c : Coll) (hr : r < n) (hi : (st.rk r).inside = false)
      (ha : (prog r)[(st.rk r).pc]? = some (.coll c)) :
      Step L n prog eff st ⟨setRk st.rk r ⟨(st.rk r).pc, true⟩, st.w⟩
  | leave (st : St W) (r : Nat) (c : Coll) (hr : r < n) (hi : (st.rk r).inside = true)
      (ha : (prog r)[(st.rk r).pc]? = some (.coll c))
      (hw : ∀ s < n, L.waits c r s → left (prog r) (st.rk r) < entered (prog s) (st.rk s) ∧
        (colls (prog s))[left (prog r) (st.rk r)]? = some c) :
      Step L n prog eff st ⟨setRk st.rk r ⟨(st.rk r).pc + 1, false⟩, st.w⟩

/-- All ranks start at the beginning of their program. -/
def start {W : Type} (w : W) : St W := ⟨fun _ => ⟨0, false⟩, w⟩

/-- States some schedule can reach. -/
def Reach {A W : Type} (L : Lib) (n : Nat) (prog : Nat → List (Act A)) (eff : Nat → A → W → Option W) (w0 : W)
    (st : St W) : Prop := Relation.ReflTransGen (Step L n prog eff) (start w0) st

/-- Every rank has completed its program. -/
def Done {A W : Type} (n : Nat) (prog : Nat → List (Act A)) (st : St W) : Prop :=
  ∀ r < n, (st.rk r).pc = (prog r).length

/-- A schedule of exactly `m` steps. -/
inductive Steps {A W : Type} (L : Lib) (n : Nat) (prog : Nat → List (Act A)) (eff : Nat → A → W → Option W) :
    Nat → St W → St W → Prop
  | nil (st : St W) : Steps L n prog eff 0 st st
  | cons {m : Nat} {a b c : St W} (h : Steps L n prog eff m a b) (s : Step L n prog eff b c) :
      Steps L n prog eff (m + 1) a c

/-- All ranks agree on the collectives and their order (a program without this is erroneous MPI). -/
def Matched {A : Type} (n : Nat) (prog : Nat → List (Act A)) : Prop :=
  ∀ r < n, ∀ s < n, colls (prog r) = colls (prog s)

end DGA.Spmd
