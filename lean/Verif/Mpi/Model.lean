/-
  Model of src/dga/mpi_aux.py (class MpiDistributor): task distribution, scatter, gather, allgather, allreduce.
-/
import Verif.Py

namespace DGA.Mpi

/-- mpi_aux.py:106  `n_per_rank = self.ntasks // self.mpi_size`.
    `mpi_size >= 1` for every MPI communicator; `ntasks` is a size, hence a natural number. -/
def nPerRank (ntasks mpiSize : Nat) : Nat := ntasks / mpiSize

/-- mpi_aux.py:107  `n_excess = self.ntasks - n_per_rank * self.mpi_size`. -/
def nExcess (ntasks mpiSize : Nat) : Nat := ntasks - nPerRank ntasks mpiSize * mpiSize

/-- mpi_aux.py:108-111  `_sizes = n_per_rank * ones(mpi_size)`; `if n_excess: _sizes[-n_excess:] += 1`
    (the guard matters: `[-0:]` would select the whole array). -/
def sizes (ntasks mpiSize : Nat) : List Nat :=
  let base := List.replicate mpiSize (nPerRank ntasks mpiSize)
  if nExcess ntasks mpiSize ≠ 0 then
    base.mapIdx fun i s =>
      if Py.clip mpiSize (-(nExcess ntasks mpiSize : Int)) ≤ i then s + 1 else s
  else base

/-- numpy `cumsum` (mpi_aux.py:113), with the running total as accumulator. -/
def cumsumAux (acc : Nat) : List Nat → List Nat
  | [] => []
  | x :: xs => (acc + x) :: cumsumAux (acc + x) xs

/-- mpi_aux.py:113  `slice_ends = self._sizes.cumsum()`. -/
def sliceEnds (ntasks mpiSize : Nat) : List Nat := cumsumAux 0 (sizes ntasks mpiSize)

/-- mpi_aux.py:114  `_slices = list(map(slice, slice_ends - _sizes, slice_ends))`, as (start, stop) pairs. -/
def slices (ntasks mpiSize : Nat) : List (Nat × Nat) :=
  List.zipWith (fun e s => (e - s, e)) (sliceEnds ntasks mpiSize) (sizes ntasks mpiSize)

/-- mpi_aux.py:116, 79-81  `my_size = _sizes[my_rank]`; `none` = `IndexError`. -/
def mySize (ntasks mpiSize rank : Nat) : Option Nat := (sizes ntasks mpiSize)[rank]?

/-- mpi_aux.py:117, 83-85  `my_slice = _slices[my_rank]`. -/
def mySlice (ntasks mpiSize rank : Nat) : Option (Nat × Nat) := (slices ntasks mpiSize)[rank]?

/-- mpi_aux.py:71-73  `my_tasks = np.arange(0, ntasks)[my_slice]`. -/
def myTasks (ntasks mpiSize rank : Nat) : Option (List Nat) :=
  (mySlice ntasks mpiSize rank).map fun (a, b) => Py.slice (List.range ntasks) a b

/-- A C-contiguous numpy array as seen by the distributor: length of the first axis, number of elements of all
    other axes together (`np.prod(shape[1:])`), and the row-major buffer. -/
structure NdArray (α : Type) where
  first : Nat
  other : Nat
  buf : List α

/-- The buffer of a numpy array always has `prod(shape)` elements. -/
def NdArray.WF {α : Type} (a : NdArray α) : Prop := a.buf.length = a.first * a.other

/-- MPI `Scatterv` with counts (displacements default to the running sums of the counts): segment of rank `r`.
    Models the MPI call at mpi_aux.py:153; MPI transport itself is not modelled. -/
def scattervSeg {α : Type} (counts : List Nat) (buf : List α) (r : Nat) : List α :=
  (buf.drop ((counts.take r).sum)).take (counts.getD r 0)

/-- mpi_aux.py:138-154  `scatter` as seen by `rank`: receive shape `(my_size,) + rest_shape` and
    counts `sizes * other_dims`. `full` is the array held by the root.  Dtype broadcast is not modelled;
    `none`: the rank does not exist, or the root buffer is too short (MPI truncation). -/
def scatter {α : Type} (ntasks mpiSize : Nat) (full : NdArray α) (rank : Nat) : Option (NdArray α) :=
  match mySize ntasks mpiSize rank with
  | none => none
  | some sz =>
    let counts := (sizes ntasks mpiSize).map (· * full.other)
    if counts.sum ≤ full.buf.length then
      some { first := sz, other := full.other, buf := scattervSeg counts full.buf rank }
    else none

/-- MPI `Gatherv` / `Allgatherv` with counts: writes the rank buffers one after the other.  A rank that sends
    a different number of elements than its count is an MPI error (`none`). -/
def gatherv {α : Type} (counts : List Nat) (bufs : List (List α)) : Option (List α) :=
  if bufs.map List.length = counts then some bufs.flatten else none

/-- mpi_aux.py:119-128 `allgather` (result on every rank) and 130-136 `gather` (result on the root; the other
    ranks return an uninitialised array, which is not modelled).  `other_dims` is computed by each rank from its
    own array; the model takes it from the shapes of the rank results, which have to agree. -/
def gather {α : Type} (ntasks mpiSize other : Nat) (rankResults : List (NdArray α)) : Option (NdArray α) :=
  if rankResults.all (fun a => a.other == other) then
    (gatherv ((sizes ntasks mpiSize).map (· * other)) (rankResults.map (·.buf))).map
      fun b => { first := ntasks, other := other, buf := b }
  else none

/-- mpi_aux.py:160-163 `allreduce`: elementwise sum over all ranks, the same result on every rank
    (default reduction `MPI.SUM`; exact arithmetic instead of floats). -/
def allreduce {M : Type} [Add M] [Zero M] (rankResults : List M) : M := rankResults.foldr (· + ·) 0

end DGA.Mpi
