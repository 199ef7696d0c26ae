/-
  Why the two guards of `secCont` in `Verif.Spmd.Main` are what the code does: analytic continuation of a k-dependent array with
  a distributor that counts q-points (dga_max_ent.py:83, 96-104).
-/
import Verif.Mpi.Props
import Verif.Bz.Props2

namespace DGA.Spmd

/-- Scatter on rank 0 with fewer rows than tasks raises, on every rank. -/
theorem scatter_too_few_rows {α : Type} (ntasks R : Nat) (hR : 0 < R) (full : Mpi.NdArray α) (hwf : full.WF)
    (hlt : full.first < ntasks) (ho : 0 < full.other) (r : Nat) : Mpi.scatter ntasks R full r = none := by
  unfold Mpi.scatter
  cases Mpi.mySize ntasks R r with
  | none => rfl
  | some sz =>
    have : ¬ ((Mpi.sizes ntasks R).map (· * full.other)).sum ≤ full.buf.length := by
      rw [Mpi.sum_map_mul, Mpi.sizes_sum _ _ hR, hwf]
      have := Nat.mul_lt_mul_of_pos_right hlt ho
      omega
    simp only [this, if_false]

/-- `map_irrk2fbz` of an array with fewer rows than irreducible points raises. -/
theorem irrk2fbz_too_few_rows {α : Type} (f : List Nat) (mat : List α) (h : mat.length < (Bz.irrkInd f).length) :
    Bz.irrk2fbzList f mat = none := by
  have hl : (Bz.irrkInd f).length = (Bz.uniq f).length := by simp [Bz.irrkInd]
  have hlt : mat.length < (Bz.uniq f).length := by omega
  have hmem : mat.length ∈ Bz.irrkInv f := by
    unfold Bz.irrkInv
    rw [List.mem_map]
    refine ⟨(Bz.uniq f)[mat.length], (Bz.mem_uniq _ f).1 (List.getElem_mem hlt), ?_⟩
    exact List.Nodup.idxOf_getElem (Bz.uniq_nodup f) _ hlt
  have gen : ∀ l : List Nat, mat.length ∈ l → l.mapM (fun i => mat[i]?) = none := by
    intro l
    induction l with
    | nil => simp
    | cons a l ih =>
      intro hm
      rw [List.mapM_cons]
      rcases List.mem_cons.mp hm with rfl | hm
      · simp
      · rw [ih hm]; cases mat[a]? <;> rfl
  exact gen _ hmem

/-- The gathered continuation has as many rows as the distributor has tasks, whatever was continued: with `nq` tasks and `nk > nq`
    irreducible k-points the map back to the full zone fails. -/
theorem gathered_rows {α : Type} (nq R other : Nat) (rs : List (Mpi.NdArray α)) (t : Mpi.NdArray α)
    (h : Mpi.gather nq R other rs = some t) : t.first = nq := by
  unfold Mpi.gather at h
  split at h
  · simp only [Option.map_eq_some_iff] at h
    obtain ⟨b, _, rfl⟩ := h
    rfl
  · simp at h

example : Mpi.scatter 6 2 ⟨3, 1, [10, 20, 30]⟩ 0 = (none : Option (Mpi.NdArray Nat)) :=
  scatter_too_few_rows 6 2 (by decide) _ (by simp [Mpi.NdArray.WF]) (by decide) (by decide) 0

example : Bz.irrk2fbzList [0, 1, 1, 3] [7, 8] = (none : Option (List Nat)) :=
  irrk2fbz_too_few_rows _ _ (by decide)

end DGA.Spmd
