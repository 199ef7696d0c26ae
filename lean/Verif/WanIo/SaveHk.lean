/-
  `WannierHr.save_hk` (C81): the Hamiltonian on a k grid, written to a file and read again.
-/
import Verif.WanIo.HkProps
import Verif.WanIo.Props2
import Verif.Bz.Count

namespace DGA.WanIo

open DGA.Bz (Pt InGrid linP pt flat3 table mesh2list)
open DGA.Wan (Hr getEkFull kmeshFlat)

/-- wannier.py:44-49 `WannierHr.save_hk(k_grid, path, name)`.  `fl` is the floating-point number that stands for a real number; the rows of the
    list are the matrices, entry `[a, b]` as real and imaginary part (an entry outside the matrix is never written). -/
noncomputable def saveHk (fl : ℝ → ℚ) {nb : Nat} (h : Hr nb) (nx ny nz : Nat) : Option HkFile :=
  let entry (i j k a b : Nat) : ℚ × ℚ :=
    if hab : a < nb ∧ b < nb then
      (fl (getEkFull h nx ny nz i j k ⟨a, hab.1⟩ ⟨b, hab.2⟩).re, fl (getEkFull h nx ny nz i j k ⟨a, hab.1⟩ ⟨b, hab.2⟩).im)
    else (0, 0)
  (mesh2list nx ny nz (table nx ny nz entry)).bind fun ek =>
    writeHk true [nx, ny, nz] ek.length (nx * ny * nz) nb
      (fun l => (fl (kmeshFlat nx ny nz 0 l), fl (kmeshFlat nx ny nz 1 l), fl (kmeshFlat nx ny nz 2 l)))
      fun l => ek.getD l fun _ _ => (0, 0)

/-- C81. Saving the Hamiltonian on a grid and reading the file always succeeds: record `(i ny + j) nz + l` of the file holds the momentum
    `2π (i/nx, j/ny, l/nz)` and the matrix `H(k)` of that momentum, each component within the float error `ε` plus half a unit of the twelfth
    decimal. -/
theorem save_hk_reload (fl : ℝ → ℚ) (ε : ℝ) (hfl : ∀ x, |(fl x : ℝ) - x| ≤ ε) {nb : Nat} (h : Hr nb) (nx ny nz : Nat) :
    ∃ d, (saveHk fl h nx ny nz).bind (fun f => readHk f true) = some d ∧ d.nk = nx * ny * nz ∧ d.nb = nb ∧ d.ns = 1 ∧
      ∀ i < nx, ∀ j < ny, ∀ l < nz,
        d.kpt ((i * ny + j) * nz + l) = (fl (i * (2 * Real.pi / nx)), fl (j * (2 * Real.pi / ny)), fl (l * (2 * Real.pi / nz))) ∧
        ∀ a b : Fin nb, |((d.at_ ((i * ny + j) * nz + l) a 0 b 0).1 : ℝ) - (getEkFull h nx ny nz i j l a b).re| ≤ ε + 1 / 2 / 10 ^ 12 ∧
          |((d.at_ ((i * ny + j) * nz + l) a 0 b 0).2 : ℝ) - (getEkFull h nx ny nz i j l a b).im| ≤ ε + 1 / 2 / 10 ^ 12 := by
  set entry : Nat → Nat → Nat → Nat → Nat → ℚ × ℚ := fun i j k a b =>
    if hab : a < nb ∧ b < nb then
      (fl (getEkFull h nx ny nz i j k ⟨a, hab.1⟩ ⟨b, hab.2⟩).re, fl (getEkFull h nx ny nz i j k ⟨a, hab.1⟩ ⟨b, hab.2⟩).im)
    else (0, 0) with hentry
  have hflat : flat3 (table nx ny nz entry) = (List.range (nx * ny * nz)).map fun l => entry (pt ny nz l).1 (pt ny nz l).2.1 (pt ny nz l).2.2 :=
    DGA.Bz.flat3_table ..
  have hlen : (flat3 (table nx ny nz entry)).length = nx * ny * nz := by rw [hflat]; simp
  have hsave : saveHk fl h nx ny nz = writeHk true [nx, ny, nz] (flat3 (table nx ny nz entry)).length (nx * ny * nz) nb
      (fun l => (fl (kmeshFlat nx ny nz 0 l), fl (kmeshFlat nx ny nz 1 l), fl (kmeshFlat nx ny nz 2 l)))
      fun l => (flat3 (table nx ny nz entry)).getD l fun _ _ => (0, 0) := by
    unfold saveHk
    simp only
    rw [show mesh2list nx ny nz (table nx ny nz entry) = some (flat3 (table nx ny nz entry)) by
      unfold mesh2list; rw [DGA.Bz.nkTot_eq, if_pos hlen], Option.bind_some]
  have hp : [nx, ny, nz].prod = nx * ny * nz := by simp [Nat.mul_assoc]
  obtain ⟨d, hd, h1, h2, h3, -, h5, h6⟩ := hk_file_roundtrip [nx, ny, nz] (flat3 (table nx ny nz entry)).length (nx * ny * nz) nb
    (fun l => (fl (kmeshFlat nx ny nz 0 l), fl (kmeshFlat nx ny nz 1 l), fl (kmeshFlat nx ny nz 2 l)))
    (fun l => (flat3 (table nx ny nz entry)).getD l fun _ _ => (0, 0)) (by rw [hp, hlen]) (by rw [hp])
  rw [hp] at h1 h5 h6
  refine ⟨d, by rw [hsave]; exact hd, h1, h2, h3, fun i hi j hj l hl => ?_⟩
  have hlt : (i * ny + j) * nz + l < nx * ny * nz := DGA.Bz.lin_lt nx ny nz i j l hi hj hl
  have hpt : pt ny nz ((i * ny + j) * nz + l) = (i, j, l) := DGA.Bz.lin_div ny nz i j l hj hl
  have e1 : ((i * ny + j) * nz + l) / nz / ny = i := congrArg (·.1) hpt
  have e2 : ((i * ny + j) * nz + l) / nz % ny = j := congrArg (·.2.1) hpt
  have e3 : ((i * ny + j) * nz + l) % nz = l := congrArg (·.2.2) hpt
  refine ⟨?_, fun a b => ?_⟩
  · rw [h5 _ hlt]
    simp [kmeshFlat, DGA.Wan.kmeshAt, DGA.Wan.kAxis, e1, e2, e3]
  · have hv := h6 _ hlt a a.2 0 (by omega) b b.2 0 (by omega)
    have hg : (flat3 (table nx ny nz entry)).getD ((i * ny + j) * nz + l) (fun _ _ => (0, 0)) = entry i j l := by
      rw [hflat, List.getD_eq_getElem?_getD, DGA.Bz.range_map_get?, if_pos hlt, hpt]; rfl
    beta_reduce at hv
    rw [hg] at hv
    have he : entry i j l (0 * nb + a) (0 * nb + b) = (fl (getEkFull h nx ny nz i j l a b).re, fl (getEkFull h nx ny nz i j l a b).im) := by
      rw [hentry]
      simp
    rw [he] at hv
    have key : ∀ x : ℝ, |((text12 (fl x) : ℚ) : ℝ) - x| ≤ ε + 1 / 2 / 10 ^ 12 := by
      intro x
      have t : |((fl x : ℚ) : ℝ) - ((text12 (fl x) : ℚ) : ℝ)| ≤ 1 / 2 / 10 ^ 12 := by
        have := text12_close (fl x)
        have hc : ((|fl x - text12 (fl x)| : ℚ) : ℝ) ≤ ((1 / 2 / 10 ^ 12 : ℚ) : ℝ) := by exact_mod_cast this
        push_cast at hc
        exact hc
      have := hfl x
      rw [abs_le] at t this ⊢
      constructor <;> linarith [t.1, t.2, this.1, this.2]
    rw [hv]
    exact ⟨key _, key _⟩

/-- non-vacuity: floats can be taken within any positive error -/
example : ∃ fl : ℝ → ℚ, ∀ x, |(fl x : ℝ) - x| ≤ 1 / 10 ^ 16 := by
  have h : ∀ x : ℝ, ∃ q : ℚ, |(q : ℝ) - x| ≤ 1 / 10 ^ 16 := by
    intro x
    obtain ⟨q, h1, h2⟩ := exists_rat_btwn (show x - 1 / 10 ^ 16 < x by norm_num)
    refine ⟨q, ?_⟩
    rw [abs_le]; constructor <;> linarith
  choose fl hfl using h
  exact ⟨fl, hfl⟩

end DGA.WanIo
