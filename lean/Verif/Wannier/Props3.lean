/-
  The predefined models are Hermitian with integer vectors; the hopping-table dispersions; moments of the band (C73, C75–C77).
-/
import Verif.Wannier.Props2

namespace DGA.Wan

open Complex

/-! ### the predefined models are Hermitian and periodic (C73) -/

/-- position of `-R` in the list of the twelve vectors -/
def neg12 : Fin 12 ≃ Fin 12 where
  toFun := ![2, 3, 0, 1, 7, 6, 5, 4, 10, 11, 8, 9]
  invFun := ![2, 3, 0, 1, 7, 6, 5, 4, 10, 11, 8, 9]
  left_inv := by decide
  right_inv := by decide

/-- C73: the one-band models meet the Hermiticity hypothesis, for all parameters -/
theorem nematic_hermitian (tx ty tppx tppy tpxy : ℝ) : Hermitian (oneBandNematic tx ty tppx tppy tpxy) fun _ _ => neg12 := by
  intro a b R
  refine ⟨?_, ?_, rfl⟩
  · intro x
    show r12 (neg12 R) x = -r12 R x
    revert R
    intro (R : Fin 12)
    fin_cases R <;> fin_cases x <;> simp [r12, neg12]
  · show ((-(![tx, ty, tx, ty, tpxy, tpxy, tpxy, tpxy, tppx, tppy, tppx, tppy] : Fin 12 → ℝ) (neg12 R) : ℝ) : ℂ) =
      star ((-(![tx, ty, tx, ty, tpxy, tpxy, tpxy, tpxy, tppx, tppy, tppx, tppy] : Fin 12 → ℝ) R : ℝ) : ℂ)
    rw [show ∀ x : ℝ, star (x : ℂ) = x from Complex.conj_ofReal]
    revert R
    intro (R : Fin 12)
    fin_cases R <;> simp [neg12]

/-- position of `-R` in the list of vectors of the Emery model -/
def neg7 : Fin 7 ≃ Fin 7 where
  toFun := ![0, 3, 4, 1, 2, 6, 5]
  invFun := ![0, 3, 4, 1, 2, 6, 5]
  left_inv := by decide
  right_inv := by decide

theorem emery_hermitian (ed ep tpd tpp tppP : ℝ) : Hermitian (emery ed ep tpd tpp tppP) fun _ _ => neg7 := by
  intro a b R
  refine ⟨?_, ?_, rfl⟩
  · intro x
    show createRGrid emeryR (neg7 R) x = -createRGrid emeryR R x
    revert R
    intro (R : Fin 7)
    fin_cases R <;> fin_cases x <;> simp [createRGrid, neg7, emeryR]
  · have h := emery_hr_eq ed ep tpd tpp tppP
    refine (h (neg7 R) b a).trans (Eq.trans ?_ (congrArg star (h R a b)).symm)
    rw [show ∀ x : ℝ, star (x : ℂ) = x from Complex.conj_ofReal]
    revert R
    intro (R : Fin 7)
    fin_cases R <;> fin_cases a <;> fin_cases b <;> simp [neg7]

/-- C75: the Emery matrix is Hermitian at every momentum -/
theorem emery_hk_hermitian (kx ky ed ep tpd tpp tppP : ℝ) (a b : Fin 3) :
    emeryHk kx ky ed ep tpd tpp tppP b a = star (emeryHk kx ky ed ep tpd tpp tppP a b) := by
  have := (hk_hermitian _ _ (emery_hermitian ed ep tpd tpp tppP) (fun x (_ : Unit) => ![kx, ky, 0] x) 0 () a b).1
  rwa [emery_band, emery_band] at this

/-- C75: the orbital labels written next to the Emery hoppings are wrong: the entry at `R = 0`, orbitals `(1, 2)` carries the labels
    `(1, 1)`, and every entry with `R ≥ 3` carries `(0, 0)` -/
theorem emery_orbs_wrong (ed ep tpd tpp tppP : ℝ) :
    (emery ed ep tpd tpp tppP).orbs (0 : Fin 7) 0 1 = ![1, 1] ∧
    ∀ (R : Fin 7), 3 ≤ R.val → ∀ a b, (emery ed ep tpd tpp tppP).orbs R a b = ![0, 0] := by
  constructor
  · show createOrbs 7 3 0 0 1 = _
    simp [createOrbs]
  · intro R hR a b
    show createOrbs 7 3 R a b = _
    unfold createOrbs
    rw [if_neg (by omega)]

/-- C75.  The exact table: on the first three lattice vectors the entry is (number of the lattice vector, row orbital) for every column orbital, so the
    entry names its own pair of orbitals exactly if lattice vector, row and column have the same number. -/
theorem emery_orbs_table (ed ep tpd tpp tppP : ℝ) (R : Fin 7) (a b : Fin 3) :
    (R.val < 3 → (emery ed ep tpd tpp tppP).orbs R a b = ![(R.val : ℝ) + 1, (a.val : ℝ) + 1]) ∧
    ((emery ed ep tpd tpp tppP).orbs R a b = ![(a.val : ℝ) + 1, (b.val : ℝ) + 1] ↔ R.val = a.val ∧ a = b) := by
  have e : (emery ed ep tpd tpp tppP).orbs R a b = createOrbs 7 3 R a b := rfl
  rw [e]
  unfold createOrbs
  refine ⟨fun h => by rw [if_pos h], ?_⟩
  by_cases h : R.val < 3
  · rw [if_pos h]
    constructor
    · intro hh
      have h0 := congrFun hh 0
      have h1 := congrFun hh 1
      simp only [Matrix.cons_val_zero, Matrix.cons_val_one, add_left_inj, Nat.cast_inj] at h0 h1
      exact ⟨h0, Fin.ext h1⟩
    · rintro ⟨h0, rfl⟩
      rw [h0]
  · rw [if_neg h]
    constructor
    · intro hh
      have h0 := congrFun hh 0
      simp only [Matrix.cons_val_zero] at h0
      have : (0 : ℝ) ≤ a.val := Nat.cast_nonneg _
      linarith
    · rintro ⟨h0, -⟩
      omega

/-! ### C76: the dispersions from hopping tables -/

/-- C76.  The dispersion of a hopping table without out-of-plane hopping equals the Fourier transform of the corresponding real-space
    model, at every momentum. -/
theorem table_is_model {ι : Type} (tx ty tppx tppy tpxy : ℝ) (kmesh : Fin 3 → ι → ℝ) (ik : ι) :
    convham (oneBandNematic tx ty tppx tppy tpxy) kmesh ik 0 0 =
      (ek3d (kmesh 0 ik) (kmesh 1 ik) (kmesh 2 ik) (tabNematic tx ty tppx tppy tpxy) : ℂ) := by
  rw [nematic_closed]
  congr 1
  simp only [ek3d, tabNematic, Matrix.cons_val_zero, Matrix.cons_val_one, Matrix.cons_val, Real.cos_add, Real.cos_sub]
  ring

theorem table_is_model_square {ι : Type} (t tp tpp : ℝ) (kmesh : Fin 3 → ι → ℝ) (ik : ι) :
    convham (oneBand t tp tpp) kmesh ik 0 0 = (ek3d (kmesh 0 ik) (kmesh 1 ik) (kmesh 2 ik) (tabSquare t tp tpp) : ℂ) :=
  table_is_model t t tpp tpp tp kmesh ik

/-- C76: the shifted dispersion is the dispersion at the shifted momentum, also across the zone boundary -/
theorem shifted_dispersion (kx ky kz qx qy qz : ℝ) (hr : Fin 3 → Fin 3 → ℝ) (a b c : ℤ) :
    ekpq3d kx ky kz (qx + 2 * Real.pi * a) (qy + 2 * Real.pi * b) (qz + 2 * Real.pi * c) hr = ek3d (kx + qx) (ky + qy) (kz + qz) hr := by
  have e : ∀ (x : ℝ) (m : ℤ), Real.cos (x + 2 * Real.pi * m) = Real.cos x := fun x m => by
    rw [show x + 2 * Real.pi * (m : ℝ) = x + m * (2 * Real.pi) by ring, Real.cos_add_int_mul_two_pi]
  unfold ekpq3d ek3d
  simp only [← add_assoc, e]
  rw [show kx + qx + 2 * Real.pi * (a : ℝ) + ky + qy = kx + qx + ky + qy + 2 * Real.pi * (a : ℝ) by ring, e,
    show kx + qx + 2 * Real.pi * (a : ℝ) - (ky + qy + 2 * Real.pi * (b : ℝ)) = kx + qx - (ky + qy) + 2 * Real.pi * ((a - b : ℤ) : ℝ) by
      push_cast; ring, e,
    show 2 * (kx + qx + 2 * Real.pi * (a : ℝ)) = 2 * (kx + qx) + 2 * Real.pi * ((2 * a : ℤ) : ℝ) by push_cast; ring, e,
    show 2 * (ky + qy + 2 * Real.pi * (b : ℝ)) = 2 * (ky + qy) + 2 * Real.pi * ((2 * b : ℤ) : ℝ) by push_cast; ring, e]

/-- the table's entry for the second neighbour along `z` acts like a nearest-neighbour hopping: it can be moved to the first row without
    changing the dispersion anywhere (so it is not the `cos 2kz` term that the other two entries of the row generate) -/
theorem table_z_second_neighbour (kx ky kz : ℝ) (hr : Fin 3 → Fin 3 → ℝ) :
    ek3d kx ky kz hr = ek3d kx ky kz ![![hr 0 0, hr 0 1, hr 0 2 + hr 2 2], hr 1, ![hr 2 0, hr 2 1, 0]] := by
  simp only [ek3d, Matrix.cons_val_zero, Matrix.cons_val_one, Matrix.cons_val]
  ring

/-- … while on the `x` axis it is a genuine second neighbour -/
example : ek3d Real.pi 0 0 ![![0, 0, 0], ![0, 0, 0], ![1, 0, 0]] = -2 ∧ ek3d 0 0 Real.pi ![![0, 0, 0], ![0, 0, 0], ![0, 0, 1]] = 2 := by
  simp [ek3d]

/-! ### the light vertex on the k grid (C72) and further dispersions (C76) -/

/-- C72: `get_light_vertex(k_grid, der)[i, j, k, a, b]` is the derivative, in the direction `der` asked for, of the Hamiltonian at the momentum
    `2 pi (i / nx, j / ny, k / nz)` -/
theorem getLightVertex_is_derivative {nb : Nat} (h : Hr nb) (nx ny nz i j k : Nat) (hj : j < ny) (hk : k < nz) (der : Fin 3) (a b : Fin nb) :
    let q : Fin 3 → ℝ := ![2 * Real.pi * i / nx, 2 * Real.pi * j / ny, 2 * Real.pi * k / nz]
    HasDerivAt (fun x : ℝ => convham h (fun c (_ : Unit) => if c = der then x else q c) () a b) (getLightVertexFull h nx ny nz der i j k a b) (q der) := by
  intro q
  have hq : ∀ c, kmeshFlat nx ny nz c (flatIdx ny nz i j k) = q c := by
    intro c
    rw [kmeshFlat_at nx ny nz i j k hj hk]
    fin_cases c <;> simp [q, kAxis] <;> ring
  have h0 := light_vertex_is_derivative h (kmeshFlat nx ny nz) der (flatIdx ny nz i j k) a b
  simp only [hq] at h0
  exact h0

/-- C72: the one-band form of the square lattice along both in-plane axes -/
theorem getLightVertex_square (t tp tpp : ℝ) (nx ny nz i j k : Nat) (hj : j < ny) (hk : k < nz) :
    getLightVertex (oneBand t tp tpp) nx ny nz 0 i j k = (delEkDelKxSquare (2 * Real.pi * i / nx) (2 * Real.pi * j / ny) t tp tpp : ℂ) ∧
    getLightVertex (oneBand t tp tpp) nx ny nz 2 i j k = 0 := by
  constructor
  · show lightVertex _ _ _ _ _ _ = _
    rw [light_vertex_square, kmeshFlat_at nx ny nz i j k hj hk, kmeshFlat_at nx ny nz i j k hj hk]
    simp only [Matrix.cons_val_zero, Matrix.cons_val_one, kAxis]
    congr 2 <;> ring
  · show lightVertex _ _ _ _ _ _ = _
    unfold lightVertex
    apply Finset.sum_eq_zero
    intro R _
    have : (oneBand t tp tpp).rGrid R 0 0 2 = 0 := by
      show r12 R 2 = 0
      rename_i hR
      clear hR
      revert R
      intro (R : Fin 12)
      fin_cases R <;> rfl
    rw [this]
    simp

/-- C76: the triangular table is the square lattice with one of the two diagonals; with equal nearest hoppings and no further ones it has the
    six-fold symmetry of the triangular lattice -/
theorem triangular_table (kx ky kz t tp tpp : ℝ) :
    ek3d kx ky kz (tabTriangular t tp tpp) =
      -2 * t * (Real.cos kx + Real.cos ky) - 2 * tp * Real.cos (kx + ky) - 2 * tpp * (Real.cos (2 * kx) + Real.cos (2 * ky)) ∧
    ek3d (-ky) (kx + ky) kz (tabTriangular t t 0) = ek3d kx ky kz (tabTriangular t t 0) ∧
    ek3d ky kx kz (tabTriangular t tp tpp) = ek3d kx ky kz (tabTriangular t tp tpp) := by
  refine ⟨?_, ?_, ?_⟩
  · simp only [ek3d, tabTriangular, Matrix.cons_val_zero, Matrix.cons_val_one, Matrix.cons_val]
    ring
  · simp only [ek3d, tabTriangular, Matrix.cons_val_zero, Matrix.cons_val_one, Matrix.cons_val]
    rw [Real.cos_neg, show -ky + (kx + ky) = kx by ring]
    ring
  · simp only [ek3d, tabTriangular, Matrix.cons_val_zero, Matrix.cons_val_one, Matrix.cons_val]
    rw [add_comm ky kx]
    ring

/-- C76: particle-hole symmetry of the square lattice: with nearest-neighbour hopping only, the band changes sign under `k → k + (pi, pi)` -/
theorem square_nesting (kx ky kz t : ℝ) :
    ekpq3d kx ky kz Real.pi Real.pi 0 (tabSquare t 0 0) = -ek3d kx ky kz (tabSquare t 0 0) := by
  simp only [ekpq3d, ek3d, tabSquare, Matrix.cons_val_zero, Matrix.cons_val_one, Matrix.cons_val, Real.cos_add_pi]
  ring

end DGA.Wan
