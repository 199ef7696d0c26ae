/-
  Averages over the k grid (C77).
-/
import Verif.Wannier.Props3

namespace DGA.Wan

open Complex

/-- orthogonality of the phase factors on one axis of the grid -/
theorem axis_sum (n : Nat) (hn : 0 < n) (m : ℤ) :
    ∑ i ∈ Finset.range n, ph ((m : ℝ) * kAxis n i) = if (n : ℤ) ∣ m then (n : ℂ) else 0 := by
  have hn' : (n : ℝ) ≠ 0 := by positivity
  have hpow : ∀ i : Nat, ph ((m : ℝ) * kAxis n i) = ph (2 * Real.pi * m / n) ^ i := by
    intro i
    unfold ph
    rw [← Complex.exp_nat_mul]
    congr 1
    unfold kAxis
    push_cast
    ring
  simp only [hpow]
  split
  · rename_i h
    obtain ⟨c, rfl⟩ := h
    have : ph (2 * Real.pi * ((n * c : ℤ) : ℝ) / n) = 1 := by
      have := ph_int 0 c
      rw [zero_add] at this
      rw [show 2 * Real.pi * (((n : ℤ) * c : ℤ) : ℝ) / n = 2 * Real.pi * c by push_cast; field_simp, this, ph_eq]
      simp
    rw [this]
    simp
  · rename_i h
    have hne : ph (2 * Real.pi * m / n) ≠ 1 := by
      intro he
      unfold ph at he
      rw [Complex.exp_eq_one_iff] at he
      obtain ⟨c, hc⟩ := he
      apply h
      refine ⟨c, ?_⟩
      have h1 : (Complex.I : ℂ) * ((2 * Real.pi * m / n : ℝ) : ℂ) = Complex.I * ((2 * Real.pi * c : ℝ) : ℂ) := by
        rw [hc]; push_cast; ring
      have h2 := mul_left_cancel₀ Complex.I_ne_zero h1
      have h3 : 2 * Real.pi * (m : ℝ) / n = 2 * Real.pi * c := by exact_mod_cast h2
      have h4 : (m : ℝ) = n * c := by
        have hpi : (2 * Real.pi) ≠ 0 := by positivity
        field_simp at h3
        exact h3
      exact_mod_cast h4
    have h1 : ph (2 * Real.pi * m / n) ^ n = 1 := by
      have := hpow n
      rw [← this]
      have h2 := ph_int 0 m
      rw [zero_add] at h2
      rw [show (m : ℝ) * kAxis n n = 2 * Real.pi * m by unfold kAxis; field_simp, h2, ph_eq]
      simp
    rw [geom_sum_eq hne, h1, sub_self, zero_div]

/-- `np.mean(mat, axis=(0, 1, 2))` over the k mesh (brillouin_zone.py:266-270, `k_mean(mat, 'mesh')`) -/
noncomputable def meshMean (nx ny nz : Nat) (F : Nat → Nat → Nat → ℂ) : ℂ :=
  (∑ i ∈ Finset.range nx, ∑ j ∈ Finset.range ny, ∑ k ∈ Finset.range nz, F i j k) / ((nx * ny * nz : Nat) : ℂ)

/-- C77.  Inverse transform on the grid: for integer lattice vectors the mesh average of `H(k) exp(-i k·r)` is the sum of the hopping
    elements (divided by their weights) over all vectors equal to `r` modulo the size of the grid; for every grid and every `r`. -/
theorem inverse_transform {nb : Nat} (h : Hr nb) (z : Fin h.nr → Fin nb → Fin nb → Fin 3 → ℤ) (hz : ∀ R a b x, h.rGrid R a b x = z R a b x)
    (nx ny nz : Nat) (hx : 0 < nx) (hy : 0 < ny) (hzz : 0 < nz) (r : Fin 3 → ℤ) (a b : Fin nb) :
    meshMean nx ny nz (fun i j k => getEkFull h nx ny nz i j k a b *
        ph (-(r 0 * kAxis nx i + r 1 * kAxis ny j + r 2 * kAxis nz k))) =
      ∑ R, if (nx : ℤ) ∣ z R a b 0 - r 0 ∧ (ny : ℤ) ∣ z R a b 1 - r 1 ∧ (nz : ℤ) ∣ z R a b 2 - r 2 then h.hr R a b / (h.w R : ℂ) else 0 := by
  unfold meshMean
  have hN : ((nx * ny * nz : Nat) : ℂ) ≠ 0 := by
    have : nx * ny * nz ≠ 0 := by positivity
    exact_mod_cast this
  rw [div_eq_iff hN, Finset.sum_mul]
  have e : ∀ i ∈ Finset.range nx, ∀ j ∈ Finset.range ny, ∀ k ∈ Finset.range nz,
      getEkFull h nx ny nz i j k a b * ph (-(r 0 * kAxis nx i + r 1 * kAxis ny j + r 2 * kAxis nz k)) =
      ∑ R, h.hr R a b / (h.w R : ℂ) * (ph (((z R a b 0 - r 0 : ℤ) : ℝ) * kAxis nx i) * (ph (((z R a b 1 - r 1 : ℤ) : ℝ) * kAxis ny j) *
        ph (((z R a b 2 - r 2 : ℤ) : ℝ) * kAxis nz k))) := by
    intro i _ j hj k hk
    rw [Finset.mem_range] at hj hk
    unfold getEkFull
    rw [convham_ph, Finset.sum_mul]
    apply Finset.sum_congr rfl
    intro R _
    rw [← ph_add, ← ph_add, Fin.sum_univ_three, kmeshFlat_at nx ny nz i j k hj hk, kmeshFlat_at nx ny nz i j k hj hk,
      kmeshFlat_at nx ny nz i j k hj hk, hz, hz, hz, div_mul_eq_mul_div, div_mul_eq_mul_div, div_mul_eq_mul_div,
      mul_right_comm, ← ph_add, mul_comm (ph _)]
    congr 3
    simp only [Matrix.cons_val_zero, Matrix.cons_val_one, Matrix.cons_val]
    push_cast
    ring
  rw [Finset.sum_congr rfl fun i hi => Finset.sum_congr rfl fun j hj => Finset.sum_congr rfl fun k hk => e i hi j hj k hk]
  have swap : ∑ i ∈ Finset.range nx, ∑ j ∈ Finset.range ny, ∑ k ∈ Finset.range nz, ∑ R,
      h.hr R a b / (h.w R : ℂ) * (ph (((z R a b 0 - r 0 : ℤ) : ℝ) * kAxis nx i) * (ph (((z R a b 1 - r 1 : ℤ) : ℝ) * kAxis ny j) *
        ph (((z R a b 2 - r 2 : ℤ) : ℝ) * kAxis nz k))) =
      ∑ R, h.hr R a b / (h.w R : ℂ) * ((∑ i ∈ Finset.range nx, ph (((z R a b 0 - r 0 : ℤ) : ℝ) * kAxis nx i)) *
        ((∑ j ∈ Finset.range ny, ph (((z R a b 1 - r 1 : ℤ) : ℝ) * kAxis ny j)) *
          ∑ k ∈ Finset.range nz, ph (((z R a b 2 - r 2 : ℤ) : ℝ) * kAxis nz k))) := by
    simp_rw [Finset.sum_comm (s := Finset.range nz) (t := Finset.univ), Finset.sum_comm (s := Finset.range ny) (t := Finset.univ),
      Finset.sum_comm (s := Finset.range nx) (t := Finset.univ)]
    apply Finset.sum_congr rfl
    intro R _
    simp_rw [← Finset.mul_sum, ← Finset.sum_mul]
  rw [swap]
  apply Finset.sum_congr rfl
  intro R _
  rw [axis_sum nx hx, axis_sum ny hy, axis_sum nz hzz]
  by_cases h0 : (nx : ℤ) ∣ z R a b 0 - r 0 <;> by_cases h1 : (ny : ℤ) ∣ z R a b 1 - r 1 <;> by_cases h2 : (nz : ℤ) ∣ z R a b 2 - r 2 <;>
    simp [h0, h1, h2, mul_assoc]

/-- the integer vectors of the one-band models -/
def z12 : Fin 12 → Fin 3 → ℤ :=
  ![![1, 0, 0], ![0, 1, 0], ![-1, 0, 0], ![0, -1, 0], ![1, 1, 0], ![1, -1, 0], ![-1, 1, 0], ![-1, -1, 0],
    ![2, 0, 0], ![0, 2, 0], ![-2, 0, 0], ![0, -2, 0]]

theorem r12_int (R : Fin 12) (x : Fin 3) : r12 R x = z12 R x := by
  fin_cases R <;> fin_cases x <;> simp [r12, z12]

theorem not_dvd_small (n : Nat) (m : ℤ) (h0 : m ≠ 0) (h1 : m < n) (h2 : -(n : ℤ) < m) : ¬ (n : ℤ) ∣ m := by
  intro h
  exact h0 (Int.eq_zero_of_abs_lt_dvd h (abs_lt.2 ⟨h2, h1⟩))

theorem z12_bound (R : Fin 12) (x : Fin 3) : -2 ≤ z12 R x ∧ z12 R x ≤ 2 := by
  revert R x; decide

theorem z12_ne : ∀ R : Fin 12, z12 R 0 ≠ 0 ∨ z12 R 1 ≠ 0 := by decide
theorem z12_inj : ∀ R S : Fin 12, R ≠ S → z12 R 0 - z12 S 0 ≠ 0 ∨ z12 R 1 - z12 S 1 ≠ 0 := by decide
theorem z12_neg : ∀ (S : Fin 12) (x : Fin 3), z12 (neg12 S) x = -z12 S x := by decide

/-- C77: the band of the `t-t'-t''` model averages to zero (no on-site term is generated) on every grid of at least 3×3 points -/
theorem band_mean_zero (t tp tpp : ℝ) (nx ny nz : Nat) (hx : 3 ≤ nx) (hy : 3 ≤ ny) (hz : 0 < nz) :
    meshMean nx ny nz (getEk (oneBand t tp tpp) nx ny nz) = 0 := by
  have h := inverse_transform (oneBand t tp tpp) (fun R _ _ => z12 R) (fun R _ _ x => r12_int R x) nx ny nz (by omega) (by omega) hz
    (fun _ => 0) 0 0
  have e : (fun i j k => getEkFull (oneBand t tp tpp) nx ny nz i j k 0 0 *
      ph (-(((0 : ℤ) : ℝ) * kAxis nx i + ((0 : ℤ) : ℝ) * kAxis ny j + ((0 : ℤ) : ℝ) * kAxis nz k))) = getEk (oneBand t tp tpp) nx ny nz := by
    funext i j k
    simp [getEk, ph_eq]
  rw [← e, h]
  apply Finset.sum_eq_zero
  intro R _
  rw [if_neg]
  rintro ⟨h0, h1, _⟩
  rw [sub_zero] at h0 h1
  have b0 := z12_bound R 0
  have b1 := z12_bound R 1
  rcases z12_ne R with h | h
  · exact not_dvd_small nx _ h (by omega) (by omega) h0
  · exact not_dvd_small ny _ h (by omega) (by omega) h1

/-- hopping amplitudes of the one-band model -/
def c12 (t tp tpp : ℝ) : Fin 12 → ℝ := ![-t, -t, -t, -t, -tp, -tp, -tp, -tp, -tpp, -tpp, -tpp, -tpp]

theorem hr_c12 (t tp tpp : ℝ) (S : Fin 12) : (oneBand t tp tpp).hr S 0 0 = (c12 t tp tpp S : ℂ) := by
  show ((-(![t, t, t, t, tp, tp, tp, tp, tpp, tpp, tpp, tpp] : Fin 12 → ℝ) S : ℝ) : ℂ) = _
  fin_cases S <;> simp [c12]

theorem c12_neg (t tp tpp : ℝ) (S : Fin 12) : c12 t tp tpp (neg12 S) = c12 t tp tpp S := by
  fin_cases S <;> simp [c12, neg12]

/-- phase of a vector at a mesh point -/
noncomputable def phz (nx ny nz : Nat) (S : Fin 12) (i j k : Nat) : ℂ :=
  ph (-(((z12 S 0 : ℤ) : ℝ) * kAxis nx i + ((z12 S 1 : ℤ) : ℝ) * kAxis ny j + ((z12 S 2 : ℤ) : ℝ) * kAxis nz k))

theorem band_coefficient (t tp tpp : ℝ) (nx ny nz : Nat) (hx : 5 ≤ nx) (hy : 5 ≤ ny) (hz : 0 < nz) (S : Fin 12) :
    meshMean nx ny nz (fun i j k => getEk (oneBand t tp tpp) nx ny nz i j k * phz nx ny nz S i j k) = (c12 t tp tpp S : ℂ) := by
  have h1 := inverse_transform (oneBand t tp tpp) (fun R _ _ => z12 R) (fun R _ _ x => r12_int R x) nx ny nz (by omega) (by omega) hz
    (z12 S) 0 0
  refine h1.trans ?_
  have hw : ∀ R, (oneBand t tp tpp).w R = 1 := fun _ => rfl
  simp only [hw, Complex.ofReal_one, div_one]
  show ∑ R : Fin 12, _ = _
  rw [Finset.sum_eq_single S]
  · rw [if_pos (by simp), hr_c12]
  · intro R _ hR
    rw [if_neg]
    rintro ⟨h0, h1, _⟩
    have b0 := z12_bound R 0
    have b1 := z12_bound R 1
    have c0 := z12_bound S 0
    have c1 := z12_bound S 1
    rcases z12_inj R S hR with h | h
    · exact not_dvd_small nx _ h (by omega) (by omega) h0
    · exact not_dvd_small ny _ h (by omega) (by omega) h1
  · intro h; exact absurd (Finset.mem_univ _) h

theorem band_expand (t tp tpp : ℝ) (nx ny nz i j k : Nat) (hj : j < ny) (hk : k < nz) :
    getEk (oneBand t tp tpp) nx ny nz i j k = ∑ S : Fin 12, (c12 t tp tpp S : ℂ) * phz nx ny nz S i j k := by
  unfold getEk getEkFull
  rw [convham_ph]
  have h : ∀ S : Fin 12, ph (∑ x : Fin 3, r12 S x * kmeshFlat nx ny nz x (flatIdx ny nz i j k)) / ((1 : ℝ) : ℂ) * (oneBand t tp tpp).hr S 0 0 =
      (c12 t tp tpp (neg12 S) : ℂ) * phz nx ny nz (neg12 S) i j k := by
    intro S
    rw [hr_c12, c12_neg, Complex.ofReal_one, div_one, mul_comm, Fin.sum_univ_three, kmeshFlat_at nx ny nz i j k hj hk,
      kmeshFlat_at nx ny nz i j k hj hk, kmeshFlat_at nx ny nz i j k hj hk, r12_int, r12_int, r12_int]
    unfold phz
    rw [z12_neg, z12_neg, z12_neg]
    congr 2
    simp only [Matrix.cons_val_zero, Matrix.cons_val_one, Matrix.cons_val]
    push_cast
    ring
  exact (Finset.sum_congr rfl fun S _ => h S).trans (neg12.sum_comp fun S => (c12 t tp tpp S : ℂ) * phz nx ny nz S i j k)

theorem meshMean_sum {n : Nat} (nx ny nz : Nat) (c : Fin n → ℂ) (F : Fin n → Nat → Nat → Nat → ℂ) :
    meshMean nx ny nz (fun i j k => ∑ S, c S * F S i j k) = ∑ S, c S * meshMean nx ny nz (F S) := by
  unfold meshMean
  have e : ∑ i ∈ Finset.range nx, ∑ j ∈ Finset.range ny, ∑ k ∈ Finset.range nz, ∑ S, c S * F S i j k =
      ∑ S, ∑ i ∈ Finset.range nx, ∑ j ∈ Finset.range ny, ∑ k ∈ Finset.range nz, c S * F S i j k := by
    rw [Finset.sum_comm (s := Finset.univ)]
    apply Finset.sum_congr rfl; intro i _
    rw [Finset.sum_comm (s := Finset.univ)]
    apply Finset.sum_congr rfl; intro j _
    rw [Finset.sum_comm (s := Finset.univ)]
  rw [e, Finset.sum_div]
  apply Finset.sum_congr rfl
  intro S _
  simp_rw [← Finset.mul_sum]
  rw [mul_div_assoc]

theorem meshMean_congr (nx ny nz : Nat) (F G : Nat → Nat → Nat → ℂ) (h : ∀ i j k, i < nx → j < ny → k < nz → F i j k = G i j k) :
    meshMean nx ny nz F = meshMean nx ny nz G := by
  unfold meshMean
  congr 1
  apply Finset.sum_congr rfl; intro i hi
  apply Finset.sum_congr rfl; intro j hj
  apply Finset.sum_congr rfl; intro k hk
  rw [Finset.mem_range] at hi hj hk
  exact h i j k hi hj hk

/-- C77: second moment of the band: on every grid of at least 5×5 points the mesh average of `e_k²` is `4 t² + 4 t'² + 4 t''²`, the sum of
    the squared hoppings (for smaller grids the hoppings wrap around the grid) -/
theorem band_second_moment (t tp tpp : ℝ) (nx ny nz : Nat) (hx : 5 ≤ nx) (hy : 5 ≤ ny) (hz : 0 < nz) :
    meshMean nx ny nz (fun i j k => getEk (oneBand t tp tpp) nx ny nz i j k ^ 2) = ((4 * t ^ 2 + 4 * tp ^ 2 + 4 * tpp ^ 2 : ℝ) : ℂ) := by
  rw [meshMean_congr nx ny nz _ (fun i j k => ∑ S : Fin 12, (c12 t tp tpp S : ℂ) *
    (getEk (oneBand t tp tpp) nx ny nz i j k * phz nx ny nz S i j k))]
  · rw [meshMean_sum]
    simp only [band_coefficient t tp tpp nx ny nz hx hy hz]
    rw [sum12]
    simp [c12]
    ring
  · intro i j k _ hj hk
    rw [pow_two]
    conv_lhs => rw [band_expand t tp tpp nx ny nz i j k hj hk]
    conv_rhs => rw [band_expand t tp tpp nx ny nz i j k hj hk]
    rw [Finset.sum_mul]
    apply Finset.sum_congr rfl
    intro S _
    ring

/-- C77: the restriction to large grids is needed: on a grid of 2×1 points the second-neighbour hopping returns to the same site -/
example : meshMean 2 1 1 (getEk (oneBand 0 0 1) 2 1 1) = -4 := by
  rw [meshMean_congr 2 1 1 _ fun _ _ _ => -4]
  · simp [meshMean]; norm_num
  · intro i j k hi hj hk
    rw [getEk_square 0 0 1 2 1 1 i j k hj hk]
    obtain rfl : j = 0 := by omega
    have : i = 0 ∨ i = 1 := by omega
    rcases this with rfl | rfl <;> simp [ekSquare] <;> norm_num

end DGA.Wan
