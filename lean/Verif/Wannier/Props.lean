/-
  Properties of the tight-binding module (C44, C71–C75).
-/
import Verif.Wannier.Model
import Verif.Pipeline.Symmetry
import Mathlib.Analysis.SpecialFunctions.Trigonometric.Basic
import Mathlib.Analysis.SpecialFunctions.Trigonometric.Deriv
import Mathlib.Analysis.SpecialFunctions.ExpDeriv
import Mathlib.Analysis.Calculus.Deriv.Mul
import Mathlib.Analysis.Calculus.Deriv.Add
import Mathlib.Tactic.FinCases
import Mathlib.Tactic.LinearCombination

namespace DGA.Wan

open Complex

/-- phase factor `exp(i s)` -/
noncomputable def ph (s : ℝ) : ℂ := Complex.exp (Complex.I * (s : ℂ))

theorem ph_eq (s : ℝ) : ph s = (Real.cos s : ℂ) + Complex.I * (Real.sin s : ℂ) := by
  unfold ph
  rw [mul_comm, Complex.exp_mul_I, Complex.ofReal_cos, Complex.ofReal_sin]
  ring

theorem ph_add (a b : ℝ) : ph (a + b) = ph a * ph b := by
  unfold ph
  rw [← Complex.exp_add]
  push_cast
  ring_nf

theorem ph_neg (a : ℝ) : ph (-a) = (Real.cos a : ℂ) - Complex.I * (Real.sin a : ℂ) := by
  rw [ph_eq, Real.cos_neg, Real.sin_neg]
  push_cast
  ring

theorem ph_conj (a : ℝ) : star (ph a) = ph (-a) := by
  rw [ph_eq, ph_neg]
  simp [Complex.ext_iff]

theorem ph_int (s : ℝ) (m : ℤ) : ph (s + 2 * Real.pi * m) = ph s := by
  rw [ph_eq, ph_eq, show s + 2 * Real.pi * (m : ℝ) = s + m * (2 * Real.pi) by ring, Real.cos_add_int_mul_two_pi, Real.sin_add_int_mul_two_pi]

theorem convham_ph {nb : Nat} {ι : Type} (h : Hr nb) (kmesh : Fin 3 → ι → ℝ) (ik : ι) (a b : Fin nb) :
    convham h kmesh ik a b = ∑ R, ph (∑ x : Fin 3, h.rGrid R a b x * kmesh x ik) / (h.w R : ℂ) * h.hr R a b := rfl

/-! ### C44: the square lattice band -/

theorem sum12 (f : Fin 12 → ℂ) : ∑ R, f R = f 0 + f 1 + f 2 + f 3 + f 4 + f 5 + f 6 + f 7 + f 8 + f 9 + f 10 + f 11 := by
  simp only [Fin.sum_univ_succ, Fin.sum_univ_zero]
  simp only [add_zero, ← add_assoc]
  rfl

/-- `∑_R exp(i R·k) c_R` over the twelve vectors -/
theorem sum_r12 (c : Fin 12 → ℂ) (k : Fin 3 → ℝ) :
    ∑ R : Fin 12, ph (∑ x : Fin 3, r12 R x * k x) / ((1 : ℝ) : ℂ) * c R =
      ph (k 0) * c 0 + ph (k 1) * c 1 + ph (-k 0) * c 2 + ph (-k 1) * c 3 + ph (k 0) * ph (k 1) * c 4 + ph (k 0) * ph (-k 1) * c 5 +
        ph (-k 0) * ph (k 1) * c 6 + ph (-k 0) * ph (-k 1) * c 7 + ph (2 * k 0) * c 8 + ph (2 * k 1) * c 9 + ph (-(2 * k 0)) * c 10 +
        ph (-(2 * k 1)) * c 11 := by
  rw [sum12]
  simp [r12, Fin.sum_univ_three, ← ph_add]

theorem nematic_closed {ι : Type} (tx ty tppx tppy tpxy : ℝ) (kmesh : Fin 3 → ι → ℝ) (ik : ι) :
    convham (oneBandNematic tx ty tppx tppy tpxy) kmesh ik 0 0 =
      ((-2 * (tx * Real.cos (kmesh 0 ik) + ty * Real.cos (kmesh 1 ik)) - 4 * tpxy * Real.cos (kmesh 0 ik) * Real.cos (kmesh 1 ik)
        - 2 * (tppx * Real.cos (2 * kmesh 0 ik) + tppy * Real.cos (2 * kmesh 1 ik)) : ℝ) : ℂ) := by
  rw [convham_ph]
  refine (sum_r12 (fun R => (oneBandNematic tx ty tppx tppy tpxy).hr R 0 0) fun x => kmesh x ik).trans ?_
  simp [oneBandNematic, ph_eq]
  ring

/-- C44.  The Fourier transform of the real-space `t-t'-t''` model at an arbitrary list of momenta is the closed-form dispersion
    `-2t(cos kx + cos ky) - 4t' cos kx cos ky - 2t''(cos 2kx + cos 2ky)`. -/
theorem square_band {ι : Type} (t tp tpp : ℝ) (kmesh : Fin 3 → ι → ℝ) (ik : ι) :
    convham (oneBand t tp tpp) kmesh ik 0 0 =
      ((-2 * t * (Real.cos (kmesh 0 ik) + Real.cos (kmesh 1 ik)) - 4 * tp * Real.cos (kmesh 0 ik) * Real.cos (kmesh 1 ik)
        - 2 * tpp * (Real.cos (2 * kmesh 0 ik) + Real.cos (2 * kmesh 1 ik)) : ℝ) : ℂ) := by
  rw [show oneBand t tp tpp = oneBandNematic t t tpp tpp tp from rfl, nematic_closed]
  congr 1
  ring

/-- C44: the same in terms of the module's own `ek_square` -/
theorem square_band_ek {ι : Type} (t tp tpp : ℝ) (kmesh : Fin 3 → ι → ℝ) (ik : ι) :
    convham (oneBand t tp tpp) kmesh ik 0 0 = (ekSquare (kmesh 0 ik) (kmesh 1 ik) t tp tpp : ℂ) := square_band t tp tpp kmesh ik

theorem kmeshFlat_at (nx ny nz i j k : Nat) (hj : j < ny) (hk : k < nz) (x : Fin 3) :
    kmeshFlat nx ny nz x (flatIdx ny nz i j k) = ![kAxis nx i, kAxis ny j, kAxis nz k] x := by
  unfold kmeshFlat flatIdx kmeshAt
  have h1 : ((i * ny + j) * nz + k) / nz = i * ny + j := by
    rw [mul_comm, Nat.mul_add_div (by omega), Nat.div_eq_of_lt hk, add_zero]
  have h2 : ((i * ny + j) * nz + k) % nz = k := by rw [mul_comm, Nat.mul_add_mod, Nat.mod_eq_of_lt hk]
  have h3 : (i * ny + j) / ny = i := by rw [mul_comm, Nat.mul_add_div (by omega), Nat.div_eq_of_lt hj, add_zero]
  have h4 : (i * ny + j) % ny = j := by rw [mul_comm, Nat.mul_add_mod, Nat.mod_eq_of_lt hj]
  rw [h1, h2, h3, h4]

/-- C44: the band on the k grid, entry by entry: `get_ek(k_grid)[i, j, k]` is the closed form at `(2 pi i / nx, 2 pi j / ny)` -/
theorem getEk_square (t tp tpp : ℝ) (nx ny nz i j k : Nat) (hj : j < ny) (hk : k < nz) :
    getEk (oneBand t tp tpp) nx ny nz i j k = (ekSquare (2 * Real.pi * i / nx) (2 * Real.pi * j / ny) t tp tpp : ℂ) := by
  unfold getEk getEkFull
  rw [square_band_ek, kmeshFlat_at nx ny nz i j k hj hk, kmeshFlat_at nx ny nz i j k hj hk]
  simp only [Matrix.cons_val_zero, Matrix.cons_val_one, kAxis]
  congr 2 <;> ring

/-- C44: the closed form is even in each component, symmetric under `kx ↔ ky` and `2 pi` periodic -/
theorem ekSquare_symm (kx ky t tp tpp : ℝ) (m n : ℤ) :
    ekSquare (-kx) ky t tp tpp = ekSquare kx ky t tp tpp ∧ ekSquare kx (-ky) t tp tpp = ekSquare kx ky t tp tpp ∧
    ekSquare ky kx t tp tpp = ekSquare kx ky t tp tpp ∧
    ekSquare (kx + 2 * Real.pi * m) (ky + 2 * Real.pi * n) t tp tpp = ekSquare kx ky t tp tpp := by
  unfold ekSquare
  have e : ∀ (x : ℝ) (m : ℤ), Real.cos (x + 2 * Real.pi * m) = Real.cos x := fun x m => by
    rw [show x + 2 * Real.pi * (m : ℝ) = x + m * (2 * Real.pi) by ring, Real.cos_add_int_mul_two_pi]
  refine ⟨?_, ?_, ?_, ?_⟩
  · rw [Real.cos_neg, mul_neg, Real.cos_neg]
  · rw [Real.cos_neg, mul_neg, Real.cos_neg]
  · ring
  · rw [e, e, show 2 * (kx + 2 * Real.pi * (m : ℝ)) = 2 * kx + 2 * Real.pi * ((2 * m : ℤ) : ℝ) by push_cast; ring, e,
      show 2 * (ky + 2 * Real.pi * (n : ℝ)) = 2 * ky + 2 * Real.pi * ((2 * n : ℤ) : ℝ) by push_cast; ring, e]

/-- C44: not a trivial statement: the band of the pure nearest-neighbour model runs from `-4t` to `4t` -/
example : convham (oneBand 1 0 0) (fun _ (_ : Unit) => 0) () 0 0 = -4 ∧
    convham (oneBand 1 0 0) (fun _ (_ : Unit) => Real.pi) () 0 0 = 4 := by
  rw [square_band, square_band]
  simp
  norm_num

/-! ### C71: the band has the symmetry of the grid's symmetry set -/

open DGA.Bz DGA.Pipe

theorem cos_kAxis_neg (n i m : Nat) (hi : i < n) : Real.cos (m * (2 * Real.pi * ((n - i) % n : Nat) / n)) = Real.cos (m * (2 * Real.pi * i / n)) := by
  have hn : (n : ℝ) ≠ 0 := by have : n ≠ 0 := by omega
                              exact_mod_cast this
  rcases Nat.eq_zero_or_pos i with rfl | h
  · simp
  · rw [Nat.mod_eq_of_lt (by omega), Nat.cast_sub hi.le]
    rw [show (m : ℝ) * (2 * Real.pi * ((n : ℝ) - i) / n) = ((m : ℤ) : ℝ) * (2 * Real.pi) - m * (2 * Real.pi * i / n) by
      push_cast; field_simp]
    rw [Real.cos_int_mul_two_pi_sub]

/-- C71.  On every grid the band of the one-band model with directional hoppings is invariant under `x-inv`, `y-inv` and `z-inv`, so under
    the nematic and quasi-one-dimensional symmetry sets -/
theorem nematic_invariant (tx ty tppx tppy tpxy : ℝ) (nx ny nz : Nat) :
    Invariant nx ny nz [.xInv, .yInv, .zInv] (getEk (oneBandNematic tx ty tppx tppy tpxy) nx ny nz) := by
  intro σ hσ p hp
  obtain ⟨i, j, k⟩ := p
  obtain ⟨hi, hj, hk⟩ := hp
  simp only at hi hj hk
  have closed : ∀ i j k, j < ny → k < nz → getEk (oneBandNematic tx ty tppx tppy tpxy) nx ny nz i j k =
      ((-2 * (tx * Real.cos ((1 : ℕ) * (2 * Real.pi * i / nx)) + ty * Real.cos ((1 : ℕ) * (2 * Real.pi * j / ny)))
        - 4 * tpxy * Real.cos ((1 : ℕ) * (2 * Real.pi * i / nx)) * Real.cos ((1 : ℕ) * (2 * Real.pi * j / ny))
        - 2 * (tppx * Real.cos ((2 : ℕ) * (2 * Real.pi * i / nx)) + tppy * Real.cos ((2 : ℕ) * (2 * Real.pi * j / ny))) : ℝ) : ℂ) := by
    intro i j k hj hk
    unfold getEk getEkFull
    rw [nematic_closed, kmeshFlat_at nx ny nz i j k hj hk, kmeshFlat_at nx ny nz i j k hj hk]
    simp only [Matrix.cons_val_zero, Matrix.cons_val_one, kAxis, Nat.cast_one, one_mul, Nat.cast_ofNat]
    rw [show (i : ℝ) * (2 * Real.pi / nx) = 2 * Real.pi * i / nx by ring, show (j : ℝ) * (2 * Real.pi / ny) = 2 * Real.pi * j / ny by ring]
  simp only [List.mem_cons, List.not_mem_nil, or_false] at hσ
  rcases hσ with rfl | rfl | rfl
  · simp only [Bz.image]
    rw [closed _ j k hj hk, closed i j k hj hk, cos_kAxis_neg nx i 1 hi, cos_kAxis_neg nx i 2 hi]
  · simp only [Bz.image]
    rw [closed i _ k (Nat.mod_lt _ (by omega)) hk, closed i j k hj hk, cos_kAxis_neg ny j 1 hj, cos_kAxis_neg ny j 2 hj]
  · simp only [Bz.image]
    rw [closed i j _ hj (Nat.mod_lt _ (by omega)), closed i j k hj hk]

/-- C71.  On every grid the square-lattice band is invariant under all of `x-inv`, `y-inv`, `z-inv`, `x-y-sym` and `x-y-inv`, so under every
    list of symmetry names -/
theorem square_invariant (t tp tpp : ℝ) (nx ny nz : Nat) (syms : List Sym) :
    Invariant nx ny nz syms (getEk (oneBand t tp tpp) nx ny nz) := by
  have all : Invariant nx ny nz [.xInv, .yInv, .zInv, .xySym] (getEk (oneBand t tp tpp) nx ny nz) := by
    intro σ hσ p hp
    by_cases h : σ = .xySym
    · subst h
      obtain ⟨i, j, k⟩ := p
      obtain ⟨hi, hj, hk⟩ := hp
      simp only at hi hj hk
      simp only [Bz.image]
      split
      · rename_i h
        subst h
        rw [getEk_square t tp tpp nx nx nz j i k hi hk, getEk_square t tp tpp nx nx nz i j k hj hk,
          (ekSquare_symm (2 * Real.pi * i / nx) (2 * Real.pi * j / nx) t tp tpp 0 0).2.2.1]
      · rfl
    · exact nematic_invariant t t tpp tpp tp nx ny nz σ (by
        simp only [List.mem_cons, List.not_mem_nil, or_false] at hσ ⊢
        tauto) p hp
  intro σ _ p hp
  cases σ with
  | xInv => exact all .xInv (by simp) p hp
  | yInv => exact all .yInv (by simp) p hp
  | zInv => exact all .zInv (by simp) p hp
  | xySym => exact all .xySym (by simp) p hp
  | xyInv =>
    have h1 := all .yInv (by simp) p hp
    have h2 := all .xInv (by simp) (Bz.image nx ny nz .yInv p) (Bz.image_inGrid nx ny nz .yInv p hp)
    exact h2.trans h1
  | other name => rfl

/-- C71: the converse fails for a genuinely nematic band: `x-y-sym` is not a symmetry when `tx ≠ ty` -/
theorem nematic_not_square : ¬ Invariant 2 2 1 square (getEk (oneBandNematic 1 0 0 0 0) 2 2 1) := by
  intro h
  have := h .xySym (by decide) (1, 0, 0) ⟨by decide, by decide, by decide⟩
  simp only [Bz.image, if_true] at this
  unfold getEk getEkFull at this
  rw [nematic_closed, nematic_closed, kmeshFlat_at 2 2 1 1 0 0 (by decide) (by decide), kmeshFlat_at 2 2 1 0 1 0 (by decide) (by decide),
    kmeshFlat_at 2 2 1 1 0 0 (by decide) (by decide), kmeshFlat_at 2 2 1 0 1 0 (by decide) (by decide)] at this
  simp [kAxis] at this
  norm_cast at this
  norm_num at this

end DGA.Wan
