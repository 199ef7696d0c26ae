/-
  C88: a root of the function handed to the optimiser is the unique maximiser of the maximum-entropy functional, and the matrix handed
  to it is the Jacobian.
-/
import Verif.MaxEnt.Quad
import Mathlib.Analysis.SpecialFunctions.ExpDeriv
import Mathlib.Analysis.Calculus.Deriv.Add
import Mathlib.Analysis.Calculus.Deriv.Mul
import Mathlib.Analysis.Calculus.Deriv.Inv
import Mathlib.Analysis.Calculus.Deriv.Comp

noncomputable section

namespace DGA.Mx

open Finset

variable {nw nk ns : ℕ}

/-! ### specification -/

/-- kernel kept by the solver: the product of the three factors -/
def kept (s : Solver nw nk ns) (k : Fin nk) (l : Fin nw) : ℝ := ∑ m, s.U k m * s.Xi m * s.V l m

/-- deviation of the data from the fit ∫ K B, with the trapezoidal rule and the kept kernel -/
def misfit (s : Solver nw nk ns) (B : Fin nw → ℝ) (k : Fin nk) : ℝ := s.data k - trapz (fun l => kept s k l * B l) s.re

/-- chi-square with the kept kernel -/
def chi2Kept (s : Solver nw nk ns) (B : Fin nw → ℝ) : ℝ := ∑ k, s.E k * misfit s B k ^ 2

/-- Shannon–Jaynes entropy of a spectrum relative to the default model, ∫ B - D - B log(B/D) -/
def shannon (s : Solver nw nk ns) (B : Fin nw → ℝ) : ℝ := trapz (fun l => B l - s.model l - B l * Real.log (B l / s.model l)) s.re

/-- the maximum-entropy functional α S - χ²/2 -/
def Q (s : Solver nw nk ns) (alpha : ℝ) (B : Fin nw → ℝ) : ℝ := alpha * shannon s B - chi2Kept s B / 2

/-! ### Jacobian -/

theorem v_update (s : Solver nw nk ns) (u : Fin ns → ℝ) (i : Fin ns) (t : ℝ) (l : Fin nw) :
    s.v (Function.update u i t) l = s.v u l + s.V l i * (t - u i) := by
  unfold Solver.v
  have e : ∀ m, s.V l m * Function.update u i t m = s.V l m * u m + (if m = i then s.V l i * (t - u i) else 0) := by
    intro m
    by_cases h : m = i
    · subst h; simp; ring
    · simp [h]
  rw [Finset.sum_congr rfl fun m _ => e m, Finset.sum_add_distrib]
  simp

theorem hasDerivAt_v (s : Solver nw nk ns) (u : Fin ns → ℝ) (i : Fin ns) (l : Fin nw) :
    HasDerivAt (fun t => s.v (Function.update u i t) l) (s.V l i) (u i) := by
  have e : (fun t => s.v (Function.update u i t) l) = fun t => s.v u l + s.V l i * (t - u i) := by
    funext t; exact v_update s u i t l
  rw [e]
  simpa using (((hasDerivAt_id (u i)).sub_const (u i)).const_mul (s.V l i)).const_add (s.v u l)

theorem hasDerivAt_coord (u : Fin ns → ℝ) (i m : Fin ns) :
    HasDerivAt (fun t => Function.update u i t m) (if m = i then 1 else 0) (u i) := by
  by_cases h : m = i
  · subst h
    simpa using hasDerivAt_id' (u m)
  · simpa [h] using hasDerivAt_const (u i) (u m)

/-- `J` is the matrix of partial derivatives of `f` (positive spectra) -/
theorem jacobian_diag (s : Solver nw nk ns) (alpha : ℝ) (u : Fin ns → ℝ) (m i : Fin ns) :
    HasDerivAt (fun t => s.fDiag alpha (Function.update u i t) m) (s.JDiag alpha u m i) (u i) := by
  unfold Solver.fDiag Solver.JDiag Solver.W3
  have h1 := (hasDerivAt_coord u i m).const_mul alpha
  have h2 : HasDerivAt (fun t => ∑ l, s.W2 m l * Real.exp (s.v (Function.update u i t) l))
      (∑ l, s.W2 m l * s.V l i * Real.exp (s.v u l)) (u i) := by
    refine HasDerivAt.fun_sum fun l _ => ?_
    have h := ((hasDerivAt_v s u i l).exp).const_mul (s.W2 m l)
    rw [Function.update_eq_self] at h
    have e : s.W2 m l * s.V l i * Real.exp (s.v u l) = s.W2 m l * (Real.exp (s.v u l) * s.V l i) := by ring
    rw [e]
    exact h
  exact (h1.add h2).sub_const (s.Evi m)

/-- `J` is the matrix of partial derivatives of `f` (offdiagonal elements) -/
theorem jacobian_off (s : Solver nw nk ns) (alpha : ℝ) (u : Fin ns → ℝ) (m i : Fin ns) :
    HasDerivAt (fun t => s.fOff alpha (Function.update u i t) m) (s.JOff alpha u m i) (u i) := by
  unfold Solver.fOff Solver.JOff Solver.M3
  have h1 := (hasDerivAt_coord u i m).const_mul alpha
  have h2 : HasDerivAt (fun t => ∑ l, s.M2 m l * (s.modelPlus l * Real.exp (s.v (Function.update u i t) l)
      - s.modelMinus l / Real.exp (s.v (Function.update u i t) l)))
      (∑ l, s.M2 m l * s.V l i * (s.modelPlus l * Real.exp (s.v u l) + s.modelMinus l / Real.exp (s.v u l))) (u i) := by
    refine HasDerivAt.fun_sum fun l _ => ?_
    have hv := hasDerivAt_v s u i l
    have ha := (hv.exp).const_mul (s.modelPlus l)
    have hb := (hv.neg.exp).const_mul (s.modelMinus l)
    have h := ((ha.sub hb).const_mul (s.M2 m l))
    simp only [Pi.neg_apply, Pi.sub_apply, Function.update_eq_self, Real.exp_neg] at h
    have e : s.M2 m l * s.V l i * (s.modelPlus l * Real.exp (s.v u l) + s.modelMinus l / Real.exp (s.v u l)) =
        s.M2 m l * (s.modelPlus l * (Real.exp (s.v u l) * s.V l i) - s.modelMinus l * ((Real.exp (s.v u l))⁻¹ * -s.V l i)) := by
      rw [div_eq_mul_inv]; ring
    rw [e]
    have e2 : (fun t => s.M2 m l * (s.modelPlus l * Real.exp (s.v (Function.update u i t) l)
        - s.modelMinus l / Real.exp (s.v (Function.update u i t) l))) = fun t => s.M2 m l * (s.modelPlus l *
          Real.exp (s.v (Function.update u i t) l) - s.modelMinus l * (Real.exp (s.v (Function.update u i t) l))⁻¹) := by
      funext t; rw [div_eq_mul_inv]
    rw [e2]
    exact h
  exact (h1.add h2).sub_const (s.Evi m)

/-! ### stationarity -/

/-- the sum with `M2` is the fit with the kept kernel, projected on the singular vectors -/
theorem M2_sum (s : Solver nw nk ns) (A : Fin nw → ℝ) (m : Fin ns) :
    ∑ l, s.M2 m l * A l = ∑ k, s.E k * s.U k m * s.Xi m * trapz (fun l => kept s k l * A l) s.re := by
  simp only [trapz_eq, Solver.M2, kept, Finset.mul_sum, Finset.sum_mul]
  rw [Finset.sum_comm]
  refine Finset.sum_congr rfl fun k _ => Finset.sum_congr rfl fun l _ => Finset.sum_congr rfl fun n _ => ?_
  ring

theorem W2_eq (s : Solver nw nk ns) (m : Fin ns) (l : Fin nw) : s.W2 m l = s.M2 m l * s.model l := by
  simp only [Solver.W2, Solver.M2, Finset.sum_mul]

theorem fDiag_eq (s : Solver nw nk ns) (alpha : ℝ) (u : Fin ns → ℝ) (m : Fin ns) :
    s.fDiag alpha u m = alpha * u m - ∑ k, s.E k * s.U k m * s.Xi m * misfit s (s.specDiag u) k := by
  have e : ∑ l, s.W2 m l * Real.exp (s.v u l) = ∑ l, s.M2 m l * s.specDiag u l :=
    Finset.sum_congr rfl fun l _ => by rw [W2_eq, Solver.specDiag]; ring
  rw [Solver.fDiag, e, M2_sum]
  simp only [misfit, mul_sub, Finset.sum_sub_distrib]
  have e3 : s.Evi m = ∑ k, s.E k * s.U k m * s.Xi m * s.data k := Finset.sum_congr rfl fun k _ => by ring
  rw [e3]; ring

theorem fOff_eq (s : Solver nw nk ns) (alpha : ℝ) (u : Fin ns → ℝ) (m : Fin ns) :
    s.fOff alpha u m = alpha * u m - ∑ k, s.E k * s.U k m * s.Xi m * misfit s (s.specOff u) k := by
  have e : ∑ l, s.M2 m l * (s.modelPlus l * Real.exp (s.v u l) - s.modelMinus l / Real.exp (s.v u l)) =
      ∑ l, s.M2 m l * s.specOff u l := rfl
  rw [Solver.fOff, e, M2_sum]
  simp only [misfit, mul_sub, Finset.sum_sub_distrib]
  have e3 : s.Evi m = ∑ k, s.E k * s.U k m * s.Xi m * s.data k := Finset.sum_congr rfl fun k _ => by ring
  rw [e3]; ring

/-- at a stationary vector the exponent is the gradient of the misfit -/
theorem stationary_v (s : Solver nw nk ns) (alpha : ℝ) (u : Fin ns → ℝ) (r : Fin nk → ℝ)
    (h : ∀ m, alpha * u m = ∑ k, s.E k * s.U k m * s.Xi m * r k) (l : Fin nw) :
    alpha * s.v u l = ∑ k, s.E k * kept s k l * r k := by
  have e : alpha * s.v u l = ∑ m, s.V l m * (alpha * u m) := by
    rw [Solver.v, Finset.mul_sum]; exact Finset.sum_congr rfl fun m _ => by ring
  rw [e, Finset.sum_congr rfl fun m _ => by rw [h m, Finset.mul_sum], Finset.sum_comm]
  refine Finset.sum_congr rfl fun k _ => ?_
  rw [kept, Finset.mul_sum, Finset.sum_mul]
  exact Finset.sum_congr rfl fun m _ => by ring

theorem misfit_sub (s : Solver nw nk ns) (A B : Fin nw → ℝ) (k : Fin nk) :
    misfit s B k = misfit s A k - ∑ l, dw s.re l * kept s k l * (B l - A l) := by
  have e : ∑ l, dw s.re l * kept s k l * (B l - A l) = ∑ l, dw s.re l * (kept s k l * B l) - ∑ l, dw s.re l * (kept s k l * A l) := by
    rw [← Finset.sum_sub_distrib]; exact Finset.sum_congr rfl fun l _ => by ring
  rw [misfit, misfit, trapz_eq, trapz_eq, e]; ring

/-- chi-square of another spectrum: value, gradient and curvature at `A` -/
theorem chi2_expand (s : Solver nw nk ns) (A B : Fin nw → ℝ) (g : Fin nw → ℝ)
    (hg : ∀ l, g l = ∑ k, s.E k * kept s k l * misfit s A k) :
    chi2Kept s B = chi2Kept s A - 2 * ∑ l, dw s.re l * (B l - A l) * g l
      + ∑ k, s.E k * (∑ l, dw s.re l * kept s k l * (B l - A l)) ^ 2 := by
  have e1 : ∑ l, dw s.re l * (B l - A l) * g l = ∑ k, s.E k * misfit s A k * ∑ l, dw s.re l * kept s k l * (B l - A l) := by
    simp only [hg, Finset.mul_sum]
    rw [Finset.sum_comm]
    exact Finset.sum_congr rfl fun k _ => Finset.sum_congr rfl fun l _ => by ring
  have e2 : ∀ k, s.E k * misfit s B k ^ 2 = s.E k * misfit s A k ^ 2
      - 2 * (s.E k * misfit s A k * ∑ l, dw s.re l * kept s k l * (B l - A l))
      + s.E k * (∑ l, dw s.re l * kept s k l * (B l - A l)) ^ 2 := by
    intro k; rw [misfit_sub s A B k]; ring
  rw [e1, chi2Kept, chi2Kept, Finset.sum_congr rfl fun k _ => e2 k, Finset.sum_add_distrib, Finset.sum_sub_distrib, Finset.mul_sum]

/-! ### elementary inequality -/

theorem relent {A B : ℝ} (hA : 0 < A) (hB : 0 ≤ B) : 0 ≤ A - B + B * Real.log (B / A) := by
  rcases hB.eq_or_lt with h | h
  · subst h; simp; exact hA.le
  · have h1 := Real.log_le_sub_one_of_pos (div_pos hA h)
    have h2 : Real.log (B / A) = -Real.log (A / B) := by rw [← Real.log_inv, inv_div]
    have h3 : B * (A / B - 1) = A - B := by field_simp
    have := mul_le_mul_of_nonneg_left h1 h.le
    rw [h2]; linarith

theorem relent_eq {A B : ℝ} (hA : 0 < A) (hB : 0 ≤ B) (h0 : A - B + B * Real.log (B / A) = 0) : B = A := by
  rcases hB.eq_or_lt with h | h
  · subst h; simp at h0; exact h0.symm
  · by_contra hne
    have hx : A / B ≠ 1 := by intro hh; rw [div_eq_one_iff_eq h.ne'] at hh; exact hne hh.symm
    have h1 := Real.log_lt_sub_one_of_pos (div_pos hA h) hx
    have h2 : Real.log (B / A) = -Real.log (A / B) := by rw [← Real.log_inv, inv_div]
    have h3 : B * (A / B - 1) = A - B := by field_simp
    have := mul_lt_mul_of_pos_left h1 h
    rw [h2] at h0; linarith

theorem specDiag_pos (s : Solver nw nk ns) (hD : ∀ l, 0 < s.model l) (u : Fin ns → ℝ) (l : Fin nw) : 0 < s.specDiag u l :=
  mul_pos (hD l) (Real.exp_pos _)

theorem log_specDiag (s : Solver nw nk ns) (hD : ∀ l, 0 < s.model l) (u : Fin ns → ℝ) (l : Fin nw) :
    Real.log (s.specDiag u l / s.model l) = s.v u l := by
  rw [Solver.specDiag, mul_div_cancel_left₀ _ (hD l).ne', Real.log_exp]

/-- `entropy_pos` at a spectrum and its vector is the entropy of the spectrum -/
theorem entropyPos_eq (s : Solver nw nk ns) (hD : ∀ l, 0 < s.model l) (u : Fin ns → ℝ) :
    s.entropyPos (s.specDiag u) u = shannon s (s.specDiag u) := by
  unfold Solver.entropyPos shannon
  congr 1; funext l; rw [log_specDiag s hD]

/-- how far another spectrum is below the stationary one -/
theorem Q_gap (s : Solver nw nk ns) (alpha : ℝ) (hD : ∀ l, 0 < s.model l) (u : Fin ns → ℝ)
    (hf : ∀ m, s.fDiag alpha u m = 0) (B : Fin nw → ℝ) (hB : ∀ l, 0 ≤ B l) :
    Q s alpha (s.specDiag u) - Q s alpha B =
      alpha * ∑ l, dw s.re l * (s.specDiag u l - B l + B l * Real.log (B l / s.specDiag u l))
      + (∑ k, s.E k * (∑ l, dw s.re l * kept s k l * (B l - s.specDiag u l)) ^ 2) / 2 := by
  have hst : ∀ m, alpha * u m = ∑ k, s.E k * s.U k m * s.Xi m * misfit s (s.specDiag u) k := by
    intro m; have := hf m; rw [fDiag_eq] at this; linarith
  have hv := stationary_v s alpha u _ hst
  have hc := chi2_expand s (s.specDiag u) B (fun l => alpha * s.v u l) hv
  have hl : ∀ l, B l * Real.log (B l / s.specDiag u l) = B l * Real.log (B l / s.model l) - B l * s.v u l := by
    intro l
    rcases (hB l).eq_or_lt with h | h
    · rw [← h]; simp
    · rw [Real.log_div h.ne' (specDiag_pos s hD u l).ne', Real.log_div h.ne' (hD l).ne', Solver.specDiag,
        Real.log_mul (hD l).ne' (Real.exp_ne_zero _), Real.log_exp]
      ring
  have e : alpha * ∑ l, dw s.re l * (s.specDiag u l - B l + B l * Real.log (B l / s.specDiag u l)) =
      alpha * shannon s (s.specDiag u) - alpha * shannon s B + ∑ l, dw s.re l * (s.specDiag u l - B l) * (alpha * s.v u l) := by
    simp only [shannon, trapz_eq, Finset.mul_sum]
    rw [← Finset.sum_sub_distrib, ← Finset.sum_add_distrib]
    refine Finset.sum_congr rfl fun l _ => ?_
    rw [hl l, log_specDiag s hD]; ring
  have e2 : ∑ l, dw s.re l * (s.specDiag u l - B l) * (alpha * s.v u l) = -∑ l, dw s.re l * (B l - s.specDiag u l) * (alpha * s.v u l) := by
    rw [← Finset.sum_neg_distrib]; exact Finset.sum_congr rfl fun l _ => by ring
  rw [e, e2]
  simp only [Q]
  rw [hc]; ring

/-- C88 (a): a root of `f` maximises α S - χ²/2 among all non-negative spectra, and is the only maximiser -/
theorem root_maximises (s : Solver nw nk ns) (alpha : ℝ) (ha : 0 < alpha) (hn : 2 ≤ nw) (hx : StrictMono s.re)
    (hD : ∀ l, 0 < s.model l) (hE : ∀ k, 0 ≤ s.E k) (u : Fin ns → ℝ) (hf : ∀ m, s.fDiag alpha u m = 0)
    (B : Fin nw → ℝ) (hB : ∀ l, 0 ≤ B l) :
    Q s alpha B ≤ Q s alpha (s.specDiag u) ∧ (Q s alpha B = Q s alpha (s.specDiag u) → B = s.specDiag u) := by
  have hg := Q_gap s alpha hD u hf B hB
  have h2 : 0 ≤ ∑ k, s.E k * (∑ l, dw s.re l * kept s k l * (B l - s.specDiag u l)) ^ 2 :=
    Finset.sum_nonneg fun k _ => mul_nonneg (hE k) (sq_nonneg _)
  have h1 : ∀ l ∈ Finset.univ, 0 ≤ dw s.re l * (s.specDiag u l - B l + B l * Real.log (B l / s.specDiag u l)) := fun l _ =>
    mul_nonneg (dw_pos hn _ hx l).le (relent (specDiag_pos s hD u l) (hB l))
  have h3 := mul_nonneg ha.le (Finset.sum_nonneg h1)
  refine ⟨by linarith, fun he => ?_⟩
  have h4 : ∑ l, dw s.re l * (s.specDiag u l - B l + B l * Real.log (B l / s.specDiag u l)) = 0 := by
    have : alpha * ∑ l, dw s.re l * (s.specDiag u l - B l + B l * Real.log (B l / s.specDiag u l)) = 0 := by linarith
    exact (mul_eq_zero.mp this).resolve_left ha.ne'
  funext l
  have h5 := (Finset.sum_eq_zero_iff_of_nonneg h1).mp h4 l (Finset.mem_univ l)
  exact relent_eq (specDiag_pos s hD u l) (hB l) ((mul_eq_zero.mp h5).resolve_left (dw_pos hn _ hx l).ne')

/-- C88 (b): the root is unique -/
theorem root_unique (s : Solver nw nk ns) (alpha : ℝ) (ha : 0 < alpha) (hn : 2 ≤ nw) (hx : StrictMono s.re)
    (hD : ∀ l, 0 < s.model l) (hE : ∀ k, 0 ≤ s.E k) (u u' : Fin ns → ℝ) (hf : ∀ m, s.fDiag alpha u m = 0)
    (hf' : ∀ m, s.fDiag alpha u' m = 0) : u = u' := by
  have h1 := root_maximises s alpha ha hn hx hD hE u hf _ fun l => (specDiag_pos s hD u' l).le
  have h2 := root_maximises s alpha ha hn hx hD hE u' hf' _ fun l => (specDiag_pos s hD u l).le
  have h3 := h1.2 (le_antisymm h1.1 h2.1)
  funext m
  have a := hf m
  have b := hf' m
  rw [fDiag_eq] at a b
  rw [← h3] at a
  have : alpha * u m = alpha * u' m := by linarith
  exact mul_left_cancel₀ ha.ne' this

end DGA.Mx
