import Verif.MaxEnt.Props3
import Verif.MaxEnt.Props
import Mathlib.Tactic.IntervalCases
import Mathlib.Tactic.FinCases

/-
  C91, continued: the kernels with real data, and what the truncation of the singular value decomposition drops.
-/

noncomputable section

namespace DGA.Mx

open Finset

/-- Specification: the fit `∫ K A` with the original kernel. -/
def fitR {nw n : ℕ} (re : Fin nw → ℝ) (kern : Fin n → Fin nw → ℝ) (A : Fin nw → ℝ) (j : Fin n) : ℝ := trapz (fun l => kern j l * A l) re

theorem chi2_initReal {nw n : ℕ} (re : Fin nw → ℝ) (data : Fin n → ℝ) (kern : Fin n → Fin nw → ℝ) (var : Fin n → ℝ) (ucov : Fin n → Fin n → ℝ)
    (U : Fin n → ℕ → ℝ) (S : ℕ → ℝ) (Vt : ℕ → Fin nw → ℝ) (model : Fin nw → ℝ) (ns : ℕ) (A : Fin nw → ℝ) :
    (initReal re data kern var ucov U S Vt model ns).chi2 A =
      ∑ i, 1 / |var i| * (∑ j, ucov j i * (data j - fitR re kern A j)) ^ 2 := by
  unfold Solver.chi2 initReal truncate
  refine Finset.sum_congr rfl fun i _ => ?_
  dsimp only
  congr 2
  simp only [mul_sub, Finset.sum_sub_distrib]
  congr 1
  rw [trapz_eq]
  have e : ∀ j, ucov j i * fitR re kern A j = ∑ l, ucov j i * kern j l * A l * dw re l := by
    intro j
    unfold fitR
    rw [trapz_eq, Finset.mul_sum]
    exact Finset.sum_congr rfl fun l _ => by ring
  simp only [e]
  rw [Finset.sum_comm]
  refine Finset.sum_congr rfl fun l _ => ?_
  simp only [Finset.sum_mul, Finset.mul_sum]
  exact Finset.sum_congr rfl fun _ _ => mul_comm _ _

open Matrix in
/-- **C91.** Real kernels: with an orthogonal eigen-decomposition of the covariance matrix chi-square is the covariance form of the
    deviation of the data from the fit with the original kernel.  Eigenvalues that came out negative count with their absolute value,
    so chi-square is never negative. -/
theorem chi2_real_covariance {nw n : ℕ} (re : Fin nw → ℝ) (data : Fin n → ℝ) (kern : Fin n → Fin nw → ℝ) (eig : Fin n → ℝ)
    (h0 : ∀ i, eig i ≠ 0) (u : Matrix (Fin n) (Fin n) ℝ) (hu : uᵀ * u = 1) (C : Matrix (Fin n) (Fin n) ℝ)
    (hC : C = u * Matrix.diagonal (fun i => |eig i|) * uᵀ)
    (U : Fin n → ℕ → ℝ) (S : ℕ → ℝ) (Vt : ℕ → Fin nw → ℝ) (model : Fin nw → ℝ) (ns : ℕ) (A : Fin nw → ℝ) :
    (initReal re data kern eig (fun i j => u i j) U S Vt model ns).chi2 A =
      (fun j => data j - fitR re kern A j) ⬝ᵥ (C⁻¹ *ᵥ fun j => data j - fitR re kern A j) ∧
    0 ≤ (initReal re data kern eig (fun i j => u i j) U S Vt model ns).chi2 A := by
  rw [chi2_initReal]
  constructor
  · set r : Fin n → ℝ := fun j => data j - fitR re kern A j with hr
    have hu' : u * uᵀ = 1 := mul_eq_one_comm.mp hu
    have hinv : C⁻¹ = u * Matrix.diagonal (fun i => |eig i|⁻¹) * uᵀ := by
      apply Matrix.inv_eq_right_inv
      rw [hC]
      have e1 : u * Matrix.diagonal (fun i => |eig i|) * uᵀ * (u * Matrix.diagonal (fun i => |eig i|⁻¹) * uᵀ) =
          u * (Matrix.diagonal (fun i => |eig i|) * (uᵀ * u) * Matrix.diagonal (fun i => |eig i|⁻¹)) * uᵀ := by
        simp only [Matrix.mul_assoc]
      rw [e1, hu, Matrix.mul_one, Matrix.diagonal_mul_diagonal]
      have e2 : (fun i => |eig i| * |eig i|⁻¹) = fun _ => 1 := by
        funext i; exact mul_inv_cancel₀ (abs_ne_zero.2 (h0 i))
      rw [e2, Matrix.diagonal_one, Matrix.mul_one, hu']
    rw [hinv, ← Matrix.mulVec_mulVec, ← Matrix.mulVec_mulVec, Matrix.dotProduct_mulVec]
    have e3 : r ᵥ* u = uᵀ *ᵥ r := by rw [Matrix.mulVec_transpose]
    rw [e3]
    simp only [dotProduct, Matrix.mulVec_diagonal]
    refine Finset.sum_congr rfl fun i _ => ?_
    have : ∑ j, u j i * r j = (uᵀ *ᵥ r) i := rfl
    rw [this, one_div]
    ring
  · exact Finset.sum_nonneg fun i _ => mul_nonneg (by positivity) (sq_nonneg _)

/-- **C91.** Real kernels with standard deviations: chi-square is `Σ (deviation / σ)²`. -/
theorem chi2_real_stdev {nw n : ℕ} (re : Fin nw → ℝ) (data : Fin n → ℝ) (kern : Fin n → Fin nw → ℝ) (σ : Fin n → ℝ)
    (U : Fin n → ℕ → ℝ) (S : ℕ → ℝ) (Vt : ℕ → Fin nw → ℝ) (model : Fin nw → ℝ) (ns : ℕ) (A : Fin nw → ℝ) :
    (initReal re data kern (fun i => σ i ^ 2) (fun i j => if i = j then 1 else 0) U S Vt model ns).chi2 A =
      ∑ i, ((data i - fitR re kern A i) / σ i) ^ 2 := by
  rw [chi2_initReal]
  refine Finset.sum_congr rfl fun i _ => ?_
  simp only [ite_mul, one_mul, zero_mul, Finset.sum_ite_eq', Finset.mem_univ, if_true]
  rw [abs_of_nonneg (sq_nonneg _)]
  ring

/-- **C91.** The kept factors: if `U, S, Vt` is a singular value decomposition of the kernel with `r` values, the kernel minus the
    product of the kept factors is the sum of the dropped terms, and with orthonormal vectors the sum of the squares of its entries is
    the sum of the squares of the dropped singular values. -/
theorem truncation_error {nw nk : ℕ} (re : Fin nw → ℝ) (E data : Fin nk → ℝ) (K : Fin nk → Fin nw → ℝ) (U : Fin nk → ℕ → ℝ) (S : ℕ → ℝ)
    (Vt : ℕ → Fin nw → ℝ) (model : Fin nw → ℝ) (ns r : ℕ) (hr : ns ≤ r) (hK : ∀ k l, K k l = ∑ m ∈ Finset.range r, U k m * S m * Vt m l)
    (hU : ∀ m p, m < r → p < r → ∑ k, U k m * U k p = if m = p then 1 else 0)
    (hV : ∀ m p, m < r → p < r → ∑ l, Vt m l * Vt p l = if m = p then 1 else 0) :
    (∀ k l, K k l - kept (truncate re E data K U S Vt model ns) k l = ∑ m ∈ Finset.Ico ns r, U k m * S m * Vt m l) ∧
    ∑ k, ∑ l, (K k l - kept (truncate re E data K U S Vt model ns) k l) ^ 2 = ∑ m ∈ Finset.Ico ns r, S m ^ 2 := by
  have h1 : ∀ k l, K k l - kept (truncate re E data K U S Vt model ns) k l = ∑ m ∈ Finset.Ico ns r, U k m * S m * Vt m l := by
    intro k l
    rw [hK, Finset.sum_Ico_eq_sub _ hr]
    congr 1
    unfold kept truncate
    exact (Finset.sum_range (fun m => U k m * S m * Vt m l)).symm
  refine ⟨h1, ?_⟩
  simp only [h1, sq, Finset.sum_mul_sum]
  have e : ∀ m ∈ Finset.Ico ns r, ∀ p ∈ Finset.Ico ns r, ∑ k, ∑ l, U k m * S m * Vt m l * (U k p * S p * Vt p l) =
      if m = p then S m * S p else 0 := by
    intro m hm p hp
    rw [Finset.mem_Ico] at hm hp
    have : ∑ k, ∑ l, U k m * S m * Vt m l * (U k p * S p * Vt p l) = S m * S p * ((∑ k, U k m * U k p) * ∑ l, Vt m l * Vt p l) := by
      rw [Finset.sum_mul_sum, Finset.mul_sum]
      refine Finset.sum_congr rfl fun k _ => ?_
      rw [Finset.mul_sum]
      exact Finset.sum_congr rfl fun l _ => by ring
    rw [this, hU m p hm.2 hp.2, hV m p hm.2 hp.2]
    split <;> simp
  calc ∑ k, ∑ l, ∑ m ∈ Finset.Ico ns r, ∑ p ∈ Finset.Ico ns r, U k m * S m * Vt m l * (U k p * S p * Vt p l)
      = ∑ m ∈ Finset.Ico ns r, ∑ p ∈ Finset.Ico ns r, ∑ k, ∑ l, U k m * S m * Vt m l * (U k p * S p * Vt p l) := by
        rw [Finset.sum_congr rfl fun k _ => Finset.sum_comm]
        rw [Finset.sum_comm]
        refine Finset.sum_congr rfl fun m _ => ?_
        rw [Finset.sum_congr rfl fun k _ => Finset.sum_comm]
        rw [Finset.sum_comm]
    _ = ∑ m ∈ Finset.Ico ns r, ∑ p ∈ Finset.Ico ns r, if m = p then S m * S p else 0 :=
        Finset.sum_congr rfl fun m hm => Finset.sum_congr rfl fun p hp => e m hm p hp
    _ = ∑ m ∈ Finset.Ico ns r, S m * S m := by
        refine Finset.sum_congr rfl fun m hm => ?_
        rw [Finset.sum_ite_eq, if_pos hm]

/-- non-vacuity: a diagonal kernel with singular values 2, 1, one of them kept -/
example : ∑ k : Fin 2, ∑ l : Fin 2, ((fun k l : Fin 2 => if k = l then (if k = 0 then 2 else 1) else (0 : ℝ)) k l -
    kept (truncate (nw := 2) (nk := 2) (fun _ => 0) (fun _ => 1) (fun _ => 1) (fun k l => if k = l then (if k = 0 then 2 else 1) else 0)
      (fun k m => if k.val = m then 1 else 0) (fun m => if m = 0 then 2 else 1) (fun m l => if l.val = m then 1 else 0) (fun _ => 1) 1) k l) ^ 2 = 1 := by
  have := (truncation_error (nw := 2) (nk := 2) (fun _ => 0) (fun _ => 1) (fun _ => 1) (fun k l => if k = l then (if k = 0 then 2 else 1) else 0)
    (fun k m => if k.val = m then 1 else 0) (fun m => if m = 0 then 2 else 1) (fun m l => if l.val = m then 1 else 0) (fun _ => 1) 1 2 (by omega)
    (by intro k l; fin_cases k <;> fin_cases l <;> norm_num [Finset.sum_range_succ])
    (by intro m p hm hp; interval_cases m <;> interval_cases p <;> norm_num [Fin.sum_univ_two])
    (by intro m p hm hp; interval_cases m <;> interval_cases p <;> norm_num [Fin.sum_univ_two])).2
  rw [this]
  norm_num [Finset.sum_Ico_eq_sum_range]

/-- non-vacuity: an indefinite "covariance" -/
example (A : Fin 1 → ℝ) : 0 ≤ (initReal (nw := 1) (n := 1) (fun _ => 0) (fun _ => 1) (fun _ _ => 1) (fun _ => -2) (fun i j => (1 : Matrix (Fin 1) (Fin 1) ℝ) i j)
    (fun _ _ => 1) (fun _ => 1) (fun _ _ => 1) (fun _ => 1) 1).chi2 A :=
  (chi2_real_covariance _ _ _ (fun _ => -2) (fun _ => by norm_num) 1 (by simp) _ rfl _ _ _ _ _ A).2

end DGA.Mx
