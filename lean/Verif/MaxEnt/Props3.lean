/-
  C90: entropies, chi-square and Bayesian quantities have the right sign; the result is never worse than the default model.
  C91: chi-square is the covariance form of the deviation; the truncation of the singular values.
-/
import Verif.MaxEnt.Off
import Verif.MaxEnt.Init
import Mathlib.LinearAlgebra.Matrix.NonsingularInverse
import Mathlib.LinearAlgebra.Matrix.ConjTranspose
import Mathlib.Data.Matrix.Mul
import Mathlib.Analysis.Complex.Basic

noncomputable section

namespace DGA.Mx

open Finset

variable {nw nk ns : ℕ}

/-! ### C90 -/

theorem shannon_nonpos (s : Solver nw nk ns) (hx : Monotone s.re) (hD : ∀ l, 0 < s.model l) (B : Fin nw → ℝ) (hB : ∀ l, 0 ≤ B l) :
    shannon s B ≤ 0 := by
  rw [shannon, trapz_eq]
  refine Finset.sum_nonpos fun l _ => mul_nonpos_of_nonneg_of_nonpos (dw_nonneg _ hx l) ?_
  have := relent (hD l) (hB l); linarith

theorem shannon_model (s : Solver nw nk ns) (hD : ∀ l, 0 < s.model l) : shannon s s.model = 0 := by
  rw [shannon, trapz_eq]
  refine Finset.sum_eq_zero fun l _ => ?_
  rw [div_self (hD l).ne']; simp

/-- the zero vector is the default model -/
theorem spec_zero (s : Solver nw nk ns) : s.specDiag 0 = s.model := by
  funext l; simp [Solver.specDiag, Solver.v]

/-- C90 (a): entropy, norm and sign of the spectrum for every vector of the optimiser -/
theorem diag_signs (s : Solver nw nk ns) (hn : 2 ≤ nw) (hx : StrictMono s.re) (hD : ∀ l, 0 < s.model l) (u : Fin ns → ℝ) :
    (∀ l, 0 < s.specDiag u l) ∧ 0 < trapz (s.specDiag u) s.re ∧ s.entropyPos (s.specDiag u) u ≤ 0 ∧
      (s.entropyPos (s.specDiag u) u = 0 ↔ s.specDiag u = s.model) := by
  have hp := specDiag_pos s hD u
  refine ⟨hp, ?_, ?_, ?_⟩
  · rw [trapz_eq]
    exact Finset.sum_pos (fun l _ => mul_pos (dw_pos hn _ hx l) (hp l)) ⟨⟨0, by omega⟩, Finset.mem_univ _⟩
  · rw [entropyPos_eq s hD]; exact shannon_nonpos s hx.monotone hD _ fun l => (hp l).le
  · rw [entropyPos_eq s hD]
    constructor
    · intro h0
      rw [shannon, trapz_eq] at h0
      have h1 : ∀ l ∈ Finset.univ, 0 ≤ dw s.re l * (s.model l - s.specDiag u l + s.specDiag u l * Real.log (s.specDiag u l / s.model l)) :=
        fun l _ => mul_nonneg (dw_pos hn _ hx l).le (relent (hD l) (hp l).le)
      have h2 : ∑ l, dw s.re l * (s.model l - s.specDiag u l + s.specDiag u l * Real.log (s.specDiag u l / s.model l)) = 0 := by
        have : ∑ l, dw s.re l * (s.model l - s.specDiag u l + s.specDiag u l * Real.log (s.specDiag u l / s.model l)) =
            -∑ l, dw s.re l * (s.specDiag u l - s.model l - s.specDiag u l * Real.log (s.specDiag u l / s.model l)) := by
          rw [← Finset.sum_neg_distrib]; exact Finset.sum_congr rfl fun l _ => by ring
        rw [this, h0, neg_zero]
      funext l
      have h3 := (Finset.sum_eq_zero_iff_of_nonneg h1).mp h2 l (Finset.mem_univ l)
      exact relent_eq (hD l) (hp l).le ((mul_eq_zero.mp h3).resolve_left (dw_pos hn _ hx l).ne')
    · intro h; rw [h]; exact shannon_model s hD

theorem chi2_nonneg (s : Solver nw nk ns) (hE : ∀ k, 0 ≤ s.E k) (A : Fin nw → ℝ) : 0 ≤ s.chi2 A :=
  Finset.sum_nonneg fun k _ => mul_nonneg (hE k) (sq_nonneg _)

/-- C90 (b): the positive–negative entropy is not positive, zero at the zero spectrum -/
theorem off_signs (s : Solver nw nk ns) (hx : Monotone s.re) (hD : ∀ l, 0 < s.model l) (B : Fin nw → ℝ) (u : Fin ns → ℝ) :
    s.entropyPosneg B u ≤ 0 ∧ s.entropyPosneg (fun _ => 0) u = 0 ∧ s.specOff 0 = fun _ => 0 := by
  refine ⟨?_, ?_, ?_⟩
  · obtain ⟨P, N, hP, hN, -, h⟩ := (entropyPosneg_spec s hx hD B u).1
    rw [h]
    have := shannon_nonpos s hx hD P hP
    have := shannon_nonpos s hx hD N hN
    linarith
  · rw [entropyPosneg_eq]
    refine Finset.sum_eq_zero fun l _ => ?_
    have h := expOf_eq (hD l) 0
    simp at h
    rw [posneg1, h.1]; simp
  · funext l; simp [Solver.specOff, Solver.v, Solver.modelPlus, Solver.modelMinus]

/-- C90 (c): the optimum fits at least as well as the default model, and its entropy loss is bounded by the misfit of the model -/
theorem optimum_vs_model (s : Solver nw nk ns) (alpha : ℝ) (ha : 0 < alpha) (hn : 2 ≤ nw) (hx : StrictMono s.re)
    (hD : ∀ l, 0 < s.model l) (hE : ∀ k, 0 ≤ s.E k) (u : Fin ns → ℝ) (hf : ∀ m, s.fDiag alpha u m = 0) :
    chi2Kept s (s.specDiag u) ≤ chi2Kept s s.model ∧ -(alpha * s.entropyPos (s.specDiag u) u) ≤ chi2Kept s s.model / 2 := by
  have h := (root_maximises s alpha ha hn hx hD hE u hf s.model fun l => (hD l).le).1
  rw [entropyPos_eq s hD]
  simp only [Q] at h
  rw [shannon_model s hD] at h
  have h1 := shannon_nonpos s hx.monotone hD (s.specDiag u) fun l => (specDiag_pos s hD u l).le
  have h2 : 0 ≤ chi2Kept s (s.specDiag u) := Finset.sum_nonneg fun k _ => mul_nonneg (hE k) (sq_nonneg _)
  have h3 : alpha * shannon s (s.specDiag u) ≤ 0 := mul_nonpos_of_nonneg_of_nonpos ha.le h1
  constructor <;> linarith

/-- quadratic form of the Bayes matrices -/
theorem lambda_form (s : Solver nw nk ns) (g x : Fin nw → ℝ) :
    ∑ i, ∑ j, x i * (g i * s.d2chi2 i j * g j) * x j = ∑ k, s.E k * (∑ i, g i * dw s.re i * s.K k i * x i) ^ 2 := by
  have e : ∀ k, s.E k * (∑ i, g i * dw s.re i * s.K k i * x i) ^ 2 =
      ∑ i, ∑ j, s.E k * (g i * dw s.re i * s.K k i * x i) * (g j * dw s.re j * s.K k j * x j) := by
    intro k
    rw [sq, Finset.sum_mul_sum, Finset.mul_sum]
    refine Finset.sum_congr rfl fun i _ => ?_
    rw [Finset.mul_sum]
    exact Finset.sum_congr rfl fun j _ => by ring
  rw [Finset.sum_congr rfl fun k _ => e k]
  conv_rhs => rw [Finset.sum_comm]
  refine Finset.sum_congr rfl fun i _ => ?_
  conv_rhs => rw [Finset.sum_comm]
  refine Finset.sum_congr rfl fun j _ => ?_
  rw [Solver.d2chi2, Finset.mul_sum, Finset.sum_mul, Finset.mul_sum, Finset.sum_mul]
  exact Finset.sum_congr rfl fun k _ => by ring

theorem eig_nonneg_core (s : Solver nw nk ns) (hE : ∀ k, 0 ≤ s.E k) (g x : Fin nw → ℝ) (lam : ℝ) (hx : x ≠ 0)
    (he : ∀ i, ∑ j, g i * s.d2chi2 i j * g j * x j = lam * x i) : 0 ≤ lam := by
  have h1 := lambda_form s g x
  have h2 : ∑ i, ∑ j, x i * (g i * s.d2chi2 i j * g j) * x j = lam * ∑ i, x i ^ 2 := by
    rw [Finset.mul_sum]
    refine Finset.sum_congr rfl fun i _ => ?_
    have : ∑ j, x i * (g i * s.d2chi2 i j * g j) * x j = x i * ∑ j, g i * s.d2chi2 i j * g j * x j := by
      rw [Finset.mul_sum]; exact Finset.sum_congr rfl fun j _ => by ring
    rw [this, he i]; ring
  have h3 : 0 ≤ ∑ k, s.E k * (∑ i, g i * dw s.re i * s.K k i * x i) ^ 2 :=
    Finset.sum_nonneg fun k _ => mul_nonneg (hE k) (sq_nonneg _)
  have h4 : 0 < ∑ i, x i ^ 2 := by
    obtain ⟨i, hi⟩ := Function.ne_iff.mp hx
    exact Finset.sum_pos' (fun i _ => sq_nonneg _) ⟨i, Finset.mem_univ i, by have : x i ≠ 0 := hi; positivity⟩
  by_contra hneg
  have := mul_neg_of_neg_of_pos (not_le.mp hneg) h4
  linarith

/-- C90 (d): the eigenvalues entering the Bayesian criterion are not negative -/
theorem lambda_eig_nonneg (s : Solver nw nk ns) (hE : ∀ k, 0 ≤ s.E k) (A x : Fin nw → ℝ) (lam : ℝ) (hx : x ≠ 0) :
    ((∀ i, ∑ j, s.lambdaMatrix A i j * x j = lam * x i) → 0 ≤ lam) ∧
      ((∀ i, ∑ j, s.lambdaMatrixOff A i j * x j = lam * x i) → 0 ≤ lam) :=
  ⟨fun h => eig_nonneg_core s hE (fun i => Real.sqrt (A i / dw s.re i)) x lam hx h,
   fun h => eig_nonneg_core s hE (fun i => ((A i ^ 2 + 4 * s.modelPlus i * s.modelMinus i) / dw s.re i ^ 2) ^ (1 / 4 : ℝ)) x lam hx h⟩

/-- C90 (e): number of good data points, trace and posterior probability -/
theorem bayes_bounds {n : ℕ} (lam : Fin n → ℝ) (hl : ∀ i, 0 ≤ lam i) (entr alpha chisq : ℝ) (ha : 0 < alpha) (hs : entr ≤ 0) (hc : 0 ≤ chisq) :
    0 ≤ (bayes lam entr alpha).1 ∧ 0 ≤ (bayes lam entr alpha).2.1 ∧ (bayes lam entr alpha).2.1 ≤ n ∧
      0 < posterior lam alpha entr chisq ∧ posterior lam alpha entr chisq ≤ alpha := by
  refine ⟨?_, ?_, ?_, Real.exp_pos _, ?_⟩
  · simp only [bayes]; nlinarith
  · simp only [bayes]
    exact Finset.sum_nonneg fun i _ => div_nonneg (hl i) (by have := hl i; linarith)
  · have h : ∑ i, lam i / (alpha + lam i) ≤ ∑ _i : Fin n, (1 : ℝ) :=
      Finset.sum_le_sum fun i _ => (div_le_one (by have := hl i; linarith)).mpr (by linarith)
    simpa [bayes] using h
  · unfold posterior
    have h1 : ∑ i, Real.log (alpha / (alpha + lam i)) ≤ 0 :=
      Finset.sum_nonpos fun i _ => Real.log_nonpos (div_nonneg ha.le (by have := hl i; linarith))
        ((div_le_one (by have := hl i; linarith)).mpr (by have := hl i; linarith))
    have h2 : alpha * entr ≤ 0 := mul_nonpos_of_nonneg_of_nonpos ha.le hs
    calc Real.exp (alpha * entr - 0.5 * chisq + Real.log alpha + 0.5 * ∑ i, Real.log (alpha / (alpha + lam i)))
        ≤ Real.exp (Real.log alpha) := Real.exp_le_exp.mpr (by linarith)
      _ = alpha := Real.exp_log ha

/-! ### C91 -/

/-- the fit of a complex kernel: real and imaginary part integrated separately -/
def fitC {n : ℕ} (re : Fin nw → ℝ) (kern : Fin n → Fin nw → ℂ) (A : Fin nw → ℝ) (j : Fin n) : ℂ :=
  ⟨trapz (fun l => (kern j l).re * A l) re, trapz (fun l => (kern j l).im * A l) re⟩

theorem fitC_eq {n : ℕ} (re : Fin nw → ℝ) (kern : Fin n → Fin nw → ℂ) (A : Fin nw → ℝ) (j : Fin n) :
    fitC re kern A j = ∑ l, ((dw re l * A l : ℝ) : ℂ) * kern j l := by
  apply Complex.ext
  · rw [Complex.re_sum]
    simp only [fitC]
    rw [trapz_eq]
    exact Finset.sum_congr rfl fun l _ => by rw [Complex.re_ofReal_mul]; ring
  · rw [Complex.im_sum]
    simp only [fitC]
    rw [trapz_eq]
    exact Finset.sum_congr rfl fun l _ => by rw [Complex.im_ofReal_mul]; ring

theorem rotate_fit {n : ℕ} (ucov : Fin n → Fin n → ℂ) (re : Fin nw → ℝ) (kern : Fin n → Fin nw → ℂ) (A : Fin nw → ℝ) (i : Fin n) :
    rotate ucov (fitC re kern A) i = fitC re (fun i l => rotate ucov (fun j => kern j l) i) A i := by
  rw [fitC_eq, rotate, Finset.sum_congr rfl fun j _ => by rw [fitC_eq, Finset.mul_sum], Finset.sum_comm]
  refine Finset.sum_congr rfl fun l _ => ?_
  rw [rotate, Finset.mul_sum]
  exact Finset.sum_congr rfl fun j _ => by ring

theorem rotate_sub {n : ℕ} (ucov : Fin n → Fin n → ℂ) (a b : Fin n → ℂ) (i : Fin n) :
    rotate ucov (fun j => a j - b j) i = rotate ucov a i - rotate ucov b i := by
  simp only [rotate, mul_sub, Finset.sum_sub_distrib]

/-- chi-square of the solver object: weighted squares in the eigenbasis -/
theorem chi2_init {n : ℕ} (re : Fin nw → ℝ) (data : Fin n → ℂ) (kern : Fin n → Fin nw → ℂ) (e : ErrIn n)
    (U : Fin (n + n) → ℕ → ℝ) (S : ℕ → ℝ) (Vt : ℕ → Fin nw → ℝ) (model : Fin nw → ℝ) (ns : ℕ) (A : Fin nw → ℝ) :
    (initFermi re data kern e U S Vt model ns).chi2 A =
      ∑ i, 1 / e.var i * Complex.normSq (rotate e.ucov (fun j => data j - fitC re kern A j) i) := by
  unfold Solver.chi2
  rw [Fin.sum_univ_add]
  simp only [initFermi, truncate, Edouble, reim, Fin.append_left, Fin.append_right]
  rw [← Finset.sum_add_distrib]
  refine Finset.sum_congr rfl fun i _ => ?_
  rw [← mul_add]
  congr 1
  rw [rotate_sub, rotate_fit, Complex.normSq_apply]
  simp only [fitC, Complex.sub_re, Complex.sub_im]
  ring

open Matrix in
/-- C91 (a): with the eigen-decomposition of the covariance matrix, chi-square is the covariance form of the deviation -/
theorem chi2_covariance {n : ℕ} (re : Fin nw → ℝ) (data : Fin n → ℂ) (kern : Fin n → Fin nw → ℂ) (eig : Fin n → ℝ) (hp : ∀ i, 0 < eig i)
    (u : Matrix (Fin n) (Fin n) ℂ) (hu : uᴴ * u = 1) (C : Matrix (Fin n) (Fin n) ℂ)
    (hC : C = u * Matrix.diagonal (fun i => ((eig i : ℝ) : ℂ)) * uᴴ)
    (U : Fin (n + n) → ℕ → ℝ) (S : ℕ → ℝ) (Vt : ℕ → Fin nw → ℝ) (model : Fin nw → ℝ) (ns : ℕ) (A : Fin nw → ℝ) :
    (((initFermi re data kern (.cov eig fun i j => u i j) U S Vt model ns).chi2 A : ℝ) : ℂ) =
      star (fun j => data j - fitC re kern A j) ⬝ᵥ (C⁻¹ *ᵥ fun j => data j - fitC re kern A j) := by
  set r : Fin n → ℂ := fun j => data j - fitC re kern A j with hr
  have hu' : u * uᴴ = 1 := mul_eq_one_comm.mp hu
  have hinv : C⁻¹ = u * Matrix.diagonal (fun i => (((eig i)⁻¹ : ℝ) : ℂ)) * uᴴ := by
    apply Matrix.inv_eq_right_inv
    rw [hC]
    have e1 : u * Matrix.diagonal (fun i => ((eig i : ℝ) : ℂ)) * uᴴ * (u * Matrix.diagonal (fun i => (((eig i)⁻¹ : ℝ) : ℂ)) * uᴴ) =
        u * (Matrix.diagonal (fun i => ((eig i : ℝ) : ℂ)) * (uᴴ * u) * Matrix.diagonal (fun i => (((eig i)⁻¹ : ℝ) : ℂ))) * uᴴ := by
      simp only [Matrix.mul_assoc]
    rw [e1, hu, Matrix.mul_one, Matrix.diagonal_mul_diagonal]
    have e2 : (fun i => ((eig i : ℝ) : ℂ) * (((eig i)⁻¹ : ℝ) : ℂ)) = fun _ => 1 := by
      funext i; rw [← Complex.ofReal_mul, mul_inv_cancel₀ (hp i).ne', Complex.ofReal_one]
    rw [e2, Matrix.diagonal_one, Matrix.mul_one, hu']
  have hrot : ∀ i, rotate (fun i j => u i j) r i = (uᴴ *ᵥ r) i := by
    intro i
    simp only [rotate, Matrix.mulVec, dotProduct, Matrix.conjTranspose_apply]
    rfl
  rw [chi2_init, hinv]
  rw [← Matrix.mulVec_mulVec, ← Matrix.mulVec_mulVec, Matrix.dotProduct_mulVec]
  have e3 : star r ᵥ* u = star (uᴴ *ᵥ r) := by rw [Matrix.star_mulVec, Matrix.conjTranspose_conjTranspose]
  rw [e3]
  simp only [dotProduct, Matrix.mulVec_diagonal, Pi.star_apply]
  rw [Complex.ofReal_sum]
  refine Finset.sum_congr rfl fun i _ => ?_
  have hv : (ErrIn.cov eig fun i j => u i j).var i = eig i := abs_of_pos (hp i)
  have hw : (ErrIn.cov eig fun i j => u i j).ucov = fun i j => u i j := rfl
  rw [hv, hw, hrot i, Complex.ofReal_mul, Complex.normSq_eq_conj_mul_self, one_div]
  have : star ((uᴴ *ᵥ r) i) = (starRingEnd ℂ) ((uᴴ *ᵥ r) i) := rfl
  rw [this]; ring

/-- C91 (b): with standard deviations, chi-square is Σ |deviation|²/σ² -/
theorem chi2_stdev {n : ℕ} (re : Fin nw → ℝ) (data : Fin n → ℂ) (kern : Fin n → Fin nw → ℂ) (σ : Fin n → ℝ)
    (U : Fin (n + n) → ℕ → ℝ) (S : ℕ → ℝ) (Vt : ℕ → Fin nw → ℝ) (model : Fin nw → ℝ) (ns : ℕ) (A : Fin nw → ℝ) :
    (initFermi re data kern (.stdev σ) U S Vt model ns).chi2 A = ∑ i, Complex.normSq (data i - fitC re kern A i) / σ i ^ 2 := by
  rw [chi2_init]
  refine Finset.sum_congr rfl fun i _ => ?_
  have hv : (ErrIn.stdev σ).var i = σ i ^ 2 := rfl
  have hr : rotate (ErrIn.stdev σ).ucov (fun j => data j - fitC re kern A j) i = data i - fitC re kern A i := by
    simp only [rotate, ErrIn.ucov]
    rw [Finset.sum_eq_single i]
    · simp
    · intro j _ hj; simp [hj]
    · simp
  rw [hv, hr]; ring

open Matrix in
/-- C91 (f): the back transformation is the fit with the original kernel, for every unitary rotation -/
theorem backtransform_eq {n : ℕ} (re : Fin nw → ℝ) (kern : Fin n → Fin nw → ℂ) (u : Matrix (Fin n) (Fin n) ℂ) (hu : u * uᴴ = 1) (A : Fin nw → ℝ) :
    backtransform re (fun i j => u i j) (fun i l => rotate (fun i j => u i j) (fun j => kern j l) i) A = fitC re kern A := by
  funext j
  have hk : ∀ l, ∑ i, u j i * rotate (fun i j => u i j) (fun j => kern j l) i = kern j l := by
    intro l
    have e : ∑ i, u j i * rotate (fun i j => u i j) (fun j => kern j l) i = (u *ᵥ (uᴴ *ᵥ fun j => kern j l)) j := rfl
    rw [e, Matrix.mulVec_mulVec, hu, Matrix.one_mulVec]
  simp only [backtransform, fitC]
  simp only [hk]

/-- C91 (c): the error description must be exactly one of the two -/
theorem chooseErr_cases {n : ℕ} (stdev : Option (Fin n → ℝ)) (cov : Option ((Fin n → ℝ) × (Fin n → Fin n → ℂ))) :
    (∃ e, chooseErr stdev cov = .ok e) ↔ (stdev.isSome ≠ cov.isSome) := by
  cases stdev <;> cases cov <;> simp [chooseErr]

/-! ### number of singular values -/

theorem filter_range_sorted (S : ℕ → ℝ) (hS : ∀ i j, i ≤ j → S j ≤ S i) (c : ℝ) :
    ∀ n, ∃ m, m ≤ n ∧ (List.range n).filter (fun i => decide (c < S i)) = List.range m ∧ (∀ i, i < n → (c < S i ↔ i < m)) := by
  intro n
  induction n with
  | zero => exact ⟨0, le_rfl, by simp, by simp⟩
  | succ n ih =>
    obtain ⟨m, hm, hf, hi⟩ := ih
    by_cases h : c < S n
    · have : m = n := by
        rcases hm.eq_or_lt with e | e
        · exact e
        · exact absurd ((hi m e).mp (h.trans_le (hS m n e.le))) (lt_irrefl _)
      subst this
      refine ⟨m + 1, le_rfl, ?_, ?_⟩
      · rw [List.range_succ, List.filter_append, hf]; simp [h]
      · intro i hi'
        refine ⟨fun _ => hi', fun _ => h.trans_le (hS i m (by omega))⟩
    · refine ⟨m, by omega, ?_, ?_⟩
      · rw [List.range_succ, List.filter_append, hf]; simp [h]
      · intro i hi'
        rcases (Nat.lt_succ_iff.mp hi').eq_or_lt with e | e
        · subst e; exact ⟨fun h' => absurd h' h, fun h' => absurd h' (by omega)⟩
        · exact hi i e

/-- C91 (d): the number of kept singular values is one less than the number of values above the threshold -/
theorem nSv_off_by_one (S : ℕ → ℝ) (hS : ∀ i j, i ≤ j → S j ≤ S i) (n : ℕ) :
    (nSv n S = none ↔ ((Finset.range n).filter fun i => 1e-10 < S i).card = 0) ∧
      ∀ ns, nSv n S = some ns → ((Finset.range n).filter fun i => 1e-10 < S i).card = ns + 1 ∧ 1e-10 < S ns := by
  obtain ⟨m, hm, hf, hi⟩ := filter_range_sorted S hS 1e-10 n
  have hc : ((Finset.range n).filter fun i => 1e-10 < S i).card = m := by
    have : (Finset.range n).filter (fun i => 1e-10 < S i) = Finset.range m := by
      ext i
      simp only [Finset.mem_filter, Finset.mem_range]
      constructor
      · rintro ⟨h1, h2⟩; exact (hi i h1).mp h2
      · intro h; exact ⟨by omega, (hi i (by omega)).mpr h⟩
    rw [this, Finset.card_range]
  rw [hc, nSv, hf]
  rcases m with _ | m
  · simp
  · rw [List.getLast?_range]
    simp only [Nat.add_eq_zero_iff, one_ne_zero, and_false, if_false, Nat.add_sub_cancel, reduceCtorEq, Option.some.injEq, true_and]
    rintro ns rfl
    exact ⟨rfl, (hi m (by omega)).mpr (by omega)⟩

/-- C91 (e): data along a dropped singular vector do not influence the result (equal errors, orthonormal columns) -/
theorem dropped_ignored (re : Fin nw → ℝ) (e : ℝ) (data : Fin nk → ℝ) (K : Fin nk → Fin nw → ℝ) (U : Fin nk → ℕ → ℝ) (S : ℕ → ℝ)
    (Vt : ℕ → Fin nw → ℝ) (model : Fin nw → ℝ) (ns p : ℕ) (hp : ns ≤ p) (ho : ∀ m, m ≠ p → ∑ k, U k m * U k p = 0) (c alpha : ℝ)
    (u : Fin ns → ℝ) :
    (truncate re (fun _ => e) (fun k => data k + c * U k p) K U S Vt model ns).fDiag alpha u =
      (truncate re (fun _ => e) data K U S Vt model ns).fDiag alpha u := by
  funext m
  have h := ho m (by have := m.isLt; omega)
  have hE : (truncate re (fun _ => e) (fun k => data k + c * U k p) K U S Vt model ns).Evi m =
      (truncate re (fun _ => e) data K U S Vt model ns).Evi m := by
    simp only [Solver.Evi, truncate]
    have : ∀ k, S m * U k m * e * (data k + c * U k p) = S m * U k m * e * data k + S m * e * c * (U k m * U k p) := fun k => by ring
    rw [Finset.sum_congr rfl fun k _ => this k, Finset.sum_add_distrib, ← Finset.mul_sum, h, mul_zero, add_zero]
  unfold Solver.fDiag
  rw [hE]
  rfl

end DGA.Mx
