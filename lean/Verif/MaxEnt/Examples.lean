/-
  Corollaries joining the parts of the maximum-entropy solver (C88, C92), and concrete cases meeting the hypotheses of C88–C93.
-/
import Verif.MaxEnt.Props3
import Verif.MaxEnt.Off
import Verif.MaxEnt.NewtonProps
import Verif.MaxEnt.SchedProps
import Mathlib.LinearAlgebra.Matrix.ToLinearEquiv
import Mathlib.LinearAlgebra.Matrix.NonsingularInverse

noncomputable section

namespace DGA.Mx

open Finset Matrix

variable {nw nk ns : ℕ}

/-! ### joining root, functional and optimiser -/

/-- C88 (f): if the kept singular values reproduce the kernel, the functional that is maximised is α·(reported entropy) - (reported χ²)/2,
    over all non-negative spectra -/
theorem complete_svd_maximises (s : Solver nw nk ns) (alpha : ℝ) (ha : 0 < alpha) (hn : 2 ≤ nw) (hx : StrictMono s.re)
    (hD : ∀ l, 0 < s.model l) (hE : ∀ k, 0 ≤ s.E k) (hK : ∀ k l, ∑ m, s.U k m * s.Xi m * s.V l m = s.K k l)
    (u : Fin ns → ℝ) (hf : ∀ m, s.fDiag alpha u m = 0) (B : Fin nw → ℝ) (hB : ∀ l, 0 ≤ B l) :
    alpha * trapz (fun l => B l - s.model l - B l * Real.log (B l / s.model l)) s.re - s.chi2 B / 2 ≤
      alpha * s.entropyPos (s.specDiag u) u - s.chi2 (s.specDiag u) / 2 := by
  have h := (root_maximises s alpha ha hn hx hD hE u hf B hB).1
  have hc : ∀ A, chi2Kept s A = s.chi2 A := by
    intro A
    unfold chi2Kept Solver.chi2 misfit
    have : ∀ k l, kept s k l = s.K k l := hK
    simp only [this]
  rw [entropyPos_eq s hD, ← hc, ← hc]
  exact h

/-- function and Jacobian the optimiser gets for positive spectra, solvers.py:222-253, 535-537 -/
def fjDiag (s : Solver nw nk ns) (alpha : ℝ) : FJ ns := ⟨s.fDiag alpha, s.JDiag alpha⟩

/-- function and Jacobian the optimiser gets for offdiagonal elements, solvers.py:255-280, 535-537 -/
def fjOff (s : Solver nw nk ns) (alpha : ℝ) : FJ ns := ⟨s.fOff alpha, s.JOff alpha⟩

/-- C92 (g): the optimiser applied to the maximum-entropy equations: every returned vector is the exact solution of the equations linearised
    at a point closer than 1e-4, whatever the start -/
theorem newton_maxent (pinv : Pinv ns)
    (hpinv : ∀ J P, pinv J = some P → (∀ z : Fin ns → ℝ, (∀ m, ∑ i, J m i * z i = 0) → z = 0) → ∀ (y : Fin ns → ℝ) m, ∑ i, J m i * ∑ j, P i j * y j = y m)
    (hno : ∀ J, pinv J ≠ none) (s : Solver nw nk ns) (alpha : ℝ) (ha : 0 < alpha) (hx : Monotone s.re) (hD : ∀ l, 0 ≤ s.model l)
    (hE : ∀ k, 0 ≤ s.E k) (maxIter : ℕ) (guess x : Fin ns → ℝ) (nfev : ℕ) (fj : FJ ns) (hfj : fj = fjDiag s alpha ∨ fj = fjOff s alpha)
    (h : newton pinv fj maxIter guess = .ok (x, nfev)) :
    nfev ≤ maxIter ∧ ∃ p, (∀ i, |x i - p i| < 1e-4) ∧ (∀ m, fj.f p m + ∑ i, fj.J p m i * (x i - p i) = 0) ∧
      ∀ m, |fj.f p m| ≤ 1e-4 * ∑ i, |fj.J p m i| := by
  refine newton_solution pinv fj maxIter guess x nfev hpinv hno ?_ h
  rcases hfj with rfl | rfl
  · exact fun u z hz => jacobian_injective s alpha ha hx hD hE u z hz
  · exact fun u z hz => jacobian_off_injective s alpha ha hx hD hE u z hz

/-- a matrix inverse meets what `newton_maxent` assumes about `pinv` -/
def invPinv (n : ℕ) : Pinv n := fun J => some fun i j => (Matrix.of J)⁻¹ i j

theorem invPinv_spec (n : ℕ) : (∀ J, invPinv n J ≠ none) ∧ ∀ J P, invPinv n J = some P →
    (∀ z : Fin n → ℝ, (∀ m, ∑ i, J m i * z i = 0) → z = 0) → ∀ (y : Fin n → ℝ) m, ∑ i, J m i * ∑ j, P i j * y j = y m := by
  refine ⟨fun J => by simp [invPinv], fun J P hP hinj y m => ?_⟩
  simp only [invPinv, Option.some.injEq] at hP
  subst hP
  have hdet : (Matrix.of J).det ≠ 0 := by
    intro h0
    obtain ⟨v, hv, hz⟩ := Matrix.exists_mulVec_eq_zero_iff.mpr h0
    exact hv (hinj v fun m => congrFun hz m)
  have hu : IsUnit (Matrix.of J).det := isUnit_iff_ne_zero.mpr hdet
  have e : (Matrix.of J).mulVec ((Matrix.of J)⁻¹.mulVec y) = y := by
    rw [Matrix.mulVec_mulVec, Matrix.mul_nonsing_inv _ hu, Matrix.one_mulVec]
  exact congrFun e m

/-! ### a concrete solver: three frequencies, two data points, one kept singular value -/

/-- mesh 0, 1, 3; one-dimensional kernel; not a solution at u = 0 -/
def demo : Solver 3 2 1 where
  re := ![0, 1, 3]
  E := ![1, 2]
  data := ![5, 7]
  K := fun k l => (![1, 2] : Fin 2 → ℝ) k * 3 * (![1, 1, 2] : Fin 3 → ℝ) l
  U := fun k _ => (![1, 2] : Fin 2 → ℝ) k
  Xi := fun _ => 3
  V := fun l _ => (![1, 1, 2] : Fin 3 → ℝ) l
  model := ![1, 1, 2]

theorem demo_mesh : StrictMono demo.re := by
  intro a b h
  fin_cases a <;> fin_cases b <;> simp_all [demo]

theorem demo_pos : (∀ l, 0 < demo.model l) ∧ ∀ k, 0 < demo.E k := by
  constructor
  · intro l; fin_cases l <;> simp [demo]
  · intro k; fin_cases k <;> simp [demo]

/-- the root exists for every α, is unique, and maximises the reported functional -/
example (alpha : ℝ) (ha : 0 < alpha) : ∃ u, (∀ m, demo.fDiag alpha u m = 0) ∧ (∀ u', (∀ m, demo.fDiag alpha u' m = 0) → u' = u) ∧
    ∀ B : Fin 3 → ℝ, (∀ l, 0 ≤ B l) →
      alpha * trapz (fun l => B l - demo.model l - B l * Real.log (B l / demo.model l)) demo.re - demo.chi2 B / 2 ≤
      alpha * demo.entropyPos (demo.specDiag u) u - demo.chi2 (demo.specDiag u) / 2 := by
  obtain ⟨u, hu⟩ := root_exists demo alpha ha demo_mesh.monotone (fun l => (demo_pos.1 l).le) demo_pos.2
  refine ⟨u, hu, fun u' hu' => ?_, fun B hB => ?_⟩
  · exact root_unique demo alpha ha (by norm_num) demo_mesh demo_pos.1 (fun k => (demo_pos.2 k).le) u' u hu' hu
  · exact complete_svd_maximises demo alpha ha (by norm_num) demo_mesh demo_pos.1 (fun k => (demo_pos.2 k).le)
      (fun k l => by simp [demo]) u hu B hB

/-- the offdiagonal solver likewise -/
example (alpha : ℝ) (ha : 0 < alpha) : ∃ u, (∀ m, demo.fOff alpha u m = 0) ∧ ∀ B, QOff demo alpha B ≤ QOff demo alpha (demo.specOff u) := by
  obtain ⟨u, hu⟩ := rootOff_exists demo alpha ha demo_mesh.monotone (fun l => (demo_pos.1 l).le) demo_pos.2
  exact ⟨u, hu, fun B => (rootOff_maximises demo alpha ha (by norm_num) demo_mesh demo_pos.1 (fun k => (demo_pos.2 k).le) u hu B).1⟩

/-- the optimiser started at the root returns it: the hypotheses of `newton_maxent` can be met -/
example (alpha : ℝ) (ha : 0 < alpha) : ∃ x nfev, newton (invPinv 1) (fjDiag demo alpha) 20000 x = .ok (x, nfev) ∧
    ∃ p, (∀ i, |x i - p i| < 1e-4) ∧ ∀ m, |(fjDiag demo alpha).f p m| ≤ 1e-4 * ∑ i, |(fjDiag demo alpha).J p m i| := by
  obtain ⟨u, hu⟩ := root_exists demo alpha ha demo_mesh.monotone (fun l => (demo_pos.1 l).le) demo_pos.2
  have h := newton_at_root (invPinv 1) (fjDiag demo alpha) 20000 (by norm_num) (by norm_num) u hu
  obtain ⟨-, p, h1, -, h3⟩ := newton_maxent (invPinv 1) (invPinv_spec 1).2 (invPinv_spec 1).1 demo alpha ha demo_mesh.monotone
    (fun l => (demo_pos.1 l).le) (fun k => (demo_pos.2 k).le) 20000 u u 1 _ (.inl rfl) h
  exact ⟨u, 1, h, p, h1, h3⟩

/-- smaller α: two roots of the same solver -/
example : ∃ ua ub, chi2Kept demo (demo.specDiag ua) ≤ chi2Kept demo (demo.specDiag ub) := by
  obtain ⟨ua, ha⟩ := root_exists demo 1 one_pos demo_mesh.monotone (fun l => (demo_pos.1 l).le) demo_pos.2
  obtain ⟨ub, hb⟩ := root_exists demo 2 two_pos demo_mesh.monotone (fun l => (demo_pos.1 l).le) demo_pos.2
  exact ⟨ua, ub, (alpha_tradeoff demo 1 2 one_pos (by norm_num) (by norm_num) demo_mesh demo_pos.1 (fun k => (demo_pos.2 k).le) ua ub ha hb).1⟩

/-- two singular values above the limit: only one is kept -/
example : nSv 3 (fun i => if i = 0 then 1 else if i = 1 then 1 / 2 else 0) = some 1 := by
  unfold nSv
  rw [show List.range 3 = [0, 1, 2] from rfl]
  norm_num [List.filter]

/-- a covariance with a non-trivial rotation: eigenvalues 2 and 3, vectors exchanged -/
example (re : Fin 2 → ℝ) (data : Fin 2 → ℂ) (kern : Fin 2 → Fin 2 → ℂ) (A : Fin 2 → ℝ) (U : Fin (2 + 2) → ℕ → ℝ) (S : ℕ → ℝ) (Vt : ℕ → Fin 2 → ℝ)
    (model : Fin 2 → ℝ) : ∃ C : Matrix (Fin 2) (Fin 2) ℂ,
    (((initFermi re data kern (.cov ![2, 3] fun i j => (!![0, 1; 1, 0] : Matrix (Fin 2) (Fin 2) ℂ) i j) U S Vt model 1).chi2 A : ℝ) : ℂ) =
      star (fun j => data j - fitC re kern A j) ⬝ᵥ (C⁻¹ *ᵥ fun j => data j - fitC re kern A j) :=
  ⟨_, chi2_covariance re data kern ![2, 3] (by intro i; fin_cases i <;> simp) !![0, 1; 1, 0]
    (by ext i j; fin_cases i <;> fin_cases j <;> simp [Matrix.mul_apply, Fin.sum_univ_two, Matrix.conjTranspose_apply]) _ rfl U S Vt model 1 A⟩

/-! ### schedules -/

/-- an optimiser that always succeeds; the probability is one at α = 8 and tiny elsewhere -/
def demoOpt : Opt 1 1 := fun a u => .ok ⟨fun i => u i + 1, fun _ => a, a, 1 / a, if a = 8 then 1 else 0, a⟩

def demoRes1 : Res 1 1 := ⟨fun _ => 1, fun _ => 8, 8, 1 / 8, 1, 8⟩
def demoRes2 (u : ℝ) : Res 1 1 := ⟨fun _ => u, fun _ => 4, 4, 1 / 4, 0, 4⟩

/-- the scan visits 8 and 4, the second run starts at the result of the first -/
example : kinkLoop demoOpt 3 2 5 8 (0, []) = some [(8, demoRes1), (4, demoRes2 2)] := by
  norm_num [kinkLoop, kinkStep, demoOpt, demoRes1, demoRes2]

/-- Bryan's method returns for it -/
example : ∃ A arr, solveBryan demoOpt 8 2 3 = some (.ok (A, arr)) ∧ ∀ l, 4 ≤ A l ∧ A l ≤ 8 := by
  have h : bryanLoop demoOpt 2 3 8 0 [] = some (.ok [demoRes1, demoRes2 1]) := by
    norm_num [bryanLoop, demoOpt, demoRes1, demoRes2]
  have hs : ∃ A, solveBryan demoOpt 8 2 3 = some (.ok (A, [demoRes1, demoRes2 1])) := by rw [solveBryan, h]; exact ⟨_, rfl⟩
  obtain ⟨A, hs⟩ := hs
  refine ⟨A, _, hs, fun l => ?_⟩
  obtain ⟨c, -, -, -, hb⟩ := bryan_result demoOpt 8 2 (by norm_num) (by norm_num) (by
      intro a u o ho
      simp only [demoOpt, Except.ok.injEq] at ho
      subst ho
      refine ⟨rfl, ?_⟩
      dsimp only
      split <;> norm_num) 3 _ _ hs
  refine hb l 4 8 ?_
  intro r hr
  simp only [List.mem_cons, List.not_mem_nil, or_false] at hr
  rcases hr with rfl | rfl <;> norm_num [demoRes1, demoRes2]

end DGA.Mx
