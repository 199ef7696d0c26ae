import Verif.Eliash.Converge2
import Verif.Eliash.ConjSector
import Mathlib.Analysis.SpecificLimits.Normed

/-
  C118: the power iteration with the default options, i.e. the vertex symmetrised in frequency (`sym_sing`, `sym_trip`) and the
  shifted second run.  The symmetrised kernel is the product of a Hermitian kernel and a projection: it is in general neither
  Hermitian nor diagonalisable.
-/

noncomputable section

namespace DGA.Eli

open Filter Topology

variable {ι : Type _} [Fintype ι] [DecidableEq ι]

/-! ### The iteration, from the limit of the powers -/

/-- the map minus `s` times the identity -/
def shiftL (L : (ι → ℂ) →ₗ[ℂ] (ι → ℂ)) (s : ℂ) : (ι → ℂ) →ₗ[ℂ] (ι → ℂ) := L - s • (LinearMap.id : (ι → ℂ) →ₗ[ℂ] (ι → ℂ))

omit [Fintype ι] [DecidableEq ι] in
theorem shiftL_apply (L : (ι → ℂ) →ₗ[ℂ] (ι → ℂ)) (s : ℂ) (x : ι → ℂ) : shiftL L s x = L x - s • x := by simp [shiftL]

omit [DecidableEq ι] in
theorem iter_of_limit (L : (ι → ℂ) →ₗ[ℂ] (ι → ℂ)) (s nu : ℂ) (g w : ι → ℂ) (hnu : nu ≠ 0) (hw : w ≠ 0)
    (hTw : (shiftL L s) w = nu • w)
    (hlim : Tendsto (fun k => (1 / nu ^ k) • ((shiftL L s) ^ k) g) atTop (𝓝 w))
    (hne : ∀ k, (iter L [] s g (k + 1)).2 ≠ 0) : Tendsto (fun k => (iter L [] s g k).2) atTop (𝓝 nu) := by
  set T : (ι → ℂ) →ₗ[ℂ] (ι → ℂ) := shiftL L s with hT
  have hTa : ∀ x, T x = fun i => L x i - s * x i := by intro x; funext i; simp [hT, shiftL_apply]
  set x : ℕ → ι → ℂ := fun k => (iter L [] s g k).1 with hx
  set ρ : ℕ → ℂ := fun k => (iter L [] s g (k + 1)).2 with hρ
  have hgs : ∀ x : ι → ℂ, gramSchmidt x [] = x := fun x => rfl
  have hρx : ∀ k, ρ k = dot (x k) (T (x k)) / dot (x k) (x k) := by
    intro k; simp only [hρ, hx, iter, hTa, hgs]
  have hstep : ∀ k, x (k + 1) = (1 / ρ k) • T (x k) := by
    intro k
    funext i
    simp only [hρ, hx, iter, hTa, hgs, Pi.smul_apply, smul_eq_mul]
    ring
  have hclosed : ∀ k, ∃ c : ℂ, c ≠ 0 ∧ x k = c • (T ^ k) g := by
    intro k
    induction k with
    | zero => exact ⟨1, one_ne_zero, by simp [hx, iter]⟩
    | succ k ih =>
      obtain ⟨c, hc, hk⟩ := ih
      refine ⟨1 / ρ k * c, mul_ne_zero (one_div_ne_zero (hne k)) hc, ?_⟩
      rw [hstep, hk, map_smul, smul_smul, pow_succ', Module.End.mul_apply]
  choose c hc hck using hclosed
  rw [← tendsto_add_atTop_iff_nat 1]
  show Tendsto ρ atTop _
  set y : ℕ → ι → ℂ := fun k => (1 / nu ^ k) • (T ^ k) g with hy
  have hTcont : Tendsto (fun k => T (y k)) atTop (𝓝 (T w)) := ((LinearMap.continuous_of_finiteDimensional T).tendsto _).comp hlim
  have h1 := (continuous_dot y (fun k => T (y k)) _ _ hlim hTcont).div (continuous_dot y y _ _ hlim hlim) (dot_self_ne_zero hw)
  have hval : dot w (T w) / dot w w = nu := by
    have : dot w (nu • w) = nu * dot w w := dot_smul w w nu
    rw [hTw, this, mul_div_assoc, div_self (dot_self_ne_zero hw), mul_one]
  rw [hval] at h1
  refine h1.congr fun k => ?_
  rw [hρx k]
  have hyk : y k = (1 / nu ^ k / c k) • x k := by rw [hck k, smul_smul, div_mul_cancel₀ _ (hc k)]
  have hne' : (1 / nu ^ k / c k) ≠ 0 := div_ne_zero (one_div_ne_zero (pow_ne_zero _ hnu)) (hc k)
  simp only [Pi.div_apply]
  rw [hyk, map_smul, dot_smul_smul, dot_smul_smul, mul_div_mul_left]
  exact mul_ne_zero ((map_ne_zero _).2 hne') hne'

omit [Fintype ι] [DecidableEq ι] in
/-- powers on a vector that the unshifted map annihilates in two steps -/
theorem pow_on_nilpotent (L : (ι → ℂ) →ₗ[ℂ] (ι → ℂ)) (s : ℂ) (z : ι → ℂ) (hz : L (L z) = 0) (k : ℕ) :
    ((shiftL L s) ^ k) z = (-s) ^ k • z + ((k : ℂ) * (-s) ^ (k - 1)) • L z := by
  have ha : ∀ x, (shiftL L s) x = L x - s • x := shiftL_apply L s
  induction k with
  | zero => simp
  | succ k ih =>
    rw [pow_succ', Module.End.mul_apply, ih, ha, map_add, map_smul, map_smul, hz]
    cases k with
    | zero => simp; abel
    | succ k =>
      simp only [Nat.add_sub_cancel]
      push_cast
      have e : ∀ (a b : ℂ) (u v : ι → ℂ), a = b → u = v → a • u = b • v := by rintro a _ u _ rfl rfl; rfl
      rw [smul_zero, add_zero, smul_add, smul_smul, smul_smul]
      module

omit [Fintype ι] [DecidableEq ι] in
/-- nilpotent part goes to zero against a larger eigenvalue -/
theorem nilpotent_vanishes (L : (ι → ℂ) →ₗ[ℂ] (ι → ℂ)) (s nu : ℂ) (z : ι → ℂ) (hz : L (L z) = 0) (hlt : ‖s‖ < ‖nu‖) :
    Tendsto (fun k => (1 / nu ^ k) • ((shiftL L s) ^ k) z) atTop (𝓝 0) := by
  have hnu : nu ≠ 0 := by rw [← norm_pos_iff]; exact lt_of_le_of_lt (norm_nonneg _) hlt
  have hr : ‖(-s) / nu‖ < 1 := by
    rw [norm_div, norm_neg, div_lt_one (norm_pos_iff.2 hnu)]; exact hlt
  have h1 : Tendsto (fun k : ℕ => ((-s) / nu) ^ k) atTop (𝓝 0) := tendsto_pow_atTop_nhds_zero_of_norm_lt_one hr
  have h2 : Tendsto (fun k : ℕ => (k : ℂ) * ((-s) / nu) ^ (k - 1)) atTop (𝓝 0) := by
    rw [← tendsto_add_atTop_iff_nat 1]
    have a : Tendsto (fun k : ℕ => (k : ℂ) * ((-s) / nu) ^ k) atTop (𝓝 0) := by
      rw [tendsto_zero_iff_norm_tendsto_zero]
      have := tendsto_self_mul_const_pow_of_lt_one (norm_nonneg ((-s) / nu)) hr
      refine this.congr fun k => ?_
      rw [norm_mul, norm_pow, Complex.norm_natCast]
    have := a.add h1
    simp only [add_zero] at this
    refine this.congr fun k => ?_
    simp only [Nat.add_sub_cancel]
    push_cast; ring
  have h3 : Tendsto (fun k : ℕ => ((-s) / nu) ^ k • z + (1 / nu * ((k : ℂ) * ((-s) / nu) ^ (k - 1))) • L z) atTop (𝓝 0) := by
    have := (h1.smul_const z).add ((h2.const_mul (1 / nu)).smul_const (L z))
    simpa using this
  refine h3.congr fun k => ?_
  rw [pow_on_nilpotent L s z hz k, smul_add, smul_smul, smul_smul]
  cases k with
  | zero => simp
  | succ k =>
    simp only [Nat.add_sub_cancel]
    congr 2
    · rw [div_pow]; ring
    · rw [div_pow, pow_succ nu]; field_simp

/-! ### Hermitian kernel times projection -/

/-- part of parity `t` under the involution `σ` -/
def partL (σ : ι → ι) (t : ℂ) : (ι → ℂ) →ₗ[ℂ] (ι → ℂ) where
  toFun x := fun i => 1 / 2 * (x i + t * x (σ i))
  map_add' x y := by funext i; simp only [Pi.add_apply]; ring
  map_smul' c x := by funext i; simp only [Pi.smul_apply, smul_eq_mul, RingHom.id_apply]; ring

omit [Fintype ι] [DecidableEq ι] in
theorem partL_idem {σ : ι → ι} {t : ℂ} (h : Refl σ t) (x : ι → ℂ) : partL σ t (partL σ t x) = partL σ t x := by
  funext i
  simp only [partL, LinearMap.coe_mk, AddHom.coe_mk, h.inv i]
  linear_combination (1 / 4 * x i) * h.sq

/-- Every vector is a sum of eigenvectors of "Hermitian × weights × parity projection" to non-zero real eigenvalues and a vector that the
    map annihilates in two steps. -/
theorem projected_decomposition (M : Matrix ι ι ℂ) (hM : M.IsHermitian) (wt : ι → ℝ) (hw : ∀ i, 0 < wt i)
    (L : (ι → ℂ) →ₗ[ℂ] (ι → ℂ)) (hL : ∀ x i, L x i = ∑ j, M i j * ((wt j : ℂ) * x j)) {σ : ι → ι} {t : ℂ} (h : Refl σ t)
    (hwσ : ∀ i, wt (σ i) = wt i) (g : ι → ℂ) :
    ∃ (v : ι → ι → ℂ) (lam : ι → ℝ) (z : ι → ℂ), g = z + ∑ j, v j ∧ (L ∘ₗ partL σ t) ((L ∘ₗ partL σ t) z) = 0 ∧
      (∀ j, (L ∘ₗ partL σ t) (v j) = (lam j : ℂ) • v j ∧ (lam j = 0 → v j = 0)) ∧
      ∀ top : ℝ, (∃ j, lam j = top ∧ v j ≠ 0) → ∑ j with lam j = top, v j ≠ 0 := by
  set P := partL σ t with hP
  set M' : Matrix ι ι ℂ := Matrix.of fun i j => 1 / 4 * (M i j + t * M (σ i) j + t * M i (σ j) + M (σ i) (σ j)) with hM'
  have hMc : ∀ i j, (starRingEnd ℂ) (M j i) = M i j := fun i j => by
    have := congrFun (congrFun hM i) j
    simpa [Matrix.conjTranspose_apply] using this
  have hH : M'.IsHermitian := by
    ext i j
    simp only [Matrix.conjTranspose_apply, hM', Matrix.of_apply, RCLike.star_def, map_mul, map_add, hMc, h.real, map_div₀, map_one, map_ofNat]
    ring
  have hL1 : ∀ x i, (P ∘ₗ L ∘ₗ P) x i = ∑ j, M' i j * ((wt j : ℂ) * x j) := by
    intro x i
    have e1 : ∀ i, L (P x) i = 1 / 2 * (∑ j, (M i j + t * M i (σ j)) * ((wt j : ℂ) * x j)) := by
      intro i
      rw [hL]
      have : ∑ j, M i j * ((wt j : ℂ) * (t * x (σ j))) = ∑ j, t * M i (σ j) * ((wt j : ℂ) * x j) := by
        rw [← Equiv.sum_comp (h.inv.toPerm σ)]
        refine Finset.sum_congr rfl fun j _ => ?_
        have e : (h.inv.toPerm σ) j = σ j := rfl
        rw [e, hwσ, h.inv j]; ring
      simp only [hP, partL, LinearMap.coe_mk, AddHom.coe_mk]
      have e2 : ∀ j, M i j * ((wt j : ℂ) * (1 / 2 * (x j + t * x (σ j)))) =
          1 / 2 * (M i j * ((wt j : ℂ) * x j)) + 1 / 2 * (M i j * ((wt j : ℂ) * (t * x (σ j)))) := fun j => by ring
      simp only [e2, Finset.sum_add_distrib, ← Finset.mul_sum, this, add_mul]
      ring
    show P (L (P x)) i = _
    have e3 : P (L (P x)) i = 1 / 2 * (L (P x) i + t * L (P x) (σ i)) := rfl
    rw [e3, e1, e1, Finset.mul_sum, Finset.mul_sum, Finset.mul_sum, ← Finset.sum_add_distrib, Finset.mul_sum]
    refine Finset.sum_congr rfl fun j _ => ?_
    simp only [hM', Matrix.of_apply]
    linear_combination (1 / 4 * M (σ i) (σ j) * ((wt j : ℂ) * x j)) * h.sq
  obtain ⟨u, mu, hu, hg, hind⟩ := weighted_decomposition M' hH wt hw (P ∘ₗ L ∘ₗ P) hL1 g
  have hu' : ∀ j, P (L (P (u j))) = (mu j : ℂ) • u j := hu
  have hPu : ∀ j, mu j ≠ 0 → P (u j) = u j := by
    intro j hj
    have hc : (mu j : ℂ) ≠ 0 := by exact_mod_cast hj
    have e : u j = (1 / (mu j : ℂ)) • P (L (P (u j))) := by
      rw [hu' j, smul_smul, one_div, inv_mul_cancel₀ hc, one_smul]
    rw [e, map_smul, partL_idem h]
  set v : ι → ι → ℂ := fun j => if mu j = 0 then 0 else (1 / (mu j : ℂ)) • L (P (u j)) with hv
  have hPv : ∀ j, mu j ≠ 0 → P (v j) = u j := by
    intro j hj
    have hc : (mu j : ℂ) ≠ 0 := by exact_mod_cast hj
    simp only [hv, if_neg hj]
    rw [map_smul, hu' j, smul_smul, one_div, inv_mul_cancel₀ hc, one_smul]
  have hPv0 : ∀ j, mu j = 0 → v j = 0 := fun j hj => by simp only [hv, if_pos hj]
  refine ⟨v, mu, g - ∑ j, v j, by simp, ?_, ?_, ?_⟩
  · have e1 : P (g - ∑ j, v j) = ∑ j, if mu j = 0 then P (u j) else 0 := by
      rw [map_sub, hg, map_sum, map_sum, ← Finset.sum_sub_distrib]
      refine Finset.sum_congr rfl fun j _ => ?_
      by_cases hj : mu j = 0
      · rw [if_pos hj, hPv0 j hj, map_zero, sub_zero]
      · rw [if_neg hj, hPv j hj, hPu j hj, sub_self]
    show L (P (L (P (g - ∑ j, v j)))) = 0
    rw [e1, map_sum, map_sum]
    have : ∑ j, P (L (if mu j = 0 then P (u j) else 0)) = 0 := by
      refine Finset.sum_eq_zero fun j _ => ?_
      by_cases hj : mu j = 0
      · rw [if_pos hj, hu' j, hj]; simp
      · rw [if_neg hj, map_zero, map_zero]
    rw [this, map_zero]
  · intro j
    refine ⟨?_, hPv0 j⟩
    by_cases hj : mu j = 0
    · rw [hPv0 j hj, map_zero, smul_zero]
    · show L (P (v j)) = _
      rw [hPv j hj]
      simp only [hv, if_neg hj, hPu j hj]
      have hc : (mu j : ℂ) ≠ 0 := by exact_mod_cast hj
      rw [smul_smul, mul_one_div_cancel hc, one_smul]
  · rintro top ⟨j0, hj0, hne⟩ hz
    have ht0 : top ≠ 0 := by
      rintro rfl
      exact hne (hPv0 j0 hj0)
    have hu0 : u j0 ≠ 0 := by
      intro h0
      apply hne
      simp only [hv, h0, map_zero, smul_zero, ite_self]
    apply hind top ⟨j0, hj0, hu0⟩
    have := congrArg P hz
    rw [map_sum, map_zero] at this
    rw [← this]
    refine Finset.sum_congr rfl fun j hj => ?_
    rw [hPv j (by rw [(Finset.mem_filter.1 hj).2]; exact ht0)]

/-- `g` contains nothing of the eigenspace of `top ≠ 0`: it is a sum of eigenvectors to other eigenvalues and of a vector annihilated by two
    applications of the map -/
def LacksN (L : (ι → ℂ) →ₗ[ℂ] (ι → ℂ)) (top : ℝ) (g : ι → ℂ) : Prop :=
  ∃ (v : ι → ι → ℂ) (lam : ι → ℝ) (z : ι → ℂ), g = z + ∑ j, v j ∧ L (L z) = 0 ∧ ∀ j, L (v j) = (lam j : ℂ) • v j ∧ lam j ≠ top

section run

variable (M : Matrix ι ι ℂ) (hM : M.IsHermitian) (wt : ι → ℝ) (hw : ∀ i, 0 < wt i)
  (L : (ι → ℂ) →ₗ[ℂ] (ι → ℂ)) (hL : ∀ x i, L x i = ∑ j, M i j * ((wt j : ℂ) * x j)) {σ : ι → ι} {t : ℂ} (h : Refl σ t)
  (hwσ : ∀ i, wt (σ i) = wt i)

include hM hw hL h hwσ

theorem projected_contains (g : ι → ℂ) (top : ℝ) (hg : ¬ LacksN (L ∘ₗ partL σ t) top g) :
    IsEig (L ∘ₗ partL σ t) top := by
  by_contra hno
  obtain ⟨v, lam, z, e1, e2, e3, -⟩ := projected_decomposition M hM wt hw L hL h hwσ g
  apply hg
  refine ⟨v, fun j => if lam j = top then top + 1 else lam j, z, e1, e2, fun j => ?_⟩
  dsimp only
  by_cases hj : lam j = top
  · have : v j = 0 := by
      by_contra hv
      exact hno ⟨v j, hv, by rw [(e3 j).1, hj]⟩
    rw [if_pos hj, this, map_zero, smul_zero]; exact ⟨rfl, by linarith⟩
  · rw [if_neg hj]; exact ⟨(e3 j).1, hj⟩

/-- One run with the (complex) shift `s`: it tends to the eigenvalue `top ≠ 0` farthest from `s`, if `top` is farther from `s` than `0` and contained
    in the start vector. -/
theorem projected_converges (g : ι → ℂ) (s : ℂ) (top : ℝ) (hs0 : ‖s‖ < ‖(top : ℂ) - s‖)
    (hfar : ∀ mu : ℝ, IsEig (L ∘ₗ partL σ t) mu → mu ≠ top → ‖(mu : ℂ) - s‖ < ‖(top : ℂ) - s‖) (hg : ¬ LacksN (L ∘ₗ partL σ t) top g)
    (hne : ∀ k, (iter (L ∘ₗ partL σ t) [] s g (k + 1)).2 ≠ 0) :
    Tendsto (fun k => (iter (L ∘ₗ partL σ t) [] s g k).2) atTop (𝓝 ((top : ℂ) - s)) := by
  obtain ⟨v, lam, z, e1, e2, e3, e4⟩ := projected_decomposition M hM wt hw L hL h hwσ g
  set A := L ∘ₗ partL σ t with hA
  have hw0 : ∑ j with lam j = top, v j ≠ 0 := by
    apply e4
    by_contra hcon
    push Not at hcon
    apply hg
    refine ⟨v, fun j => if lam j = top then top + 1 else lam j, z, e1, e2, fun j => ?_⟩
    dsimp only
    by_cases hj : lam j = top
    · rw [if_pos hj, hcon j hj, map_zero, smul_zero]; exact ⟨rfl, by linarith⟩
    · rw [if_neg hj]; exact ⟨(e3 j).1, hj⟩
  have hnu : ((top : ℂ) - s) ≠ 0 := norm_pos_iff.1 (lt_of_le_of_lt (norm_nonneg _) hs0)
  have hBv : ∀ j, (shiftL A s) (v j) = ((lam j : ℂ) - s) • v j := by
    intro j
    rw [shiftL_apply, (e3 j).1, sub_smul]
  have hl1 := tendsto_powers (shiftL A s) v (fun j => (lam j : ℂ) - s) hBv ((top : ℂ) - s) hnu (by
    intro j hj
    by_cases hjt : lam j = top
    · left; rw [hjt]
    · right
      exact hfar _ ⟨v j, hj, (e3 j).1⟩ hjt)
  have hl2 := nilpotent_vanishes A s ((top : ℂ) - s) z e2 hs0
  have hlim := hl2.add hl1
  rw [zero_add] at hlim
  have hfil : (∑ j with (lam j : ℂ) - s = (top : ℂ) - s, v j) = ∑ j with lam j = top, v j := by
    refine Finset.sum_congr (Finset.filter_congr fun j _ => ?_) fun j _ => rfl
    rw [sub_left_inj, Complex.ofReal_inj]
  rw [hfil] at hlim
  refine iter_of_limit A s _ g _ hnu hw0 ?_ (hlim.congr fun k => ?_) hne
  · rw [map_sum, Finset.smul_sum]
    refine Finset.sum_congr rfl fun j hj => ?_
    rw [hBv, (Finset.mem_filter.1 hj).2]
  · rw [← smul_add, ← map_add, ← e1]

/-- all eigenvalues are real -/
theorem projected_eigenvalues_real (lam : ℂ) (x : ι → ℂ) (hx : x ≠ 0) (hlam : (L ∘ₗ partL σ t) x = lam • x) : lam.im = 0 := by
  by_cases h0 : lam = 0
  · rw [h0]; rfl
  obtain ⟨v, mu, z, e1, e2, e3, -⟩ := projected_decomposition M hM wt hw L hL h hwσ x
  set A := L ∘ₗ partL σ t with hA
  -- apply `prod (A - mu_j) * A^2`
  have key : ∀ (S : Finset ι), ∃ B : (ι → ℂ) →ₗ[ℂ] (ι → ℂ), B x = (∏ j ∈ S, (lam - mu j)) • x ∧ (∀ y, A (B y) = B (A y)) ∧ (∀ j ∈ S, B (v j) = 0) := by
    intro S
    induction S using Finset.induction with
    | empty => exact ⟨LinearMap.id, by simp, fun y => rfl, by simp⟩
    | insert a S ha ih =>
      obtain ⟨B, b1, b2, b3⟩ := ih
      refine ⟨(shiftL A (mu a : ℂ)) ∘ₗ B, ?_, ?_, ?_⟩
      · rw [LinearMap.comp_apply, b1, map_smul, shiftL_apply, hlam, Finset.prod_insert ha]
        rw [← sub_smul, smul_smul]; congr 1; ring
      · intro y
        simp only [LinearMap.comp_apply, shiftL_apply, map_sub, map_smul, b2]
      · intro j hj
        rcases Finset.mem_insert.mp hj with rfl | hj
        · simp only [LinearMap.comp_apply, shiftL_apply]
          rw [b2, (e3 _).1, map_smul, sub_self]
        · rw [LinearMap.comp_apply, b3 j hj, map_zero]
  obtain ⟨B, b1, b2, b3⟩ := key Finset.univ
  have hz : A (A (B x)) = 0 := by
    rw [e1, map_add, map_sum, Finset.sum_eq_zero (fun j _ => b3 j (Finset.mem_univ j)), add_zero, b2, b2, e2, map_zero]
  rw [b1, map_smul, hlam, map_smul, map_smul, hlam, smul_smul, smul_smul] at hz
  have hz' := (smul_eq_zero.mp hz).resolve_right hx
  have : ∏ j, (lam - mu j) = 0 := by
    rcases mul_eq_zero.mp hz' with h1 | h1
    · exact (mul_eq_zero.mp h1).resolve_right h0
    · exact absurd h1 h0
  obtain ⟨j, -, hj⟩ := Finset.prod_eq_zero_iff.mp this
  rw [sub_eq_zero] at hj
  rw [hj]; simp

/-- Both runs of `get_eig` with `shift_mat` for the projected kernel.  The shift of the second run is any number (complex: the first run stops at some
    finite step) close enough to the limit of the first run. -/
theorem projected_two_runs (g0 g : ι → ℂ) (dom top : ℝ)
    (hdom : ∀ mu, IsEig (L ∘ₗ partL σ t) mu → mu ≠ dom → |mu| < |dom|) (hmax : ∀ mu, IsEig (L ∘ₗ partL σ t) mu → mu ≤ top) (hpos : 0 < top)
    (hg0 : ¬ LacksN (L ∘ₗ partL σ t) dom g0) (hg : ¬ LacksN (L ∘ₗ partL σ t) top g) :
    ((∀ k, (iter (L ∘ₗ partL σ t) [] 0 g0 (k + 1)).2 ≠ 0) → Tendsto (fun k => (iter (L ∘ₗ partL σ t) [] 0 g0 k).2) atTop (𝓝 (dom : ℂ))) ∧
    ∃ δ : ℝ, 0 < δ ∧ ∀ lamS s : ℂ, ‖lamS - dom‖ < δ → (gtZero lamS → s = 0) → (¬ gtZero lamS → s = lamS) →
      (∀ k, (iter (L ∘ₗ partL σ t) [] s g (k + 1)).2 ≠ 0) →
      Tendsto (fun k => (iter (L ∘ₗ partL σ t) [] s g k).2 + s) atTop (𝓝 (top : ℂ)) := by
  have htopE : IsEig (L ∘ₗ partL σ t) top := projected_contains M hM wt hw L hL h hwσ g top hg
  have hd0 : dom ≠ 0 := by
    rintro rfl
    have := hdom top htopE hpos.ne'
    rw [abs_zero] at this
    exact absurd this (not_lt.2 (abs_nonneg _))
  have hdomE : IsEig (L ∘ₗ partL σ t) dom := projected_contains M hM wt hw L hL h hwσ g0 dom hg0
  have hnorm : ∀ (a b : ℝ) (s : ℂ), |a - s.re| < |b - s.re| → ‖(a : ℂ) - s‖ < ‖(b : ℂ) - s‖ := by
    intro a b s hab
    rw [← sq_lt_sq] at hab
    rw [← abs_of_nonneg (norm_nonneg ((a : ℂ) - s)), ← abs_of_nonneg (norm_nonneg ((b : ℂ) - s)), ← sq_lt_sq, Complex.sq_norm, Complex.sq_norm,
      Complex.normSq_apply, Complex.normSq_apply]
    simp only [Complex.sub_re, Complex.sub_im, Complex.ofReal_re, Complex.ofReal_im]
    linarith
  constructor
  · intro hne0
    have := projected_converges M hM wt hw L hL h hwσ g0 0 dom (by simpa using hd0) (fun mu hmu hne => by simpa using hdom mu hmu hne) hg0 hne0
    simpa using this
  · rcases lt_or_gt_of_ne hd0 with hneg | hp
    · have htd : top ≠ dom := by linarith
      refine ⟨min (-dom) ((top - dom) / 2), lt_min (by linarith) (by linarith), ?_⟩
      intro lamS s hclose hs1 hs2 hne
      have hre : |lamS.re - dom| < min (-dom) ((top - dom) / 2) := by
        refine lt_of_le_of_lt ?_ hclose
        have := Complex.abs_re_le_norm (lamS - dom)
        simpa using this
      have h1 : lamS.re < 0 := by
        have := (abs_lt.1 (lt_of_lt_of_le hre (min_le_left _ _))).2; linarith
      have h2 : 2 * lamS.re < dom + top := by
        have := (abs_lt.1 (lt_of_lt_of_le hre (min_le_right _ _))).2; linarith
      have hng : ¬ gtZero lamS := by
        rintro (h3 | h3)
        · linarith
        · linarith [h3.1]
      have hs := hs2 hng
      subst hs
      have hh := projected_converges M hM wt hw L hL h hwσ g s top (by
        have := hnorm 0 top s (by rw [abs_of_nonneg (by linarith), abs_of_nonneg (by linarith)]; linarith)
        simpa using this) (by
        intro mu hmu hmt
        apply hnorm
        have hlt := lt_of_le_of_ne (hmax mu hmu) hmt
        have h4 : dom ≤ mu := by
          by_cases e : mu = dom
          · rw [e]
          · have := hdom mu hmu e
            rw [abs_of_neg hneg] at this
            linarith [(abs_lt.1 this).1]
        rw [abs_of_pos (show 0 < top - s.re by linarith), abs_lt]
        constructor <;> linarith) hg hne
      have := hh.add_const s
      simpa using this
    · have htd : top = dom := by
        by_contra hcon
        have h2 := hdom top htopE hcon
        rw [abs_of_pos hp, abs_of_pos hpos] at h2
        linarith [hmax dom hdomE]
      refine ⟨dom, hp, ?_⟩
      intro lamS s hclose hs1 hs2 hne
      have hre : |lamS.re - dom| < dom := by
        refine lt_of_le_of_lt ?_ hclose
        have := Complex.abs_re_le_norm (lamS - dom)
        simpa using this
      have hg0' : gtZero lamS := Or.inl (by linarith [(abs_lt.1 hre).1])
      have hs := hs1 hg0'
      subst hs
      have hh := projected_converges M hM wt hw L hL h hwσ g 0 top (by simpa using hpos.ne') (by
        intro mu hmu hmt
        rw [htd] at hmt
        have := hdom mu hmu hmt
        rw [htd]; simpa using this) hg hne
      simpa using hh

end run

/-! ### The solver -/

section Kernel

variable {nx ny nz nv : Nat} [NeZero nx] [NeZero ny] [NeZero nz]

/-- `mu` is an eigenvalue of the map `A` (specification) -/
def Eig {κ : Type _} (A : (κ → ℂ) → κ → ℂ) (mu : ℂ) : Prop := ∃ x : κ → ℂ, x ≠ 0 ∧ A x = fun i => mu * x i

/-- `g` has no part along the eigenvectors of `A` to `top`: it is a sum of eigenvectors to other (real) eigenvalues and of a vector that two applications
    of `A` send to zero (specification) -/
def Misses {κ : Type _} [Fintype κ] (A : (κ → ℂ) → κ → ℂ) (top : ℝ) (g : κ → ℂ) : Prop :=
  ∃ (v : κ → κ → ℂ) (lam : κ → ℝ) (z : κ → ℂ), (∀ i, g i = z i + ∑ j, v j i) ∧ (∀ i, A (A z) i = 0) ∧
    ∀ j, (A (v j) = fun i => (lam j : ℂ) * v j i) ∧ lam j ≠ top

theorem symmetrised_runs (gamma : Grid nx ny nz → Fin nv → Fin nv → ℂ) (gk : Grid nx ny nz → Fin nv → ℂ) (norm : ℝ) (t : ℂ) (ht : t = 1 ∨ t = -1)
    (hherm : ∀ q v v', (starRingEnd ℂ) (gamma q v v') = gamma (-q) v' v) (hgk : ∀ k v, gk k v ≠ 0) (hk : ∀ k v, ‖gk k v.rev‖ = ‖gk k v‖)
    (A : (Grid nx ny nz × Fin nv → ℂ) → Grid nx ny nz × Fin nv → ℂ) (hA : A = kernel (symGamma gamma t) gk norm) :
    (∀ mu, Eig A mu → mu.im = 0) ∧
    ∀ (g0 g : Grid nx ny nz × Fin nv → ℂ) (dom top : ℝ), (∀ mu : ℝ, Eig A mu → mu ≠ dom → |mu| < |dom|) → (∀ mu : ℝ, Eig A mu → mu ≤ top) → 0 < top →
      ¬ Misses A dom g0 → ¬ Misses A top g →
      ((∀ k, (iter A [] 0 g0 (k + 1)).2 ≠ 0) → Tendsto (fun k => (iter A [] 0 g0 k).2) atTop (𝓝 (dom : ℂ))) ∧
      ∃ δ : ℝ, 0 < δ ∧ ∀ lamS s : ℂ, ‖lamS - dom‖ < δ → (gtZero lamS → s = 0) → (¬ gtZero lamS → s = lamS) →
        (∀ k, (iter A [] s g (k + 1)).2 ≠ 0) → Tendsto (fun k => (iter A [] s g k).2 + s) atTop (𝓝 (top : ℂ)) := by
  have href : Refl (revV (nx := nx) (ny := ny) (nz := nz) (nv := nv)) t :=
    ⟨fun i => by simp [revV], by rcases ht with rfl | rfl <;> simp, by rcases ht with rfl | rfl <;> simp⟩
  have hAL : A = ⇑(kernelL gamma gk norm ∘ₗ partL revV t) := by
    funext x
    rw [hA, kernel_symGamma gamma gk norm t hk]
    rfl
  have hM : (Matrix.of fun a b : Grid nx ny nz × Fin nv => 1 / (norm : ℂ) * gamma (b.1 - a.1) a.2 b.2).IsHermitian := by
    ext a b
    simp only [Matrix.conjTranspose_apply, Matrix.of_apply, star_mul', RCLike.star_def, hherm, neg_sub, map_div₀, map_one,
      Complex.conj_ofReal]
  have hw : ∀ a : Grid nx ny nz × Fin nv, 0 < ‖gk a.1 a.2‖ ^ 2 := fun a => by have := norm_pos_iff.2 (hgk a.1 a.2); positivity
  have hL : ∀ x i, kernelL gamma gk norm x i = ∑ j, (Matrix.of fun a b : Grid nx ny nz × Fin nv => 1 / (norm : ℂ) * gamma (b.1 - a.1) a.2 b.2) i j *
      (((‖gk j.1 j.2‖ ^ 2 : ℝ) : ℂ) * x j) := by
    rintro x ⟨k, v⟩
    show kernel gamma gk norm x (k, v) = _
    rw [kernel_is_momentum_sum, Finset.mul_sum]
    refine Eq.trans ?_ (Fintype.sum_prod_type _).symm
    refine Finset.sum_congr rfl fun k' _ => ?_
    rw [Finset.mul_sum]
    refine Finset.sum_congr rfl fun v' _ => ?_
    simp only [Matrix.of_apply]; ring
  have hwσ : ∀ a : Grid nx ny nz × Fin nv, ‖gk (revV a).1 (revV a).2‖ ^ 2 = ‖gk a.1 a.2‖ ^ 2 := fun a => by simp only [revV, hk]
  subst hAL
  have hmiss : ∀ top g, ¬ Misses (⇑(kernelL gamma gk norm ∘ₗ partL revV t)) top g → ¬ LacksN (kernelL gamma gk norm ∘ₗ partL revV t) top g := by
    rintro top g hn ⟨v, lam, z, h1, h2, h3⟩
    refine hn ⟨v, lam, z, fun i => ?_, fun i => ?_, fun j => ⟨(h3 j).1, (h3 j).2⟩⟩
    · rw [h1]; simp
    · rw [h2]; rfl
  refine ⟨fun mu ⟨x, hx, he⟩ => projected_eigenvalues_real _ hM _ hw _ hL href hwσ mu x hx he, ?_⟩
  intro g0 g dom top hdom hmax hpos hg0 hg
  exact projected_two_runs _ hM _ hw _ hL href hwσ g0 g dom top (fun mu hmu => hdom mu hmu) (fun mu hmu => hmax mu hmu) hpos (hmiss _ _ hg0) (hmiss _ _ hg)

/-- The number reported by `get_eig` with `shift_mat` (first eigenvalue) after `c0` steps of the first and `c` steps of the second run: for every tolerance it
    is closer than this to `top` once `c0`, and then `c`, are large enough. -/
theorem symmetrised_reported (gamma : Grid nx ny nz → Fin nv → Fin nv → ℂ) (gk : Grid nx ny nz → Fin nv → ℂ) (norm : ℝ) (t : ℂ) (ht : t = 1 ∨ t = -1)
    (hherm : ∀ q v v', (starRingEnd ℂ) (gamma q v v') = gamma (-q) v' v) (hgk : ∀ k v, gk k v ≠ 0) (hk : ∀ k v, ‖gk k v.rev‖ = ‖gk k v‖)
    (A : (Grid nx ny nz × Fin nv → ℂ) → Grid nx ny nz × Fin nv → ℂ) (hA : A = kernel (symGamma gamma t) gk norm)
    (g0 g : Grid nx ny nz × Fin nv → ℂ) (dom top : ℝ) (hdom : ∀ mu : ℝ, Eig A mu → mu ≠ dom → |mu| < |dom|) (hmax : ∀ mu : ℝ, Eig A mu → mu ≤ top)
    (hpos : 0 < top) (hg0 : ¬ Misses A dom g0) (hg : ¬ Misses A top g) (hne0 : ∀ k, (iter A [] 0 g0 (k + 1)).2 ≠ 0)
    (hne : ∀ s : ℂ, (s = 0 ∨ ∃ c0, s = (iter A [] 0 g0 (c0 + 1)).2) → ∀ k, (iter A [] s g (k + 1)).2 ≠ 0) (η : ℝ) (hη : 0 < η) :
    ∃ N0, ∀ c0, N0 ≤ c0 → ∃ N, ∀ c, N ≤ c → ∀ (eps : ℝ) (maxCount n : Nat),
      (powerIteration A [] none eps maxCount g0).count = c0 →
      (powerIteration A [] (shiftOf A true eps maxCount g0) eps maxCount g).count = c →
      ∃ p, (getEig A true eps maxCount g g0 (n + 1))[0]? = some p ∧ ‖p.1 - (top : ℂ)‖ < η := by
  classical
  obtain ⟨-, hruns⟩ := symmetrised_runs gamma gk norm t ht hherm hgk hk A hA
  obtain ⟨h1, δ, hδ, h2⟩ := hruns g0 g dom top hdom hmax hpos hg0 hg
  obtain ⟨N0, hN0⟩ := (Metric.tendsto_atTop.1 (h1 hne0)) δ hδ
  refine ⟨N0 + 1, fun c0 hc0 => ?_⟩
  set lamS := (iter A [] 0 g0 c0).2 with hlamS
  set s : ℂ := if gtZero lamS then 0 else lamS with hs
  have hclose : ‖lamS - dom‖ < δ := by
    have := hN0 c0 (by omega)
    rwa [dist_eq_norm] at this
  have hs' : s = 0 ∨ ∃ c0, s = (iter A [] 0 g0 (c0 + 1)).2 := by
    rw [hs]; split_ifs
    · exact Or.inl rfl
    · exact Or.inr ⟨c0 - 1, by rw [Nat.sub_add_cancel (by omega)]⟩
  have h3 := h2 lamS s hclose (fun h => by rw [hs, if_pos h]) (fun h => by rw [hs, if_neg h]) (hne s hs')
  obtain ⟨N, hN⟩ := (Metric.tendsto_atTop.1 h3) η hη
  refine ⟨N, fun c hc eps maxCount n e0 e1 => ?_⟩
  have hp0 := (powerLoop_stop A [] none eps g0 maxCount 0).1
  simp only [Nat.zero_add] at hp0
  change (_, (powerIteration A [] none eps maxCount g0).lam) = iter A [] 0 g0 (powerIteration A [] none eps maxCount g0).count at hp0
  rw [e0] at hp0
  have hsh : shiftOf A true eps maxCount g0 = some s := by
    simp only [shiftOf, if_true]
    rw [show (powerIteration A [] none eps maxCount g0).lam = lamS from congrArg Prod.snd hp0, hs]
  have hp1 := (powerLoop_stop A [] (some s) eps g maxCount 0).1
  simp only [Nat.zero_add] at hp1
  change (_, (powerIteration A [] (some s) eps maxCount g).lam) = iter A [] s g (powerIteration A [] (some s) eps maxCount g).count at hp1
  rw [hsh] at e1
  rw [e1] at hp1
  refine ⟨((iter A [] s g c).2 + s, (powerIteration A [] (some s) eps maxCount g).gap), ?_, ?_⟩
  · unfold getEig
    rw [hsh]
    simp only
    rw [List.getElem?_map, eigRuns_get A (some s) eps maxCount g (n + 1) 0 (by omega)]
    simp only [List.take_zero, List.map_nil, Option.map_some]
    rw [show (powerIteration A [] (some s) eps maxCount g).lam = (iter A [] s g c).2 from congrArg Prod.snd hp1]
  · have := hN c hc
    rwa [dist_eq_norm] at this

/-! ### Satisfiable -/

/-- a left eigenvector with non-zero overlap shows that nothing is missing -/
theorem not_misses_of_left {κ : Type _} [Fintype κ] (A : (κ → ℂ) → κ → ℂ) (top : ℝ) (h0 : top ≠ 0) (φ : (κ → ℂ) →ₗ[ℂ] ℂ)
    (hφ : ∀ x, φ (A x) = top * φ x) (g : κ → ℂ) (hg : φ g ≠ 0) : ¬ Misses A top g := by
  rintro ⟨v, lam, z, h1, h2, h3⟩
  have ht : (top : ℂ) ≠ 0 := by exact_mod_cast h0
  have hz : φ z = 0 := by
    have e : A (A z) = 0 := funext h2
    have := hφ (A z)
    rw [e, map_zero, hφ] at this
    simpa [ht] using this.symm
  have hv : ∀ j, φ (v j) = 0 := by
    intro j
    have := hφ (v j)
    rw [(h3 j).1, show (fun i => (lam j : ℂ) * v j i) = (lam j : ℂ) • v j from rfl, map_smul, smul_eq_mul] at this
    have h4 : ((lam j : ℂ) - top) * φ (v j) = 0 := by linear_combination this
    rcases mul_eq_zero.1 h4 with h5 | h5
    · exact absurd (by exact_mod_cast sub_eq_zero.1 h5) (h3 j).2
    · exact h5
  apply hg
  have : g = z + ∑ j, v j := by funext i; rw [h1]; simp
  rw [this, map_add, map_sum, hz, Finset.sum_eq_zero fun j _ => hv j, add_zero]

/-- a vertex on two momenta and two frequencies -/
def exGam : Grid 2 1 1 → Fin 2 → Fin 2 → ℂ := fun q v v' =>
  if v = v' then (if q.1 = 0 then (if v = 0 then -1 else 0) else (if v = 0 then -2 else -1)) else 0

/-- its kernel, symmetrised as in the singlet channel: not Hermitian, eigenvalues `-2`, `1`, `0` -/
def exKer : (Grid 2 1 1 × Fin 2 → ℂ) → Grid 2 1 1 × Fin 2 → ℂ := kernel (symGamma exGam 1) (fun _ _ => 1) ((1 : ℝ) : ℂ)

/-- momentum `a` of the example -/
def exPt (a : ZMod 2) : Grid 2 1 1 := (a, 0, 0)

theorem exPt_cases (q : Grid 2 1 1) : q = exPt 0 ∨ q = exPt 1 := by revert q; decide

theorem exKer_apply (x : Grid 2 1 1 × Fin 2 → ℂ) (k : Grid 2 1 1) (v : Fin 2) :
    exKer x (k, v) = exGam (exPt 0 - k) v v * (1 / 2 * (x (exPt 0, 0) + x (exPt 0, 1))) +
      exGam (exPt 1 - k) v v * (1 / 2 * (x (exPt 1, 0) + x (exPt 1, 1))) := by
  unfold exKer
  rw [kernel_symGamma _ _ _ _ (fun _ _ => rfl), kernel_is_momentum_sum]
  have hu : (Finset.univ : Finset (Grid 2 1 1)) = {exPt 0, exPt 1} := by decide
  rw [hu, Finset.sum_pair (by decide)]
  simp only [Fin.sum_univ_two, parityPart, revV]
  fin_cases v <;> simp [exGam, add_comm]

theorem exKer_values (x : Grid 2 1 1 × Fin 2 → ℂ) :
    exKer x (exPt 0, 0) = -(1 / 2 * (x (exPt 0, 0) + x (exPt 0, 1))) - (x (exPt 1, 0) + x (exPt 1, 1)) ∧
    exKer x (exPt 0, 1) = -(1 / 2 * (x (exPt 1, 0) + x (exPt 1, 1))) ∧
    exKer x (exPt 1, 0) = -(x (exPt 0, 0) + x (exPt 0, 1)) - 1 / 2 * (x (exPt 1, 0) + x (exPt 1, 1)) ∧
    exKer x (exPt 1, 1) = -(1 / 2 * (x (exPt 0, 0) + x (exPt 0, 1))) := by
  have h1 : (exPt 0 - exPt 0).1 = 0 := by decide
  have h2 : (exPt 1 - exPt 0).1 ≠ 0 := by decide
  have h3 : (exPt 0 - exPt 1).1 ≠ 0 := by decide
  have h4 : (exPt 1 - exPt 1).1 = 0 := by decide
  simp only [exKer_apply, exGam, if_true, if_pos h1, if_neg h2, if_neg h3, if_pos h4, one_ne_zero, if_false]
  refine ⟨by ring, by ring, by ring, by ring⟩

/-- sums over the frequencies, added (`e = 1`) or subtracted (`e = -1`) -/
def exPhi (e : ℂ) : (Grid 2 1 1 × Fin 2 → ℂ) →ₗ[ℂ] ℂ where
  toFun x := (x (exPt 0, 0) + x (exPt 0, 1)) + e * (x (exPt 1, 0) + x (exPt 1, 1))
  map_add' x y := by simp only [Pi.add_apply]; ring
  map_smul' c x := by simp only [Pi.smul_apply, smul_eq_mul, RingHom.id_apply]; ring

theorem exPhi_left (x : Grid 2 1 1 × Fin 2 → ℂ) :
    exPhi 1 (exKer x) = ((-2 : ℝ) : ℂ) * exPhi 1 x ∧ exPhi (-1) (exKer x) = ((1 : ℝ) : ℂ) * exPhi (-1) x := by
  obtain ⟨h1, h2, h3, h4⟩ := exKer_values x
  simp only [exPhi, LinearMap.coe_mk, AddHom.coe_mk, h1, h2, h3, h4]
  push_cast
  constructor <;> ring

theorem exKer_eig (mu : ℝ) (h : Eig exKer mu) : mu = -2 ∨ mu = 1 ∨ mu = 0 := by
  obtain ⟨x, hx, he⟩ := h
  by_contra hcon
  push Not at hcon
  have hl : ∀ (e : ℂ) (t : ℝ), exPhi e (exKer x) = (t : ℂ) * exPhi e x → mu ≠ t → exPhi e x = 0 := by
    intro e t h1 h2
    rw [he, show (fun i => (mu : ℂ) * x i) = (mu : ℂ) • x from rfl, map_smul, smul_eq_mul] at h1
    have h3 : ((mu : ℂ) - t) * exPhi e x = 0 := by linear_combination h1
    rcases mul_eq_zero.1 h3 with h4 | h4
    · exact absurd (by exact_mod_cast sub_eq_zero.1 h4) h2
    · exact h4
  have h1 := hl 1 (-2) (exPhi_left x).1 hcon.1
  have h2 := hl (-1) 1 (exPhi_left x).2 hcon.2.1
  simp only [exPhi, LinearMap.coe_mk, AddHom.coe_mk] at h1 h2
  have s0 : x (exPt 0, 0) + x (exPt 0, 1) = 0 := by linear_combination (h1 + h2) / 2
  have s1 : x (exPt 1, 0) + x (exPt 1, 1) = 0 := by linear_combination (h1 - h2) / 2
  have hm : (mu : ℂ) ≠ 0 := by exact_mod_cast hcon.2.2
  apply hx
  have hz : ∀ i, exKer x i = 0 := by
    obtain ⟨e1, e2, e3, e4⟩ := exKer_values x
    rintro ⟨k, v⟩
    rcases exPt_cases k with rfl | rfl <;> fin_cases v
    · show exKer x (exPt 0, 0) = 0; rw [e1, s0, s1]; simp
    · show exKer x (exPt 0, 1) = 0; rw [e2, s1]; simp
    · show exKer x (exPt 1, 0) = 0; rw [e3, s0, s1]; simp
    · show exKer x (exPt 1, 1) = 0; rw [e4, s0]; simp
  funext i
  have := hz i
  rw [he] at this
  simpa [hm] using this

/-- eigenvectors to `-2` and `1` -/
def exDom : Grid 2 1 1 × Fin 2 → ℂ := fun i => if i.2 = 0 then 3 else 1
def exTop : Grid 2 1 1 × Fin 2 → ℂ := fun i => if i.1.1 = 0 then 1 else -1

theorem exDom_eig : exKer exDom = fun i => (-2 : ℂ) * exDom i := by
  obtain ⟨e1, e2, e3, e4⟩ := exKer_values exDom
  funext ⟨k, v⟩
  rcases exPt_cases k with rfl | rfl <;> fin_cases v
  · show exKer exDom (exPt 0, 0) = _; rw [e1]; simp [exDom]; norm_num
  · show exKer exDom (exPt 0, 1) = _; rw [e2]; simp [exDom]; norm_num
  · show exKer exDom (exPt 1, 0) = _; rw [e3]; simp [exDom]; norm_num
  · show exKer exDom (exPt 1, 1) = _; rw [e4]; simp [exDom]; norm_num

theorem exTop_eig : exKer exTop = fun i => (1 : ℂ) * exTop i := by
  obtain ⟨e1, e2, e3, e4⟩ := exKer_values exTop
  funext ⟨k, v⟩
  have h0 : (exPt 0).1 = 0 := rfl
  have h1 : (exPt 1).1 ≠ 0 := by decide
  rcases exPt_cases k with rfl | rfl <;> fin_cases v
  · show exKer exTop (exPt 0, 0) = _; rw [e1]; simp [exTop, h0, h1]; norm_num
  · show exKer exTop (exPt 0, 1) = _; rw [e2]; simp [exTop, h0, h1]; norm_num
  · show exKer exTop (exPt 1, 0) = _; rw [e3]; simp [exTop, h0, h1]; norm_num
  · show exKer exTop (exPt 1, 1) = _; rw [e4]; simp [exTop, h0, h1]; norm_num

/-- started from an eigenvector the iteration stays there -/
theorem iter_eigenvector {κ : Type _} [Fintype κ] (A : (κ → ℂ) → κ → ℂ) (g : κ → ℂ) (hg : g ≠ 0) (mu s : ℂ) (h : A g = fun i => mu * g i) (hms : mu - s ≠ 0) :
    ∀ k, (iter A [] s g (k + 1)) = (g, mu - s) := by
  have step : ∀ p : (κ → ℂ) × ℂ, p.1 = g → ((fun i => (A (gramSchmidt p.1 []) i - s * gramSchmidt p.1 [] i) /
      (dot (gramSchmidt p.1 []) (fun i => A (gramSchmidt p.1 []) i - s * gramSchmidt p.1 [] i) / dot (gramSchmidt p.1 []) (gramSchmidt p.1 [])),
      dot (gramSchmidt p.1 []) (fun i => A (gramSchmidt p.1 []) i - s * gramSchmidt p.1 [] i) / dot (gramSchmidt p.1 []) (gramSchmidt p.1 [])) :
      (κ → ℂ) × ℂ) = (g, mu - s) := by
    rintro ⟨q, l⟩ hq
    have hgs : gramSchmidt g [] = g := rfl
    simp only at hq ⊢
    subst hq
    rw [hgs, h]
    have e : (fun i => mu * q i - s * q i) = (mu - s) • q := by funext i; simp; ring
    have e2 : dot q ((mu - s) • q) = (mu - s) * dot q q := dot_smul q q _
    rw [e, e2, mul_div_assoc, div_self (dot_self_ne_zero hg), mul_one]
    refine Prod.ext (funext fun i => ?_) rfl
    show (mu * q i - s * q i) / (mu - s) = q i
    field_simp
  intro k
  induction k with
  | zero => exact step (g, 1) rfl
  | succ k ih => exact step (iter A [] s g (k + 1)) (by rw [ih])

example (η : ℝ) (hη : 0 < η) : ∃ N0, ∀ c0, N0 ≤ c0 → ∃ N, ∀ c, N ≤ c → ∀ (eps : ℝ) (maxCount n : Nat),
    (powerIteration exKer [] none eps maxCount exDom).count = c0 →
    (powerIteration exKer [] (shiftOf exKer true eps maxCount exDom) eps maxCount exTop).count = c →
    ∃ p, (getEig exKer true eps maxCount exTop exDom (n + 1))[0]? = some p ∧ ‖p.1 - ((1 : ℝ) : ℂ)‖ < η := by
  have hd : exDom ≠ 0 := fun h => by have := congrFun h (exPt 0, 0); simp [exDom] at this
  have ht : exTop ≠ 0 := fun h => by have := congrFun h (exPt 0, 0); simp [exTop, exPt] at this
  have hi0 := iter_eigenvector exKer exDom hd (-2) 0 exDom_eig (by norm_num)
  refine symmetrised_reported exGam (fun _ _ => 1) 1 1 (Or.inl rfl) ?_ (fun _ _ => one_ne_zero) (fun _ _ => rfl) exKer rfl exDom exTop (-2) 1 ?_ ?_ one_pos
    ?_ ?_ ?_ ?_ η hη
  · intro q v v'
    rcases exPt_cases q with rfl | rfl
    · rw [show -exPt 0 = exPt 0 by decide]
      fin_cases v <;> fin_cases v' <;> simp [exGam, exPt]
    · rw [show -exPt 1 = exPt 1 by decide]
      fin_cases v <;> fin_cases v' <;> simp [exGam, exPt, map_ofNat]
  · intro mu hmu hne
    rcases exKer_eig mu hmu with rfl | rfl | rfl
    · exact absurd rfl hne
    · norm_num
    · norm_num
  · intro mu hmu
    rcases exKer_eig mu hmu with rfl | rfl | rfl <;> norm_num
  · refine not_misses_of_left exKer (-2) (by norm_num) (exPhi 1) (fun x => (exPhi_left x).1) _ ?_
    simp [exPhi, exDom]; norm_num
  · refine not_misses_of_left exKer 1 one_ne_zero (exPhi (-1)) (fun x => (exPhi_left x).2) _ ?_
    have h1 : (exPt 1).1 ≠ 0 := by decide
    simp [exPhi, exTop, h1, show (exPt 0).1 = 0 from rfl]
  · intro k; rw [hi0 k]; norm_num
  · rintro s (rfl | ⟨c0, rfl⟩) k
    · rw [iter_eigenvector exKer exTop ht 1 0 exTop_eig (by norm_num) k]; norm_num
    · rw [hi0 c0, iter_eigenvector exKer exTop ht 1 _ exTop_eig (by norm_num) k]; norm_num

end Kernel

end DGA.Eli
