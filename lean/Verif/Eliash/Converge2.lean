import Verif.Eliash.Converge
import Mathlib.Analysis.Matrix.Spectrum

/-
  C101 continued: the pairing kernel `Gamma * |G|^2` of eliashberg_equation.py:67-69 with a Hermitian vertex has real
  eigenvalues and a complete set of eigenvectors; with the shift at or below the spectrum the power iteration finds the
  largest eigenvalue contained in the start gap; what the deflated run returns.
-/

noncomputable section

namespace DGA.Eli

open Filter Topology

variable {ι : Type _} [Fintype ι] [DecidableEq ι]

/-- A kernel "Hermitian matrix times positive weights" decomposes every vector into eigenvectors with real eigenvalues; the
    parts of different eigenvalues are independent. -/
theorem weighted_decomposition (M : Matrix ι ι ℂ) (hM : M.IsHermitian) (w : ι → ℝ) (hw : ∀ i, 0 < w i)
    (L : (ι → ℂ) →ₗ[ℂ] (ι → ℂ)) (hL : ∀ x i, L x i = ∑ j, M i j * ((w j : ℂ) * x j)) (g : ι → ℂ) :
    ∃ (v : ι → ι → ℂ) (lam : ι → ℝ), (∀ j, L (v j) = (lam j : ℂ) • v j) ∧ g = ∑ j, v j ∧
      ∀ top : ℝ, (∃ j, lam j = top ∧ v j ≠ 0) → ∑ j with lam j = top, v j ≠ 0 := by
  set d : ι → ℂ := fun i => ((Real.sqrt (w i) : ℝ) : ℂ) with hd
  have hd0 : ∀ i, d i ≠ 0 := fun i => by
    simp only [hd]; exact_mod_cast (Real.sqrt_pos.2 (hw i)).ne'
  have hdd : ∀ i, d i * d i = (w i : ℂ) := fun i => by
    simp only [hd]; rw [← Complex.ofReal_mul, Real.mul_self_sqrt (hw i).le]
  set H : Matrix ι ι ℂ := Matrix.of fun i j => d i * M i j * d j with hHdef
  have hH : H.IsHermitian := by
    ext i j
    have h1 : (starRingEnd ℂ) (M j i) = M i j := by
      have := congrFun (congrFun hM i) j
      simpa [Matrix.conjTranspose_apply] using this
    simp only [Matrix.conjTranspose_apply, hHdef, Matrix.of_apply, star_mul', RCLike.star_def, h1]
    simp only [hd, Complex.conj_ofReal]; ring
  set e := hH.eigenvectorBasis with he
  set c : ι → ℂ := fun j => e.repr (WithLp.toLp 2 fun i => d i * g i) j with hcdef
  set v : ι → ι → ℂ := fun j i => c j * (e j i) / d i with hv
  have hsum : ∀ i, ∑ j, c j * e j i = d i * g i := by
    intro i
    have := e.sum_repr (WithLp.toLp 2 fun i => d i * g i)
    have h2 := congrArg (fun z : EuclideanSpace ℂ ι => z i) this
    simpa [hcdef] using h2
  have heig : ∀ j i, ∑ k, d i * M i k * d k * e j k = (hH.eigenvalues j : ℂ) * e j i := by
    intro j i
    have := congrFun (hH.mulVec_eigenvectorBasis j) i
    simpa [Matrix.mulVec, dotProduct, hHdef] using this
  refine ⟨v, hH.eigenvalues, ?_, ?_, ?_⟩
  · intro j
    funext i
    rw [hL, Pi.smul_apply, smul_eq_mul]
    have h1 : ∀ k, M i k * ((w k : ℂ) * v j k) = (c j / d i) * (d i * M i k * d k * e j k) := by
      intro k
      rw [← hdd k]
      simp only [hv]
      have := hd0 k; have := hd0 i
      field_simp
    simp only [h1, ← Finset.mul_sum, heig]
    simp only [hv]; ring
  · funext i
    rw [Finset.sum_apply]
    have : ∀ j, v j i = (c j * e j i) / d i := fun j => rfl
    simp only [this, ← Finset.sum_div, hsum]
    have := hd0 i
    field_simp
  · rintro top ⟨j0, hj0, hne⟩ hz
    have hc0 : c j0 ≠ 0 := by
      intro h; apply hne; funext i; simp [hv, h]
    have hlin : ∑ j, (if hH.eigenvalues j = top then c j else 0) • e j = 0 := by
      ext i
      have := congrFun hz i
      rw [Finset.sum_filter, Finset.sum_apply] at this
      have h2 : ∀ j, (if hH.eigenvalues j = top then v j else 0) i = ((if hH.eigenvalues j = top then c j else 0) * e j i) / d i := by
        intro j; split <;> simp [hv]
      simp only [h2, ← Finset.sum_div] at this
      have h3 := (div_eq_zero_iff.1 (by simpa using this)).resolve_right (hd0 i)
      simp only [WithLp.ofLp_sum, WithLp.ofLp_smul, WithLp.ofLp_zero, Finset.sum_apply, Pi.smul_apply, smul_eq_mul, Pi.zero_apply]
      simpa only [ite_mul, zero_mul] using h3
    have := (Fintype.linearIndependent_iff.1 e.orthonormal.linearIndependent) _ hlin j0
    rw [if_pos hj0] at this
    exact hc0 this

/-- **C101 (b).** For a kernel "Hermitian matrix times positive weights" and a shift not above any eigenvalue, the power
    iteration tends, from every start vector `g ≠ 0` for which no quotient vanishes, to the largest eigenvalue contained in
    `g`: `g = w + r` with `w ≠ 0` an eigenvector to `top` and `r` a sum of eigenvectors to smaller eigenvalues. -/
theorem leading_eigenvalue (M : Matrix ι ι ℂ) (hM : M.IsHermitian) (wt : ι → ℝ) (hw : ∀ i, 0 < wt i)
    (L : (ι → ℂ) →ₗ[ℂ] (ι → ℂ)) (hL : ∀ x i, L x i = ∑ j, M i j * ((wt j : ℂ) * x j)) (g : ι → ℂ) (hg : g ≠ 0)
    (s : ℝ) (hs : ∀ (mu : ℝ) (x : ι → ℂ), x ≠ 0 → L x = (mu : ℂ) • x → s ≤ mu)
    (hne : ∀ k, (iter L [] (s : ℂ) g (k + 1)).2 ≠ 0) :
    ∃ (top : ℝ) (w : ι → ℂ), w ≠ 0 ∧ L w = (top : ℂ) • w ∧
      (∃ (v : ι → ι → ℂ) (lam : ι → ℝ), g = w + ∑ j, v j ∧ ∀ j, L (v j) = (lam j : ℂ) • v j ∧ (v j = 0 ∨ lam j < top)) ∧
      Tendsto (fun k => (iter L [] (s : ℂ) g k).2) atTop (𝓝 ((top : ℂ) - s)) := by
  obtain ⟨v, lam, h1, h2, h3⟩ := weighted_decomposition M hM wt hw L hL g
  have hex : (Finset.univ.filter fun j => v j ≠ 0).Nonempty := by
    by_contra hcon
    rw [Finset.not_nonempty_iff_eq_empty, Finset.filter_eq_empty_iff] at hcon
    apply hg; rw [h2]
    exact Finset.sum_eq_zero fun j _ => by simpa using hcon (Finset.mem_univ j)
  obtain ⟨j0, hj0, hmax⟩ := Finset.exists_max_image _ lam hex
  have hj0' : v j0 ≠ 0 := (Finset.mem_filter.1 hj0).2
  have hmax' : ∀ j, v j ≠ 0 → lam j ≤ lam j0 := fun j hj => hmax j (Finset.mem_filter.2 ⟨Finset.mem_univ j, hj⟩)
  have hgs : ∀ x : ι → ℂ, gramSchmidt x [] = x := fun x => rfl
  have hcast : ∀ j, ((lam j : ℂ) = ((lam j0 : ℝ) : ℂ)) ↔ lam j = lam j0 := fun j => Complex.ofReal_inj
  have hw0 := h3 (lam j0) ⟨j0, rfl, hj0'⟩
  refine ⟨lam j0, ∑ j with lam j = lam j0, v j, hw0, ?_, ⟨fun j => if lam j = lam j0 then 0 else v j, lam, ?_, ?_⟩, ?_⟩
  · rw [map_sum, Finset.smul_sum]
    refine Finset.sum_congr rfl fun j hj => ?_
    rw [h1, (Finset.mem_filter.1 hj).2]
  · conv_lhs => rw [h2]
    rw [Finset.sum_filter, ← Finset.sum_add_distrib]
    refine Finset.sum_congr rfl fun j _ => ?_
    split <;> simp
  · intro j
    dsimp only
    by_cases hj : lam j = lam j0
    · simp [hj]
    · rw [if_neg hj]
      refine ⟨h1 j, ?_⟩
      by_cases hz : v j = 0
      · exact Or.inl hz
      · exact Or.inr (lt_of_le_of_ne (hmax' j hz) hj)
  · have hdom : ∀ j, gramSchmidt (v j) [] ≠ 0 → (lam j : ℂ) = ((lam j0 : ℝ) : ℂ) ∨ ‖(lam j : ℂ) - s‖ < ‖((lam j0 : ℝ) : ℂ) - s‖ := by
      intro j hj
      rw [hgs] at hj
      by_cases h : lam j = lam j0
      · left; rw [h]
      · right
        have hlt := lt_of_le_of_ne (hmax' j hj) h
        have hsj := hs (lam j) (v j) hj (h1 j)
        rw [← Complex.ofReal_sub, ← Complex.ofReal_sub, Complex.norm_real, Complex.norm_real, Real.norm_eq_abs, Real.norm_eq_abs,
          abs_of_nonneg (by linarith), abs_of_nonneg (by linarith)]
        linarith
    have hover : ∑ j with (lam j : ℂ) = ((lam j0 : ℝ) : ℂ), gramSchmidt (v j) [] ≠ 0 := by
      have : (Finset.univ.filter fun j => (lam j : ℂ) = ((lam j0 : ℝ) : ℂ)) = Finset.univ.filter fun j => lam j = lam j0 :=
        Finset.filter_congr fun j _ => hcast j
      rw [this]; simpa [hgs] using hw0
    have := (iter_converges L [] List.Pairwise.nil (by simp) (by simp) v (fun j => (lam j : ℂ)) h1 (s : ℂ) (lam j0 : ℂ) hdom hover
      (by rw [← h2]; exact hne)).1
    rwa [← h2] at this

/-- The real eigenvalues of a linear map (specification). -/
def IsEig (L : (ι → ℂ) →ₗ[ℂ] (ι → ℂ)) (mu : ℝ) : Prop := ∃ x : ι → ℂ, x ≠ 0 ∧ L x = (mu : ℂ) • x

/-- `x` is a sum of eigenvectors to eigenvalues other than `top`: it contains nothing of the eigenspace of `top`. -/
def Lacks (L : (ι → ℂ) →ₗ[ℂ] (ι → ℂ)) (top : ℝ) (g : ι → ℂ) : Prop :=
  ∃ (v : ι → ι → ℂ) (lam : ι → ℝ), g = ∑ j, v j ∧ ∀ j, L (v j) = (lam j : ℂ) • v j ∧ lam j ≠ top

/-- The iteration with shift `s` tends to `top - s` when `top` is the eigenvalue farthest from `s` and the start vector
    contains a part of it. -/
theorem shifted_converges (M : Matrix ι ι ℂ) (hM : M.IsHermitian) (wt : ι → ℝ) (hw : ∀ i, 0 < wt i)
    (L : (ι → ℂ) →ₗ[ℂ] (ι → ℂ)) (hL : ∀ x i, L x i = ∑ j, M i j * ((wt j : ℂ) * x j)) (g : ι → ℂ) (s top : ℝ)
    (hfar : ∀ mu, IsEig L mu → mu ≠ top → |mu - s| < |top - s|) (hg : ¬ Lacks L top g)
    (hne : ∀ k, (iter L [] (s : ℂ) g (k + 1)).2 ≠ 0) :
    Tendsto (fun k => (iter L [] (s : ℂ) g k).2) atTop (𝓝 ((top : ℂ) - s)) := by
  obtain ⟨v, lam, h1, h2, h3⟩ := weighted_decomposition M hM wt hw L hL g
  have hgs : ∀ x : ι → ℂ, gramSchmidt x [] = x := fun x => rfl
  have hw0 : ∑ j with lam j = top, v j ≠ 0 := by
    apply h3
    by_contra hcon
    push Not at hcon
    apply hg
    refine ⟨v, fun j => if lam j = top then top + 1 else lam j, h2, fun j => ?_⟩
    dsimp only
    by_cases hj : lam j = top
    · rw [if_pos hj, hcon j hj, map_zero, smul_zero]; exact ⟨rfl, by linarith⟩
    · rw [if_neg hj]; exact ⟨h1 j, hj⟩
  have hdom : ∀ j, gramSchmidt (v j) [] ≠ 0 → (lam j : ℂ) = (top : ℂ) ∨ ‖(lam j : ℂ) - s‖ < ‖(top : ℂ) - s‖ := by
    intro j hj
    rw [hgs] at hj
    by_cases h : lam j = top
    · left; rw [h]
    · right
      rw [← Complex.ofReal_sub, ← Complex.ofReal_sub, Complex.norm_real, Complex.norm_real, Real.norm_eq_abs, Real.norm_eq_abs]
      exact hfar _ ⟨v j, hj, h1 j⟩ h
  have hover : ∑ j with (lam j : ℂ) = (top : ℂ), gramSchmidt (v j) [] ≠ 0 := by
    have : (Finset.univ.filter fun j => (lam j : ℂ) = (top : ℂ)) = Finset.univ.filter fun j => lam j = top :=
      Finset.filter_congr fun j _ => Complex.ofReal_inj
    rw [this]; simpa [hgs] using hw0
  have := (iter_converges L [] List.Pairwise.nil (by simp) (by simp) v (fun j => (lam j : ℂ)) h1 (s : ℂ) (top : ℂ) hdom hover
    (by rw [← h2]; exact hne)).1
  rwa [← h2] at this

/-- **C101 (c).** The two runs of `get_eig` with `shift_mat` (eliashberg_equation.py:43-55): the first, unshifted run tends to
    the eigenvalue of largest modulus `dom`; with the shift `s = dom` if `dom ≤ 0` and `s = 0` if `dom > 0`, the second run,
    with the shift added back, tends to the largest eigenvalue `top`. -/
theorem two_runs_leading (M : Matrix ι ι ℂ) (hM : M.IsHermitian) (wt : ι → ℝ) (hw : ∀ i, 0 < wt i)
    (L : (ι → ℂ) →ₗ[ℂ] (ι → ℂ)) (hL : ∀ x i, L x i = ∑ j, M i j * ((wt j : ℂ) * x j)) (g0 g : ι → ℂ) (dom top : ℝ)
    (hdom : ∀ mu, IsEig L mu → mu ≠ dom → |mu| < |dom|) (htop : IsEig L top) (hmax : ∀ mu, IsEig L mu → mu ≤ top)
    (hg0 : ¬ Lacks L dom g0) (hg : ¬ Lacks L top g)
    (hne0 : ∀ k, (iter L [] 0 g0 (k + 1)).2 ≠ 0)
    (hne : ∀ k, (iter L [] (((if 0 < dom then 0 else dom) : ℝ) : ℂ) g (k + 1)).2 ≠ 0) :
    Tendsto (fun k => (iter L [] 0 g0 k).2) atTop (𝓝 (dom : ℂ)) ∧
    Tendsto (fun k => (iter L [] (((if 0 < dom then 0 else dom) : ℝ) : ℂ) g k).2 + (((if 0 < dom then 0 else dom) : ℝ) : ℂ))
      atTop (𝓝 (top : ℂ)) := by
  constructor
  · have := shifted_converges M hM wt hw L hL g0 0 dom (by simpa using hdom) hg0 (by simpa using hne0)
    simpa using this
  · generalize hs : (if 0 < dom then (0 : ℝ) else dom) = s at hne ⊢
    have h := shifted_converges M hM wt hw L hL g s top ?_ hg hne
    · have := h.add_const (s : ℂ)
      simpa using this
    · intro mu hmu hmt
      have hlt := lt_of_le_of_ne (hmax mu hmu) hmt
      have h1 : ∀ nu, IsEig L nu → |nu| ≤ |dom| := by
        intro nu hnu
        by_cases h : nu = dom
        · rw [h]
        · exact (hdom nu hnu h).le
      split at hs
      · next hpos =>
        subst hs
        rw [sub_zero, sub_zero]
        have htd : top = dom := by
          by_contra hcon
          have h2 := hdom top htop hcon
          have h3 : mu ≠ dom := by
            rintro rfl
            rw [abs_of_pos hpos, abs_lt] at h2
            linarith [h2.2]
          -- `dom` itself is attained by the start vector of the first run
          have : IsEig L dom := by
            by_contra hno
            obtain ⟨v, lam, e1, e2, _⟩ := weighted_decomposition M hM wt hw L hL g0
            apply hg0
            refine ⟨v, fun j => if lam j = dom then dom + 1 else lam j, e2, fun j => ?_⟩
            dsimp only
            by_cases hj : lam j = dom
            · have : v j = 0 := by
                by_contra hv
                exact hno ⟨v j, hv, by rw [e1, hj]⟩
              rw [if_pos hj, this, map_zero, smul_zero]; exact ⟨rfl, by linarith⟩
            · rw [if_neg hj]; exact ⟨e1 j, hj⟩
          have h4 := hmax dom this
          rw [abs_of_pos hpos, abs_lt] at h2
          linarith [h2.2]
        rw [htd]
        exact hdom mu hmu (by rw [← htd]; exact hmt)
      · next hneg =>
        subst hs
        have h2 : ∀ nu, IsEig L nu → dom ≤ nu := by
          intro nu hnu
          have := h1 nu hnu
          rw [abs_of_nonpos (not_lt.1 hneg)] at this
          linarith [(abs_le.1 this).1]
        rw [abs_of_nonneg (by linarith [h2 mu hmu]), abs_of_nonneg (by linarith [h2 top htop])]
        linarith

/-! Non-vacuity of `two_runs_leading`: the kernel `diag(-2, 1)`, both runs started at `(1, 1)`. -/

/-- example kernel with the dominant eigenvalue negative -/
def exD : (Fin 2 → ℂ) →ₗ[ℂ] (Fin 2 → ℂ) where
  toFun x := ![-2 * x 0, x 1]
  map_add' x y := by funext i; fin_cases i <;> simp [mul_add]
  map_smul' c x := by funext i; fin_cases i <;> simp; ring

theorem exD_eig (mu : ℝ) : IsEig exD mu → mu = -2 ∨ mu = 1 := by
  rintro ⟨x, hx, h⟩
  have h0 := congrFun h 0
  have h1 := congrFun h 1
  simp only [exD, LinearMap.coe_mk, AddHom.coe_mk, Matrix.cons_val_zero, Matrix.cons_val_one, Pi.smul_apply, smul_eq_mul] at h0 h1
  by_cases hx0 : x 0 = 0
  · have hx1 : x 1 ≠ 0 := by
      intro h2; apply hx; funext i; fin_cases i; exacts [hx0, h2]
    right
    have : (mu : ℂ) = 1 := mul_right_cancel₀ hx1 (by rw [← h1, one_mul])
    exact_mod_cast this
  · left
    have : (mu : ℂ) = -2 := mul_right_cancel₀ hx0 (by rw [← h0])
    exact_mod_cast this

theorem exD_iter (s : ℝ) (P : ℝ → ℝ → Prop) (h1 : P 1 1)
    (hP : ∀ a b, P a b → (-2 - s) * a ^ 2 + (1 - s) * b ^ 2 ≠ 0 ∧ a ^ 2 + b ^ 2 ≠ 0 ∧ ∀ c : ℝ, c ≠ 0 → P ((-2 - s) * a / c) ((1 - s) * b / c)) :
    ∀ k, ∃ a b : ℝ, P a b ∧ (iter exD [] (s : ℂ) ![1, 1] k).1 = ![(a : ℂ), (b : ℂ)] ∧ (iter exD [] (s : ℂ) ![1, 1] (k + 1)).2 ≠ 0 := by
  have step : ∀ (a b : ℝ) k, P a b → (iter exD [] (s : ℂ) ![1, 1] k).1 = ![(a : ℂ), (b : ℂ)] →
      (iter exD [] (s : ℂ) ![1, 1] (k + 1)).2 = ((((-2 - s) * a ^ 2 + (1 - s) * b ^ 2) / (a ^ 2 + b ^ 2) : ℝ) : ℂ) ∧
      (iter exD [] (s : ℂ) ![1, 1] (k + 1)).1 =
        ![(((-2 - s) * a / (((-2 - s) * a ^ 2 + (1 - s) * b ^ 2) / (a ^ 2 + b ^ 2)) : ℝ) : ℂ),
          (((1 - s) * b / (((-2 - s) * a ^ 2 + (1 - s) * b ^ 2) / (a ^ 2 + b ^ 2)) : ℝ) : ℂ)] := by
    intro a b k _ hk
    have hq : (iter exD [] (s : ℂ) ![1, 1] (k + 1)).2 = ((((-2 - s) * a ^ 2 + (1 - s) * b ^ 2) / (a ^ 2 + b ^ 2) : ℝ) : ℂ) := by
      simp only [iter, hk, gramSchmidt, List.foldl_nil]
      simp only [dot, Fin.sum_univ_two, exD, LinearMap.coe_mk, AddHom.coe_mk,
        Matrix.cons_val_zero, Matrix.cons_val_one, Matrix.cons_val_fin_one, Complex.conj_ofReal]
      push_cast
      congr 1 <;> ring
    refine ⟨hq, ?_⟩
    have h2 : (iter exD [] (s : ℂ) ![1, 1] (k + 1)).1 = fun i => (exD ![(a : ℂ), (b : ℂ)] i - s * (![(a : ℂ), (b : ℂ)] : Fin 2 → ℂ) i) /
        (iter exD [] (s : ℂ) ![1, 1] (k + 1)).2 := by
      simp only [iter, hk, gramSchmidt, List.foldl_nil]
    rw [h2, hq]
    funext i
    fin_cases i
    · simp only [exD, LinearMap.coe_mk, AddHom.coe_mk, Fin.zero_eta, Matrix.cons_val_zero]
      push_cast; congr 1; ring
    · simp only [exD, LinearMap.coe_mk, AddHom.coe_mk, Fin.mk_one, Matrix.cons_val_one, Matrix.cons_val_fin_one]
      push_cast; congr 1; ring
  have fin : ∀ (a b : ℝ) k, P a b → (iter exD [] (s : ℂ) ![1, 1] k).1 = ![(a : ℂ), (b : ℂ)] →
      (iter exD [] (s : ℂ) ![1, 1] (k + 1)).2 ≠ 0 := by
    intro a b k hab hk
    rw [(step a b k hab hk).1]
    exact_mod_cast div_ne_zero (hP a b hab).1 (hP a b hab).2.1
  intro k
  induction k with
  | zero => exact ⟨1, 1, h1, by simp [iter], fin 1 1 0 h1 (by simp [iter])⟩
  | succ k ih =>
    obtain ⟨a, b, hab, hk, -⟩ := ih
    have h3 := (hP a b hab).2.2 _ (div_ne_zero (hP a b hab).1 (hP a b hab).2.1)
    exact ⟨_, _, h3, (step a b k hab hk).2, fin _ _ (k + 1) h3 (step a b k hab hk).2⟩

theorem exD_lacks (top : ℝ) (h : top = -2 ∨ top = 1) : ¬ Lacks exD top ![1, 1] := by
  rintro ⟨v, lam, hg, hv⟩
  rcases h with rfl | rfl
  · have h0 : ∀ j, v j 0 = 0 := by
      intro j
      have := congrFun (hv j).1 0
      simp only [exD, LinearMap.coe_mk, AddHom.coe_mk, Matrix.cons_val_zero, Pi.smul_apply, smul_eq_mul] at this
      by_contra hne
      have h3 : (-2 : ℂ) = lam j := mul_right_cancel₀ hne this
      exact (hv j).2 (by exact_mod_cast h3.symm)
    have := congrFun hg 0
    simp [h0] at this
  · have h0 : ∀ j, v j 1 = 0 := by
      intro j
      have := congrFun (hv j).1 1
      simp only [exD, LinearMap.coe_mk, AddHom.coe_mk, Matrix.cons_val_one, Matrix.cons_val_fin_one, Pi.smul_apply, smul_eq_mul] at this
      by_contra hne
      have h3 : (1 : ℂ) = lam j := mul_right_cancel₀ hne (by rw [← this, one_mul])
      exact (hv j).2 (by exact_mod_cast h3.symm)
    have := congrFun hg 1
    simp [h0] at this

/-- all hypotheses of `two_runs_leading` hold for `diag(-2,1)`; the largest eigenvalue 1 is found although -2 dominates -/
example : Tendsto (fun k => (iter exD [] (((-2 : ℝ)) : ℂ) ![1, 1] k).2 + (((-2 : ℝ)) : ℂ)) atTop (𝓝 ((1 : ℝ) : ℂ)) := by
  have hM : (Matrix.diagonal ![(-2 : ℂ), 1]).IsHermitian := by
    rw [Matrix.isHermitian_diagonal_iff]
    intro i; fin_cases i <;> simp [IsSelfAdjoint]
  have h := (two_runs_leading (Matrix.diagonal ![(-2 : ℂ), 1]) hM (fun _ => 1) (fun _ => one_pos) exD (by
      intro x i; fin_cases i <;> simp [exD, Matrix.diagonal]) ![1, 1] ![1, 1] (-2) 1
    (by intro mu hmu hne
        rcases exD_eig mu hmu with h | h
        · exact absurd h hne
        · rw [h]; norm_num)
    ⟨![0, 1], by intro h; simpa using congrFun h 1, by funext i; fin_cases i <;> simp [exD]⟩
    (by intro mu hmu
        rcases exD_eig mu hmu with h | h <;> rw [h]; norm_num)
    (exD_lacks _ (Or.inl rfl)) (exD_lacks _ (Or.inr rfl))
    (by
      have := exD_iter 0 (fun a b => 0 < a ^ 2 ∧ b ^ 2 ≤ a ^ 2) (by norm_num) (by
        rintro a b ⟨ha, hb⟩
        refine ⟨by nlinarith, by nlinarith [sq_nonneg b], fun c hc => ?_⟩
        have : 0 < c ^ 2 := by positivity
        rw [div_pow, div_pow]
        exact ⟨div_pos (by nlinarith) this, div_le_div_of_nonneg_right (by nlinarith) this.le⟩)
      intro k
      obtain ⟨a, b, _, _, h⟩ := this k
      simpa using h)
    (by
      rw [if_neg (by norm_num)]
      have := exD_iter (-2) (fun a b => 0 < b ^ 2) (by norm_num) (by
        intro a b hb
        refine ⟨by nlinarith, by nlinarith [sq_nonneg a], fun c hc => ?_⟩
        have : 0 < c ^ 2 := by positivity
        rw [div_pow]
        exact div_pos (by nlinarith) this)
      intro k
      obtain ⟨a, b, _, _, h⟩ := this k
      exact h)).2
  rwa [if_neg (by norm_num)] at h

section Kernel

variable {nx ny nz nv : Nat} [NeZero nx] [NeZero ny] [NeZero nz]

/-- The pairing kernel is linear. -/
def kernelL (gamma : Grid nx ny nz → Fin nv → Fin nv → ℂ) (gk : Grid nx ny nz → Fin nv → ℂ) (norm : ℂ) :
    (Grid nx ny nz × Fin nv → ℂ) →ₗ[ℂ] (Grid nx ny nz × Fin nv → ℂ) where
  toFun := kernel gamma gk norm
  map_add' x y := by
    funext ⟨k, v⟩
    simp only [kernel_is_momentum_sum, Pi.add_apply, mul_add, Finset.sum_add_distrib]
  map_smul' c x := by
    funext ⟨k, v⟩
    simp only [kernel_is_momentum_sum, Pi.smul_apply, smul_eq_mul, RingHom.id_apply, Finset.mul_sum]
    refine Finset.sum_congr rfl fun k' _ => Finset.sum_congr rfl fun v' _ => by ring

/-- **C101 (d).** The Eliashberg solver: for a vertex with `conj Γ(q; v, v') = Γ(-q; v', v)`, a Green's function without
    zeros, a real norm, and a shift not above any eigenvalue of the kernel, the power iteration tends to the largest
    eigenvalue contained in the start gap. -/
theorem eliashberg_leading (gamma : Grid nx ny nz → Fin nv → Fin nv → ℂ) (gk : Grid nx ny nz → Fin nv → ℂ) (norm : ℝ)
    (hherm : ∀ q v v', (starRingEnd ℂ) (gamma q v v') = gamma (-q) v' v) (hgk : ∀ k v, gk k v ≠ 0)
    (g : Grid nx ny nz × Fin nv → ℂ) (hg : g ≠ 0) (s : ℝ)
    (hs : ∀ (mu : ℝ) (x : Grid nx ny nz × Fin nv → ℂ), x ≠ 0 → (kernel gamma gk norm x = fun i => (mu : ℂ) * x i) → s ≤ mu)
    (hne : ∀ k, (iter (kernel gamma gk norm) [] (s : ℂ) g (k + 1)).2 ≠ 0) :
    ∃ (top : ℝ) (w : Grid nx ny nz × Fin nv → ℂ), w ≠ 0 ∧ (kernel gamma gk norm w = fun i => (top : ℂ) * w i) ∧
      (∃ (v : Grid nx ny nz × Fin nv → Grid nx ny nz × Fin nv → ℂ) (lam : Grid nx ny nz × Fin nv → ℝ),
        g = w + ∑ j, v j ∧ ∀ j, (kernel gamma gk norm (v j) = fun i => (lam j : ℂ) * v j i) ∧ (v j = 0 ∨ lam j < top)) ∧
      Tendsto (fun k => (iter (kernel gamma gk norm) [] (s : ℂ) g k).2) atTop (𝓝 ((top : ℂ) - s)) := by
  refine leading_eigenvalue (Matrix.of fun a b : Grid nx ny nz × Fin nv => 1 / (norm : ℂ) * gamma (b.1 - a.1) a.2 b.2) ?_
    (fun a => ‖gk a.1 a.2‖ ^ 2) (fun a => by have := norm_pos_iff.2 (hgk a.1 a.2); positivity) (kernelL gamma gk norm) ?_ g hg s hs hne
  · ext a b
    simp only [Matrix.conjTranspose_apply, Matrix.of_apply, star_mul', RCLike.star_def, hherm, neg_sub, map_div₀, map_one,
      Complex.conj_ofReal]
  · rintro x ⟨k, v⟩
    show kernel gamma gk norm x (k, v) = _
    rw [kernel_is_momentum_sum, Finset.mul_sum]
    refine Eq.trans ?_ (Fintype.sum_prod_type _).symm
    refine Finset.sum_congr rfl fun k' _ => ?_
    rw [Finset.mul_sum]
    refine Finset.sum_congr rfl fun v' _ => ?_
    simp only [Matrix.of_apply]; ring

end Kernel

/-! ### The deflated run -/

omit [DecidableEq ι] in
/-- Deflation by an exact eigenvector `w`: the second run tends to the eigenvalue dominating among the parts of the start
    vector that are not parallel to `w` — also when the kernel is not normal and the eigenvectors are not orthogonal. -/
theorem second_eigenvalue {J : Type _} [Fintype J] [DecidableEq J] (L : (ι → ℂ) →ₗ[ℂ] (ι → ℂ)) (w : ι → ℂ) (mu : ℂ) (hw : w ≠ 0)
    (hmu : L w = mu • w) (v : J → ι → ℂ) (lam : J → ℂ) (hv : ∀ j, L (v j) = lam j • v j) (s top : ℂ)
    (hdom : ∀ j, (∀ c : ℂ, v j ≠ c • w) → lam j = top ∨ ‖lam j - s‖ < ‖top - s‖)
    (hover : ∀ c : ℂ, ¬ ((∑ j ∈ Finset.univ.filter (fun j => lam j = top), v j) = c • w))
    (hne : ∀ k, (iter L [w] s (∑ j, v j) (k + 1)).2 ≠ 0) :
    Tendsto (fun k => (iter L [w] s (∑ j, v j) k).2) atTop (𝓝 (top - s)) := by
  have hp : ([w] : List (ι → ℂ)).Pairwise fun a b => dot a b = 0 := by simp
  have h0 : ∀ u ∈ [w], u ≠ 0 := by simpa using hw
  have hPw : gramSchmidt w [w] = 0 := gsL_basis hp h0 w (by simp)
  have hpar : ∀ x : ι → ℂ, gramSchmidt x [w] ≠ 0 → ∀ c : ℂ, x ≠ c • w := by
    rintro x hx c rfl
    apply hx
    have : gsL [w] (c • w) = c • gsL [w] w := map_smul _ _ _
    rw [gsL_apply, gsL_apply, hPw, smul_zero] at this
    exact this
  refine (iter_converges L [w] hp h0 ?_ v lam hv s top (fun j hj => hdom j (hpar _ hj)) ?_ hne).1
  · intro u hu
    rw [List.mem_singleton] at hu; subst hu
    have : gsL [u] (mu • u) = mu • gsL [u] u := map_smul _ _ _
    rw [hmu, ← gsL_apply, this, gsL_apply, hPw, smul_zero]
  · intro hz
    have h1 : gramSchmidt (∑ j with lam j = top, v j) [w] = 0 := by
      rw [← gsL_apply, map_sum]; exact hz
    have h2 : (∑ j with lam j = top, v j) = (dot w (∑ j with lam j = top, v j) / dot w w) • w := by
      funext i
      have := congrFun h1 i
      rw [gramSchmidt_apply] at this
      simp only [List.map_cons, List.map_nil, List.sum_cons, List.sum_nil, add_zero, Pi.zero_apply, sub_eq_zero] at this
      rw [this]; rfl
    exact hover _ h2

omit [DecidableEq ι] in
/-- What the deflated run returns when it has converged exactly (`P L x = lam x` on the complement of the first gap `w`):
    the gap `L x / lam` is an eigenvector if and only if `L x` has no part along `w`.  For a kernel whose eigenvectors are
    not orthogonal (`Γ |G|²` with a frequency-dependent weight) the second gap function is therefore not an eigenvector. -/
theorem second_gap_eigenvector_iff (L : (ι → ℂ) →ₗ[ℂ] (ι → ℂ)) (w x : ι → ℂ) (mu lam : ℂ) (hw : w ≠ 0) (hmu : L w = mu • w)
    (hmu0 : mu ≠ 0) (hlam : lam ≠ 0) (hx : gramSchmidt (L x) [w] = lam • x) :
    (L ((1 / lam) • L x) = lam • ((1 / lam) • L x)) ↔ dot w (L x) = 0 := by
  set c := dot w (L x) / dot w w with hc
  have hLx : L x = lam • x + c • w := by
    funext i
    have := congrFun hx i
    rw [gramSchmidt_apply] at this
    simp only [List.map_cons, List.map_nil, List.sum_cons, List.sum_nil, add_zero] at this
    rw [Pi.add_apply, ← this]
    simp [proj, hc]
  have hl : L ((1 / lam) • L x) = L x + (c * mu / lam) • w := by
    conv_lhs => rw [hLx]
    rw [map_smul, map_add, map_smul, map_smul, hmu, smul_add, smul_smul, smul_smul, smul_smul, one_div, inv_mul_cancel₀ hlam, one_smul]
    congr 2; field_simp
  have hr : lam • ((1 / lam) • L x) = L x := by
    rw [smul_smul, mul_one_div_cancel hlam, one_smul]
  rw [hl, hr]
  constructor
  · intro h
    have h1 : (c * mu / lam) • w = 0 := by simpa using h
    rcases smul_eq_zero.1 h1 with h2 | h2
    · have hc0 : c = 0 := by
        rcases div_eq_zero_iff.1 h2 with h3 | h3
        · exact (mul_eq_zero.1 h3).resolve_right hmu0
        · exact absurd h3 hlam
      exact (div_eq_zero_iff.1 hc0).resolve_right (dot_self_ne_zero hw)
    · exact absurd h2 hw
  · intro h
    have : c = 0 := by rw [hc, h, zero_div]
    simp [this]

/-- The kernel `Γ W` with `Γ = [[0,1],[1,0]]`, `W = diag(1,4)`: eigenvalues `±2`. -/
def exL : (Fin 2 → ℂ) →ₗ[ℂ] (Fin 2 → ℂ) where
  toFun x := ![4 * x 1, x 0]
  map_add' x y := by funext i; fin_cases i <;> simp [mul_add]
  map_smul' c x := by funext i; fin_cases i <;> simp; ring

/-- Non-vacuity and the counterexample: for `exL` the first gap `(2,1)` is exact, the deflated run is at its fixed point
    `x = (1,-2)` with the correct eigenvalue `-2`, and the gap returned is not an eigenvector. -/
theorem second_gap_wrong : ∃ (w x : Fin 2 → ℂ), w ≠ 0 ∧ exL w = (2 : ℂ) • w ∧ gramSchmidt (exL x) [w] = (-2 : ℂ) • x ∧
    dot x (exL x) / dot x x = -2 ∧
    exL ((1 / (-2 : ℂ)) • exL x) ≠ (-2 : ℂ) • ((1 / (-2 : ℂ)) • exL x) := by
  have h2 : (starRingEnd ℂ) (2 : ℂ) = 2 := Complex.conj_ofNat 2
  have hw0 : (![2, 1] : Fin 2 → ℂ) ≠ 0 := by intro h; have := congrFun h 1; simp at this
  have e1 : exL ![2, 1] = (2 : ℂ) • (![2, 1] : Fin 2 → ℂ) := by
    funext i; fin_cases i <;> simp [exL]; norm_num
  have e2 : gramSchmidt (exL ![1, -2]) [![2, 1]] = (-2 : ℂ) • (![1, -2] : Fin 2 → ℂ) := by
    funext i
    rw [gramSchmidt_apply]
    fin_cases i <;> simp [exL, proj, dot, Fin.sum_univ_two, h2] <;> norm_num
  refine ⟨![2, 1], ![1, -2], hw0, e1, e2, ?_, ?_⟩
  · simp [exL, dot, Fin.sum_univ_two, h2]; norm_num
  · intro h
    have := (second_gap_eigenvector_iff exL _ _ 2 (-2) hw0 e1 (by norm_num) (by norm_num) e2).1 h
    simp [exL, dot, Fin.sum_univ_two, h2] at this
    norm_num at this

end DGA.Eli
