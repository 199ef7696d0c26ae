import Verif.Eliash.Props3
import Mathlib.Analysis.Normed.Lp.PiLp
import Mathlib.Topology.Algebra.Module.FiniteDimension

/-
  C101: convergence of the power iteration of eliashberg_equation.py (lines 42-80), with shift and deflation, to the
  dominant eigenvalue of the kernel.
-/

noncomputable section

namespace DGA.Eli

open Filter Topology

variable {ι : Type _} [Fintype ι]

section Projector

variable (basis : List (ι → ℂ))

theorem gramSchmidt_apply (v : ι → ℂ) (i : ι) :
    gramSchmidt v basis i = v i - (basis.map fun u => proj v u i).sum := by
  have := gramSchmidt_span v basis i
  exact this

/-- `v ↦ gram_schmidt(v, basis)` as a linear map -/
def gsL : (ι → ℂ) →ₗ[ℂ] (ι → ℂ) where
  toFun v := gramSchmidt v basis
  map_add' x y := by
    funext i
    simp only [gramSchmidt_apply, Pi.add_apply]
    have : ∀ u : ι → ℂ, proj (x + y) u i = proj x u i + proj y u i := by
      intro u
      have : dot u (x + y) = dot u x + dot u y := dot_add u x y
      simp only [proj, this]; ring
    simp only [this, List.sum_map_add]
    ring
  map_smul' c x := by
    funext i
    simp only [gramSchmidt_apply, Pi.smul_apply, RingHom.id_apply, smul_eq_mul]
    have : ∀ u : ι → ℂ, proj (c • x) u i = c * proj x u i := by
      intro u
      have : dot u (c • x) = c * dot u x := dot_smul u x c
      simp only [proj, this]; ring
    simp only [this, List.sum_map_mul_left]
    ring

@[simp] theorem gsL_apply (v : ι → ℂ) : gsL basis v = gramSchmidt v basis := rfl

variable {basis} (hp : basis.Pairwise fun a b => dot a b = 0) (h0 : ∀ u ∈ basis, u ≠ 0)

include hp h0

theorem gsL_idem (v : ι → ℂ) : gsL basis (gsL basis v) = gsL basis v := gramSchmidt_idem v basis hp h0

theorem dot_gs_left (v y : ι → ℂ) : dot (gsL basis v) y = dot (gsL basis v) (gsL basis y) := by
  have h : y = fun i => gramSchmidt y basis i + (basis.map fun u => proj y u i).sum := by
    funext i; rw [gramSchmidt_apply]; ring
  have h2 : dot (gsL basis v) (fun i => (basis.map fun u => proj y u i).sum) = 0 := by
    have : ∀ l : List (ι → ℂ), (∀ u ∈ l, u ∈ basis) → dot (gsL basis v) (fun i => (l.map fun u => proj y u i).sum) = 0 := by
      intro l
      induction l with
      | nil => intro _; simp [dot]
      | cons u l ih =>
        intro hl
        simp only [List.map_cons, List.sum_cons]
        rw [dot_add (gsL basis v) (fun i => proj y u i), ih fun w hw => hl w (by simp [hw])]
        have e : dot u (gsL basis v) = 0 := gramSchmidt_orthogonal v basis hp h0 u (hl u (by simp))
        have : dot (gsL basis v) u = 0 := by rw [dot_conj, e]; simp
        simp only [proj]
        rw [dot_smul, this]; simp
    exact this basis fun _ h => h
  conv_lhs => rw [h]
  rw [dot_add (gsL basis v) (gramSchmidt y basis), h2, add_zero, gsL_apply basis y]

theorem gsL_basis (u : ι → ℂ) (hu : u ∈ basis) : gsL basis u = 0 := by
  have h1 : dot (gsL basis u) (gsL basis u) = 0 := by
    rw [← dot_gs_left hp h0]
    have e : dot u (gsL basis u) = 0 := gramSchmidt_orthogonal u basis hp h0 u hu
    rw [dot_conj, e]; simp
  by_contra hne
  exact dot_self_ne_zero hne h1

omit hp h0 in
/-- `v - gram_schmidt(v)` is a combination of the basis, so a linear map that sends the basis into the kernel of the
    projector does so with it. -/
theorem gsL_comp (L : (ι → ℂ) →ₗ[ℂ] (ι → ℂ)) (hinv : ∀ u ∈ basis, gsL basis (L u) = 0) (v : ι → ℂ) :
    gsL basis (L (gsL basis v)) = gsL basis (L v) := by
  have h : gsL basis v = v - (basis.map fun u => (dot u v / dot u u) • u).sum := by
    funext i
    rw [gsL_apply, gramSchmidt_apply, Pi.sub_apply]
    congr 1
    have : ∀ l : List (ι → ℂ), (l.map fun u => proj v u i).sum = (l.map fun u => (dot u v / dot u u) • u).sum i := by
      intro l
      induction l with
      | nil => rfl
      | cons u l ih => simp only [List.map_cons, List.sum_cons, ih, Pi.add_apply]; rfl
    exact this basis
  rw [h, map_sub, map_sub, sub_eq_self]
  have : ∀ l : List (ι → ℂ), (∀ u ∈ l, u ∈ basis) → gsL basis (L (l.map fun u => (dot u v / dot u u) • u).sum) = 0 := by
    intro l
    induction l with
    | nil => intro _; rw [List.map_nil, List.sum_nil, map_zero, map_zero]
    | cons u l ih =>
      intro hl
      rw [List.map_cons, List.sum_cons, map_add, map_add, ih fun w hw => hl w (by simp [hw]), map_smul, map_smul,
        hinv u (hl u (by simp)), smul_zero, add_zero]
  exact this basis fun _ h => h

end Projector

theorem continuous_dot (f g : ℕ → ι → ℂ) (a b : ι → ℂ) (hf : Tendsto f atTop (𝓝 a)) (hg : Tendsto g atTop (𝓝 b)) :
    Tendsto (fun k => dot (f k) (g k)) atTop (𝓝 (dot a b)) := by
  unfold dot
  apply tendsto_finsetSum
  intro i _
  exact ((Complex.continuous_conj.tendsto _).comp (tendsto_pi_nhds.1 hf i)).mul (tendsto_pi_nhds.1 hg i)

theorem dot_smul_smul (c : ℂ) (x y : ι → ℂ) : dot (c • x) (c • y) = (starRingEnd ℂ) c * c * dot x y := by
  simp only [dot, Pi.smul_apply, smul_eq_mul, map_mul, Finset.mul_sum]
  exact Finset.sum_congr rfl fun i _ => by ring

/-- Powers of a linear map on a sum of eigenvectors, rescaled by the dominant eigenvalue, tend to the dominant part. -/
theorem tendsto_powers {J : Type _} [Fintype J] [DecidableEq J] (T : (ι → ℂ) →ₗ[ℂ] (ι → ℂ)) (w : J → ι → ℂ) (nu : J → ℂ)
    (hw : ∀ j, T (w j) = nu j • w j) (nu0 : ℂ) (h0 : nu0 ≠ 0) (hdom : ∀ j, w j ≠ 0 → nu j = nu0 ∨ ‖nu j‖ < ‖nu0‖) :
    Tendsto (fun k => (1 / nu0 ^ k) • (T ^ k) (∑ j, w j)) atTop (𝓝 (∑ j with nu j = nu0, w j)) := by
  have hpow : ∀ (k : ℕ) j, (T ^ k) (w j) = nu j ^ k • w j := by
    intro k j
    induction k with
    | zero => simp
    | succ k ih => rw [pow_succ', Module.End.mul_apply, ih, map_smul, hw, smul_smul, pow_succ]
  have : (fun k => (1 / nu0 ^ k) • (T ^ k) (∑ j, w j)) = fun k => ∑ j, (nu j / nu0) ^ k • w j := by
    funext k
    rw [map_sum, Finset.smul_sum]
    refine Finset.sum_congr rfl fun j _ => ?_
    rw [hpow, smul_smul, div_pow]; congr 1; ring
  rw [this, Finset.sum_filter]
  apply tendsto_finsetSum
  intro j _
  by_cases hj : nu j = nu0
  · simp only [hj, div_self h0, one_pow, one_smul, if_true]
    exact tendsto_const_nhds
  · rw [if_neg hj]
    by_cases hwj : w j = 0
    · simp only [hwj, smul_zero]; exact tendsto_const_nhds
    · have hlt := (hdom j hwj).resolve_left hj
      have hn : ‖nu j / nu0‖ < 1 := by
        rw [norm_div, div_lt_one (norm_pos_iff.2 h0)]; exact hlt
      have := (tendsto_pow_atTop_nhds_zero_of_norm_lt_one hn).smul_const (w j)
      simpa using this

/-- **C101, core.** -/
theorem iter_converges {J : Type _} [Fintype J] [DecidableEq J] (L : (ι → ℂ) →ₗ[ℂ] (ι → ℂ)) (basis : List (ι → ℂ))
    (hp : basis.Pairwise fun a b => dot a b = 0) (hb0 : ∀ u ∈ basis, u ≠ 0)
    (hinv : ∀ u ∈ basis, gramSchmidt (L u) basis = 0)
    (v : J → ι → ℂ) (lam : J → ℂ) (hv : ∀ j, L (v j) = lam j • v j) (s top : ℂ)
    (hdom : ∀ j, gramSchmidt (v j) basis ≠ 0 → lam j = top ∨ ‖lam j - s‖ < ‖top - s‖)
    (hover : ∑ j with lam j = top, gramSchmidt (v j) basis ≠ 0)
    (hne : ∀ k, (iter L basis s (∑ j, v j) (k + 1)).2 ≠ 0) :
    Tendsto (fun k => (iter L basis s (∑ j, v j) k).2) atTop (𝓝 (top - s)) ∧
    ∃ c : ℕ → ℂ, Tendsto (fun k => c k • gramSchmidt (iter L basis s (∑ j, v j) k).1 basis) atTop
      (𝓝 (∑ j with lam j = top, gramSchmidt (v j) basis)) := by
  set P := gsL basis with hP
  have hinvP : ∀ u ∈ basis, P (L u) = 0 := hinv
  set B : (ι → ℂ) →ₗ[ℂ] (ι → ℂ) := L - s • LinearMap.id with hB
  have hBa : ∀ x, B x = fun i => L x i - s * x i := by
    intro x; funext i; simp [hB]
  have hBinv : ∀ u ∈ basis, P (B u) = 0 := by
    intro u hu
    have : B u = L u - s • u := by simp [hB]
    rw [this, map_sub, map_smul, hinvP u hu, hP, gsL_basis hp hb0 u hu]; simp
  set T : (ι → ℂ) →ₗ[ℂ] (ι → ℂ) := P ∘ₗ B with hT
  set g := ∑ j, v j with hg
  set x : ℕ → ι → ℂ := fun k => P (iter L basis s g k).1 with hx
  set ρ : ℕ → ℂ := fun k => (iter L basis s g (k + 1)).2 with hρ
  have hρx : ∀ k, ρ k = dot (x k) (T (x k)) / dot (x k) (x k) := by
    intro k
    have h1 : ρ k = dot (x k) (B (x k)) / dot (x k) (x k) := by
      simp only [hρ, hx, iter, hBa]; rfl
    rw [h1]
    have : dot (x k) (B (x k)) = dot (x k) (T (x k)) := dot_gs_left hp hb0 _ _
    rw [this]
  have hstep : ∀ k, x (k + 1) = (1 / ρ k) • T (x k) := by
    intro k
    have h1 : (iter L basis s g (k + 1)).1 = (1 / ρ k) • B (x k) := by
      funext i
      simp only [hρ, hx, iter, hBa, Pi.smul_apply, smul_eq_mul, hP, gsL_apply]
      ring
    show P _ = _
    rw [h1, map_smul]; rfl
  -- closed form
  have hclosed : ∀ k, ∃ c : ℂ, c ≠ 0 ∧ x k = c • (T ^ k) (P g) := by
    intro k
    induction k with
    | zero => exact ⟨1, one_ne_zero, by simp [hx, iter]⟩
    | succ k ih =>
      obtain ⟨c, hc, hk⟩ := ih
      refine ⟨1 / ρ k * c, mul_ne_zero (one_div_ne_zero (hne k)) hc, ?_⟩
      rw [hstep, hk, map_smul, smul_smul, pow_succ', Module.End.mul_apply]
  choose c hc hck using hclosed
  -- eigenvectors of T
  have hTw : ∀ j, T (P (v j)) = (lam j - s) • P (v j) := by
    intro j
    have : T (P (v j)) = P (B (v j)) := gsL_comp B hBinv (v j)
    rw [this]
    have : B (v j) = (lam j - s) • v j := by rw [sub_smul, ← hv j]; simp [hB]
    rw [this, map_smul]
  have hPg : P g = ∑ j, P (v j) := by rw [hg, map_sum]
  have htop : top - s ≠ 0 := by
    intro h
    have hz : T (P g) = 0 := by
      rw [hPg, map_sum]
      refine Finset.sum_eq_zero fun j _ => ?_
      rw [hTw]
      by_cases hj : P (v j) = 0
      · rw [hj, smul_zero]
      · rcases hdom j hj with h1 | h1
        · rw [h1, h, zero_smul]
        · rw [h, norm_zero] at h1; exact absurd h1 (not_lt.2 (norm_nonneg _))
    apply hne 0
    show ρ 0 = 0
    rw [hρx, hck 0]
    simp [map_smul, hz, dot]
  have hlim := tendsto_powers T (fun j => P (v j)) (fun j => lam j - s) hTw (top - s) htop (by
    intro j hj
    rcases hdom j hj with h | h
    · left; rw [h]
    · exact Or.inr h)
  rw [← hPg] at hlim
  have hfil : (∑ j with lam j - s = top - s, P (v j)) = ∑ j with lam j = top, gramSchmidt (v j) basis := by
    refine Finset.sum_congr (Finset.filter_congr fun j _ => by rw [sub_left_inj]) fun j _ => rfl
  rw [hfil] at hlim
  set wst := ∑ j with lam j = top, gramSchmidt (v j) basis with hwst
  have hTwst : T wst = (top - s) • wst := by
    rw [hwst, map_sum, Finset.smul_sum]
    refine Finset.sum_congr rfl fun j hj => ?_
    rw [← gsL_apply, hTw, (Finset.mem_filter.1 hj).2]
  constructor
  · rw [← tendsto_add_atTop_iff_nat 1]
    show Tendsto ρ atTop _
    set y : ℕ → ι → ℂ := fun k => (1 / (top - s) ^ k) • (T ^ k) (P g) with hy
    have hTcont : Tendsto (fun k => T (y k)) atTop (𝓝 (T wst)) :=
      ((LinearMap.continuous_of_finiteDimensional T).tendsto _).comp hlim
    have h1 := (continuous_dot y (fun k => T (y k)) _ _ hlim hTcont).div (continuous_dot y y _ _ hlim hlim)
      (dot_self_ne_zero hover)
    have hval : dot wst (T wst) / dot wst wst = top - s := by
      have : dot wst ((top - s) • wst) = (top - s) * dot wst wst := dot_smul wst wst (top - s)
      rw [hTwst, this, mul_div_assoc, div_self (dot_self_ne_zero hover), mul_one]
    rw [hval] at h1
    refine h1.congr fun k => ?_
    rw [hρx k]
    have hyk : y k = (1 / (top - s) ^ k / c k) • x k := by
      rw [hck k, smul_smul, div_mul_cancel₀ _ (hc k)]
    have hne' : (1 / (top - s) ^ k / c k) ≠ 0 := div_ne_zero (one_div_ne_zero (pow_ne_zero _ htop)) (hc k)
    simp only [Pi.div_apply]
    rw [hyk, map_smul, dot_smul_smul, dot_smul_smul, mul_div_mul_left]
    exact mul_ne_zero ((map_ne_zero _).2 hne') hne'
  · refine ⟨fun k => 1 / (top - s) ^ k / c k, hlim.congr fun k => ?_⟩
    show _ = _ • x k
    rw [hck k, smul_smul, div_mul_cancel₀ _ (hc k)]

/-- **C101 (a).** The power iteration — with or without shift, with or without deflation by exact eigenvectors — stops for
    every positive tolerance, provided the iteration limit is large enough; the iterates tend to the eigenvalue (relative
    to the shift) that dominates in the start vector. -/
theorem power_iteration_converges {J : Type _} [Fintype J] [DecidableEq J] (L : (ι → ℂ) →ₗ[ℂ] (ι → ℂ)) (basis : List (ι → ℂ))
    (hp : basis.Pairwise fun a b => dot a b = 0) (hb0 : ∀ u ∈ basis, u ≠ 0)
    (hinv : ∀ u ∈ basis, gramSchmidt (L u) basis = 0)
    (v : J → ι → ℂ) (lam : J → ℂ) (hv : ∀ j, L (v j) = lam j • v j) (shift : Option ℂ) (top : ℂ)
    (hdom : ∀ j, gramSchmidt (v j) basis ≠ 0 → lam j = top ∨ ‖lam j - shift.getD 0‖ < ‖top - shift.getD 0‖)
    (hover : ∑ j with lam j = top, gramSchmidt (v j) basis ≠ 0)
    (hne : ∀ k, (iter L basis (shift.getD 0) (∑ j, v j) (k + 1)).2 ≠ 0) (eps : ℝ) (he : 0 < eps) :
    ∃ N, ∀ maxCount, N ≤ maxCount →
      (powerIteration L basis shift eps maxCount (∑ j, v j)).count ≤ maxCount ∧
      (powerIteration L basis shift eps maxCount (∑ j, v j)).lam =
        (powerIteration L basis shift eps N (∑ j, v j)).lam := by
  have hlim := (iter_converges L basis hp hb0 hinv v lam hv (shift.getD 0) top hdom hover hne).1
  have hdiff : Tendsto (fun k => ‖(iter L basis (shift.getD 0) (∑ j, v j) (k + 1)).2 - (iter L basis (shift.getD 0) (∑ j, v j) k).2‖)
      atTop (𝓝 0) := by
    have := ((tendsto_add_atTop_iff_nat 1).2 hlim).sub hlim
    rw [sub_self] at this
    simpa using this.norm
  obtain ⟨M, hM⟩ := ((tendsto_order.1 hdiff).2 eps he).exists
  have key : ∀ maxCount, M + 1 ≤ maxCount →
      (powerIteration L basis shift eps maxCount (∑ j, v j)).count ≤ M + 1 ∧
      ‖(iter L basis (shift.getD 0) (∑ j, v j) (powerIteration L basis shift eps maxCount (∑ j, v j)).count).2 -
        (iter L basis (shift.getD 0) (∑ j, v j) ((powerIteration L basis shift eps maxCount (∑ j, v j)).count - 1)).2‖ < eps ∧
      (∀ i, 1 ≤ i → i < (powerIteration L basis shift eps maxCount (∑ j, v j)).count → eps ≤
        ‖(iter L basis (shift.getD 0) (∑ j, v j) i).2 - (iter L basis (shift.getD 0) (∑ j, v j) (i - 1)).2‖) ∧
      1 ≤ (powerIteration L basis shift eps maxCount (∑ j, v j)).count ∧
      (powerIteration L basis shift eps maxCount (∑ j, v j)).lam =
        (iter L basis (shift.getD 0) (∑ j, v j) (powerIteration L basis shift eps maxCount (∑ j, v j)).count).2 := by
    intro m hm
    obtain ⟨h1, h2, h3⟩ := powerLoop_stop L basis shift eps (∑ j, v j) m 0
    have hcount := powerIteration_count L basis shift eps m (∑ j, v j)
    simp only [Nat.zero_add] at h1 h2 h3
    change (_, (powerIteration L basis shift eps m (∑ j, v j)).lam) = iter _ _ _ _ (powerIteration L basis shift eps m (∑ j, v j)).count at h1
    change (powerIteration L basis shift eps m (∑ j, v j)).count ≤ m → _ at h2
    have hle : (powerIteration L basis shift eps m (∑ j, v j)).count ≤ M + 1 := by
      by_contra hgt
      have := h3 (M + 1) (by omega) (by change M + 1 < (powerIteration L basis shift eps m (∑ j, v j)).count; omega)
      rw [Nat.add_sub_cancel] at this
      linarith
    exact ⟨hle, h2 (by omega), h3, hcount.1, by rw [← h1]⟩
  refine ⟨M + 1, fun m hm => ?_⟩
  obtain ⟨a1, a2, a3, a4, a5⟩ := key m hm
  obtain ⟨b1, b2, b3, b4, b5⟩ := key (M + 1) le_rfl
  refine ⟨by omega, ?_⟩
  rw [a5, b5]
  congr 2
  rcases lt_trichotomy (powerIteration L basis shift eps m (∑ j, v j)).count
    (powerIteration L basis shift eps (M + 1) (∑ j, v j)).count with h | h | h
  · have := b3 _ a4 h; linarith
  · exact h
  · have := a3 _ b4 h; linarith

end DGA.Eli
