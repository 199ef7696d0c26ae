/-
  C85 continued: rate of convergence, free levels, the chemical potential.
-/
import Verif.TwoPoint.FillProps
import Mathlib.Tactic.Positivity

noncomputable section

namespace DGA.Two

open DGA.Mf DGA.Bubble Filter Topology

/-- telescoping bound of the fourth power -/
theorem fourth_telescope (n : ℕ) (hn : 0 < n) :
    1 / (2 * (n : ℝ) + 1) ^ 4 ≤ 1 / 48 * (1 / (n : ℝ) ^ 3 - 1 / ((n : ℝ) + 1) ^ 3) := by
  have hx : (1 : ℝ) ≤ n := by exact_mod_cast hn
  have h0 : (0 : ℝ) < n := by linarith
  have e : 1 / (n : ℝ) ^ 3 - 1 / ((n : ℝ) + 1) ^ 3 = (((n : ℝ) + 1) ^ 3 - (n : ℝ) ^ 3) / ((n : ℝ) ^ 3 * ((n : ℝ) + 1) ^ 3) := by
    field_simp
  rw [e, mul_div_assoc', div_le_div_iff₀ (by positivity) (by positivity)]
  nlinarith [sq_nonneg (n : ℝ), pow_pos h0 3, pow_pos h0 4, pow_pos h0 5, pow_pos h0 6]

theorem norm_iv_fourth (beta : ℝ) (n : ℤ) : ‖1 / iv beta n‖ ^ 4 = (beta / Real.pi) ^ 4 * (1 / (2 * (n : ℝ) + 1) ^ 4) := by
  have h := invIv_norm_sq (beta := beta) n
  rw [← invIv_iv, show ‖invIv beta n‖ ^ 4 = (‖invIv beta n‖ ^ 2) ^ 2 by ring, h]
  generalize 2 * (n : ℝ) + 1 = y
  ring

theorem window_fourth (beta : ℝ) (N : ℕ) (hN : 0 < N) (d : ℕ) :
    (∑ n ∈ Finset.Ico (-((N + d : ℕ) : ℤ)) ((N + d : ℕ) : ℤ), ‖1 / iv beta n‖ ^ 4) ≤
      (∑ n ∈ Finset.Ico (-(N : ℤ)) N, ‖1 / iv beta n‖ ^ 4) + (beta / Real.pi) ^ 4 / 24 * (1 / (N : ℝ) ^ 3 - 1 / ((N + d : ℕ) : ℝ) ^ 3) := by
  induction d with
  | zero => simp
  | succ d ih =>
    have e : Finset.Ico (-((N + (d + 1) : ℕ) : ℤ)) ((N + (d + 1) : ℕ) : ℤ) =
        insert (-((N + d : ℕ) : ℤ) - 1) (insert ((N + d : ℕ) : ℤ) (Finset.Ico (-((N + d : ℕ) : ℤ)) ((N + d : ℕ) : ℤ))) := by
      ext x; simp only [Finset.mem_Ico, Finset.mem_insert]; push_cast; omega
    rw [e, Finset.sum_insert (by simp only [Finset.mem_insert, Finset.mem_Ico]; omega), Finset.sum_insert (by simp)]
    have h1 : ‖1 / iv beta (-((N + d : ℕ) : ℤ) - 1)‖ ^ 4 = ‖1 / iv beta ((N + d : ℕ) : ℤ)‖ ^ 4 := by
      rw [norm_iv_fourth, norm_iv_fourth]
      congr 2
      push_cast
      ring
    have h2 := fourth_telescope (N + d) (by omega)
    have h3 : ‖1 / iv beta ((N + d : ℕ) : ℤ)‖ ^ 4 ≤ (beta / Real.pi) ^ 4 * (1 / 48 * (1 / ((N + d : ℕ) : ℝ) ^ 3 - 1 / (((N + d : ℕ) : ℝ) + 1) ^ 3)) := by
      rw [norm_iv_fourth]
      rw [Int.cast_natCast]
      exact mul_le_mul_of_nonneg_left h2 (by positivity)
    rw [h1]
    have h4 : ((N + (d + 1) : ℕ) : ℝ) = ((N + d : ℕ) : ℝ) + 1 := by push_cast; ring
    rw [h4]
    linarith

/-- the sum outside the window falls off with the third power of its size -/
theorem outsideFourth_rate (beta : ℝ) (N : ℕ) (hN : 0 < N) : outsideFourth beta N ≤ (beta / Real.pi) ^ 4 / 24 / (N : ℝ) ^ 3 := by
  have hs := fourth_summable beta
  have h := hs.sum_add_tsum_subtype_compl (Finset.Ico (-(N : ℤ)) N)
  have ht : (∑' n : ℤ, ‖1 / iv beta n‖ ^ 4) ≤ (∑ n ∈ Finset.Ico (-(N : ℤ)) N, ‖1 / iv beta n‖ ^ 4) + (beta / Real.pi) ^ 4 / 24 / (N : ℝ) ^ 3 := by
    have hl := (hs.hasSum.comp (Finset.tendsto_Ico_neg (R := ℤ))).comp (tendsto_add_atTop_nat N)
    refine le_of_tendsto' hl fun d => ?_
    have := window_fourth beta N hN d
    have hp : 0 ≤ (beta / Real.pi) ^ 4 / 24 * (1 / ((N + d : ℕ) : ℝ) ^ 3) := by positivity
    have hc : ((d + N : ℕ) : ℤ) = ((N + d : ℕ) : ℤ) := by rw [add_comm]
    simp only [Function.comp_apply]
    rw [hc]
    have : (beta / Real.pi) ^ 4 / 24 / (N : ℝ) ^ 3 = (beta / Real.pi) ^ 4 / 24 * (1 / (N : ℝ) ^ 3) := by ring
    rw [this]
    linarith
  have : outsideFourth beta N = ∑' n : {n : ℤ // n ∉ Finset.Ico (-(N : ℤ)) N}, ‖1 / iv beta n‖ ^ 4 := rfl
  rw [this]
  linarith

theorem rowAt_map (rows : List (List ℂ)) (g : List ℂ → List ℂ) (k : ℕ) (h : rows.length = 1 ∨ k < rows.length) :
    rowAt (rows.map g) k = g (rowAt rows k) := by
  unfold rowAt
  rw [List.length_map]
  split
  · rename_i h1
    simp [List.getD_eq_getElem?_getD, List.getElem?_eq_getElem (show 0 < rows.length by omega)]
  · rename_i h1
    have h2 : k < rows.length := by tauto
    simp [List.getD_eq_getElem?_getD, List.getElem?_eq_getElem h2]

/-- C85 (b): the filling of a `GreensFunction` with given chemical potential: it differs from the number of electrons of its Green's function
    by at most a constant times the inverse third power of the number of frequencies summed (and an error below `2 exp(-40)` far above the
    chemical potential) -/
theorem gfFilling_error (s : SelfEnergy) (hb : 0 < s.beta) (hcore : ∀ r ∈ s.sigma, s.nivCore ≤ r.length) (hk : List ℝ) (hne : hk ≠ [])
    (hrows : s.sigma.length = 1 ∨ s.sigma.length = hk.length) (mu : ℝ) :
    ∃ n C : ℝ, IsFilling s.beta (localG s.beta mu hk fun k => sigmaSpec s (rowAt s.sigma k)) n ∧
      ∀ shell : ℕ, 0 < s.nivCore + shell → |gfFilling s hk mu shell - n| ≤ C / ((s.nivCore + shell : ℕ) : ℝ) ^ 3 +
        if s.beta * (s.smom0 + hkMean hk - mu) < 20 then 0 else 2 * Real.exp (-40) := by
  obtain ⟨n, C, h1, h2⟩ := getFill_error s.beta hb mu s.smom0 (fun _ => s.smom1) hk hne (fun k => sigmaSpec s (rowAt s.sigma k)) (by
    intro k _
    have hfin : (Set.Ico (-(s.nivCore : ℤ)) s.nivCore).Finite := Set.finite_Ico _ _
    filter_upwards [hfin.compl_mem_cofinite] with m hm
    rw [sigmaSpec_tail s _ m (by simp only [Set.mem_compl_iff, Set.mem_Ico] at hm; omega)]
    ring)
  refine ⟨n, |C| * ((s.beta / Real.pi) ^ 4 / 24), h1, fun shell hpos => ?_⟩
  have h3 := h2 (s.nivCore + shell) (s.getSiw ((s.nivCore + shell : ℕ) : Int)) (by
    intro k hk'
    rw [getSiw_value s hcore, rowAt_map _ _ _ (by omega)])
  refine h3.trans (add_le_add ?_ le_rfl)
  have hr := outsideFourth_rate s.beta (s.nivCore + shell) hpos
  have h0 : 0 ≤ outsideFourth s.beta (s.nivCore + shell) := tsum_nonneg fun _ => by positivity
  calc C * outsideFourth s.beta (s.nivCore + shell) ≤ |C| * outsideFourth s.beta (s.nivCore + shell) :=
        mul_le_mul_of_nonneg_right (le_abs_self C) h0
    _ ≤ |C| * ((s.beta / Real.pi) ^ 4 / 24 / ((s.nivCore + shell : ℕ) : ℝ) ^ 3) := mul_le_mul_of_nonneg_left hr (abs_nonneg C)
    _ = _ := by ring

/-- C85 (c): levels with static self-energies: the number of electrons is twice the mean Fermi occupation -/
theorem filling_static (beta : ℝ) (hb : 0 < beta) (mu : ℝ) (hk : List ℝ) (sg : ℕ → ℝ) :
    IsFilling beta (localG beta mu hk fun k _ => (sg k : ℂ))
      (2 * ((∑ k ∈ Finset.range hk.length, (fermi (beta * (hk.getD k 0 + sg k - mu)) - 1 / 2)) / hk.length + 1 / 2)) := by
  have h : HasSum (fun n : ℤ => (localG beta mu hk (fun k _ => (sg k : ℂ)) n).re)
      ((∑ k ∈ Finset.range hk.length, beta * (fermi (beta * (hk.getD k 0 + sg k - mu)) - 1 / 2)) / hk.length) := by
    have h1 := (hasSum_sum (s := Finset.range hk.length) fun k _ => hasSum_fermi beta hb (hk.getD k 0 + sg k - mu)).div_const (hk.length : ℝ)
    have e : (fun n : ℤ => (localG beta mu hk (fun k _ => (sg k : ℂ)) n).re) =
        fun n : ℤ => (∑ k ∈ Finset.range hk.length, (1 / (iv beta n - ((hk.getD k 0 + sg k - mu : ℝ) : ℂ))).re) / (hk.length : ℝ) := by
      funext n
      unfold localG
      have : (hk.length : ℂ) = ((hk.length : ℝ) : ℂ) := by push_cast; rfl
      rw [this, Complex.div_ofReal_re, Complex.re_sum]
      congr 1
      refine Finset.sum_congr rfl fun k _ => ?_
      congr 2
      push_cast; ring
    rw [e]; exact h1
  have h2 := (((h.comp (Finset.tendsto_Ico_neg (R := ℤ))).const_mul (1 / beta)).add_const (1 / 2)).const_mul 2
  rw [← Finset.mul_sum] at h2
  have e : 1 / beta * (beta * (∑ k ∈ Finset.range hk.length, (fermi (beta * (hk.getD k 0 + sg k - mu)) - 1 / 2)) / hk.length) =
      (∑ k ∈ Finset.range hk.length, (fermi (beta * (hk.getD k 0 + sg k - mu)) - 1 / 2)) / hk.length := by
    rw [mul_div_assoc, ← mul_assoc, one_div, inv_mul_cancel₀ hb.ne', one_mul]
  rw [e] at h2
  exact h2

/-- C85 (d): equal levels and the static self-energy `smom0`: `get_fill` is twice the Fermi function for every window -/
theorem getFill_atomic (beta mu e smom0 : ℝ) (nk : ℕ) (hnk : 0 < nk) (N : ℕ) (siwk : List (List ℂ))
    (hS : ∀ k < nk, rowAt siwk k = samplesF (fun _ => (smom0 : ℂ)) N) (hx : beta * (smom0 + e - mu) < 20) :
    getFill (samplesF (iv beta) N) (List.replicate nk e) siwk beta smom0 e mu = 2 * fermi (beta * (smom0 + e - mu)) := by
  rw [getFill_value beta mu e smom0 (List.replicate nk e) (fun _ _ => (smom0 : ℂ)) siwk N (by simpa using hS)]
  have hc : (nk : ℂ) ≠ 0 := by exact_mod_cast hnk.ne'
  have h : ∀ n, localG beta mu (List.replicate nk e) (fun _ _ => (smom0 : ℂ)) n = 1 / (iv beta n + (mu : ℂ) - (e : ℂ) - (smom0 : ℂ)) := by
    intro n
    unfold localG
    rw [List.length_replicate, Finset.sum_congr rfl (g := fun _ => 1 / (iv beta n + (mu : ℂ) - (e : ℂ) - (smom0 : ℂ))), Finset.sum_const,
      Finset.card_range, nsmul_eq_mul, mul_div_assoc, mul_comm, div_mul_cancel₀ _ hc]
    intro k hk
    have hk' := Finset.mem_range.mp hk
    simp [List.getD_eq_getElem?_getD, hk']
  simp only [h, sub_self, Finset.sum_const_zero, zero_div, add_zero]
  unfold rhoLoc fermi
  rw [if_pos hx]

/-- C85 (e): `get_fill_primitive` is the plain window sum, real for a conjugation symmetric self-energy; it converges to the number of electrons
    whenever that exists -/
theorem primitive_value (beta mu : ℝ) (hk : List ℝ) (S : ℕ → ℤ → ℂ) (hsym : ∀ k n, S k (-n - 1) = (starRingEnd ℂ) (S k n)) (N : ℕ)
    (siwk : List (List ℂ)) (hS : ∀ k < hk.length, rowAt siwk k = samplesF (S k) N) :
    getFillPrimitive (getGloc (samplesF (iv beta) N) hk siwk mu) beta =
      ((2 * (1 / beta * (∑ m ∈ Finset.Ico (-(N : ℤ)) N, (localG beta mu hk S m).re) + 1 / 2) : ℝ) : ℂ) := by
  rw [getGloc_samples beta mu hk S siwk N hS]
  unfold getFillPrimitive
  have hG : ∀ n, localG beta mu hk S (-n - 1) = (starRingEnd ℂ) (localG beta mu hk S n) := by
    intro n
    unfold localG
    rw [map_div₀, map_sum, Complex.conj_natCast]
    congr 1
    refine Finset.sum_congr rfl fun k _ => ?_
    rw [map_div₀, map_one, map_sub, map_sub, map_add, Complex.conj_ofReal, Complex.conj_ofReal, iv_conj, hsym]
  have hs : (samplesF (localG beta mu hk S) N).sum = ((∑ m ∈ Finset.Ico (-(N : ℤ)) N, (localG beta mu hk S m).re : ℝ) : ℂ) := by
    apply Complex.ext
    · rw [sum_samplesF, Complex.re_sum, Complex.ofReal_re]
    · rw [sum_samplesF_symm _ hG, Complex.ofReal_im]
  rw [hs]
  push_cast
  ring

/-- C85 (f): the chemical potential for a given filling `n` is what the root finder returns, up to a negligible imaginary part, for the function
    "filling of the Green's function with that chemical potential, minus `n`", started at 0; only if it gives up it is 0 -/
theorem gfMu_cases (newton : (ℝ → ℝ) → ℝ → Option ℂ) (s : SelfEnergy) (hk : List ℝ) (n : ℝ) (shell : ℕ) (mu : ℝ)
    (h : gfMu newton s hk n shell = some mu) :
    (∃ z : ℂ, newton (fun m => gfFilling s hk m shell - n) 0 = some z ∧ z.re = mu ∧ |z.im| < 1e-8) ∨
      (newton (fun m => gfFilling s hk m shell - n) 0 = none ∧ mu = 0) := by
  have hf : (fun m => gfFilling s hk m shell - n) = fun m => getFill ((vn (s.nivCore + shell)).map (iv s.beta)) hk
    (s.getSiw ((s.nivCore + shell : ℕ) : Int)) s.beta s.smom0 (hkMean hk) m - n := rfl
  unfold gfMu updateMu at h
  rw [← hf] at h
  cases hz : newton (fun m => gfFilling s hk m shell - n) 0 with
  | none =>
    right
    rw [hz] at h
    simp only [Option.getD_none, Complex.ofReal_zero, Complex.zero_im, abs_zero, Complex.zero_re] at h
    rw [if_pos (by norm_num)] at h
    exact ⟨rfl, (Option.some.inj h).symm⟩
  | some z =>
    left
    rw [hz] at h
    simp only [Option.getD_some] at h
    split at h
    · exact ⟨z, rfl, Option.some.inj h, by assumption⟩
    · cases h

/-- so an exact root gives back the target filling -/
theorem gfMu_root (newton : (ℝ → ℝ) → ℝ → Option ℂ) (s : SelfEnergy) (hk : List ℝ) (n : ℝ) (shell : ℕ) (z : ℂ)
    (hz : newton (fun m => gfFilling s hk m shell - n) 0 = some z) (hroot : gfFilling s hk z.re shell - n = 0) (mu : ℝ)
    (h : gfMu newton s hk n shell = some mu) : gfFilling s hk mu shell = n := by
  rcases gfMu_cases newton s hk n shell mu h with ⟨w, hw, rfl, _⟩ | ⟨hw, _⟩
  · rw [hz] at hw
    rw [← Option.some.inj hw]; linarith
  · rw [hz] at hw; cases hw

/-- C85 (g): when the root finder gives up, the chemical potential is 0 whatever filling was asked for -/
theorem gfMu_failure (newton : (ℝ → ℝ) → ℝ → Option ℂ) (s : SelfEnergy) (hk : List ℝ) (n : ℝ) (shell : ℕ) (hfail : ∀ f x0, newton f x0 = none) :
    gfMu newton s hk n shell = some 0 := by
  unfold gfMu updateMu
  simp only [hfail, Option.getD_none, Complex.ofReal_zero, Complex.zero_im, abs_zero, Complex.zero_re]
  rw [if_pos (by norm_num)]

/-- and that silently misses the filling: a half-filled level is reported although 1/2 electron was requested -/
theorem gfMu_failure_wrong : ∃ (s : SelfEnergy) (hk : List ℝ) (n : ℝ), ∀ newton : (ℝ → ℝ) → ℝ → Option ℂ, (∀ f x0, newton f x0 = none) →
    ∀ shell, ∃ mu, gfMu newton s hk n shell = some mu ∧ gfFilling s hk mu shell ≠ n := by
  refine ⟨⟨[[0]], 1, 0, 0, 1⟩, [0], 1 / 2, fun newton hf shell => ⟨0, gfMu_failure newton _ _ _ _ hf, ?_⟩⟩
  unfold gfFilling
  have hS : ∀ k < 1, rowAt ((⟨[[0]], 1, 0, 0, 1⟩ : SelfEnergy).getSiw ((1 + shell : ℕ) : Int)) k = samplesF (fun _ => ((0 : ℝ) : ℂ)) (1 + shell) := by
    intro k hk
    rw [getSiw_value _ (by simp), rowAt_map _ _ _ (by simp)]
    have : k = 0 := by omega
    subst this
    apply samplesF_congr
    intro n _ _
    unfold sigmaSpec rowAt
    by_cases h0 : 0 ≤ n
    · rw [if_pos h0]
      split
      · have : n.toNat = 0 := by simp at *; omega
        simp [this]
      · simp
    · rw [if_neg h0]
      split
      · have : (-n - 1).toNat = 0 := by simp at *; omega
        simp [this]
      · simp
  have h := getFill_atomic 1 0 0 0 1 one_pos (1 + shell) _ hS (by norm_num)
  have e : hkMean [0] = 0 := by simp [hkMean]
  rw [e]
  have e2 : (vn (1 + shell)).map (iv 1) = samplesF (iv 1) (1 + shell) := rfl
  change getFill ((vn (1 + shell)).map (iv 1)) (List.replicate 1 0) _ 1 0 0 0 ≠ _
  rw [e2, h]
  unfold fermi
  norm_num

/-! ### the hypotheses are met -/

example : ∃ (s : SelfEnergy) (hk : List ℝ), 0 < s.beta ∧ (∀ r ∈ s.sigma, s.nivCore ≤ r.length) ∧ hk ≠ [] ∧ s.sigma.length = hk.length ∧ 0 < s.nivCore ∧
    s.smom1 ≠ 0 :=
  ⟨⟨[[1 - Complex.I], [2 - Complex.I]], 10, 3, 1, 1⟩, [-1, 1], by norm_num, by simp, by simp, rfl, by norm_num, by norm_num⟩

/-- two levels at energies -1 and 1: one electron at `mu = 0` -/
example : IsFilling 10 (localG 10 0 [-1, 1] fun _ _ => ((0 : ℝ) : ℂ)) 1 := by
  have h := filling_static 10 (by norm_num) 0 [-1, 1] (fun _ => 0)
  have e : 2 * ((∑ k ∈ Finset.range ([-1, 1] : List ℝ).length, (fermi (10 * (([-1, 1] : List ℝ).getD k 0 + 0 - 0)) - 1 / 2)) / (([-1, 1] : List ℝ).length : ℝ) + 1 / 2) = 1 := by
    simp only [List.length_cons, List.length_nil, Finset.sum_range_succ, Finset.sum_range_zero, fermi_tanh]
    norm_num
  rwa [e] at h

end DGA.Two
