/-
  C85: the number of electrons returned by the filling routine.
-/
import Verif.TwoPoint.FillModel
import Verif.TwoPoint.FermiSum
import Verif.TwoPoint.Props
import Verif.Bubble.AsymptOrder

noncomputable section

namespace DGA.Two

open DGA.Mf DGA.Bubble Filter Topology Asymptotics

/-! ### specification -/

/-- specification: local Green's function at Matsubara index `n` of the lattice with levels `hk` and self-energies `S k` -/
def localG (beta mu : ℝ) (hk : List ℝ) (S : ℕ → ℤ → ℂ) (n : ℤ) : ℂ :=
  (∑ k ∈ Finset.range hk.length, 1 / (iv beta n + (mu : ℂ) - (hk.getD k 0 : ℂ) - S k n)) / (hk.length : ℂ)

/-- specification: `n` electrons (two spins) for the local Green's function `G`: `n = 2 (T sum_v Re G(iv) + 1/2)`, the sum taken over
    symmetric windows without end -/
def IsFilling (beta : ℝ) (G : ℤ → ℂ) (n : ℝ) : Prop :=
  Tendsto (fun N : ℕ => 2 * (1 / beta * (∑ m ∈ Finset.Ico (-(N : ℤ)) N, (G m).re) + 1 / 2)) atTop (𝓝 n)

/-- specification: sum of the fourth powers of the inverse frequencies outside the window -/
def outsideFourth (beta : ℝ) (N : ℕ) : ℝ := ∑' n : {n : ℤ // n ∉ Finset.Ico (-(N : ℤ)) N}, ‖1 / iv beta n‖ ^ 4

/-! ### the code on samples -/

theorem invIv_iv (beta : ℝ) (n : ℤ) : invIv beta n = 1 / iv beta n := rfl

theorem getGloc_samples (beta mu : ℝ) (hk : List ℝ) (S : ℕ → ℤ → ℂ) (siwk : List (List ℂ)) (N : ℕ)
    (hS : ∀ k < hk.length, rowAt siwk k = samplesF (S k) N) :
    getGloc (samplesF (iv beta) N) hk siwk mu = samplesF (localG beta mu hk S) N := by
  apply eq_samplesF
  · simp [getGloc, samplesF_length]
  · intro n hn
    unfold getGloc
    rw [List.getElem?_map, List.getElem?_range (by rwa [samplesF_length]), Option.map_some]
    have hg : ∀ F : ℤ → ℂ, (samplesF F N).getD n 0 = F ((n : ℤ) - N) := by
      intro F
      rw [List.getD_eq_getElem?_getD, samplesF_get? F N n hn, Option.getD_some]
    congr 1
    unfold localG
    rw [sum_range_list]
    congr 1
    refine Finset.sum_congr rfl fun k hk' => ?_
    rw [hS k (Finset.mem_range.mp hk'), hg, hg]

theorem getGModel_samples (beta mu hloc smom0 : ℝ) (N : ℕ) :
    getGModel mu (samplesF (iv beta) N) hloc smom0 = samplesF (fun n => 1 / (iv beta n + (mu : ℂ) - (hloc : ℂ) - (smom0 : ℂ))) N := by
  unfold getGModel
  rw [samplesF_map]

theorem sum_samplesF_real (g : ℤ → ℝ) (N : ℕ) : (samplesF g N).sum = ∑ n ∈ Finset.Ico (-(N : ℤ)) N, g n := by
  have h := sum_samplesF (fun n => ((g n : ℝ) : ℂ)) N
  have e : samplesF (fun n => ((g n : ℝ) : ℂ)) N = (samplesF g N).map (fun x : ℝ => (x : ℂ)) := by rw [samplesF_map]
  rw [e] at h
  have e2 : ((samplesF g N).map (fun x : ℝ => (x : ℂ))).sum = (((samplesF g N).sum : ℝ) : ℂ) := by
    generalize samplesF g N = l
    induction l with
    | nil => simp
    | cons a l ih => simp [ih]
  rw [e2] at h
  exact_mod_cast h

/-- value of the filling routine on a window -/
theorem getFill_value (beta mu hloc smom0 : ℝ) (hk : List ℝ) (S : ℕ → ℤ → ℂ) (siwk : List (List ℂ)) (N : ℕ)
    (hS : ∀ k < hk.length, rowAt siwk k = samplesF (S k) N) :
    getFill (samplesF (iv beta) N) hk siwk beta smom0 hloc mu =
      2 * (rhoLoc beta smom0 hloc mu + (∑ n ∈ Finset.Ico (-(N : ℤ)) N,
        ((localG beta mu hk S n).re - (1 / (iv beta n + (mu : ℂ) - (hloc : ℂ) - (smom0 : ℂ))).re)) / beta) := by
  unfold getFill
  rw [getGloc_samples beta mu hk S siwk N hS, getGModel_samples]
  congr 3
  rw [← sum_samplesF_real]
  congr 1
  unfold samplesF
  rw [List.zipWith_map, List.zipWith_self]

/-! ### the occupation of the model level -/

theorem rhoLoc_error (beta smom0 hloc mu : ℝ) :
    |rhoLoc beta smom0 hloc mu - fermi (beta * (smom0 + hloc - mu))| ≤ if beta * (smom0 + hloc - mu) < 20 then 0 else Real.exp (-40) := by
  unfold rhoLoc fermi
  rw [neg_mul]
  generalize beta * (smom0 + hloc - mu) = x
  split
  · simp
  · rename_i h
    have hx : 20 ≤ x := not_lt.mp h
    have hp := Real.exp_pos x
    have hq := Real.exp_pos (-x)
    have e : Real.exp (-x) - 1 / (1 + Real.exp x) = Real.exp (-(2 * x)) / (1 + Real.exp (-x)) := by
      have e1 : Real.exp (-x) = 1 / Real.exp x := by rw [Real.exp_neg, one_div]
      have e2 : Real.exp (-(2 * x)) = 1 / Real.exp x * (1 / Real.exp x) := by rw [← e1, ← Real.exp_add]; congr 1; ring
      rw [e1, e2]
      field_simp
      ring
    rw [e, abs_of_nonneg (by positivity)]
    calc Real.exp (-(2 * x)) / (1 + Real.exp (-x)) ≤ Real.exp (-(2 * x)) := div_le_self (Real.exp_pos _).le (by linarith)
      _ ≤ Real.exp (-40) := Real.exp_le_exp.mpr (by linarith)

/-! ### high frequencies -/

theorem fourth_summable (beta : ℝ) : Summable fun n : ℤ => ‖1 / iv beta n‖ ^ 4 := by
  have h := (summable_pow (beta := beta) 2).norm
  refine h.congr fun n => ?_
  rw [norm_pow]; rfl

/-- with the average of the levels in the model, local and model Green's function differ in their real parts by fourth order -/
theorem diff_bound (beta : ℝ) (hb : beta ≠ 0) (mu smom0 : ℝ) (m : ℕ → ℝ) (hk : List ℝ) (hne : hk ≠ []) (S : ℕ → ℤ → ℂ)
    (hS : ∀ k < hk.length, ∀ᶠ n in cofinite, S k n = smom0 - m k * (1 / iv beta n)) :
    ∃ C, ∀ n : ℤ, |(localG beta mu hk S n).re - (1 / (iv beta n + (mu : ℂ) - (hkMean hk : ℂ) - (smom0 : ℂ))).re| ≤ C * ‖1 / iv beta n‖ ^ 4 := by
  set f : ℤ → ℂ := invIv beta with hfdef
  have hf0 : ∀ n, f n ≠ 0 := fun n => invIv_ne hb n
  have hft : Tendsto f cofinite (𝓝 0) := invIv_tendsto
  have hlen : (hk.length : ℝ) ≠ 0 := by
    have := List.length_pos_iff.mpr hne
    positivity
  have hlenc : (hk.length : ℂ) ≠ 0 := by exact_mod_cast hlen
  have hinv : ∀ n, 1 / f n = iv beta n := fun n => by rw [hfdef, invIv_iv, one_div_one_div]
  have h1 : ∀ k ∈ Finset.range hk.length, (fun n => 1 / (iv beta n + (mu : ℂ) - (hk.getD k 0 : ℂ) - S k n) -
      (f n - (mu - smom0 - hk.getD k 0 : ℝ) * f n ^ 2 + ((mu - smom0 - hk.getD k 0) ^ 2 - m k : ℝ) * f n ^ 3)) =O[cofinite] fun n => f n ^ 4 := by
    intro k hk'
    refine green_bigO mu smom0 (m k) (hk.getD k 0) f hft hf0 _ ?_
    filter_upwards [hS k (Finset.mem_range.mp hk')] with n hn
    unfold tailGreen
    rw [hn, hinv, hfdef, invIv_iv]
  have h2 := green_bigO mu smom0 0 (hkMean hk) f hft hf0 (fun n => 1 / (iv beta n + (mu : ℂ) - (hkMean hk : ℂ) - (smom0 : ℂ)))
    (Eventually.of_forall fun n => by dsimp only; unfold tailGreen; rw [hinv]; simp)
  have h3 := ((IsBigO.sum h1).const_mul_left (1 / (hk.length : ℂ))).sub h2
  set c : ℝ := (∑ k ∈ Finset.range hk.length, ((mu - smom0 - hk.getD k 0) ^ 2 - m k)) / hk.length - (mu - smom0 - hkMean hk) ^ 2 with hc
  have hsum : (∑ k ∈ Finset.range hk.length, (mu - smom0 - hk.getD k 0)) = hk.length * (mu - smom0 - hkMean hk) := by
    rw [Finset.sum_sub_distrib, Finset.sum_const, Finset.card_range, nsmul_eq_mul]
    have : ∑ k ∈ Finset.range hk.length, hk.getD k 0 = hk.sum := by
      rw [← sum_range_list]
      congr 1
      apply List.ext_getElem (by simp)
      intro i h1 h2
      simp at h1
      simp [List.getD_eq_getElem?_getD, List.getElem?_eq_getElem h1]
    rw [this, hkMean]
    field_simp
  have h4 : (fun n => localG beta mu hk S n - 1 / (iv beta n + (mu : ℂ) - (hkMean hk : ℂ) - (smom0 : ℂ)) - c * f n ^ 3) =O[cofinite] fun n => f n ^ 4 := by
    refine h3.congr (fun n => ?_) (fun n => rfl)
    rw [Finset.sum_apply, Finset.sum_sub_distrib, Finset.sum_add_distrib, Finset.sum_sub_distrib, ← Finset.sum_mul, ← Finset.sum_mul,
      ← Complex.ofReal_sum, ← Complex.ofReal_sum, hsum, Finset.sum_const, Finset.card_range, nsmul_eq_mul, hc]
    unfold localG
    push_cast
    field_simp
    ring
  have h5 : (fun n => (localG beta mu hk S n).re - (1 / (iv beta n + (mu : ℂ) - (hkMean hk : ℂ) - (smom0 : ℂ))).re) =O[cofinite] fun n => f n ^ 4 := by
    refine IsBigO.trans ?_ h4
    refine IsBigO.of_bound 1 (Eventually.of_forall fun n => ?_)
    rw [one_mul]
    have hre : ((c : ℂ) * f n ^ 3).re = 0 := by
      rw [hfdef, invIv_eq, mul_pow, ← Complex.ofReal_pow, Complex.re_ofReal_mul, show (-Complex.I) ^ 3 = Complex.I by
        rw [show (-Complex.I) ^ 3 = -(Complex.I ^ 2 * Complex.I) by ring, Complex.I_sq]; ring, mul_comm Complex.I, Complex.re_ofReal_mul, Complex.I_re]
      ring
    have : (localG beta mu hk S n).re - (1 / (iv beta n + (mu : ℂ) - (hkMean hk : ℂ) - (smom0 : ℂ))).re =
        (localG beta mu hk S n - 1 / (iv beta n + (mu : ℂ) - (hkMean hk : ℂ) - (smom0 : ℂ)) - c * f n ^ 3).re := by
      rw [Complex.sub_re, Complex.sub_re, hre, sub_zero]
    rw [this, Real.norm_eq_abs]
    exact Complex.abs_re_le_norm _
  rw [isBigO_cofinite_iff] at h5
  · obtain ⟨C, hC⟩ := h5
    refine ⟨C, fun n => ?_⟩
    have := hC n
    rwa [Real.norm_eq_abs, norm_pow] at this
  · intro n hn
    exact absurd hn (pow_ne_zero 4 (hf0 n))

/-- C85 (a): the number of electrons exists, and `get_fill` differs from it by at most a constant times the sum of the fourth powers of the inverse
    frequencies outside the window (the constant is the same for every window), plus the rounding of the occupation of the model level
    far above the chemical potential -/
theorem getFill_error (beta : ℝ) (hb : 0 < beta) (mu smom0 : ℝ) (m : ℕ → ℝ) (hk : List ℝ) (hne : hk ≠ []) (S : ℕ → ℤ → ℂ)
    (hS : ∀ k < hk.length, ∀ᶠ n in cofinite, S k n = smom0 - m k * (1 / iv beta n)) :
    ∃ n C : ℝ, IsFilling beta (localG beta mu hk S) n ∧ ∀ (N : ℕ) (siwk : List (List ℂ)), (∀ k < hk.length, rowAt siwk k = samplesF (S k) N) →
      |getFill (samplesF (iv beta) N) hk siwk beta smom0 (hkMean hk) mu - n| ≤
        C * outsideFourth beta N + if beta * (smom0 + hkMean hk - mu) < 20 then 0 else 2 * Real.exp (-40) := by
  obtain ⟨C, hC⟩ := diff_bound beta hb.ne' mu smom0 m hk hne S hS
  set D : ℤ → ℝ := fun n => (localG beta mu hk S n).re - (1 / (iv beta n + (mu : ℂ) - (hkMean hk : ℂ) - (smom0 : ℂ))).re with hD
  have hsumb := (fourth_summable beta).mul_left C
  have hDs : Summable D := Summable.of_norm_bounded hsumb fun n => by rw [Real.norm_eq_abs]; exact hC n
  have hM := hasSum_fermi beta hb (smom0 + hkMean hk - mu)
  have hM' : HasSum (fun n : ℤ => (1 / (iv beta n + (mu : ℂ) - (hkMean hk : ℂ) - (smom0 : ℂ))).re) (beta * (fermi (beta * (smom0 + hkMean hk - mu)) - 1 / 2)) := by
    have e : (fun n : ℤ => (1 / (iv beta n + (mu : ℂ) - (hkMean hk : ℂ) - (smom0 : ℂ))).re) =
        fun n : ℤ => (1 / (iv beta n - ((smom0 + hkMean hk - mu : ℝ) : ℂ))).re := by
      funext n; congr 2; push_cast; ring
    rw [e]; exact hM
  have hL : HasSum (fun n : ℤ => (localG beta mu hk S n).re) (∑' n, D n + beta * (fermi (beta * (smom0 + hkMean hk - mu)) - 1 / 2)) := by
    have := hDs.hasSum.add hM'
    have e : (fun n : ℤ => (localG beta mu hk S n).re) = fun n => D n + (1 / (iv beta n + (mu : ℂ) - (hkMean hk : ℂ) - (smom0 : ℂ))).re := by
      funext n; rw [hD]; ring
    rw [e]; exact this
  refine ⟨2 * (fermi (beta * (smom0 + hkMean hk - mu)) + (∑' n, D n) / beta), 2 / beta * C, ?_, ?_⟩
  · unfold IsFilling
    have h := (((hL.comp (Finset.tendsto_Ico_neg (R := ℤ))).const_mul (1 / beta)).add_const (1 / 2)).const_mul 2
    have e : 2 * (1 / beta * (∑' n, D n + beta * (fermi (beta * (smom0 + hkMean hk - mu)) - 1 / 2)) + 1 / 2) =
        2 * (fermi (beta * (smom0 + hkMean hk - mu)) + (∑' n, D n) / beta) := by
      field_simp; ring
    rw [e] at h
    exact h
  · intro N siwk hrow
    rw [getFill_value beta mu (hkMean hk) smom0 hk S siwk N hrow]
    have hout := hDs.sum_add_tsum_subtype_compl (Finset.Ico (-(N : ℤ)) N)
    have hob : |∑' n : {n : ℤ // n ∉ Finset.Ico (-(N : ℤ)) N}, D n| ≤ C * outsideFourth beta N := by
      unfold outsideFourth
      rw [← tsum_mul_left, ← Real.norm_eq_abs]
      exact tsum_of_norm_bounded (hsumb.subtype _).hasSum fun n => by rw [Real.norm_eq_abs]; exact hC n
    have hr := rhoLoc_error beta smom0 (hkMean hk) mu
    set O := ∑' n : {n : ℤ // n ∉ Finset.Ico (-(N : ℤ)) N}, D n with hO
    have e : 2 * (rhoLoc beta smom0 (hkMean hk) mu + (∑ n ∈ Finset.Ico (-(N : ℤ)) N, D n) / beta) -
        2 * (fermi (beta * (smom0 + hkMean hk - mu)) + (∑' n, D n) / beta) =
        2 * (rhoLoc beta smom0 (hkMean hk) mu - fermi (beta * (smom0 + hkMean hk - mu))) - 2 / beta * O := by
      rw [← hout]; field_simp; ring
    change |2 * (rhoLoc beta smom0 (hkMean hk) mu + (∑ n ∈ Finset.Ico (-(N : ℤ)) N, D n) / beta) - _| ≤ _
    rw [e]
    refine (abs_sub _ _).trans ?_
    rw [abs_mul, abs_mul, abs_of_pos (show (0 : ℝ) < 2 by norm_num), abs_of_pos (show 0 < 2 / beta by positivity), add_comm]
    refine add_le_add ?_ ?_
    · rw [mul_assoc]; exact mul_le_mul_of_nonneg_left hob (by positivity)
    · split at hr
      · rw [if_pos ‹_›]; linarith
      · rw [if_neg ‹_›]; linarith

end DGA.Two
