/-
  C94: kernels.  C95: the continuation problem scales its data and result consistently.
-/
import Verif.MaxEnt.Kernel
import Verif.MaxEnt.Quad
import Verif.MaxEnt.SchedProps
import Mathlib.Analysis.SpecialFunctions.ExpDeriv
import Mathlib.Analysis.Calculus.Deriv.Slope
import Mathlib.Analysis.SpecialFunctions.Trigonometric.DerivHyp

noncomputable section

namespace DGA.Mx

open Finset Filter Topology

/-! ### C94: bosonic frequency kernel -/

theorem zeros_mem {n : ℕ} (x : Fin n → ℝ) (i : Fin n) : i ∈ zeros x ↔ x i = 0 := by simp [zeros]

theorem zeros_nodup {n : ℕ} (x : Fin n → ℝ) : (zeros x).Nodup := (List.nodup_finRange n).filter _

theorem zeros_single {n : ℕ} (x : Fin n → ℝ) (hx : Function.Injective x) (h : zeros x ≠ []) : ∃ i, zeros x = [i] ∧ x i = 0 := by
  obtain ⟨i, hi⟩ := List.exists_mem_of_ne_nil _ h
  refine ⟨i, ?_, (zeros_mem x i).mp hi⟩
  have hall : ∀ j ∈ zeros x, j = i := fun j hj => hx (((zeros_mem x j).mp hj).trans ((zeros_mem x i).mp hi).symm)
  have hnd := zeros_nodup x
  rcases hz : zeros x with _ | ⟨a, _ | ⟨b, t⟩⟩
  · exact absurd hz h
  · rw [hz] at hall; rw [hall a (by simp)]
  · rw [hz] at hall hnd
    have := hall a (by simp)
    have := hall b (by simp)
    simp_all

/-- C94 (a): for meshes without repeated points the kernel has no NaN, lies in [0,1], is ω²/(ω²+ν²), and one at ν = 0 -/
theorem freqBosonic_spec {ni nr : ℕ} (im : Fin ni → ℝ) (re : Fin nr → ℝ) (hi : Function.Injective im) (hr : Function.Injective re) :
    ∃ k, kFreqBosonic im re = .ok k ∧ ∀ i l, ∃ x, k i l = some x ∧ 0 ≤ x ∧ x ≤ 1 ∧ (im i = 0 → x = 1) ∧
      (im i ≠ 0 → x = re l ^ 2 / (re l ^ 2 + im i ^ 2)) := by
  have raw : ∀ i l, ¬(im i = 0 ∧ re l = 0) → ∃ x, bosRaw (im i) (re l) = some x ∧ 0 ≤ x ∧ x ≤ 1 ∧ (im i = 0 → x = 1) ∧
      (im i ≠ 0 → x = re l ^ 2 / (re l ^ 2 + im i ^ 2)) := by
    intro i l h
    have hne : re l ^ 2 + im i ^ 2 ≠ 0 := by
      intro h0
      have h1 := sq_nonneg (re l)
      have h2 := sq_nonneg (im i)
      exact h ⟨by rw [← pow_eq_zero_iff two_ne_zero]; linarith, by rw [← pow_eq_zero_iff two_ne_zero]; linarith⟩
    have hpos : 0 < re l ^ 2 + im i ^ 2 := lt_of_le_of_ne (by positivity) hne.symm
    refine ⟨_, by rw [bosRaw, if_neg hne], by positivity, (div_le_one hpos).mpr (by nlinarith [sq_nonneg (im i)]), ?_, fun _ => rfl⟩
    intro h0
    rw [h0] at hne ⊢
    simp only [ne_eq, OfNat.ofNat_ne_zero, not_false_eq_true, zero_pow, add_zero] at hne ⊢
    exact div_self hne
  unfold kFreqBosonic
  dsimp only
  by_cases hz : zeros im ≠ [] ∧ zeros re ≠ []
  · rw [if_pos hz]
    obtain ⟨i0, hi0, h1⟩ := zeros_single im hi hz.1
    obtain ⟨l0, hl0, h2⟩ := zeros_single re hr hz.2
    rw [hi0, hl0]
    refine ⟨fun i l => if (i, l) ∈ [(i0, l0)] then some 1 else bosRaw (im i) (re l), rfl, fun i l => ?_⟩
    dsimp only
    by_cases hp : (i, l) ∈ [(i0, l0)]
    · rw [if_pos hp]
      simp only [List.mem_singleton, Prod.mk.injEq] at hp
      exact ⟨1, rfl, by norm_num, le_rfl, fun _ => rfl, fun h => absurd (by rw [hp.1]; exact h1) h⟩
    · rw [if_neg hp]
      refine raw i l fun h => hp ?_
      simp only [List.mem_singleton, Prod.mk.injEq]
      exact ⟨hi (h.1.trans h1.symm), hr (h.2.trans h2.symm)⟩
  · rw [if_neg hz]
    refine ⟨_, rfl, fun i l => raw i l fun h => hz ⟨?_, ?_⟩⟩
    · exact List.ne_nil_of_mem ((zeros_mem im i).mpr h.1)
    · exact List.ne_nil_of_mem ((zeros_mem re l).mpr h.2)

example : ∃ k, kFreqBosonic ![0, 1] ![0, 2, 3] = .ok k ∧ ∀ i l, ∃ x, k i l = some x ∧ 0 ≤ x ∧ x ≤ 1 ∧ ((![0, 1] : Fin 2 → ℝ) i = 0 → x = 1) ∧
    ((![0, 1] : Fin 2 → ℝ) i ≠ 0 → x = (![0, 2, 3] : Fin 3 → ℝ) l ^ 2 / ((![0, 2, 3] : Fin 3 → ℝ) l ^ 2 + (![0, 1] : Fin 2 → ℝ) i ^ 2)) :=
  freqBosonic_spec _ _ (by intro a b; fin_cases a <;> fin_cases b <;> simp) (by intro a b; fin_cases a <;> fin_cases b <;> simp)

/-! ### bosonic time kernel -/

/-- C94 (b): positive and symmetric in τ ↔ 1-τ -/
theorem timeBosRaw_spec (tau w : ℝ) (hw : w ≠ 0) :
    ∃ x, timeBosRaw tau w = some x ∧ 0 < x ∧ timeBosRaw (1 - tau) w = some x ∧ timeBosRaw tau (-w) = some x := by
  refine ⟨_, by rw [timeBosRaw, if_neg hw], ?_, ?_, ?_⟩
  · have hq : 0 < 0.5 * w / (1 - Real.exp (-w)) := by
      rcases lt_or_gt_of_ne hw with h | h
      · have : 1 < Real.exp (-w) := Real.one_lt_exp_iff.mpr (by linarith)
        exact div_pos_of_neg_of_neg (by linarith) (by linarith)
      · have : Real.exp (-w) < 1 := Real.exp_lt_one_iff.mpr (by linarith)
        exact div_pos (by linarith) (by linarith)
    have he : 0 < Real.exp (-w * tau) + Real.exp (-w * (1 - tau)) := by positivity
    have := mul_pos hq he
    calc 0 < 0.5 * w / (1 - Real.exp (-w)) * (Real.exp (-w * tau) + Real.exp (-w * (1 - tau))) := this
      _ = _ := by ring
  · rw [timeBosRaw, if_neg hw]; congr 2
    rw [sub_sub_cancel, add_comm]
  · rw [timeBosRaw, if_neg (neg_ne_zero.mpr hw)]; congr 1
    have hd : 1 - Real.exp (-w) ≠ 0 := by
      intro h
      have : Real.exp (-w) = 1 := by linarith
      rw [Real.exp_eq_one_iff] at this; exact hw (by linarith)
    have hd2 : 1 - Real.exp (-(-w)) ≠ 0 := by
      intro h
      have : Real.exp (-(-w)) = 1 := by linarith
      rw [Real.exp_eq_one_iff] at this; exact hw (by linarith)
    rw [div_eq_div_iff hd2 hd]
    have hE : Real.exp (-(-w) * tau) = Real.exp w * Real.exp (-w * (1 - tau)) := by rw [← Real.exp_add]; congr 1; ring
    have hE2 : Real.exp (-(-w) * (1 - tau)) = Real.exp w * Real.exp (-w * tau) := by rw [← Real.exp_add]; congr 1; ring
    have hE3 : Real.exp w * Real.exp (-w) = 1 := by rw [← Real.exp_add]; simp
    rw [hE, hE2, neg_neg]
    linear_combination (0.5 * w * (Real.exp (-w * (1 - tau)) + Real.exp (-w * tau))) * hE3

/-- C94 (c): the value one in the first column is the limit at ω = 0 … -/
theorem timeBos_limit (tau : ℝ) : Tendsto (fun w => (timeBosRaw tau w).getD 0) (𝓝[≠] 0) (𝓝 1) := by
  have h1 : HasDerivAt (fun w : ℝ => 1 - Real.exp (-w)) 1 0 := by
    have h := ((hasDerivAt_neg (0 : ℝ)).exp).const_sub 1
    simpa using h
  have h2 := hasDerivAt_iff_tendsto_slope.mp h1
  have h3 : Tendsto (fun w : ℝ => (0.5 * (Real.exp (-w * tau) + Real.exp (-w * (1 - tau))))) (𝓝[≠] 0) (𝓝 1) := by
    have hc : Continuous fun w : ℝ => (0.5 * (Real.exp (-w * tau) + Real.exp (-w * (1 - tau)))) := by fun_prop
    have := hc.tendsto 0
    simp only [neg_zero, zero_mul, Real.exp_zero] at this
    norm_num at this
    norm_num
    exact this.mono_left nhdsWithin_le_nhds
  have h4 := h3.div h2 one_ne_zero
  rw [div_one] at h4
  refine h4.congr' ?_
  filter_upwards [self_mem_nhdsWithin] with w hw
  have hw : w ≠ 0 := hw
  rw [timeBosRaw, if_neg hw]
  simp only [Option.getD_some, slope, vsub_eq_sub, smul_eq_mul, Pi.div_apply, sub_zero, neg_zero, Real.exp_zero, sub_self]
  rw [div_mul_eq_div_div_swap]
  field_simp

/-- … and wrong for a mesh that does not start at zero; a zero elsewhere stays NaN -/
theorem timeBos_first_column : (∃ x, timeBosRaw 0 2 = some x ∧ 1 < x ∧ kTimeBosonic (ni := 1) (nr := 2) ![0] ![2, 3] 0 0 = some 1) ∧
    kTimeBosonic (ni := 1) (nr := 2) ![0] ![-1, 0] 0 1 = none := by
  constructor
  · have h2 : (2 : ℝ) ≠ 0 := two_ne_zero
    refine ⟨_, by rw [timeBosRaw, if_neg h2], ?_, by simp [kTimeBosonic]⟩
    have hp := Real.exp_pos (-2)
    have hl : Real.exp (-2) < 1 := Real.exp_lt_one_iff.mpr (by norm_num)
    rw [lt_div_iff₀ (by linarith)]
    norm_num
    linarith
  · simp [kTimeBosonic, timeBosRaw]

/-! ### fermionic time kernel -/

/-- C94 (d): the branch for very negative ω agrees with the exact kernel up to a relative error of 1e-8; values in (0,1] -/
theorem timeFermionic_spec (tau w : ℝ) (h0 : 0 ≤ tau) (h1 : tau ≤ 1) :
    |kTimeFermionic tau w - Real.exp (-tau * w) / (1 + Real.exp (-w))| ≤ 1e-8 * (Real.exp (-tau * w) / (1 + Real.exp (-w))) ∧
      0 < kTimeFermionic tau w ∧ kTimeFermionic tau w ≤ 1 := by
  have hE := Real.exp_pos (-w)
  have hT := Real.exp_pos (-tau * w)
  have hd : 0 < 1 + Real.exp (-w) := by linarith
  unfold kTimeFermionic
  split
  · rename_i hb
    have hw : w < 0 := by
      by_contra hh
      have : Real.exp (-w) ≤ 1 := Real.exp_le_one_iff.mpr (by linarith)
      norm_num at hb; linarith
    have e1 : Real.exp (-(tau - 1) * w) = Real.exp (-tau * w) * Real.exp w := by rw [← Real.exp_add]; congr 1; ring
    have e2 : Real.exp w * Real.exp (-w) = 1 := by rw [← Real.exp_add]; simp
    have hW := Real.exp_pos w
    have hWs : Real.exp w ≤ 1e-8 := by
      by_contra hh
      have : 1 < Real.exp w * Real.exp (-w) := by
        calc (1 : ℝ) = 1e-8 * 1e8 := by norm_num
          _ < Real.exp w * Real.exp (-w) := mul_lt_mul'' (not_le.mp hh) hb (by norm_num) (by norm_num)
      linarith
    have e3 : Real.exp (-tau * w) * Real.exp w - Real.exp (-tau * w) / (1 + Real.exp (-w)) =
        Real.exp w * (Real.exp (-tau * w) / (1 + Real.exp (-w))) := by
      field_simp
      linear_combination e2
    have hq : 0 < Real.exp (-tau * w) / (1 + Real.exp (-w)) := by positivity
    refine ⟨?_, Real.exp_pos _, ?_⟩
    · rw [e1, e3, abs_of_pos (by positivity)]
      exact mul_le_mul_of_nonneg_right hWs hq.le
    · exact Real.exp_le_one_iff.mpr (by nlinarith)
  · have hq : 0 < Real.exp (-tau * w) / (1 + Real.exp (-w)) := by positivity
    refine ⟨by rw [sub_self, abs_zero]; positivity, hq, ?_⟩
    rw [div_le_one hd]
    rcases le_total 0 w with hw | hw
    · have : Real.exp (-tau * w) ≤ 1 := Real.exp_le_one_iff.mpr (by nlinarith)
      linarith
    · have : Real.exp (-tau * w) ≤ Real.exp (-w) := Real.exp_le_exp.mpr (by nlinarith)
      linarith

/-! ### fermionic frequency kernels -/

/-- C94 (e): real and imaginary part -/
theorem freqFermionic_parts (nu w : ℝ) : (kFreqFermionic nu w).re = -w / (w ^ 2 + nu ^ 2) ∧ (kFreqFermionic nu w).im = -nu / (w ^ 2 + nu ^ 2) := by
  have e : Complex.normSq (Complex.I * (nu : ℂ) - (w : ℂ)) = w ^ 2 + nu ^ 2 := by
    rw [Complex.normSq_apply]; simp; ring
  constructor
  · rw [kFreqFermionic, one_div, Complex.inv_re, e]; simp
  · rw [kFreqFermionic, one_div, Complex.inv_im, e]; simp

/-- C94 (f): the particle–hole symmetric kernels are the sums over ω and -ω -/
theorem phsym_kernels (nu tau w : ℝ) :
    ((kFreqFermionic nu w + kFreqFermionic nu (-w)).im = kFreqPhsym nu w ∧ (kFreqFermionic nu w + kFreqFermionic nu (-w)).re = 0) ∧
      kTimePhsym tau w = Real.exp (-tau * w) / (1 + Real.exp (-w)) + Real.exp (-tau * -w) / (1 + Real.exp (- -w)) := by
  refine ⟨⟨?_, ?_⟩, ?_⟩
  · rw [Complex.add_im, (freqFermionic_parts nu w).2, (freqFermionic_parts nu (-w)).2, kFreqPhsym, neg_sq, add_comm (w ^ 2)]; ring
  · rw [Complex.add_re, (freqFermionic_parts nu w).1, (freqFermionic_parts nu (-w)).1, neg_sq]; ring
  · have hE := Real.exp_pos w
    have hT := Real.exp_pos (tau * w)
    unfold kTimePhsym
    rw [Real.cosh_eq, Real.cosh_eq, Real.cosh_eq]
    have e1 : Real.exp (-w) = (Real.exp w)⁻¹ := Real.exp_neg w
    have e2 : Real.exp (-(tau * w)) = (Real.exp (tau * w))⁻¹ := Real.exp_neg _
    have e3 : Real.exp ((1 - tau) * w) = Real.exp w * (Real.exp (tau * w))⁻¹ := by rw [← Real.exp_neg, ← Real.exp_add]; congr 1; ring
    have e4 : Real.exp (-((1 - tau) * w)) = (Real.exp w)⁻¹ * Real.exp (tau * w) := by rw [← Real.exp_neg, ← Real.exp_add]; congr 1; ring
    have e5 : Real.exp (-tau * w) = (Real.exp (tau * w))⁻¹ := by rw [← Real.exp_neg]; congr 1; ring
    have e6 : Real.exp (-tau * -w) = Real.exp (tau * w) := by congr 1; ring
    rw [neg_neg, e5, e6, e3, e4, e2, e1]
    generalize Real.exp w = E at *
    generalize Real.exp (tau * w) = T at *
    have h1 : 1 + E ≠ 0 := by linarith
    field_simp
    ring

/-- C94 (g): the kernel `freq_bosonic_xyz` is the imaginary part of the fermionic one (zero for the first frequency zero) -/
theorem xyz_spec {ni nr : ℕ} (im : Fin ni → ℝ) (re : Fin nr → ℝ) (i : Fin ni) (l : Fin nr) (h : im i ≠ 0) :
    kXyz im re i l = some (kFreqFermionic (im i) (re l)).im := by
  have hne : re l ^ 2 + im i ^ 2 ≠ 0 := by positivity
  rw [kXyz, if_neg (fun hh => h hh.2), if_neg hne, (freqFermionic_parts _ _).2]

/-! ### preblur -/

theorem simpsonW_pos (N : ℕ) (h : ℝ) (hh : 0 < h) (j : ℕ) : 0 < simpsonW N h j := by
  unfold simpsonW
  split
  · positivity
  · split <;> positivity

theorem gauss_pos (b x : ℝ) (hb : 0 < b) : 0 < gauss b x := by
  unfold gauss
  have := Real.pi_pos
  positivity

/-- C94 (h): the blurred bosonic kernel is even in ω, lies between zero and its value at zero frequency, and that value does not depend on ω -/
theorem blurBose_spec (b im w : ℝ) (hb : 0 < b) :
    0 ≤ blurBose b im w ∧ blurBose b im w ≤ blurBose b 0 w ∧ blurBose b im (-w) = blurBose b im w ∧ blurBose b 0 w = blurBose b 0 0 := by
  have hW : ∀ j, 0 < simpsonW 100 (10 * b / 200) j := fun j => simpsonW_pos _ _ (by positivity) j
  have hI : ∀ s x, 0 ≤ blurIntegrand b im w s x ∧ blurIntegrand b im w s x ≤ gauss b x := by
    intro s x
    have hg := gauss_pos b x hb
    unfold blurIntegrand
    split
    · exact ⟨hg.le, le_rfl⟩
    · rename_i h
      have hd : 0 < (x + s * w) ^ 2 + im ^ 2 := by positivity
      refine ⟨by positivity, ?_⟩
      rw [div_le_iff₀ hd]
      exact mul_le_mul_of_nonneg_left (by nlinarith [sq_nonneg im]) hg.le
  have hz : ∀ w s x, blurIntegrand b 0 w s x = gauss b x := fun w s x => by simp [blurIntegrand]
  refine ⟨?_, ?_, ?_, ?_⟩
  · refine Finset.sum_nonneg fun j _ => mul_nonneg (hW j).le ?_
    have h1 := (hI 1 (blurX b j)).1
    have h2 := (hI (-1) (blurX b j)).1
    linarith
  · refine Finset.sum_le_sum fun j _ => mul_le_mul_of_nonneg_left ?_ (hW j).le
    rw [hz, hz]
    have h1 := (hI 1 (blurX b j)).2
    have h2 := (hI (-1) (blurX b j)).2
    linarith
  · refine Finset.sum_congr rfl fun j _ => ?_
    have e : ∀ s x, blurIntegrand b im (-w) s x = blurIntegrand b im w (-s) x := by
      intro s x; unfold blurIntegrand; rw [show x + s * -w = x + -s * w by ring]
    rw [e, e, neg_neg, add_comm]
  · refine Finset.sum_congr rfl fun j _ => ?_
    rw [hz, hz, hz, hz]

/-- C94 (i): the blurred fermionic kernel is a positive combination of shifted kernels; it is causal -/
theorem blurFermi_spec (b nu w : ℝ) (hb : 0 < b) :
    (∃ c : ℕ → ℝ, (∀ j, 0 < c j) ∧ blurFermi b nu w = ∑ j ∈ range 201, ((c j : ℝ) : ℂ) * kFreqFermionic nu (w + blurX b j)) ∧
      (0 < nu → (blurFermi b nu w).im < 0) := by
  have h : blurFermi b nu w = ∑ j ∈ range 201, ((simpsonW 100 (10 * b / 200) j * gauss b (blurX b j) : ℝ) : ℂ) * kFreqFermionic nu (w + blurX b j) := by
    refine Finset.sum_congr rfl fun j _ => ?_
    rw [kFreqFermionic]
    push_cast
    rw [mul_assoc, mul_one_div, sub_sub]
  have hc : ∀ j, 0 < simpsonW 100 (10 * b / 200) j * gauss b (blurX b j) := fun j =>
    mul_pos (simpsonW_pos _ _ (by positivity) j) (gauss_pos b _ hb)
  refine ⟨⟨_, hc, h⟩, fun hnu => ?_⟩
  rw [h, Complex.im_sum]
  refine Finset.sum_neg (fun j _ => ?_) ⟨0, by simp⟩
  rw [Complex.im_ofReal_mul, (freqFermionic_parts _ _).2]
  refine mul_neg_of_pos_of_neg (hc j) (div_neg_of_neg_of_pos (by linarith) (by positivity))

/-- C94 (j): `blur` works exactly for the two frequency kernels with a positive width; `preblur=True` with the default width 0 fails -/
theorem blurCall_iff (kind : String) (b : ℝ) : blurCall kind b = .ok () ↔ 0 < b ∧ (kind = "freq_fermionic" ∨ kind = "freq_bosonic") := by
  unfold blurCall
  by_cases h : preblurred kind b = true
  · rw [if_pos h]; simpa [preblurred] using h
  · rw [if_neg h]
    simp only [reduceCtorEq, false_iff]
    intro hh; exact h (by simpa [preblurred] using hh)

/-- when every optimisation raises, `solve_chi2kink` hides the reason and ends with an IndexError (the fit of no points raises ValueError) -/
theorem kink_all_fail {nw ns : ℕ} (opt : Opt nw ns) (hf : ∀ a u, ∃ e, opt a u = .error e) (fit : List (ℝ × ℝ) → Fit) (h0 : fit [] = .valueError)
    (start aEnd div fp : ℝ) (he : 0 < aEnd) (hd : 1 < div) : ∃ fuel0, ∀ fuel, fuel0 < fuel →
      solveKink opt fit start aEnd div fp fuel = some (.error .indexError) := by
  obtain ⟨K, -, -, h⟩ := kink_scan opt start aEnd div he hd
  have hst : ∀ k, (kinkState opt start div k) = (0, []) := by
    intro k
    induction k with
    | zero => rfl
    | succ k ih =>
      rw [kinkState, ih, kinkStep]
      obtain ⟨e, he⟩ := hf (start / div ^ k) (0, ([] : List (ℝ × Res nw ns))).1
      rw [he]
  refine ⟨K, fun fuel hfuel => ?_⟩
  rw [solveKink, h fuel hfuel, hst]
  simp [kinkFinish, h0]

/-! ### C95 -/

theorem ext_mul {n : ℕ} (x : Fin n → ℝ) (c : ℝ) (i : ℕ) : ext (fun l => x l * c) i = ext x i * c := by
  unfold ext; split <;> simp

theorem trapz_scale {n : ℕ} (y x : Fin n → ℝ) (c : ℝ) : trapz y (fun l => x l * c) = trapz (fun l => y l * c) x := by
  unfold trapz
  refine Finset.sum_congr rfl fun i _ => ?_
  rw [ext_mul, ext_mul, ext_mul, ext_mul]; ring

/-- C95 (a): fermionic time data: norm and back transformation of the returned spectrum on the original mesh are those of the solver -/
theorem timeFermionic_scaling {ni nr : ℕ} (beta : ℝ) (hb : 0 < beta) (p : Prob ni nr) (A : Fin nr → ℝ) :
    ∃ q, mkProb "time_fermionic" beta p = .ok q ∧ q.data = p.data ∧
      let back := fun i => trapz (fun l => kTimeFermionic (q.im i) (q.re l) * A l) q.re
      let r := rescaleSol "time_fermionic" beta A back
      trapz r.1 p.re = trapz A q.re ∧
      ∀ i, r.2 i = trapz (fun l => kTimeFermionic (p.im i / beta) (p.re l * beta) * r.1 l) p.re ∧
        ∀ l, Real.exp (-(p.re l * beta)) ≤ 1e8 → kTimeFermionic (p.im i / beta) (p.re l * beta) =
          Real.exp (-p.im i * p.re l) / (1 + Real.exp (-beta * p.re l)) := by
  refine ⟨⟨fun i => p.im i / beta, fun l => p.re l * beta, p.data⟩, by simp [mkProb], rfl, ?_⟩
  dsimp only
  simp only [rescaleSol, if_true]
  refine ⟨(trapz_scale A p.re beta).symm, fun i => ⟨?_, ?_⟩⟩
  · rw [trapz_scale]
    congr 1; funext l; ring
  · intro l hl
    rw [kTimeFermionic, if_neg (not_lt.mpr hl)]
    have e1 : -(p.im i / beta) * (p.re l * beta) = -p.im i * p.re l := by field_simp
    have e2 : -(p.re l * beta) = -beta * p.re l := by ring
    rw [e1, e2]

/-- C95 (b): bosonic time data -/
theorem timeBosonic_scaling {ni nr : ℕ} (beta : ℝ) (hb : 0 < beta) (p : Prob ni nr) (A : Fin nr → ℝ) (k : Fin ni → Fin nr → ℝ) :
    ∃ q, mkProb "time_bosonic" beta p = .ok q ∧ (∀ i, q.data i = p.data i * (beta : ℂ)) ∧
      ((∀ i l, kTimeBosonic q.im q.re i l = some (k i l)) →
      let r := rescaleSol "time_bosonic" beta A fun i => trapz (fun l => k i l * A l) q.re
      trapz r.1 p.re = trapz A q.re ∧
      ∀ i, r.2 i = trapz (fun l => (if (l : ℕ) = 0 then 1 / beta else
        0.5 * p.re l * (Real.exp (-p.re l * p.im i) + Real.exp (-p.re l * (beta - p.im i))) / (1 - Real.exp (-beta * p.re l))) * r.1 l) p.re) := by
  refine ⟨⟨fun i => p.im i / beta, fun l => p.re l * beta, fun i => p.data i * (beta : ℂ)⟩, by simp [mkProb], fun i => rfl, ?_⟩
  intro hk
  dsimp only
  simp only [rescaleSol, show ("time_bosonic" : String) ≠ "time_fermionic" by decide, if_false, if_true]
  refine ⟨(trapz_scale A p.re beta).symm, fun i => ?_⟩
  rw [trapz_scale]
  have hdiv : ∀ y : Fin nr → ℝ, trapz y p.re / beta = trapz (fun l => y l / beta) p.re := by
    intro y
    rw [trapz_eq, trapz_eq, Finset.sum_div]
    exact Finset.sum_congr rfl fun l _ => by rw [mul_div_assoc]
  rw [hdiv]
  congr 1; funext l
  have h := hk i l
  have hne := hb.ne'
  rw [kTimeBosonic] at h
  by_cases hl : (l : ℕ) = 0
  · rw [if_pos hl] at h ⊢
    simp only [Option.some.injEq] at h
    rw [← h]; field_simp
  · rw [if_neg hl] at h ⊢
    rw [timeBosRaw] at h
    split at h
    · cases h
    · simp only [Option.some.injEq] at h
      rw [← h]
      have e1 : -(p.re l * beta) * (p.im i / beta) = -p.re l * p.im i := by field_simp
      have e2 : -(p.re l * beta) * (1 - p.im i / beta) = -p.re l * (beta - p.im i) := by field_simp
      have e3 : -(p.re l * beta) = -beta * p.re l := by ring
      rw [e1, e2, e3]
      have : ∀ X Y : ℝ, 0.5 * (p.re l * beta) * X / Y * A l * beta / beta = 0.5 * p.re l * X / Y * (A l * beta) := by
        intro X Y; field_simp
      exact this _ _

/-- C95 (c): which kinds are accepted, and which methods -/
theorem mkProb_refused {ni nr : ℕ} (kind : String) (beta : ℝ) (p : Prob ni nr) :
    (∃ q, mkProb kind beta p = .ok q) ↔
      kind ∈ ["freq_bosonic", "time_bosonic", "freq_fermionic", "freq_fermionic_phsym", "time_fermionic", "time_fermionic_phsym"] := by
  unfold mkProb
  constructor
  · intro ⟨q, h⟩
    by_contra hn
    simp only [List.mem_cons, List.not_mem_nil, or_false, not_or] at hn
    obtain ⟨a, b, c, d, e, f⟩ := hn
    simp [a, b, c, d, e, f] at h
  · intro h
    simp only [List.mem_cons, List.not_mem_nil, or_false] at h
    rcases h with h | h | h | h | h | h <;> subst h <;> simp
    split <;> exact ⟨_, rfl⟩

theorem solveMethod_iff (m : String) : solveMethod m = .ok () ↔ m = "maxent_svd" := by
  unfold solveMethod
  split
  · simpa using by assumption
  · rename_i h
    simp only [h, iff_false]
    split
    · simp
    · split <;> simp

/-- C95 (d): the particle–hole symmetric kind tests the frequencies instead of the data and keeps the real part: purely imaginary data, the
    documented case, become zero -/
theorem phsym_data_lost {ni nr : ℕ} (beta : ℝ) (p : Prob ni nr) (i0 : Fin ni) (h : 1e-8 < |p.im i0|) (hd : ∀ i, (p.data i).re = 0) :
    ∃ q, mkProb "freq_fermionic_phsym" beta p = .ok q ∧ ∀ i, q.data i = 0 := by
  refine ⟨{ p with data := fun i => ((p.data i).re : ℂ) }, ?_, fun i => by simp [hd]⟩
  unfold mkProb
  rw [if_neg (by decide), if_neg (by decide), if_neg (by decide), if_pos rfl, if_neg]
  intro hh
  exact absurd (hh i0) (not_le.mpr h)

/-- C95 (e): the spectrum of kind `time_fermionic_phsym` is returned in the scaled units: its norm on the original mesh is wrong by 1/β -/
theorem timePhsym_not_rescaled {ni nr : ℕ} (beta : ℝ) (p : Prob ni nr) (A : Fin nr → ℝ) (back : Fin ni → ℝ) :
    ∃ q, mkProb "time_fermionic_phsym" beta p = .ok q ∧
      trapz A q.re = beta * trapz (rescaleSol "time_fermionic_phsym" beta A back).1 p.re := by
  refine ⟨⟨fun i => p.im i / beta, fun l => p.re l * beta, p.data⟩, by simp [mkProb], ?_⟩
  simp only [rescaleSol, show ("time_fermionic_phsym" : String) ≠ "time_fermionic" by decide,
    show ("time_fermionic_phsym" : String) ≠ "time_bosonic" by decide, if_false]
  rw [trapz_scale, trapz_eq, trapz_eq, Finset.mul_sum]
  exact Finset.sum_congr rfl fun l _ => by ring

end DGA.Mx
