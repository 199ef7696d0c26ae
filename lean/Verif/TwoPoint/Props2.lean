import Verif.TwoPoint.Props
import Mathlib.Tactic.IntervalCases
import Mathlib.Tactic.LinearCombination

/-
  C53 continued: the moment formulas, the moment fit from the momentum rows, the values of the energies.
-/

noncomputable section

namespace DGA.Two

open DGA.Mf DGA.Bubble

/-- The asymptotic self-energy built with the two moment formulas is `U n/2 + U^2 n/2 (1 - n/2) / (iv)`, the known high-frequency
    expansion of the Hubbard model. -/
theorem moments_give_tail (beta u n : ℝ) (m : Int) :
    asymptVal beta (getSmom0 u n) (getSmom1 u n) m = ((u * (n / 2) : ℝ) : ℂ) + ((u ^ 2 * (n / 2) * (1 - n / 2) : ℝ) : ℂ) / iv beta m := by
  unfold asymptVal getSmom0 getSmom1
  push_cast
  ring

/-- It is causal: at positive Matsubara frequencies its imaginary part is negative for a partially filled band. -/
theorem moments_causal (beta u n : ℝ) (hb : 0 < beta) (hu : u ≠ 0) (h0 : 0 < n) (h2 : n < 2) (m : Nat) :
    (asymptVal beta (getSmom0 u n) (getSmom1 u n) m).im < 0 := by
  rw [moments_give_tail]
  have hv : (iv beta m).im = Real.pi / beta * (2 * m + 1) := by rw [iv_im]; simp
  have hvp : 0 < (iv beta m).im := by rw [hv]; have := Real.pi_pos; positivity
  have e : iv beta m = Complex.I * ((iv beta m).im : ℂ) := by rw [iv_im]; rfl
  have hc : 0 < u ^ 2 * (n / 2) * (1 - n / 2) := by
    have : 0 < u ^ 2 := by positivity
    have : 0 < 1 - n / 2 := by linarith
    positivity
  have e2 : ∀ c v : ℝ, v ≠ 0 → ((c : ℂ) / (Complex.I * (v : ℂ))).im = -(c / v) := by
    intro c v hv'
    have hne : (v : ℂ) ≠ 0 := by exact_mod_cast hv'
    have : (c : ℂ) / (Complex.I * (v : ℂ)) = ((-(c / v) : ℝ) : ℂ) * Complex.I := by
      push_cast
      rw [div_eq_iff (mul_ne_zero Complex.I_ne_zero hne)]
      field_simp
      rw [Complex.I_sq]; ring
    rw [this, Complex.mul_I_im, Complex.ofReal_re]
  rw [e, Complex.add_im, Complex.ofReal_im, e2 _ _ hvp.ne', zero_add]
  have := div_pos hc hvp
  linarith

/-- Moment fit from the momentum-resolved data: if every momentum row has the tail `m0 - m1(k)/(iv)`, the fit returns `m0` and the
    average of the `m1(k)`. -/
theorem fit_recovers_tail_rows (beta : ℝ) (hb : beta ≠ 0) (rows : List (List ℂ)) (hr : rows ≠ []) (niv : Nat) (hn : 0 < niv)
    (m0 : ℝ) (m1 : List ℂ → ℝ)
    (h : ∀ r ∈ rows, ∀ n : Nat, n < niv → r[n]? = some ((m0 : ℂ) - (m1 r : ℂ) / iv beta n)) :
    fitSmom beta rows niv = (m0, (rows.map m1).sum / rows.length) := by
  apply fit_recovers_tail beta hb rows niv hn
  intro n hn'
  have hlen : (rows.length : ℂ) ≠ 0 := by
    have := List.length_pos_of_ne_nil hr
    exact_mod_cast this.ne'
  have e : (rows.map fun r => r.getD n 0) = rows.map fun r => (m0 : ℂ) - (m1 r : ℂ) / iv beta n := by
    apply List.map_congr_left
    intro r hr'
    rw [List.getD_eq_getElem?_getD, h r hr' n hn']
    rfl
  have e2 : ∀ l : List (List ℂ), (l.map fun r => (m0 : ℂ) - (m1 r : ℂ) / iv beta n).sum =
      l.length * (m0 : ℂ) - (((l.map m1).sum : ℝ) : ℂ) / iv beta n := by
    intro l
    induction l with
    | nil => simp
    | cons a l ih => simp only [List.map_cons, List.sum_cons, ih, List.length_cons]; push_cast; ring
  unfold kMean
  rw [e, e2]
  push_cast
  field_simp

example : ∃ rows : List (List ℂ), rows ≠ [] ∧ ∀ r ∈ rows, ∀ n : Nat, n < 2 → r[n]? = some (((3 : ℝ) : ℂ) - ((1 : ℝ) : ℂ) / iv 1 n) := by
  refine ⟨[[((3 : ℝ) : ℂ) - ((1 : ℝ) : ℂ) / iv 1 (0 : Nat), ((3 : ℝ) : ℂ) - ((1 : ℝ) : ℂ) / iv 1 (1 : Nat)]], by simp, ?_⟩
  intro r hr n hn
  simp only [List.mem_singleton] at hr
  subst hr
  interval_cases n <;> rfl

/-- The full Green's function over `N` positive frequencies as it enters the energies (specification): `1/(iv + mu - ek - Sigma)`. -/
def gSpec (s : SelfEnergy) (r : List ℂ) (ek mu : ℝ) (n : Int) : ℂ := 1 / (iv s.beta n + mu - ek - sigmaSpec s r n)

theorem zipSome {α β : Type} {a : List α} {b : List β} {k : Nat} (z : α × β) (h : a[k]? = some z.1 ∧ b[k]? = some z.2) :
    (a.zip b)[k]? = some z := List.getElem?_zip_eq_some.mpr h

/-- Values of the energies: the kinetic energy is `1/(beta Nk) sum_k sum_v ek G(k,v)`, the potential energy
    `1/(beta Nk) sum_k sum_v (Sigma(k,v) - smom0) G(k,v)`, over the `2 (niv_core + niv_asympt)` frequencies around zero. -/
theorem energies_value (s : SelfEnergy) (hcore : ∀ r ∈ s.sigma, s.nivCore ≤ r.length) (nivAsympt : Nat) (mu : ℝ)
    (eks : List ℝ) (hl : eks.length = s.sigma.length) (gs sigmas : List (List ℂ))
    (hgl : gs.length = eks.length) (hsl : sigmas.length = eks.length)
    (hg : ∀ k (g : List ℂ), gs[k]? = some g → ∃ ek, eks[k]? = some ek ∧ gFullRow s nivAsympt ek mu k = some g)
    (hsig : ∀ k (g : List ℂ), sigmas[k]? = some g → sigmaFullRow s nivAsympt k = some g) :
    eKinSum s.beta (eks.zip gs) = 1 / ((s.beta : ℂ) * eks.length) *
      ((eks.zip s.sigma).map fun p => (samplesF (fun n => (p.1 : ℂ) * gSpec s p.2 p.1 mu n) (s.nivCore + nivAsympt)).sum).sum ∧
    ePotSum s.beta s.smom0 (sigmas.zip gs) = 1 / ((s.beta : ℂ) * eks.length) *
      ((eks.zip s.sigma).map fun p => (samplesF (fun n => (sigmaSpec s p.2 n - (s.smom0 : ℂ)) * gSpec s p.2 p.1 mu n)
        (s.nivCore + nivAsympt)).sum).sum := by
  have hG : ∀ (k : Nat) (g : List ℂ), gs[k]? = some g → ∃ ek r, eks[k]? = some ek ∧ s.sigma[k]? = some r ∧
      g = samplesF (gSpec s r ek mu) (s.nivCore + nivAsympt) := by
    intro k g hk
    obtain ⟨ek, h1, h2⟩ := hg k g hk
    rw [gFull_value s hcore] at h2
    cases hk' : s.sigma[k]? with
    | none => simp [hk'] at h2
    | some r =>
      simp only [hk', Option.map_some, Option.some.injEq] at h2
      exact ⟨ek, r, h1, rfl, h2.symm⟩
  have hS : ∀ (k : Nat) (g : List ℂ), sigmas[k]? = some g → ∃ r, s.sigma[k]? = some r ∧
      g = samplesF (sigmaSpec s r) (s.nivCore + nivAsympt) := by
    intro k g hk
    have h5 := hsig k g hk
    rw [sigmaFull_eq_getSiw s hcore, getSiw_value s hcore, List.getElem?_map] at h5
    cases hk' : s.sigma[k]? with
    | none => simp [hk'] at h5
    | some r =>
      simp only [hk', Option.map_some, Option.some.injEq] at h5
      exact ⟨r, rfl, h5.symm⟩
  have e1 : (eks.zip gs).map (fun p => (p.2.map fun x => (p.1 : ℂ) * x).sum) =
      (eks.zip s.sigma).map fun p => (samplesF (fun n => (p.1 : ℂ) * gSpec s p.2 p.1 mu n) (s.nivCore + nivAsympt)).sum := by
    apply List.ext_getElem?
    intro k
    rw [List.getElem?_map, List.getElem?_map]
    by_cases hk : k < eks.length
    · have hk1 : k < gs.length := by omega
      obtain ⟨ek, r, h1, h2, h3⟩ := hG k _ (List.getElem?_eq_getElem hk1)
      rw [zipSome (ek, gs[k]) ⟨h1, List.getElem?_eq_getElem hk1⟩,
        zipSome (ek, r) ⟨h1, h2⟩]
      simp only [Option.map_some, h3, samplesF, List.map_map]
      rfl
    · rw [List.getElem?_eq_none (by simp; omega), List.getElem?_eq_none (by simp; omega)]; rfl
  have e2 : (sigmas.zip gs).map (fun p => (List.zipWith (fun sg x => (sg - (s.smom0 : ℂ)) * x) p.1 p.2).sum) =
      (eks.zip s.sigma).map fun p => (samplesF (fun n => (sigmaSpec s p.2 n - (s.smom0 : ℂ)) * gSpec s p.2 p.1 mu n)
        (s.nivCore + nivAsympt)).sum := by
    apply List.ext_getElem?
    intro k
    rw [List.getElem?_map, List.getElem?_map]
    by_cases hk : k < eks.length
    · have hk1 : k < gs.length := by omega
      have hk2 : k < sigmas.length := by omega
      obtain ⟨ek, r, h1, h2, h3⟩ := hG k _ (List.getElem?_eq_getElem hk1)
      obtain ⟨r', h4, h5⟩ := hS k _ (List.getElem?_eq_getElem hk2)
      have : r' = r := by rw [h2] at h4; exact (Option.some.inj h4).symm
      subst this
      rw [zipSome (sigmas[k], gs[k]) ⟨List.getElem?_eq_getElem hk2, List.getElem?_eq_getElem hk1⟩,
        zipSome (ek, r') ⟨h1, h2⟩]
      simp only [Option.map_some, h3, h5, zipWith_samplesF]
    · rw [List.getElem?_eq_none (by simp; omega), List.getElem?_eq_none (by simp; omega)]; rfl
  constructor
  · rw [eKinSum, e1, List.length_zip, hgl, min_self]
    rw [one_div, one_div, mul_inv]; ring
  · rw [ePotSum, e2, List.length_zip, hgl, hsl, min_self]
    rw [one_div, one_div, mul_inv]; ring

/-- With a purely static (Hartree) self-energy the potential energy vanishes. -/
theorem ePot_hartree (s : SelfEnergy) (hcore : ∀ r ∈ s.sigma, s.nivCore ≤ r.length) (nivAsympt : Nat) (mu : ℝ)
    (eks : List ℝ) (hl : eks.length = s.sigma.length) (gs sigmas : List (List ℂ))
    (hgl : gs.length = eks.length) (hsl : sigmas.length = eks.length)
    (hg : ∀ k (g : List ℂ), gs[k]? = some g → ∃ ek, eks[k]? = some ek ∧ gFullRow s nivAsympt ek mu k = some g)
    (hsig : ∀ k (g : List ℂ), sigmas[k]? = some g → sigmaFullRow s nivAsympt k = some g)
    (hst : ∀ r ∈ s.sigma, ∀ n, sigmaSpec s r n = s.smom0) : ePotSum s.beta s.smom0 (sigmas.zip gs) = 0 := by
  rw [(energies_value s hcore nivAsympt mu eks hl gs sigmas hgl hsl hg hsig).2]
  apply mul_eq_zero_of_right
  apply List.sum_eq_zero
  intro x hx
  obtain ⟨⟨e, r⟩, hp, rfl⟩ := List.mem_map.mp hx
  have hr := (List.of_mem_zip hp).2
  apply List.sum_eq_zero
  intro y hy
  obtain ⟨n, _, rfl⟩ := List.mem_map.mp hy
  simp [hst r hr]

example : ∃ s : SelfEnergy, s.sigma = [[2, 2]] ∧ (∀ r ∈ s.sigma, s.nivCore ≤ r.length) ∧ ∀ r ∈ s.sigma, ∀ n, sigmaSpec s r n = s.smom0 := by
  refine ⟨⟨[[2, 2]], 1, 2, 0, 2⟩, rfl, by simp, ?_⟩
  intro r hr n
  simp only [List.mem_singleton] at hr
  subst hr
  rw [sigmaSpec_eq]
  have h : ∀ m : Nat, posSpec ⟨[[2, 2]], 1, 2, 0, 2⟩ [2, 2] m = 2 := by
    intro m
    unfold posSpec
    by_cases hm : m < 2
    · interval_cases m <;> simp
    · simp [hm, asymptVal]
  have h2 : (starRingEnd ℂ) (2 : ℂ) = 2 := Complex.conj_ofNat 2
  unfold mirror
  split <;> simp [h, h2]

end DGA.Two
