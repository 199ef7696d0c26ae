/-
  A concrete run with lambda correction that meets every hypothesis of C128: the chain of Rpa3.lean in mode 'spch'.
-/
import Verif.Pipeline.LamRunProps

namespace DGA.Pipe.Ex2

open DGA.Bz DGA.Mf DGA.Two DGA.Wan DGA.Bubble DGA.Fp DGA.Pipe

/-- RPA susceptibility of the example with interaction `1` (density) or `-1` (magnetic) -/
noncomputable def rpa (dens : Bool) : ℝ := 1 / (4 * Real.pi) / (1 + (if dens then 1 else -1) * (1 / (4 * Real.pi)))

theorem urOf_ofReal (dens : Bool) : urOf dens (1 : ℂ) = ((if dens then 1 else -1 : ℝ) : ℂ) := by cases dens <;> simp [urOf]

theorem small : 0 < 1 / (4 * Real.pi) ∧ 1 / (4 * Real.pi) ≤ 1 / 8 ∧ 1 / 16 ≤ 1 / (4 * Real.pi) := by
  have h := Real.two_le_pi
  have h' := Real.pi_le_four
  refine ⟨by positivity, ?_, ?_⟩
  · apply one_div_le_one_div_of_le <;> linarith
  · apply one_div_le_one_div_of_le
    · positivity
    · linarith

theorem rpa_bounds (dens : Bool) : 1 / 18 ≤ rpa dens ∧ rpa dens ≤ 1 / 7 := by
  obtain ⟨h1, h2, h3⟩ := small
  unfold rpa
  generalize 1 / (4 * Real.pi) = z at *
  cases dens
  · simp only [Bool.false_eq_true, if_false]
    have : 0 < 1 + -1 * z := by linarith
    rw [le_div_iff₀ this, div_le_iff₀ this]
    constructor <;> linarith
  · simp only [if_true]
    have : 0 < 1 + 1 * z := by linarith
    rw [le_div_iff₀ this, div_le_iff₀ this]
    constructor <;> linarith

theorem phys_rpa (dens : Bool) (f : Int → ℂ) (h : chi0Box (1 + 0) (Real.pi : ℂ) f = ((1 / (4 * Real.pi) : ℝ) : ℂ)) :
    phys (Real.pi : ℂ) (rpaChi (urOf dens 1 / (Real.pi * Real.pi : ℂ)) (onBox (1 + 0) f)) = (rpa dens : ℂ) := by
  have e : (∑ l, onBox (1 + 0) f l) / (Real.pi : ℂ) ^ 2 = ((1 / (4 * Real.pi) : ℝ) : ℂ) := h
  obtain ⟨p1, p2, p3⟩ := chi_pos
  rw [rpa_phys (Real.pi : ℂ) (urOf dens 1) hpc, e]
  · rw [urOf_ofReal]
    unfold rpa
    push_cast
    rfl
  · rw [e]
    cases dens
    · simpa [urOf, sub_eq_add_neg] using p3
    · simpa [urOf] using p2

theorem den_ne (dens : Bool) (f : Int → ℂ) (h : chi0Box (1 + 0) (Real.pi : ℂ) f = ((1 / (4 * Real.pi) : ℝ) : ℂ)) :
    1 + urOf dens 1 / (Real.pi * Real.pi : ℂ) * ∑ l, onBox (1 + 0) f l ≠ 0 := by
  have e : (∑ l, onBox (1 + 0) f l) / (Real.pi : ℂ) ^ 2 = ((1 / (4 * Real.pi) : ℝ) : ℂ) := h
  obtain ⟨p1, p2, p3⟩ := chi_pos
  have : urOf dens 1 / (Real.pi * Real.pi : ℂ) * ∑ l, onBox (1 + 0) f l = urOf dens 1 * ((∑ l, onBox (1 + 0) f l) / (Real.pi : ℂ) ^ 2) := by
    have := hpc
    field_simp
  rw [this, e]
  cases dens
  · simpa [urOf, sub_eq_add_neg] using p3
  · simpa [urOf] using p2

/-- the run in mode 'spch' on three ranks returns; both saved susceptibilities obey their sum rule, whose right-hand side is the RPA value
    over `pi` -/
theorem run_spch : ∃ mp out, fbz2irrk 2 1 1 nematic = some mp ∧
    dgaRun 0 3 2 1 1 (flat3 mp) (objOf true 0 (Real.pi : ℂ) 1 (G2 true)) (objOf false 0 (Real.pi : ℂ) 1 (G2 false))
      (genOf 2 1 1 1 0 (Real.pi : ℂ) G g) Real.pi "spch" 1 ((9 / 10 : ℝ) : ℂ) (samplesF (sigmaSpec se [-Complex.I]) 1) = .ok out ∧
    ∃ d' m' : Fin (2 * 1 * 1) → Fin (2 * 0 + 1) → ℂ, out.chi.dens = Lam.rowsC d' ∧ out.chi.magn = Lam.rowsC m' ∧
      0 ≤ (Lam.totalC Real.pi d').re - rpa true / Real.pi ∧ (Lam.totalC Real.pi d').re - rpa true / Real.pi < 1e-7 ∧
      0 ≤ (Lam.totalC Real.pi m').re - rpa false / Real.pi ∧ (Lam.totalC Real.pi m').re - rpa false / Real.pi < 1e-7 := by
  obtain ⟨mp, hmp, _⟩ := irrk_representative 2 1 1 nematic (by decide)
  obtain ⟨label, rfl, hl⟩ := bubble_labels 2 1 1 (1 + 0) 0 (Real.pi : ℂ) nematic mp hmp G (gBand_invariant (lattice_square _ _ _ _ _ _ _) _ _ _)
  have hg : ∀ n : Int, -((1 : Nat) : Int) ≤ n → n < (1 : Nat) → g (-n - 1) = star (g n) := fun m _ _ => gLocBand_conj _ _ _ _ _ _ _ m
  have hG : ∀ i j k, ∀ n : Int, -((1 : Nat) : Int) ≤ n → n < (1 : Nat) → G i j k (-n - 1) = star (G i j k n) :=
    fun i j k m _ _ => gBand_conj _ _ _ _ _ _ _ i j k m
  obtain ⟨out, hout⟩ := run_returns (c := 1) 0 2 1 1 1 0 Real.pi 1 ((9 / 10 : ℝ) : ℂ) Real.pi_ne_zero (by decide) G g hg hG (by omega)
    (G2 true) (G2 false) label (samplesF (sigmaSpec se [-Complex.I]) 1) 3 (by omega) "spch" (by simp) fun lamD lamM =>
      ⟨_, dga_rpa 0 2 1 1 1 1 0 (Real.pi : ℂ) 1 ((9 / 10 : ℝ) : ℂ) (Complex.conj_ofReal _) hpc G g _ hg g_ne hG (by omega) (by omega)
        (G2 true) (G2 false) label lamD lamM 3 (by omega) (fun x _ i j => gchi_G2 true x i j) (fun x _ i j => gchi_G2 false x i j) hypL hypQ hl⟩
  refine ⟨_, out, hmp, hout, ?_⟩
  have hpi := Real.two_le_pi
  have hpi' := Real.pi_le_four
  obtain ⟨ΓD, ΓM, χD0, χM0, e3, e4⟩ := run_sum_rules 0 2 1 1 1 1 0 Real.pi 1 ((9 / 10 : ℝ) : ℂ) (by decide) (by norm_num; linarith) (by norm_num; linarith)
    (by norm_num; linarith) (by norm_num) (by norm_num) (by simp) G g (sigmaSpec se [-Complex.I]) hg g_ne hG (by omega) (by omega) (G2 true) (G2 false)
    (G2_conj true) (G2_conj false) label (fun i j k _ _ _ x hx => (hypQ _ x hx).2.2.2) hl 3 (by omega) out hout
  have h0 : (0 : Int) ∈ Finset.Icc (-((0 : Nat) : Int)) (0 : Nat) := by simp
  have hone : ∀ x ∈ Finset.Icc (-((0 : Nat) : Int)) (0 : Nat), x = 0 := by intro x hx; simpa using hx
  have hBl : ∀ a, onBox (1 + 0) (bubLoc (Real.pi : ℂ) g 0) a ≠ 0 := bubLoc_ne_zero (Real.pi : ℂ) hpc g 1 0 (1 + 0) g_ne (by omega) 0 (by simp)
  have key : ∀ (dens : Bool) (Γ : Int → Mat (2 * 1) ℂ) (χ : Int → Mat (2 * (1 + 0)) ℂ),
      Ladder (Real.pi : ℂ) (urOf dens 1) (onBox (1 + 0) (bubLoc (Real.pi : ℂ) g 0)) (Γ 0) (χ 0) →
      (∀ i j, χ 0 (core 1 0 i) (core 1 0 j) = gchiOf (Real.pi : ℂ) g dens (G2 dens) 0 i j) →
      Γ 0 = (Matrix.of fun _ _ => urOf dens 1 / (Real.pi * Real.pi : ℂ)) ∧
      χ 0 = rpaChi (urOf dens 1 / (Real.pi * Real.pi : ℂ)) (onBox (1 + 0) (bubLoc (Real.pi : ℂ) g 0)) := by
    intro dens Γ χ h1 h2
    have hr := rpa_ladder (c := 1) (s := 0) (Real.pi : ℂ) (urOf dens 1) _ hBl (den_ne dens _ chiL)
    have hc : ∀ i j, χ 0 (core 1 0 i) (core 1 0 j) =
        rpaChi (urOf dens 1 / (Real.pi * Real.pi : ℂ)) (onBox (1 + 0) (bubLoc (Real.pi : ℂ) g 0)) (core 1 0 i) (core 1 0 j) :=
      fun i j => (h2 i j).trans (gchi_G2 dens 0 i j)
    have hSh : 1 + urOf dens 1 / (Real.pi * Real.pi : ℂ) * (∑ l, onBox (1 + 0) (bubLoc (Real.pi : ℂ) g 0) l -
        ∑ l, onBox (1 + 0) (bubLoc (Real.pi : ℂ) g 0) (core 1 0 l)) ≠ 0 := by
      rw [sum_core_box]
      simp
    obtain ⟨Y, hY⟩ := rpa_core_inv _ _ hBl (den_ne dens _ chiL) hSh (Matrix.of fun i j => χ 0 (core 1 0 i) (core 1 0 j)) hc
    have hg' := vertex_unique h1 hr hc Y hY
    refine ⟨hg', ?_⟩
    rw [hg'] at h1
    exact ladder_unique h1 hr
  obtain ⟨l1, l2, l3, l4⟩ := e3 0 h0
  obtain ⟨kD, cD⟩ := key true ΓD χD0 l1 l2
  obtain ⟨kM, cM⟩ := key false ΓM χM0 l3 l4
  have pD : phys (Real.pi : ℂ) (χD0 0) = (rpa true : ℂ) := by rw [cD]; exact phys_rpa true _ chiL
  have pM : phys (Real.pi : ℂ) (χM0 0) = (rpa false : ℂ) := by rw [cM]; exact phys_rpa false _ chiL
  obtain ⟨bD1, bD2⟩ := rpa_bounds true
  obtain ⟨bM1, bM2⟩ := rpa_bounds false
  have hne : ∀ dens, (rpa dens : ℂ) ≠ 0 := fun dens => by
    have := (rpa_bounds dens).1
    exact_mod_cast (show rpa dens ≠ 0 by intro h; rw [h] at this; norm_num at this)
  have sum0 : ∀ f : Int → ℂ, ∑ x ∈ Finset.Icc (-((0 : Nat) : Int)) (0 : Nat), f x = f 0 := fun f => by simp
  have low : ∀ dens, 1e-6 ≤ rpa dens / Real.pi ∧ rpa dens / Real.pi ≤ 1e6 := by
    intro dens
    obtain ⟨b1, b2⟩ := rpa_bounds dens
    rw [le_div_iff₀ Real.pi_pos, div_le_iff₀ Real.pi_pos]
    constructor <;> norm_num <;> linarith
  have cone : ∀ dens, Cone 2 1 1 0 fun i j k x => phys (Real.pi : ℂ)
      (rpaChi (urOf dens 1 / (Real.pi * Real.pi : ℂ)) (onBox (1 + 0) (bubQ 2 1 1 (Real.pi : ℂ) G (i, j, k) x))) := by
    intro dens i j k hi hj hk x hx
    obtain rfl := hone x hx
    refine ⟨i, j, k, hi, hj, hk, ?_⟩
    simp only [phys_rpa dens _ (chiQ _)]
    rw [sub_self, show (1 / (rpa dens : ℂ)) = ((1 / rpa dens : ℝ) : ℂ) by push_cast; rfl, Complex.ofReal_im]
    simp
  obtain ⟨d', m', r1, r2, _, _, _, _, s1, s2, s3, s4⟩ := e4
    (by intro x hx; obtain rfl := hone x hx; rw [pD, pM]; exact ⟨hne _, hne _⟩) (rpa true / Real.pi) (rpa false / Real.pi)
    (by rw [sum0 fun x => phys (Real.pi : ℂ) (χD0 x), pD]; push_cast; ring) (by rw [sum0 fun x => phys (Real.pi : ℂ) (χM0 x), pM]; push_cast; ring)
    (low true).1 (low true).2 (low false).1 (low false).2
    (fun i j k x => rpaChi (urOf true 1 / (Real.pi * Real.pi : ℂ)) (onBox (1 + 0) (bubQ 2 1 1 (Real.pi : ℂ) G (i, j, k) x)))
    (fun i j k x => rpaChi (urOf false 1 / (Real.pi * Real.pi : ℂ)) (onBox (1 + 0) (bubQ 2 1 1 (Real.pi : ℂ) G (i, j, k) x)))
    (by
      intro i j k _ _ _ x hx
      obtain rfl := hone x hx
      rw [phys_rpa true _ (chiQ _), phys_rpa false _ (chiQ _), kD, kM]
      exact ⟨rpa_ladder (c := 1) (s := 0) (Real.pi : ℂ) (urOf true 1) _ (hypQ _ 0 h0).2.2.2 (den_ne true _ (chiQ _)), hne _,
        rpa_ladder (c := 1) (s := 0) (Real.pi : ℂ) (urOf false 1) _ (hypQ _ 0 h0).2.2.2 (den_ne false _ (chiQ _)), hne _⟩)
    (cone true) (cone false)
  exact ⟨d', m', r1, r2, s1, s2, s3, s4⟩

end DGA.Pipe.Ex2
