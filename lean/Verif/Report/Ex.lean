/-
  The input of Pipeline/FromFilesEx.lean meets the hypotheses of C132, and the potential energies of two self-energies differ.
-/
import Verif.Report.Props
import Verif.Pipeline.FromFilesEx

noncomputable section

namespace DGA.Report

open DGA.Mf DGA.Bz DGA.Bubble DGA.Two DGA.Inp DGA.Pipe DGA.Pairing

/-- a root finder that does not converge: the program keeps the start value -/
theorem gfMu_none (s : SelfEnergy) (ek : List ℝ) (n : ℝ) (m : Nat) : gfMu (fun _ _ => none) s ek n m = some 0 := by
  unfold gfMu updateMu
  simp only [Option.getD_none, Complex.ofReal_im, Complex.ofReal_re, abs_zero]
  rw [if_pos (by norm_num)]

/-- `report_returns` and `main_report` apply to the input of C129's example -/
example : ∃ out r, mainReport Pipe.Ex3.fs "test" "in/" "data.npy" none Pipe.Ex3.S (fun _ _ => none) = .ok (out, r) ∧
    r.energies.2.1 = kinetic Pipe.Ex3.S Real.pi ((siwObj (samplesF Pipe.Ex3.sg 20) Real.pi).nivCore + 1) (runG Pipe.Ex3.S 0 Real.pi Pipe.Ex3.sg 20) ∧
    r.energies.1 = kinetic Pipe.Ex3.S Real.pi 2 (dyson Pipe.Ex3.S Real.pi 0 (sigmaAt Pipe.Ex3.S out.sigma)) := by
  obtain ⟨out, h⟩ := Pipe.Ex3.returns
  have hn : 20 ≤ (siwObj (samplesF Pipe.Ex3.sg 20) Real.pi).nivCore := (estimate_bounds _ _ _ _ _ _).1
  obtain ⟨r, hr⟩ := report_returns Pipe.Ex3.fs "test" "in/" "data.npy" none Pipe.Ex3.S Pipe.Ex3.lat (fun _ _ => none) Pipe.Ex3.dict Pipe.Ex3.load 20 le_rfl Pipe.Ex3.sg rfl
    (9 / 10) Real.pi 1 0 Real.pi_pos rfl rfl rfl rfl 0 1 0 1 (Pipe.Ex3.dat true) (Pipe.Ex3.dat false) rfl rfl 1 0 0 1 (Or.inl rfl) (Or.inr ⟨rfl, rfl⟩) rfl
    (by simp [Pipe.Ex3.S]) (by omega) le_rfl le_rfl le_rfl le_rfl (by omega) (by omega) (by decide) (by decide) out h 0 (gfMu_none _ _ _ _)
  obtain ⟨_, _, _, mu, hmu, e1, e2, _⟩ := main_report Pipe.Ex3.fs "test" "in/" "data.npy" none Pipe.Ex3.S Pipe.Ex3.lat (fun _ _ => none) Pipe.Ex3.dict Pipe.Ex3.load 20 le_rfl
    Pipe.Ex3.sg rfl (9 / 10) Real.pi 1 0 Real.pi_pos rfl rfl rfl rfl 0 1 0 1 (Pipe.Ex3.dat true) (Pipe.Ex3.dat false) rfl rfl 1 0 0 1 (Or.inl rfl)
    (Or.inr ⟨rfl, rfl⟩) rfl (by simp [Pipe.Ex3.S]) (by omega) le_rfl le_rfl le_rfl le_rfl (by omega) (by omega) (by decide) (by decide) out r hr
  rw [gfMu_none] at hmu
  obtain rfl := (Option.some.inj hmu).symm
  exact ⟨out, r, hr, e2, e1⟩

/-- one momentum, one positive frequency -/
def exSe (z : ℂ) : SelfEnergy := ⟨[[z]], Real.pi, 0, 0, 1⟩

theorem exPot (z : ℂ) : ∃ g, newGf (exSe z) [0] 0 0 = some g ∧
    g.ePot 1 = some (1 / (Real.pi : ℂ) * (starRingEnd ℂ z * (1 / (-Complex.I - starRingEnd ℂ z)) + z * (1 / (Complex.I - z)))).re := by
  have hs : Fits (exSe z) [0] := by unfold Fits; simp [exSe]
  obtain ⟨a, ha, _⟩ := newGf_state (exSe z) [0] 0 0 hs (by simp [exSe]) (by simp [nK, exSe])
  obtain ⟨g, hg⟩ : ∃ g, newGf (exSe z) [0] 0 0 = some g := ⟨_, ha⟩
  obtain ⟨N, hN, _, _, hp, _⟩ := gf_energies (exSe z) [0] 0 hs (by simp [exSe]) (by simp [nK, exSe]) 0 [] g g hg rfl 1
  refine ⟨g, hg, ?_⟩
  rw [hp]
  have hN' : N = 1 := by simpa [exSe] using hN
  subst hN'
  have hI : Finset.Ico (-((1 : Nat) : Int)) (1 : Nat) = {-1, 0} := by decide
  have e0 : iv Real.pi 0 = Complex.I := by
    unfold iv
    have : (Real.pi : ℂ) ≠ 0 := by exact_mod_cast Real.pi_ne_zero
    push_cast
    field_simp
    simp
  have e1 : iv Real.pi (-1) = -Complex.I := by
    have := iv_conj Real.pi 0
    rw [e0] at this
    simpa using this.symm
  unfold ksum gVal
  rw [hI]
  simp [nK, exSe, sigmaSpec, rowOf, ekOf, e0, e1]

/-- C132 (what is missing).  The fourth column of `energies.txt` is headed `pot-dmft` but holds the potential energy of the DGA Green's
    function; with the same band, frequencies, filling and chemical potential two self-energies do have different potential energies. -/
theorem potential_depends : ∃ (s s' : SelfEnergy) (g g' : Gf) (e e' : ℝ), s.beta = s'.beta ∧ newGf s [0] 0 0 = some g ∧ newGf s' [0] 0 0 = some g' ∧
    g.ePot 1 = some e ∧ g'.ePot 1 = some e' ∧ e ≠ e' := by
  obtain ⟨g, h1, h2⟩ := exPot 0
  obtain ⟨g', h3, h4⟩ := exPot (-Complex.I)
  refine ⟨exSe 0, exSe (-Complex.I), g, g', _, _, rfl, h1, h3, h2, h4, ?_⟩
  have e : (1 / (Real.pi : ℂ) * (starRingEnd ℂ (-Complex.I) * (1 / (-Complex.I - starRingEnd ℂ (-Complex.I))) + (-Complex.I) * (1 / (Complex.I - (-Complex.I))))) =
      ((-1 / Real.pi : ℝ) : ℂ) := by
    have hI : Complex.I ≠ 0 := Complex.I_ne_zero
    have hp : (Real.pi : ℂ) ≠ 0 := by exact_mod_cast Real.pi_ne_zero
    have h5 : -Complex.I - Complex.I ≠ 0 := by intro h; apply hI; linear_combination (-1 / 2 : ℂ) * h
    have h6 : Complex.I - -Complex.I ≠ 0 := by intro h; apply hI; linear_combination (1 / 2 : ℂ) * h
    simp only [map_neg, Complex.conj_I, _root_.neg_neg]
    push_cast
    field_simp
    ring
  rw [e, Complex.ofReal_re]
  have : (0 : ℝ) < 1 / Real.pi := by positivity
  simp only [map_zero, zero_mul, add_zero, mul_zero, Complex.zero_re]
  intro h
  rw [neg_div] at h
  linarith

end DGA.Report
