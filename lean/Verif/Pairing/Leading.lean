import Verif.Eliash.Converge3
import Verif.Pairing.SymmetryRun

/-
  C118: the leading eigenvalue with the default options (vertex symmetrised in frequency, shifted second run) from the saved pairing vertex.
-/

noncomputable section

namespace DGA.Pairing

open DGA.Eli Filter Topology

local notation "conj" => starRingEnd ℂ

variable {nx ny nz c : Nat} [NeZero nx] [NeZero ny] [NeZero nz]

/-- The kernel of a run with the symmetrisation on. -/
theorem run_kernel {niv : Nat} (r : Run nx ny nz niv) (hsym : (if r.channel = "sing" then r.symSing else r.symTrip) = true) :
    r.A = kernel (symGamma (fun q v v' => -r.F q v v') (chanSign r.channel)) (gkOf niv r.G) ((((nx * ny * nz : Nat) : ℝ) * r.beta : ℝ) : ℂ) := by
  unfold Run.A gammaOf
  rw [if_pos hsym]
  push_cast
  rfl

/-- **C118 (a).** Calculation, files, assembly and solver with the default options: if the lattice symmetries contain the inversion, the Green's function is
    conjugation symmetric and has no zeros, all eigenvalues of the symmetrised kernel are real - in both channels. -/
theorem saved_eigenvalues_real (S : Saved nx ny nz c) (hinv : S.Inversion) (r : Run nx ny nz S.npp) (hl : S.Loads r)
    (hsym : (if r.channel = "sing" then r.symSing else r.symTrip) = true) (hG : ∀ k n, r.G k (-n - 1) = conj (r.G k n)) (hG0 : ∀ k n, r.G k n ≠ 0)
    (mu : ℂ) (hmu : Eig r.A mu) : mu.im = 0 := by
  refine (symmetrised_runs (fun q v v' => -r.F q v v') (gkOf S.npp r.G) _ (chanSign r.channel) (by unfold chanSign; split_ifs <;> simp) ?_
    (fun k v => hG0 k _) (gkOf_rev S.npp r.G hG) r.A (run_kernel r hsym)).1 mu hmu
  intro q v v'
  rw [hl]
  exact saved_leading S hinv _ q v v'

/-- **C118 (b).** In the same setting, with `shift_mat`: let `top > 0` be the largest eigenvalue of the kernel and `dom` the one of largest modulus (either sign), the
    start gap contain a part along `top`, the random start of the first run one along `dom`, and no step divide by zero.  Then the first eigenvalue that is
    returned is as close to `top` as one likes, if the first and then the second run make enough steps. -/
theorem saved_reported (S : Saved nx ny nz c) (hinv : S.Inversion) (r : Run nx ny nz S.npp) (hl : S.Loads r)
    (hsym : (if r.channel = "sing" then r.symSing else r.symTrip) = true) (hG : ∀ k n, r.G k (-n - 1) = conj (r.G k n)) (hG0 : ∀ k n, r.G k n ≠ 0)
    (hc : r.channel = "sing" ∨ r.channel = "trip") (hshift : r.shiftMat = true)
    (dom top : ℝ) (hdom : ∀ mu : ℝ, Eig r.A mu → mu ≠ dom → |mu| < |dom|) (hmax : ∀ mu : ℝ, Eig r.A mu → mu ≤ top)
    (hpos : 0 < top) (hg0 : ¬ Misses r.A dom r.gap0s) (hg : ¬ Misses r.A top (gap0Of S.npp r.kSym r.channel r.rk r.rv))
    (hne0 : ∀ k, (iter r.A [] 0 r.gap0s (k + 1)).2 ≠ 0)
    (hne : ∀ s : ℂ, (s = 0 ∨ ∃ c0, s = (iter r.A [] 0 r.gap0s (c0 + 1)).2) →
      ∀ k, (iter r.A [] s (gap0Of S.npp r.kSym r.channel r.rk r.rv) (k + 1)).2 ≠ 0) (η : ℝ) (hη : 0 < η) :
    ∃ N0, ∀ c0, N0 ≤ c0 → ∃ N, ∀ c, N ≤ c → ∀ (eps : ℝ) (maxCount n : Nat),
      (powerIteration r.A [] none eps maxCount r.gap0s).count = c0 →
      (powerIteration r.A [] (shiftOf r.A true eps maxCount r.gap0s) eps maxCount (gap0Of S.npp r.kSym r.channel r.rk r.rv)).count = c →
      ∃ l p, ({ r with eps := eps, maxCount := maxCount, nEig := n + 1 } : Run nx ny nz S.npp).result = some l ∧ l[0]? = some p ∧
        ‖p.1 - (top : ℂ)‖ < η := by
  obtain ⟨N0, h⟩ := symmetrised_reported (fun q v v' => -r.F q v v') (gkOf S.npp r.G) _ (chanSign r.channel) (by unfold chanSign; split_ifs <;> simp) (by
      intro q v v'
      rw [hl]
      exact saved_leading S hinv _ q v v')
    (fun k v => hG0 k _) (gkOf_rev S.npp r.G hG) r.A (run_kernel r hsym) r.gap0s (gap0Of S.npp r.kSym r.channel r.rk r.rv) dom top hdom hmax hpos hg0 hg hne0 hne η hη
  refine ⟨N0, fun c0 hc0 => ?_⟩
  obtain ⟨N, h2⟩ := h c0 hc0
  refine ⟨N, fun c hcN eps maxCount n e0 e1 => ?_⟩
  obtain ⟨p, hp, hp'⟩ := h2 c hcN eps maxCount n e0 e1
  refine ⟨_, p, Run.result_eq _ hc, ?_, hp'⟩
  simp only [hshift]
  exact hp

example : ∃ (S : Saved 4 4 1 2) (r : Run 4 4 1 S.npp), S.C = exCalc ∧ S.Inversion ∧ S.Loads r ∧
    (if r.channel = "sing" then r.symSing else r.symTrip) = true ∧ (∀ k n, r.G k (-n - 1) = conj (r.G k n)) ∧ (∀ k n, r.G k n ≠ 0) ∧ r.channel = "trip" ∧
    r.shiftMat = true := by
  obtain ⟨S, h1, h2, h3⟩ := saved_exists exCalc (by decide) 3 (by decide) Bz.square (by simp [Bz.predefined])
  refine ⟨S,
    { kSym := "d-wave", symSing := true, symTrip := true, eps := 1, maxCount := 10, nEig := 2, beta := 10, F := S.F false,
      G := fun _ n => 1 / (Complex.I * ((2 * n + 1 : Int) : ℂ)), nivCore := S.npp, hn := le_refl _, channel := "trip", shiftMat := true,
      rk := fun _ _ _ _ => 0, rv := fun _ _ _ _ => 0, gap0s := fun _ => 1 }, h1, ?_, ?_, ?_, ?_, ?_, rfl, rfl⟩
  · unfold Saved.Inversion; rw [h2]; decide
  · simp [Saved.Loads]
  · simp
  · intro k n
    simp only [map_div₀, map_one, map_mul, Complex.conj_I, map_intCast]
    push_cast; ring_nf
  · intro k n
    refine div_ne_zero one_ne_zero (mul_ne_zero Complex.I_ne_zero ?_)
    exact_mod_cast (by omega : (2 * n + 1 : Int) ≠ 0)

end DGA.Pairing
