import Verif.Eliash.Props
import Mathlib.Tactic.IntervalCases

/-
  C36: parities of the symmetrised pairing vertex and of the start gaps.
  Position `p` of the last axis (length `2*niv`) is the Matsubara index `p - niv`; the mirrored frequency `-v` is the
  position `2*niv - 1 - p` (`Fin.rev p`).
-/

namespace DGA.Eli

/-! ### symmetrize_gamma -/

section Gamma
variable {ι : Type _} {nv : Nat} (gamma : ι → Fin nv → ℂ)

/-- Singlet: even in the last frequency. -/
theorem symmetrizeGamma_sing_even (g : ι → Fin nv → ℂ) (h : symmetrizeGamma gamma "sing" = some g) (q : ι) (v : Fin nv) :
    g q v.rev = g q v := by
  simp only [symmetrizeGamma, if_true, Option.some.injEq] at h
  subst h; simp only [Fin.rev_rev]; ring

/-- Triplet: odd in the last frequency. -/
theorem symmetrizeGamma_trip_odd (g : ι → Fin nv → ℂ) (h : symmetrizeGamma gamma "trip" = some g) (q : ι) (v : Fin nv) :
    g q v.rev = -g q v := by
  simp [symmetrizeGamma] at h
  subst h; simp only [Fin.rev_rev]; ring

/-- Both symmetrisations are projections. -/
theorem symmetrizeGamma_idem (ch : String) (g : ι → Fin nv → ℂ) (h : symmetrizeGamma gamma ch = some g) :
    symmetrizeGamma g ch = some g := by
  unfold symmetrizeGamma at h ⊢
  split at h
  · rename_i hc
    simp only [Option.some.injEq] at h; subst h
    rw [if_pos hc]; congr 1
    funext q v; simp only [Fin.rev_rev]; ring
  · rename_i hn
    split at h
    · rename_i hc
      simp only [Option.some.injEq] at h; subst h
      rw [if_neg hn, if_pos hc]; congr 1
      funext q v; simp only [Fin.rev_rev]; ring
    · simp at h

/-- An already even (odd) vertex is unchanged by the singlet (triplet) symmetrisation. -/
theorem symmetrizeGamma_fixed : ((∀ q v, gamma q v.rev = gamma q v) → symmetrizeGamma gamma "sing" = some gamma) ∧
    ((∀ q v, gamma q v.rev = -gamma q v) → symmetrizeGamma gamma "trip" = some gamma) := by
  constructor
  · intro h
    simp only [symmetrizeGamma, if_true, Option.some.injEq, h]; funext q v; ring
  · intro h
    simp [symmetrizeGamma, h]; funext q v; ring

/-- The two parts add up to the vertex; each annihilates the other. -/
theorem symmetrizeGamma_complementary : ∃ s t, symmetrizeGamma gamma "sing" = some s ∧
    symmetrizeGamma gamma "trip" = some t ∧ (∀ q v, s q v + t q v = gamma q v) ∧
    symmetrizeGamma s "trip" = some (fun _ _ => 0) ∧ symmetrizeGamma t "sing" = some (fun _ _ => 0) := by
  refine ⟨_, _, rfl, rfl, ?_, ?_, ?_⟩
  · intro q v; ring
  · simp only [symmetrizeGamma, Fin.rev_rev]
    rw [if_neg (by decide), if_pos trivial]
    congr 1; funext q v; ring
  · simp only [symmetrizeGamma, Fin.rev_rev]
    rw [if_pos trivial]
    congr 1; funext q v; ring

/-- Any other channel raises. -/
theorem symmetrizeGamma_raises (ch : String) :
    symmetrizeGamma gamma ch = none ↔ ch ≠ "sing" ∧ ch ≠ "trip" := by
  unfold symmetrizeGamma
  split
  · simp [*]
  · split <;> simp [*]

end Gamma

/-! ### get_gap_start -/

section Gap
variable (nx ny niv : Nat) (rk rv : Nat → Nat → Nat → Nat → ℂ)

/-- The k-types with a fixed momentum form factor. -/
def namedK : List String := ["d-wave", "p-wave-y", "p-wave-x"]

/-- For a named k-type and 'even' / 'odd' the start gap is even / odd under `v -> -v`. -/
theorem gapStart_parity (kt : String) (hk : kt ∈ namedK) (ix iy iz p : Nat) (hp : p < 2 * niv) :
    gapStart nx ny niv kt "even" rk rv ix iy iz (2 * niv - 1 - p) = gapStart nx ny niv kt "even" rk rv ix iy iz p ∧
    gapStart nx ny niv kt "odd" rk rv ix iy iz (2 * niv - 1 - p) = -gapStart nx ny niv kt "odd" rk rv ix iy iz p := by
  simp only [namedK, List.mem_cons, List.not_mem_nil, or_false] at hk
  rcases hk with rfl | rfl | rfl
  all_goals
    simp [gapStart]
    by_cases h : p < niv
    · rw [if_pos h, if_neg (by omega)]; simp
    · rw [if_neg h, if_pos (by omega)]

/-- Momentum dependence for a named k-type, upper half of the axis: the documented form factor at the grid point. -/
theorem gapStart_value (vt : String) (hv : vt = "even" ∨ vt = "odd") (ix iy iz p : Nat) (hp : niv ≤ p) :
    gapStart nx ny niv "d-wave" vt rk rv ix iy iz p =
      ((-Real.cos (2 * Real.pi * ix / nx) + Real.cos (2 * Real.pi * iy / ny) : ℝ) : ℂ) ∧
    gapStart nx ny niv "p-wave-x" vt rk rv ix iy iz p = ((Real.sin (2 * Real.pi * ix / nx) : ℝ) : ℂ) ∧
    gapStart nx ny niv "p-wave-y" vt rk rv ix iy iz p = ((Real.sin (2 * Real.pi * iy / ny) : ℝ) : ℂ) := by
  have hn : ¬ p < niv := by omega
  rcases hv with rfl | rfl <;> simp [gapStart, hn, dWave, pWaveX, pWaveY, kval]

theorem kval_neg (n i : Nat) (hn : 0 < n) (hi : i < n) :
    Real.cos (kval n ((n - i) % n)) = Real.cos (kval n i) ∧ Real.sin (kval n ((n - i) % n)) = -Real.sin (kval n i) := by
  have hn' : (n : ℝ) ≠ 0 := by exact_mod_cast hn.ne'
  by_cases h0 : i = 0
  · subst h0; simp [kval]
  · rw [Nat.mod_eq_of_lt (by omega)]
    have : kval n (n - i) = 2 * Real.pi - kval n i := by
      simp only [kval, Nat.cast_sub hi.le]; field_simp
    rw [this, Real.cos_two_pi_sub, Real.sin_two_pi_sub]
    exact ⟨rfl, rfl⟩

/-- d-wave: on a square mesh it changes sign under exchange of kx and ky, and it is even under inversion of either
    component; p-wave: odd under inversion of its own component, independent of the other. -/
theorem gapStart_momentum_symmetry (vt : String) (hv : vt = "even" ∨ vt = "odd") (ix iy iz p : Nat)
    (hx : ix < nx) (hy : iy < ny) :
    (nx = ny → gapStart nx ny niv "d-wave" vt rk rv iy ix iz p = -gapStart nx ny niv "d-wave" vt rk rv ix iy iz p) ∧
    gapStart nx ny niv "d-wave" vt rk rv ((nx - ix) % nx) iy iz p = gapStart nx ny niv "d-wave" vt rk rv ix iy iz p ∧
    gapStart nx ny niv "d-wave" vt rk rv ix ((ny - iy) % ny) iz p = gapStart nx ny niv "d-wave" vt rk rv ix iy iz p ∧
    gapStart nx ny niv "p-wave-x" vt rk rv ((nx - ix) % nx) iy iz p = -gapStart nx ny niv "p-wave-x" vt rk rv ix iy iz p ∧
    gapStart nx ny niv "p-wave-y" vt rk rv ix ((ny - iy) % ny) iz p = -gapStart nx ny niv "p-wave-y" vt rk rv ix iy iz p := by
  have hcx := kval_neg nx ix (by omega) hx
  have hcy := kval_neg ny iy (by omega) hy
  refine ⟨?_, ?_, ?_, ?_, ?_⟩
  · rintro rfl
    rcases hv with rfl | rfl <;> by_cases h : p < niv <;> simp [gapStart, h, dWave]
  · rcases hv with rfl | rfl <;> simp [gapStart, dWave, hcx.1]
  · rcases hv with rfl | rfl <;> simp [gapStart, dWave, hcy.1]
  · rcases hv with rfl | rfl
    · simp [gapStart, pWaveX, hcx.2]
    · by_cases h : p < niv <;> simp [gapStart, pWaveX, hcx.2, h]
  · rcases hv with rfl | rfl
    · simp [gapStart, pWaveY, hcy.2]
    · by_cases h : p < niv <;> simp [gapStart, pWaveY, hcy.2, h]

/-- Any v-type other than 'even' / 'odd' discards the k-type: the result is the second random array. -/
theorem gapStart_random_v (kt vt : String) (h : vt ≠ "even" ∧ vt ≠ "odd") (ix iy iz p : Nat) :
    gapStart nx ny niv kt vt rk rv ix iy iz p = rv ix iy iz p := by
  simp [gapStart, h.1, h.2]

/-- For a random k-type 'even' / 'odd' copy the upper half without mirroring it. -/
theorem gapStart_random_k (kt : String) (hk : kt ∉ namedK) (ix iy iz p : Nat) (hp : p < niv) :
    gapStart nx ny niv kt "even" rk rv ix iy iz p = rk ix iy iz (p + niv) ∧
    gapStart nx ny niv kt "odd" rk rv ix iy iz p = -rk ix iy iz (p + niv) := by
  simp only [namedK, List.mem_cons, List.not_mem_nil, or_false, not_or] at hk
  simp [gapStart, hk.1, hk.2.1, hk.2.2, hp]

end Gap

/-- So with a random k-type the 'even' start gap is in general not even in frequency. -/
theorem gapStart_random_not_even : ∃ (rk rv : Nat → Nat → Nat → Nat → ℂ),
    gapStart 1 1 2 "random" "even" rk rv 0 0 0 (2 * 2 - 1 - 0) ≠ gapStart 1 1 2 "random" "even" rk rv 0 0 0 0 := by
  refine ⟨fun _ _ _ u => (u : ℂ), fun _ _ _ _ => 0, ?_⟩
  simp [gapStart]

example : ("d-wave" ∈ namedK) ∧ gapStart 4 4 2 "d-wave" "even" (fun _ _ _ _ => 0) (fun _ _ _ _ => 0) 2 0 0 3 = 2 := by
  refine ⟨by decide, ?_⟩
  have h := (gapStart_value 4 4 2 (fun _ _ _ _ => 0) (fun _ _ _ _ => 0) "even" (Or.inl rfl) 2 0 0 3 (by decide)).1
  rw [h]
  have : 2 * Real.pi * ((2 : ℕ) : ℝ) / ((4 : ℕ) : ℝ) = Real.pi := by push_cast; ring
  rw [this]; norm_num

end DGA.Eli
