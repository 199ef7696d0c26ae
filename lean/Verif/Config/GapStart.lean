/- C55: the start gaps that the default options select have the parity demanded by the Pauli principle. -/
import Verif.Config.Props
import Verif.Config.Build
import Verif.Eliash.Props2

namespace DGA.Cfg

open DGA.Eli (gapStart gapStart_parity gapStart_momentum_symmetry)

/-- C55.  With the frequency parts that `set_gap0` selects for a named momentum symmetry, the array that `get_gap_start` returns is even under
    the joint inversion of momentum and frequency for the singlet and odd for the triplet, on every grid and in every frequency box. -/
theorem default_gap_total_parity (nx ny niv : Nat) (rk rv : Nat → Nat → Nat → Nat → ℂ) (kSym : String)
    (hk : kSym ∈ ["d-wave", "p-wave-x", "p-wave-y"]) (ix iy iz iz' p : Nat) (hx : ix < nx) (hy : iy < ny) (hp : p < 2 * niv) :
    gapStart nx ny niv kSym (gap0Sing kSym) rk rv ((nx - ix) % nx) ((ny - iy) % ny) iz' (2 * niv - 1 - p) =
      gapStart nx ny niv kSym (gap0Sing kSym) rk rv ix iy iz p ∧
    gapStart nx ny niv kSym (gap0Trip kSym) rk rv ((nx - ix) % nx) ((ny - iy) % ny) iz' (2 * niv - 1 - p) =
      -gapStart nx ny niv kSym (gap0Trip kSym) rk rv ix iy iz p := by
  obtain ⟨cx, sx⟩ := DGA.Eli.kval_neg nx ix (by omega) hx
  obtain ⟨cy, sy⟩ := DGA.Eli.kval_neg ny iy (by omega) hy
  have hv : (2 * niv - 1 - p < niv) ↔ ¬ p < niv := by omega
  simp only [List.mem_cons, List.not_mem_nil, or_false] at hk
  rcases hk with rfl | rfl | rfl <;> by_cases h : p < niv <;>
    simp [gapStart, gap0Sing, gap0Trip, DGA.Eli.dWave, DGA.Eli.pWaveX, DGA.Eli.pWaveY, hv, h, cx, sx, cy, sy]

/-- a grid point where the start gaps of the d-wave do not vanish -/
example : gapStart 4 4 2 "d-wave" (gap0Trip "d-wave") (fun _ _ _ _ => 0) (fun _ _ _ _ => 0) 2 0 0 3 = 2 ∧
    gapStart 4 4 2 "d-wave" (gap0Trip "d-wave") (fun _ _ _ _ => 0) (fun _ _ _ _ => 0) 2 0 0 0 = -2 := by
  have h : Real.cos (DGA.Eli.kval 4 2) = -1 := by
    rw [show DGA.Eli.kval 4 2 = Real.pi by simp only [DGA.Eli.kval]; push_cast; ring]; exact Real.cos_pi
  have h0 : Real.cos (DGA.Eli.kval 4 0) = 1 := by simp [DGA.Eli.kval]
  constructor <;> simp [gapStart, gap0Trip, DGA.Eli.dWave, h, h0] <;> norm_num

/-- C121.  A file without a lattice section is refused with a `ValueError`, one with an empty section among the four merged ones with a
    `TypeError`, one with too many processes with a `ValueError`; the message does not depend on anything else once the lattice is accepted. -/
theorem refusals (readable : String → Bool) (conf : CfgFile) (comm : Option Nat) :
    (conf.lookup "lattice" = none → buildDga readable conf comm = .error .valueError) ∧
    (∀ sec L, conf.lookup "lattice" = some sec → buildLattice readable sec = .ok L →
      ((∃ s ∈ ["poly_fitting", "dmft_input", "output", "dga"], conf.lookup s = some none) → buildDga readable conf comm = .error .typeError) ∧
      ((∀ s ∈ ["poly_fitting", "dmft_input", "output", "dga"], conf.lookup s ≠ some none) →
        (∃ n, comm = some n ∧ nIrr L.kGrid < n) → buildDga readable conf comm = .error .valueError)) := by
  refine ⟨fun h => by simp [buildDga, h], fun sec L hs hL => ⟨fun ⟨s, hm, hn⟩ => ?_, fun hall ⟨n, hc, hn⟩ => ?_⟩⟩
  · have : (["poly_fitting", "dmft_input", "output", "dga"].any fun s => match conf.lookup s with | some none => true | _ => false) = true := by
      rw [List.any_eq_true]; exact ⟨s, hm, by rw [hn]⟩
    simp only [buildDga, hs, hL]
    exact if_pos this
  · have : (["poly_fitting", "dmft_input", "output", "dga"].any fun s => match conf.lookup s with | some none => true | _ => false) = false := by
      rw [List.any_eq_false]
      intro s hm
      have := hall s hm
      split
      · next e => exact absurd e this
      · simp
    simp only [buildDga, hs, hL]
    exact (if_neg (fun h => Bool.noConfusion (h.symm.trans this))).trans (if_neg (by simp [hc, commSizeOk, hn]))

end DGA.Cfg
