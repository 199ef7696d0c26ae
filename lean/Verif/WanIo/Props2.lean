/-
  The band structure from a reloaded file (C80, continued), and concrete instances.
-/
import Verif.WanIo.Props
import Verif.Wannier.Model
import Mathlib.Analysis.Complex.Norm
import Mathlib.Analysis.Complex.Trigonometric

namespace DGA.WanIo

open DGA.Wan (Hr convham)

/-- the arrays of `WannierHr` from the elements in C order of `[R, a, b]` (wannier.py:285-287: `reshape(nr, n_bands, n_bands, ...)`) -/
noncomputable def hrOf (nr nb : Nat) (w : List Int) (r : List (ℚ × ℚ × ℚ)) (o : List (ℚ × ℚ)) (h : List (ℚ × ℚ)) : Hr nb where
  nr := nr
  hr := fun R a b => let p := h.getD ((R * nb + a) * nb + b) (0, 0); ((p.1 : ℝ) : ℂ) + ((p.2 : ℝ) : ℂ) * Complex.I
  rGrid := fun R a b x => let p := r.getD ((R * nb + a) * nb + b) (0, 0, 0); ((![p.1, p.2.1, p.2.2] x : ℚ) : ℝ)
  w := fun R => ((w.getD R 0 : Int) : ℝ)
  orbs := fun R a b x => let p := o.getD ((R * nb + a) * nb + b) (0, 0); ((![p.1, p.2] x : ℚ) : ℝ)

/-- the Hamiltonian that is written -/
noncomputable def hrOfRows (nr nb : Nat) (w : List Nat) (rows : List Row) : Hr nb :=
  hrOf nr nb (w.map fun (k : Nat) => (k : Int)) (rows.map fun (x : Row) => ((x.r.1 : ℚ), (x.r.2.1 : ℚ), (x.r.2.2 : ℚ)))
    (rows.map fun (x : Row) => ((x.o.1 : ℚ), (x.o.2 : ℚ))) (rows.map fun (x : Row) => (x.re, x.im))

theorem getD_map_rows {β : Type} (rows : List Row) (f : Row → β) (n : Nat) (h : n < rows.length) (d : β) :
    (rows.map f).getD n d = f (rows[n]'h) := by
  simp [List.getD, h]

/-- **C80.** The bands of a reloaded Hamiltonian differ from those of the Hamiltonian written by at most `nr · 10^-6`, at every momentum. -/
theorem reloaded_band_error (isFloat : Bool) (nr nb : Nat) (w : List Nat) (rows : List Row) (hw : w.length = nr)
    (hrows : rows.length = nr * nb * nb) (hpos : ∀ k ∈ w, 1 ≤ k) (d : Read) (hd : readHr (writeHr isFloat nr nb w rows) = some d)
    {ι : Type} (kmesh : Fin 3 → ι → ℝ) (ik : ι) (a b : Fin nb) :
    ‖convham (hrOf nr nb d.w d.r d.o d.h) kmesh ik a b - convham (hrOfRows nr nb w rows) kmesh ik a b‖ ≤ nr * (1 / 10 ^ 6) := by
  rw [hr_file_roundtrip isFloat nr nb w rows hw hrows] at hd
  split at hd
  swap
  · exact absurd hd (by simp)
  obtain rfl := Option.some.inj hd
  simp only [convham]
  rw [show (nr : ℝ) * (1 / 10 ^ 6) = ∑ _R : Fin nr, (1 / 10 ^ 6 : ℝ) by simp]
  rw [show (∑ R, Complex.exp (Complex.I * (((hrOf nr nb (expected nr nb w rows).w (expected nr nb w rows).r (expected nr nb w rows).o
      (expected nr nb w rows).h).dot (fun x => kmesh x ik) R a b : ℝ) : ℂ)) / ((hrOf nr nb (expected nr nb w rows).w (expected nr nb w rows).r
      (expected nr nb w rows).o (expected nr nb w rows).h).w R : ℂ) * (hrOf nr nb (expected nr nb w rows).w (expected nr nb w rows).r
      (expected nr nb w rows).o (expected nr nb w rows).h).hr R a b) - (∑ R, Complex.exp (Complex.I * (((hrOfRows nr nb w rows).dot
      (fun x => kmesh x ik) R a b : ℝ) : ℂ)) / ((hrOfRows nr nb w rows).w R : ℂ) * (hrOfRows nr nb w rows).hr R a b) =
      ∑ R : Fin nr, (Complex.exp (Complex.I * (((hrOfRows nr nb w rows).dot (fun x => kmesh x ik) R a b : ℝ) : ℂ)) /
        ((hrOfRows nr nb w rows).w R : ℂ) * (hrOf nr nb (expected nr nb w rows).w (expected nr nb w rows).r
      (expected nr nb w rows).o (expected nr nb w rows).h).hr R a b - Complex.exp (Complex.I * (((hrOfRows nr nb w rows).dot
      (fun x => kmesh x ik) R a b : ℝ) : ℂ)) / ((hrOfRows nr nb w rows).w R : ℂ) * (hrOfRows nr nb w rows).hr R a b) from
      (Finset.sum_sub_distrib _ _).symm]
  refine (norm_sum_le _ _).trans (Finset.sum_le_sum fun R _ => ?_)
  rw [← mul_sub, norm_mul, norm_div, mul_comm Complex.I, Complex.norm_exp_ofReal_mul_I]
  have hidx : (R.val * nb + a.val) * nb + b.val < rows.length := by
    rw [hrows]
    have h1 : R.val * nb + a.val + 1 ≤ nr * nb := by
      calc R.val * nb + a.val + 1 ≤ R.val * nb + nb := by omega
        _ = (R.val + 1) * nb := by ring
        _ ≤ nr * nb := Nat.mul_le_mul_right _ R.isLt
    calc (R.val * nb + a.val) * nb + b.val < (R.val * nb + a.val) * nb + nb := by omega
      _ = (R.val * nb + a.val + 1) * nb := by ring
      _ ≤ nr * nb * nb := Nat.mul_le_mul_right _ h1
  set x := rows[(R.val * nb + a.val) * nb + b.val]'hidx with hx
  have hRw : R.val < w.length := by rw [hw]; exact R.isLt
  have hwR : (1 : ℝ) ≤ ‖((hrOfRows nr nb w rows).w R : ℂ)‖ := by
    have : (hrOfRows nr nb w rows).w R = ((w[R.val]'hRw : ℕ) : ℝ) := by
      simp [hrOfRows, hrOf, List.getD, hRw]
    rw [this, Complex.norm_real, Real.norm_natCast]
    exact_mod_cast hpos _ (List.getElem_mem hRw)
  have hdiff : ‖(hrOf nr nb (expected nr nb w rows).w (expected nr nb w rows).r (expected nr nb w rows).o (expected nr nb w rows).h).hr R a b -
      (hrOfRows nr nb w rows).hr R a b‖ ≤ 1 / 10 ^ 6 := by
    have e1 : (hrOf nr nb (expected nr nb w rows).w (expected nr nb w rows).r (expected nr nb w rows).o (expected nr nb w rows).h).hr R a b =
        ((rounded x.re : ℝ) : ℂ) + ((rounded x.im : ℝ) : ℂ) * Complex.I := by
      simp only [hrOf, expected]
      rw [getD_map_rows _ _ _ hidx]
    have e2 : (hrOfRows nr nb w rows).hr R a b = ((x.re : ℝ) : ℂ) + ((x.im : ℝ) : ℂ) * Complex.I := by
      simp only [hrOfRows, hrOf]
      rw [getD_map_rows _ _ _ hidx]
    rw [e1, e2]
    have c1 : |((x.re - rounded x.re : ℚ) : ℝ)| ≤ 1 / 2 / 10 ^ 6 := by
      have : ((|x.re - rounded x.re| : ℚ) : ℝ) ≤ ((1 / 2 / 10 ^ 6 : ℚ) : ℝ) := Rat.cast_le.mpr (rounded_close x.re)
      rw [Rat.cast_abs] at this
      refine this.trans (le_of_eq ?_)
      norm_num
    have c2 : |((x.im - rounded x.im : ℚ) : ℝ)| ≤ 1 / 2 / 10 ^ 6 := by
      have : ((|x.im - rounded x.im| : ℚ) : ℝ) ≤ ((1 / 2 / 10 ^ 6 : ℚ) : ℝ) := Rat.cast_le.mpr (rounded_close x.im)
      rw [Rat.cast_abs] at this
      refine this.trans (le_of_eq ?_)
      norm_num
    have e3 : (((rounded x.re : ℝ) : ℂ) + ((rounded x.im : ℝ) : ℂ) * Complex.I) - (((x.re : ℝ) : ℂ) + ((x.im : ℝ) : ℂ) * Complex.I) =
        -((((x.re - rounded x.re : ℚ) : ℝ) : ℂ) + (((x.im - rounded x.im : ℚ) : ℝ) : ℂ) * Complex.I) := by
      push_cast; ring
    rw [e3, norm_neg]
    refine (norm_add_le _ _).trans ?_
    rw [norm_mul, Complex.norm_I, mul_one, Complex.norm_real, Complex.norm_real, Real.norm_eq_abs, Real.norm_eq_abs]
    linarith
  calc 1 / ‖((hrOfRows nr nb w rows).w R : ℂ)‖ * _ ≤ 1 * (1 / 10 ^ 6) := by
        refine mul_le_mul ?_ hdiff (norm_nonneg _) (by norm_num)
        rw [div_le_iff₀ (by linarith)]
        linarith
    _ = 1 / 10 ^ 6 := one_mul _

/-! ### concrete instances -/

/-- two lattice vectors, one band; the second vector starts with -1000 in the first field, which is allowed -/
def exRows : List Row := [⟨(-1000, 0, 12345), (1, 1), -1 / 4, 2 / 3⟩, ⟨(-3, -999, 0), (1, 1), 1000, -999⟩]

example : readHr (writeHr true 2 1 [1, 2] exRows) = some ⟨2, 1, [1, 2], [(-1000, 0, 12345), (-3, -999, 0)], [(1, 1), (1, 1)],
    [(-1 / 4, 666667 / 10 ^ 6), (1000, -999)]⟩ := by
  rw [hr_file_roundtrip true 2 1 [1, 2] exRows rfl rfl, if_pos (by decide +kernel)]
  decide +kernel

/-- the text itself -/
example : (writeHr true 2 1 [1, 2] exRows).map String.ofList = ["# Written using the wannier module of the dga code", "1 ", "2 ", "    1.0    2.0",
    "-1000    0 12345    1    1   -0.250000    0.666667", "   -3 -999    0    1    1 1000.000000 -999.000000"] := by decide +kernel

/-- **C80, the limit.** A lattice vector whose second component is -1000, or a hopping of -1000, makes the file unreadable: the fixed-width fields
    run together. -/
theorem fused_rejected : readHr (writeHr true 1 1 [1] [⟨(0, -1000, 0), (1, 1), -1, 0⟩]) = none ∧
    readHr (writeHr true 1 1 [1] [⟨(0, 0, 0), (1, 1), 0, -1000⟩]) = none := by
  constructor
  · rw [hr_file_roundtrip true 1 1 [1] _ rfl rfl, if_neg (by decide +kernel)]
  · rw [hr_file_roundtrip true 1 1 [1] _ rfl rfl, if_neg (by decide +kernel)]

end DGA.WanIo
