/-
  C134: the band of a run comes from the configuration: hopping amplitudes or a Wannier90 file.  When does a table of hopping elements fit the
  symmetries of the configuration (`LatticeOk`, the hypothesis of C78 and C129-C133), and what does a run see of a table that was saved to a file?
-/
import Verif.Pipeline.FromFilesProps
import Verif.WanIo.Props2
import Verif.Config.Build

namespace DGA.Pipe

open DGA.Bz DGA.Wan DGA.WanIo
open DGA.RankFiles (Str)

/-! ### Specification -/

/-- a symmetry operation acting on vectors (momenta and lattice vectors) -/
def rot : Sym → (Fin 3 → ℝ) → Fin 3 → ℝ
  | .xInv, v => ![-v 0, v 1, v 2]
  | .yInv, v => ![v 0, -v 1, v 2]
  | .zInv, v => ![v 0, v 1, -v 2]
  | .xySym, v => ![v 1, v 0, v 2]
  | .xyInv, v => ![-v 0, -v 1, v 2]
  | .other _, v => v

/-- A table of hopping elements (of the first orbital) with the symmetries of the lattice: the vectors are lattice vectors, `H(-R) = conj H(R)`, and
    every operation permutes the vectors without changing element and weight. -/
structure TableOk {nb : Nat} (h : Hr (nb + 1)) (syms : List Sym) : Prop where
  int : ∀ R, ∃ z : Fin 3 → ℤ, ∀ x, h.rGrid R 0 0 x = z x
  herm : ∃ e : Fin h.nr ≃ Fin h.nr, ∀ R, (∀ x, h.rGrid (e R) 0 0 x = -h.rGrid R 0 0 x) ∧ h.hr (e R) 0 0 = star (h.hr R 0 0) ∧ h.w (e R) = h.w R
  sym : ∀ σ ∈ syms, ∃ e : Fin h.nr ≃ Fin h.nr, ∀ R, h.rGrid (e R) 0 0 = rot σ (h.rGrid R 0 0) ∧ h.hr (e R) 0 0 = h.hr R 0 0 ∧ h.w (e R) = h.w R

/-! ### Symmetric tables give symmetric bands -/

theorem bloch_table_real {nb : Nat} {h : Hr (nb + 1)} {syms : List Sym} (ht : TableOk h syms) (q : Fin 3 → ℝ) : (bloch h q).im = 0 := by
  obtain ⟨e, he⟩ := ht.herm
  have key : (starRingEnd ℂ) (bloch h q) = bloch h q := by
    unfold bloch
    rw [map_sum, ← Equiv.sum_comp e]
    apply Finset.sum_congr rfl
    intro R _
    obtain ⟨h1, h2, h3⟩ := he R
    rw [h2, h3, map_mul, map_div₀, ← Complex.exp_conj, map_mul, Complex.conj_I, Complex.conj_ofReal, Complex.conj_ofReal]
    have h4 : ∑ x, h.rGrid (e R) 0 0 x * q x = -∑ x, h.rGrid R 0 0 x * q x := by
      rw [← Finset.sum_neg_distrib]
      exact Finset.sum_congr rfl fun x _ => by rw [h1 x]; ring
    rw [h4, show star (h.hr R 0 0) = (starRingEnd ℂ) (h.hr R 0 0) from rfl, Complex.conj_conj]
    push_cast
    rw [neg_mul, mul_neg, _root_.neg_neg]
  have := congrArg Complex.im key
  rw [Complex.conj_im] at this
  linarith

/-- the band is periodic in the reciprocal lattice -/
theorem bloch_periodic {nb : Nat} {h : Hr (nb + 1)} (hi : ∀ R, ∃ z : Fin 3 → ℤ, ∀ x, h.rGrid R 0 0 x = z x) (q : Fin 3 → ℝ) (n : Fin 3 → ℤ) :
    bloch h (fun x => q x + 2 * Real.pi * n x) = bloch h q := by
  unfold bloch
  apply Finset.sum_congr rfl
  intro R _
  obtain ⟨z, hz⟩ := hi R
  congr 2
  have e : ∑ x, h.rGrid R 0 0 x * (q x + 2 * Real.pi * n x) = ∑ x, h.rGrid R 0 0 x * q x + ((∑ x, z x * n x : ℤ) : ℝ) * (2 * Real.pi) := by
    push_cast
    rw [Finset.sum_mul, ← Finset.sum_add_distrib]
    exact Finset.sum_congr rfl fun x _ => by rw [hz x]; ring
  rw [e]
  have h2 : Complex.I * (((∑ x, h.rGrid R 0 0 x * q x) + ((∑ x, z x * n x : ℤ) : ℝ) * (2 * Real.pi) : ℝ) : ℂ) =
      Complex.I * ((∑ x, h.rGrid R 0 0 x * q x : ℝ) : ℂ) + ((∑ x, z x * n x : ℤ) : ℂ) * (2 * Real.pi * Complex.I) := by
    push_cast; ring
  rw [h2, Complex.exp_add, Complex.exp_int_mul_two_pi_mul_I, mul_one]

/-- an operation of the table is a symmetry of the band -/
theorem bloch_rot {nb : Nat} {h : Hr (nb + 1)} {syms : List Sym} (ht : TableOk h syms) (σ : Sym) (hσ : σ ∈ syms) (q : Fin 3 → ℝ) :
    bloch h (rot σ q) = bloch h q := by
  obtain ⟨e, he⟩ := ht.sym σ hσ
  unfold bloch
  rw [← Equiv.sum_comp e]
  apply Finset.sum_congr rfl
  intro R _
  obtain ⟨h1, h2, h3⟩ := he R
  have h4 : ∑ x, h.rGrid (e R) 0 0 x * rot σ q x = ∑ x, h.rGrid R 0 0 x * q x := by
    rw [h1, Fin.sum_univ_three, Fin.sum_univ_three]
    cases σ <;> simp [rot]
    ring
  rw [h2, h3, h4]

/-- the image of a grid point is the rotated momentum up to a reciprocal lattice vector -/
theorem kPt_axis (n i : Nat) (h : i < n) : ∃ z : ℤ, 2 * Real.pi * (((n - i) % n : Nat) : ℝ) / n = -(2 * Real.pi * i / n) + 2 * Real.pi * z := by
  have hn : (n : ℝ) ≠ 0 := by have : n ≠ 0 := by omega
                              exact_mod_cast this
  by_cases h0 : i = 0
  · subst h0
    exact ⟨0, by simp⟩
  · refine ⟨1, ?_⟩
    rw [Nat.mod_eq_of_lt (by omega), Nat.cast_sub h.le]
    field_simp
    push_cast
    ring

theorem kPt_image (nx ny nz : Nat) (σ : Sym) (p : Pt) (hp : InGrid nx ny nz p) (hxy : σ = .xySym → nx = ny) :
    ∃ n : Fin 3 → ℤ, kPt nx ny nz (Bz.image nx ny nz σ p).1 (Bz.image nx ny nz σ p).2.1 (Bz.image nx ny nz σ p).2.2 =
      fun x => rot σ (kPt nx ny nz p.1 p.2.1 p.2.2) x + 2 * Real.pi * n x := by
  obtain ⟨i, j, k⟩ := p
  obtain ⟨hi, hj, hk⟩ := hp
  simp only at hi hj hk
  obtain ⟨zx, hzx⟩ := kPt_axis nx i hi
  obtain ⟨zy, hzy⟩ := kPt_axis ny j hj
  obtain ⟨zz, hzz⟩ := kPt_axis nz k hk
  cases σ with
  | xInv =>
    refine ⟨![zx, 0, 0], ?_⟩
    funext x
    fin_cases x <;> simp [kPt, rot, Bz.image, hzx]
  | yInv =>
    refine ⟨![0, zy, 0], ?_⟩
    funext x
    fin_cases x <;> simp [kPt, rot, Bz.image, hzy]
  | zInv =>
    refine ⟨![0, 0, zz], ?_⟩
    funext x
    fin_cases x <;> simp [kPt, rot, Bz.image, hzz]
  | xySym =>
    obtain rfl := hxy rfl
    refine ⟨![0, 0, 0], ?_⟩
    funext x
    fin_cases x <;> simp [kPt, rot, Bz.image]
  | xyInv =>
    refine ⟨![zx, zy, 0], ?_⟩
    funext x
    fin_cases x <;> simp [kPt, rot, Bz.image, hzx, hzy]
  | other s =>
    refine ⟨![0, 0, 0], ?_⟩
    funext x
    fin_cases x <;> simp [rot, Bz.image]

/-- **C134 (a).** A table of hopping elements with the symmetries of the configuration meets the hypothesis of the theorems on complete runs, on
    every momentum grid (also on grids with `nx ≠ ny`, where the exchange of `x` and `y` is skipped). -/
theorem lattice_of_table {nb : Nat} {h : Hr (nb + 1)} {syms : List Sym} (ht : TableOk h syms) (nx ny nz : Nat) : LatticeOk nx ny nz h syms := by
  refine ⟨bloch_table_real ht, ?_⟩
  intro σ hσ p hp
  by_cases hxy : σ = .xySym → nx = ny
  · obtain ⟨n, hn⟩ := kPt_image nx ny nz σ p hp hxy
    rw [hn, bloch_periodic ht.int, bloch_rot ht σ hσ]
  · push Not at hxy
    obtain ⟨rfl, hne⟩ := hxy
    simp [Bz.image, hne]

/-! ### Model -/

/-- config.py:271-278 `set_hr`, wannier.py:52-54 `create_wannier_hr_from_file`, 268-296 `read_hr_w2k`: the table of a run.  A table without orbitals
    is refused (`none`) by wannier.py:27 `[..., 0, 0]`. -/
noncomputable def latticeHr (wan : String → Option (List Str)) : Cfg.HrIn → Option (Σ nb : Nat, Hr (nb + 1))
  | .hop t tp tpp => some ⟨0, oneBand t tp tpp⟩
  | .file f => (wan f).bind fun lines => (readHr lines).bind fun d =>
      match d.nb.toNat with
      | 0 => none
      | nb + 1 => some ⟨nb, hrOf d.nr.toNat (nb + 1) d.w d.r d.o d.h⟩

/-! ### Tables in files -/

theorem rounded_neg (q : ℚ) : rounded (-q) = -rounded q := by
  unfold rounded
  rw [abs_neg]
  have h0 : roundEven 0 = 0 := by simp [roundEven]
  rcases lt_trichotomy q 0 with h | h | h
  · rw [if_neg (by linarith), if_pos h, _root_.neg_neg]
  · subst h; simp [h0]
  · rw [if_pos (by linarith), if_neg (by linarith)]

/-- the elements of the first orbital of a table with `nb + 1` orbitals -/
def first (nb : Nat) (rows : List Row) (R : Nat) : Row := rows.getD (R * (nb + 1) * (nb + 1)) ⟨(0, 0, 0), (0, 0), 0, 0⟩

/-- the lattice vector of a row -/
def vec (x : Row) : Fin 3 → ℝ := ![(x.r.1 : ℝ), (x.r.2.1 : ℝ), (x.r.2.2 : ℝ)]

/-- Symmetric rows: `H(-R) = conj H(R)`, and every operation permutes the vectors without changing element and weight. -/
structure RowsOk (nr nb : Nat) (w : List Nat) (rows : List Row) (syms : List Sym) : Prop where
  herm : ∃ e : Fin nr ≃ Fin nr, ∀ R, (∀ x, vec (first nb rows (e R)) x = -vec (first nb rows R) x) ∧
    (first nb rows (e R)).re = (first nb rows R).re ∧ (first nb rows (e R)).im = -(first nb rows R).im ∧ w.getD (e R) 0 = w.getD R 0
  sym : ∀ σ ∈ syms, ∃ e : Fin nr ≃ Fin nr, ∀ R, vec (first nb rows (e R)) = rot σ (vec (first nb rows R)) ∧
    (first nb rows (e R)).re = (first nb rows R).re ∧ (first nb rows (e R)).im = (first nb rows R).im ∧ w.getD (e R) 0 = w.getD R 0

/-- the table a run sees after a table was saved -/
theorem latticeHr_file (wan : String → Option (List Str)) (f : String) (isFloat : Bool) (nr nb : Nat) (w : List Nat) (rows : List Row)
    (hw : w.length = nr) (hrows : rows.length = nr * (nb + 1) * (nb + 1)) (hfit : ∀ x ∈ rows, Fits x)
    (hf : wan f = some (writeHr isFloat nr (nb + 1) w rows)) :
    latticeHr wan (.file f) = some ⟨nb, hrOf nr (nb + 1) (expected nr (nb + 1) w rows).w (expected nr (nb + 1) w rows).r (expected nr (nb + 1) w rows).o
      (expected nr (nb + 1) w rows).h⟩ := by
  show ((wan f).bind _) = _
  rw [hf, Option.bind_some, hr_file_roundtrip isFloat nr (nb + 1) w rows hw hrows, if_pos hfit, Option.bind_some]
  rfl

theorem first_idx (nr nb R : Nat) (hR : R < nr) : (R * (nb + 1) + 0) * (nb + 1) + 0 < nr * (nb + 1) * (nb + 1) := by
  have : R * (nb + 1) * (nb + 1) < nr * (nb + 1) * (nb + 1) := by gcongr
  simpa using this

theorem hrOf_first (nr nb : Nat) (w : List Nat) (rows : List Row) (hw : w.length = nr) (hrows : rows.length = nr * (nb + 1) * (nb + 1)) (R : Fin nr) :
    (∀ x, (hrOf nr (nb + 1) (expected nr (nb + 1) w rows).w (expected nr (nb + 1) w rows).r (expected nr (nb + 1) w rows).o
      (expected nr (nb + 1) w rows).h).rGrid R 0 0 x = vec (first nb rows R) x) ∧
    (hrOf nr (nb + 1) (expected nr (nb + 1) w rows).w (expected nr (nb + 1) w rows).r (expected nr (nb + 1) w rows).o
      (expected nr (nb + 1) w rows).h).hr R 0 0 =
        ((rounded (first nb rows R).re : ℝ) : ℂ) + ((rounded (first nb rows R).im : ℝ) : ℂ) * Complex.I ∧
    (hrOf nr (nb + 1) (expected nr (nb + 1) w rows).w (expected nr (nb + 1) w rows).r (expected nr (nb + 1) w rows).o
      (expected nr (nb + 1) w rows).h).w R = w.getD R 0 := by
  have hidx : (R.val * (nb + 1) + (0 : Fin (nb + 1)).val) * (nb + 1) + (0 : Fin (nb + 1)).val < rows.length := by
    rw [hrows]; exact first_idx nr nb R.val R.isLt
  have hf : first nb rows R = rows[(R.val * (nb + 1) + (0 : Fin (nb + 1)).val) * (nb + 1) + (0 : Fin (nb + 1)).val]'hidx := by
    unfold first
    have : R.val * (nb + 1) * (nb + 1) = (R.val * (nb + 1) + (0 : Fin (nb + 1)).val) * (nb + 1) + (0 : Fin (nb + 1)).val := by simp
    rw [List.getD_eq_getElem?_getD, this, List.getElem?_eq_getElem hidx, Option.getD_some]
  refine ⟨?_, ?_, ?_⟩
  · intro x
    show ((_ : ℚ) : ℝ) = _
    simp only [expected, getD_map_rows _ _ _ hidx]
    rw [hf]
    fin_cases x <;> simp [vec]
  · simp only [hrOf, expected, getD_map_rows _ _ _ hidx]
    rw [hf]
  · simp only [hrOf, expected]
    have hR : R.val < w.length := by rw [hw]; exact R.isLt
    simp [List.getD, hR]

/-- **C134 (b).** The run that reads a saved table sees, at every momentum, the Fourier sum of the first orbital's elements rounded to six decimals;
    and if the table that was saved has the symmetries of the configuration, so has the one that is read, so that the run meets the hypothesis of the
    theorems on complete runs on every grid. -/
theorem saved_table (wan : String → Option (List Str)) (f : String) (isFloat : Bool) (nr nb : Nat) (w : List Nat) (rows : List Row)
    (hw : w.length = nr) (hrows : rows.length = nr * (nb + 1) * (nb + 1)) (hfit : ∀ x ∈ rows, Fits x)
    (hf : wan f = some (writeHr isFloat nr (nb + 1) w rows)) :
    ∃ h : Hr (nb + 1), latticeHr wan (.file f) = some ⟨nb, h⟩ ∧
      (∀ q, bloch h q = ∑ R : Fin nr, Complex.exp (Complex.I * ((∑ x, vec (first nb rows R) x * q x : ℝ) : ℂ)) / ((w.getD R 0 : ℝ) : ℂ) *
        (((rounded (first nb rows R).re : ℝ) : ℂ) + ((rounded (first nb rows R).im : ℝ) : ℂ) * Complex.I)) ∧
      ∀ syms, RowsOk nr nb w rows syms → ∀ nx ny nz, LatticeOk nx ny nz h syms := by
  refine ⟨_, latticeHr_file wan f isFloat nr nb w rows hw hrows hfit hf, ?_, ?_⟩
  · intro q
    have hv := hrOf_first nr nb w rows hw hrows
    unfold bloch
    apply Finset.sum_congr rfl
    intro R _
    obtain ⟨h1, h2, h3⟩ := hv R
    rw [h2, h3]
    simp only [h1]
  · intro syms ho nx ny nz
    have hv := hrOf_first nr nb w rows hw hrows
    refine lattice_of_table ⟨?_, ?_, ?_⟩ nx ny nz
    · intro R
      refine ⟨![(first nb rows R).r.1, (first nb rows R).r.2.1, (first nb rows R).r.2.2], fun x => ?_⟩
      rw [(hv R).1 x]
      fin_cases x <;> simp [vec]
    · obtain ⟨e, he⟩ := ho.herm
      refine ⟨e, fun R => ?_⟩
      obtain ⟨a1, a2, a3, a4⟩ := he R
      refine ⟨fun x => ?_, ?_, ?_⟩
      · exact ((hv (e R)).1 x).trans ((a1 x).trans (congrArg _ ((hv R).1 x).symm))
      · refine ((hv (e R)).2.1).trans (Eq.trans ?_ (congrArg star (hv R).2.1.symm))
        rw [a2, a3, rounded_neg]
        show _ = (starRingEnd ℂ) _
        rw [map_add, map_mul, Complex.conj_I, Complex.conj_ofReal, Complex.conj_ofReal]
        push_cast
        ring
      · exact ((hv (e R)).2.2).trans ((congrArg _ a4).trans (hv R).2.2.symm)
    · intro σ hσ
      obtain ⟨e, he⟩ := ho.sym σ hσ
      refine ⟨e, fun R => ?_⟩
      obtain ⟨a1, a2, a3, a4⟩ := he R
      refine ⟨?_, ?_, ?_⟩
      · have e1 : ∀ R : Fin nr, (hrOf nr (nb + 1) (expected nr (nb + 1) w rows).w (expected nr (nb + 1) w rows).r (expected nr (nb + 1) w rows).o
          (expected nr (nb + 1) w rows).h).rGrid R 0 0 = vec (first nb rows R) := fun R => funext (hv R).1
        exact (e1 (e R)).trans (a1.trans (congrArg (rot σ) (e1 R).symm))
      · refine ((hv (e R)).2.1).trans (Eq.trans ?_ (hv R).2.1.symm)
        rw [a2, a3]
      · exact ((hv (e R)).2.2).trans ((congrArg _ a4).trans (hv R).2.2.symm)

/-- the rows `save_hr` writes for the built-in model (wannier.py:182-189, 300-322): vectors, orbital labels 1 1, real elements -/
def squareRows (t tp tpp : ℚ) : List Row :=
  [⟨(1, 0, 0), (1, 1), -t, 0⟩, ⟨(0, 1, 0), (1, 1), -t, 0⟩, ⟨(-1, 0, 0), (1, 1), -t, 0⟩, ⟨(0, -1, 0), (1, 1), -t, 0⟩,
   ⟨(1, 1, 0), (1, 1), -tp, 0⟩, ⟨(1, -1, 0), (1, 1), -tp, 0⟩, ⟨(-1, 1, 0), (1, 1), -tp, 0⟩, ⟨(-1, -1, 0), (1, 1), -tp, 0⟩,
   ⟨(2, 0, 0), (1, 1), -tpp, 0⟩, ⟨(0, 2, 0), (1, 1), -tpp, 0⟩, ⟨(-2, 0, 0), (1, 1), -tpp, 0⟩, ⟨(0, -2, 0), (1, 1), -tpp, 0⟩]

/-- they are the elements of the built-in table -/
theorem squareRows_table (t tp tpp : ℚ) : hrOfRows 12 1 (List.replicate 12 1) (squareRows t tp tpp) = oneBand t tp tpp := by
  unfold hrOfRows hrOf oneBand
  congr 1
  · funext R a b
    obtain rfl : a = 0 := Subsingleton.elim _ _
    obtain rfl : b = 0 := Subsingleton.elim _ _
    fin_cases R <;> simp [squareRows]
  · funext R a b x
    obtain rfl : a = 0 := Subsingleton.elim _ _
    obtain rfl : b = 0 := Subsingleton.elim _ _
    fin_cases R <;> fin_cases x <;> simp [squareRows, r12]
  · funext R
    fin_cases R <;> simp
  · funext R a b x
    obtain rfl : a = 0 := Subsingleton.elim _ _
    obtain rfl : b = 0 := Subsingleton.elim _ _
    fin_cases R <;> fin_cases x <;> simp [squareRows]

/-- **C134 (c).** Saving the built-in table and reading it back gives the built-in table with the hopping amplitudes rounded to six decimals (if none
    of them rounds to 1000 or more: then the fields of a line run together). -/
theorem saved_square (wan : String → Option (List Str)) (f : String) (isFloat : Bool) (t tp tpp : ℚ)
    (ht : rounded t < 1000) (htp : rounded tp < 1000) (htpp : rounded tpp < 1000)
    (hf : wan f = some (writeHr isFloat 12 1 (List.replicate 12 1) (squareRows t tp tpp))) :
    latticeHr wan (.file f) = latticeHr wan (.hop (rounded t) (rounded tp) (rounded tpp)) := by
  have h0 : rounded 0 = 0 := by simp [rounded, roundEven]
  rw [latticeHr_file wan f isFloat 12 0 (List.replicate 12 1) (squareRows t tp tpp) rfl rfl ?_ hf]
  · show _ = some (⟨0, oneBand (rounded t : ℚ) (rounded tp : ℚ) (rounded tpp : ℚ)⟩ : Σ nb : Nat, Hr (nb + 1))
    rw [← squareRows_table]
    congr 2
    unfold hrOfRows
    congr 1
    simp [expected, squareRows, rounded_neg, h0]
  · intro x hx
    simp only [squareRows, List.mem_cons, List.not_mem_nil, or_false] at hx
    rcases hx with rfl | rfl | rfl | rfl | rfl | rfl | rfl | rfl | rfl | rfl | rfl | rfl <;>
      simp only [Fits, rounded_neg, h0] <;> refine ⟨by decide, by decide, by decide, by decide, by linarith, by norm_num⟩

end DGA.Pipe
