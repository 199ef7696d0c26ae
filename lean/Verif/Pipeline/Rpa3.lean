/-
  A concrete calculation that meets the hypotheses of C78 and C79: the chain `t = 1/2` (grid 2×1×1), `beta = pi`, self-energy `-i` at the
  first Matsubara frequency, RPA susceptibilities.
-/
import Verif.Pipeline.Rpa2
import Verif.Pipeline.SquareLattice

namespace DGA.Pipe.Ex2

open DGA.Bz DGA.Mf DGA.Two DGA.Wan DGA.Bubble DGA.Fp DGA.Pipe

noncomputable def se : SelfEnergy := ⟨[[-Complex.I]], Real.pi, 0, 0, 1⟩

noncomputable def G : Nat → Nat → Nat → Int → ℂ := gBand (nb := 0) 2 1 1 (oneBand (1 / 2) 0 0) 0 se [-Complex.I]
noncomputable def g : Int → ℂ := gLocBand (nb := 0) 2 1 1 (oneBand (1 / 2) 0 0) 0 se [-Complex.I]

theorem hpc : (Real.pi : ℂ) ≠ 0 := by exact_mod_cast Real.pi_ne_zero

theorem inv_of {d x : ℂ} (h : x * d = 1) : 1 / d = x := by
  have hd : d ≠ 0 := by rintro rfl; simp at h
  rw [div_eq_iff hd, h]

theorem G00 (k : Nat) : G 0 0 k 0 = (1 - Complex.I) / 4 := by
  unfold G gBand
  rw [bloch_square, Complex.ofReal_re]
  apply inv_of
  simp only [sigmaSpec, se, iv, ekSquare, kPt]
  simp
  ring_nf
  simp
  try ring

theorem G10 (k : Nat) : G 1 0 k 0 = -Complex.I / 2 := by
  unfold G gBand
  rw [bloch_square, Complex.ofReal_re]
  apply inv_of
  simp only [sigmaSpec, se, iv, ekSquare, kPt]
  simp
  ring_nf
  simp
  try ring

theorem g0 : g 0 = (1 - 3 * Complex.I) / 8 := by
  unfold g gLocBand kSum
  have h0 := G00 0
  have h1 := G10 0
  unfold G at h0 h1
  simp only [Finset.sum_range_succ, Finset.sum_range_zero, zero_add]
  rw [h0, h1]
  push_cast
  ring

theorem Gm (i j k : Nat) : G i j k (-1) = star (G i j k 0) := gBand_conj _ _ _ _ _ _ _ i j k 0
theorem gm : g (-1) = star (g 0) := gLocBand_conj _ _ _ _ _ _ _ 0

/-- on the two frequencies of the box a function with the conjugation symmetry -/
theorem box1 (f : Int → ℂ) (hf : f (-1) = star (f 0)) :
    chi0Box (1 + 0) (Real.pi : ℂ) f = ((2 * (f 0).re / Real.pi ^ 2 : ℝ) : ℂ) ∧ ∀ a, onBox (1 + 0) f a = f 0 ∨ onBox (1 + 0) f a = star (f 0) := by
  constructor
  · unfold chi0Box
    rw [Fin.sum_univ_two]
    simp only [onBox]
    simp [hf]
    rw [add_comm, Complex.add_conj]
    push_cast
    ring
  · intro a
    have h : a = 0 ∨ a = 1 := by
      have := a.isLt
      simp only [Fin.ext_iff]
      simp at *
      omega
    rcases h with rfl | rfl
    · right; simpa [onBox] using hf
    · left; simp [onBox]

theorem bl0 : bubLoc (Real.pi : ℂ) g 0 0 = Real.pi * (4 + 3 * Complex.I) / 32 := by
  unfold bubLoc
  rw [sub_zero, g0]
  ring_nf
  simp
  ring

theorem bl (x : Int) (hx : x ∈ Finset.Icc (-((0 : Nat) : Int)) (0 : Nat)) : bubLoc (Real.pi : ℂ) g x (-1) = star (bubLoc (Real.pi : ℂ) g x 0) := by
  obtain rfl : x = 0 := by simpa using hx
  unfold bubLoc
  simp [gm]

theorem bq0 (q : Mom) : bubQ 2 1 1 (Real.pi : ℂ) G q 0 0 = if q.1 % 2 = 0 then Real.pi * (2 + Complex.I) / 16 else Real.pi * (1 + Complex.I) / 8 := by
  have h : q.1 % 2 = 0 ∨ q.1 % 2 = 1 := by omega
  have e1 : (q.1 % 2).toNat = if q.1 % 2 = 0 then 0 else 1 := by split <;> omega
  have e2 : ((1 + q.1) % 2).toNat = if q.1 % 2 = 0 then 1 else 0 := by split <;> omega
  have e3 : ∀ x : Int, (x % (1 : Nat)).toNat = 0 := by intro x; simp
  unfold bubQ kSum
  simp only [Finset.sum_range_succ, Finset.sum_range_zero, shiftG, e3]
  push_cast
  simp only [zero_add, e1, e2]
  rcases h with h | h
  · simp [h, G00, G10]
    ring_nf
    simp
    ring
  · simp [h, G00, G10]
    ring_nf
    simp
    try ring

theorem bq (q : Mom) (x : Int) (hx : x ∈ Finset.Icc (-((0 : Nat) : Int)) (0 : Nat)) :
    bubQ 2 1 1 (Real.pi : ℂ) G q x (-1) = star (bubQ 2 1 1 (Real.pi : ℂ) G q x 0) := by
  obtain rfl : x = 0 := by simpa using hx
  unfold bubQ kSum
  have sD : ∀ x y : ℂ, star (x / y) = star x / star y := fun x y => map_div₀ (starRingEnd ℂ) x y
  simp only [sub_zero, Gm, star_mul', star_neg, sD, star_sum, star_natCast]
  rw [show star (Real.pi : ℂ) = (Real.pi : ℂ) from Complex.conj_ofReal _]

/-- RPA two-particle Green's function with interaction `u` (`dens`) or `-u` -/
noncomputable def G2 (dens : Bool) (x : Int) : Matrix (Fin (2 * 1)) (Fin (2 * 1)) ℂ := Matrix.of fun i j =>
  (rpaChi (urOf dens 1 / (Real.pi * Real.pi : ℂ)) (onBox (1 + 0) (bubLoc (Real.pi : ℂ) g x)) (core 1 0 i) (core 1 0 j) +
    if dens = true ∧ x = 0 then 2 * (Real.pi : ℂ) * (g ((i.val : Int) - 1) * g ((j.val : Int) - 1)) else 0) / Real.pi

theorem gchi_G2 (dens : Bool) (x : Int) (i j : Fin (2 * 1)) : gchiOf (c := 1) (Real.pi : ℂ) g dens (G2 dens) x i j =
    rpaChi (urOf dens 1 / (Real.pi * Real.pi : ℂ)) (onBox (1 + 0) (bubLoc (Real.pi : ℂ) g x)) (core 1 0 i) (core 1 0 j) := by
  unfold gchiOf G2
  rw [Matrix.of_apply, mul_div_cancel₀ _ hpc]
  push_cast
  ring

theorem chiL : chi0Box (1 + 0) (Real.pi : ℂ) (bubLoc (Real.pi : ℂ) g 0) = ((1 / (4 * Real.pi) : ℝ) : ℂ) := by
  rw [(box1 _ (bl 0 (by simp))).1, bl0]
  congr 1
  have : ((Real.pi : ℂ) * (4 + 3 * Complex.I) / 32).re = Real.pi / 8 := by
    rw [show (Real.pi : ℂ) * (4 + 3 * Complex.I) / 32 = ((Real.pi / 8 : ℝ) : ℂ) + ((3 * Real.pi / 32 : ℝ) : ℂ) * Complex.I by push_cast; ring]
    simp
  rw [this]
  have := Real.pi_ne_zero
  field_simp
  norm_num

theorem chiQ (q : Mom) : chi0Box (1 + 0) (Real.pi : ℂ) (bubQ 2 1 1 (Real.pi : ℂ) G q 0) = ((1 / (4 * Real.pi) : ℝ) : ℂ) := by
  rw [(box1 _ (bq q 0 (by simp))).1, bq0]
  congr 1
  have : (if q.1 % 2 = 0 then (Real.pi : ℂ) * (2 + Complex.I) / 16 else Real.pi * (1 + Complex.I) / 8).re = Real.pi / 8 := by
    split
    · rw [show (Real.pi : ℂ) * (2 + Complex.I) / 16 = ((Real.pi / 8 : ℝ) : ℂ) + ((Real.pi / 16 : ℝ) : ℂ) * Complex.I by push_cast; ring]
      simp
    · rw [show (Real.pi : ℂ) * (1 + Complex.I) / 8 = ((Real.pi / 8 : ℝ) : ℂ) + ((Real.pi / 8 : ℝ) : ℂ) * Complex.I by push_cast; ring]
      simp
  rw [this]
  have := Real.pi_ne_zero
  field_simp
  norm_num

theorem chi_pos : ((1 / (4 * Real.pi) : ℝ) : ℂ) ≠ 0 ∧ 1 + (1 : ℂ) * ((1 / (4 * Real.pi) : ℝ) : ℂ) ≠ 0 ∧ 1 - (1 : ℂ) * ((1 / (4 * Real.pi) : ℝ) : ℂ) ≠ 0 := by
  have h := Real.two_le_pi
  have h1 : (0 : ℝ) < 1 / (4 * Real.pi) := by positivity
  have h2 : 1 / (4 * Real.pi) < 1 := by
    rw [div_lt_one (by positivity)]
    linarith
  generalize 1 / (4 * Real.pi) = z at *
  rw [one_mul]
  refine ⟨by exact_mod_cast h1.ne', ?_, ?_⟩
  · have : 1 + z ≠ 0 := by linarith
    exact_mod_cast this
  · have : 1 - z ≠ 0 := by linarith
    exact_mod_cast this

theorem g_ne (m : Int) (h1 : -((1 : Nat) : Int) ≤ m) (h2 : m < (1 : Nat)) : g m ≠ 0 := by
  have h : m = 0 ∨ m = -1 := by omega
  have : g 0 ≠ 0 := by
    rw [g0]
    intro h
    have := congrArg Complex.re h
    norm_num at this
  rcases h with rfl | rfl
  · exact this
  · rw [gm]
    exact (map_ne_zero (starRingEnd ℂ)).2 this

theorem hypL (x : Int) (hx : x ∈ Finset.Icc (-((0 : Nat) : Int)) (0 : Nat)) : chi0Box (1 + 0) (Real.pi : ℂ) (bubLoc (Real.pi : ℂ) g x) ≠ 0 ∧
    1 + 1 * chi0Box (1 + 0) (Real.pi : ℂ) (bubLoc (Real.pi : ℂ) g x) ≠ 0 ∧ 1 - 1 * chi0Box (1 + 0) (Real.pi : ℂ) (bubLoc (Real.pi : ℂ) g x) ≠ 0 ∧
    1 + 1 * (chi0Box (1 + 0) (Real.pi : ℂ) (bubLoc (Real.pi : ℂ) g x) - chi0Box 1 (Real.pi : ℂ) (bubLoc (Real.pi : ℂ) g x)) ≠ 0 ∧
    1 - 1 * (chi0Box (1 + 0) (Real.pi : ℂ) (bubLoc (Real.pi : ℂ) g x) - chi0Box 1 (Real.pi : ℂ) (bubLoc (Real.pi : ℂ) g x)) ≠ 0 := by
  obtain ⟨p1, p2, p3⟩ := chi_pos
  obtain rfl : x = 0 := by simpa using hx
  have e : chi0Box 1 (Real.pi : ℂ) (bubLoc (Real.pi : ℂ) g 0) = chi0Box (1 + 0) (Real.pi : ℂ) (bubLoc (Real.pi : ℂ) g 0) := rfl
  rw [e, sub_self, mul_zero, chiL]
  refine ⟨p1, p2, p3, ?_, ?_⟩ <;> simp

theorem hypQ (q : Mom) (x : Int) (hx : x ∈ Finset.Icc (-((0 : Nat) : Int)) (0 : Nat)) : chi0Box (1 + 0) (Real.pi : ℂ) (bubQ 2 1 1 (Real.pi : ℂ) G q x) ≠ 0 ∧
    1 + 1 * chi0Box (1 + 0) (Real.pi : ℂ) (bubQ 2 1 1 (Real.pi : ℂ) G q x) ≠ 0 ∧ 1 - 1 * chi0Box (1 + 0) (Real.pi : ℂ) (bubQ 2 1 1 (Real.pi : ℂ) G q x) ≠ 0 ∧
    ∀ a, onBox (1 + 0) (bubQ 2 1 1 (Real.pi : ℂ) G q x) a ≠ 0 := by
  obtain ⟨p1, p2, p3⟩ := chi_pos
  have hx' := hx
  obtain rfl : x = 0 := by simpa using hx
  rw [chiQ]
  refine ⟨p1, p2, p3, ?_⟩
  have h0 : bubQ 2 1 1 (Real.pi : ℂ) G q 0 0 ≠ 0 := by
    rw [bq0]
    split
    · refine div_ne_zero (mul_ne_zero hpc ?_) (by norm_num)
      intro h
      have := congrArg Complex.im h
      norm_num at this
    · refine div_ne_zero (mul_ne_zero hpc ?_) (by norm_num)
      intro h
      have := congrArg Complex.im h
      norm_num at this
  intro a
  rcases (box1 _ (bq q 0 hx')).2 a with h | h <;> rw [h]
  · exact h0
  · exact (map_ne_zero (starRingEnd ℂ)).2 h0

/-- C79, C78: the calculation returns a result on three ranks, and this result is the RPA formula -/
theorem returns (lamD lamM : Option ℂ) (n : ℂ) : ∃ mp sig, fbz2irrk 2 1 1 nematic = some mp ∧
    dgaSelfEnergy 0 3 2 1 1 (flat3 mp) (objOf true 0 (Real.pi : ℂ) 1 (G2 true)) (objOf false 0 (Real.pi : ℂ) 1 (G2 false))
      (genOf 2 1 1 1 0 (Real.pi : ℂ) G g) lamD lamM 1 n (samplesF (sigmaSpec se [-Complex.I]) 1) = some sig := by
  obtain ⟨mp, hmp, _⟩ := irrk_representative 2 1 1 nematic (by decide)
  obtain ⟨label, rfl, hl⟩ := bubble_labels 2 1 1 (1 + 0) 0 (Real.pi : ℂ) nematic mp hmp G (gBand_invariant (lattice_square _ _ _ _ _ _ _) _ _ _)
  exact ⟨_, _, hmp, dga_rpa 0 2 1 1 1 1 0 (Real.pi : ℂ) 1 n (Complex.conj_ofReal _) hpc G g _
    (fun m _ _ => gLocBand_conj _ _ _ _ _ _ _ m) g_ne (fun i j k m _ _ => gBand_conj _ _ _ _ _ _ _ i j k m) (by omega) (by omega)
    (G2 true) (G2 false) label lamD lamM 3 (by omega) (fun x _ i j => gchi_G2 true x i j) (fun x _ i j => gchi_G2 false x i j) hypL hypQ hl⟩

theorem G2_conj (dens : Bool) (x : Int) (hx : x ∈ Finset.Icc (-((0 : Nat) : Int)) (0 : Nat)) (i j : Fin (2 * 1)) :
    G2 dens (-x) i.rev j.rev = star (G2 dens x i j) := by
  have hx' := hx
  obtain rfl : x = 0 := by simpa using hx
  have sD : ∀ x y : ℂ, star (x / y) = star x / star y := fun x y => map_div₀ (starRingEnd ℂ) x y
  have sP : star (Real.pi : ℂ) = (Real.pi : ℂ) := Complex.conj_ofReal _
  have hu : star (urOf dens (1 : ℂ)) = urOf dens 1 := by cases dens <;> simp [urOf]
  have hb : ∀ a : Fin (2 * (1 + 0)), onBox (1 + 0) (bubLoc (Real.pi : ℂ) g 0) a.rev = star (onBox (1 + 0) (bubLoc (Real.pi : ℂ) g 0) a) := by
    intro a
    have h : a.val = 0 ∨ a.val = 1 := by have := a.isLt; omega
    rcases h with h | h
    · simp [onBox, h, bl 0 hx']
    · simp [onBox, h, bl 0 hx']
  have hg : ∀ a : Fin (2 * 1), g ((a.rev.val : Int) - 1) = star (g ((a.val : Int) - 1)) := by
    intro a
    have h : a.val = 0 ∨ a.val = 1 := by have := a.isLt; omega
    rcases h with h | h
    · simp [h, gm]
    · simp [h, gm]
  have hc : ∀ a : Fin (2 * 1), core 1 0 a.rev = (core 1 0 a).rev := by
    intro a
    apply Fin.ext
    have := a.isLt
    simp [core]
  have hs : star (∑ l, onBox (1 + 0) (bubLoc (Real.pi : ℂ) g 0) l) = ∑ l, onBox (1 + 0) (bubLoc (Real.pi : ℂ) g 0) l := by
    rw [star_sum]
    simp only [← hb]
    exact sum_rev _
  unfold G2 rpaChi
  rw [neg_zero]
  simp only [Matrix.of_apply, sD, sP, star_add, star_sub, star_mul', star_one, hs, hu, hc, hb, hg, Fin.rev_inj]
  congr 2
  · congr 2
    split <;> simp
  · split <;> simp [sP]

/-- C78: all hypotheses hold together for a concrete calculation, lambda corrections `1/7` and none, three ranks -/
example : ∃ mp sig, nematic ∈ predefined ∧ fbz2irrk 2 1 1 nematic = some mp ∧
    (∀ x ∈ Finset.Icc (-((0 : Nat) : Int)) (0 : Nat), ∀ i j, G2 true (-x) i.rev j.rev = star (G2 true x i j)) ∧
    (∀ x ∈ Finset.Icc (-((0 : Nat) : Int)) (0 : Nat), ∀ i j, G2 false (-x) i.rev j.rev = star (G2 false x i j)) ∧
    dgaSelfEnergy 0 3 2 1 1 (flat3 mp) (objOf true 0 (se.beta : ℂ) ((1 : ℝ) : ℂ) (G2 true)) (objOf false 0 (se.beta : ℂ) ((1 : ℝ) : ℂ) (G2 false))
      (genDmft (nb := 0) 2 1 1 (oneBand (1 / 2) 0 0) 0 se 0 0) ((some (1 / 7 : ℝ)).map Complex.ofReal) ((none : Option ℝ).map Complex.ofReal) ((1 : ℝ) : ℂ) ((9 / 10 : ℝ) : ℂ)
      (samplesF (sigmaSpec se [-Complex.I]) 1) = some sig := by
  obtain ⟨mp, sig, h1, h2⟩ := returns ((some (1 / 7 : ℝ)).map Complex.ofReal) ((none : Option ℝ).map Complex.ofReal) ((9 / 10 : ℝ) : ℂ)
  refine ⟨mp, sig, by decide, h1, G2_conj true, G2_conj false, ?_⟩
  rw [genDmft_eq (nb := 0) 2 1 1 (oneBand (1 / 2) 0 0) 0 se [-Complex.I] rfl (by simp [se]), Complex.ofReal_one]
  exact h2

end DGA.Pipe.Ex2
