/-
  A concrete input file and settings that meet every hypothesis of C129: the chain of Rpa3.lean with self-energy `-i` at the 20 positive
  frequencies of the file.
-/
import Verif.Pipeline.FromFilesProps
import Verif.Pipeline.LamRunEx

namespace DGA.Pipe.Ex3

open DGA.Bz DGA.Mf DGA.Two DGA.Wan DGA.Bubble DGA.Fp DGA.Inp DGA.Pipe

/-- self-energy of the file -/
noncomputable def sg (m : Int) : ℂ := if 0 ≤ m then -Complex.I else Complex.I

/-- two-particle Green's function of the file: that of Rpa3.lean at `w = 0` -/
noncomputable def dat (dens : Bool) (w v v' : Int) : ℂ :=
  if h : w = 0 ∧ -1 ≤ v ∧ v < 1 ∧ -1 ≤ v' ∧ v' < 1 then
    Ex2.G2 dens 0 ⟨(v + 1).toNat, by omega⟩ ⟨(v' + 1).toNat, by omega⟩
  else 0

noncomputable def dict : Dict :=
  ⟨.a1 [], .a1 (samplesF sg 20), .num ((9 / 10 : ℝ) : ℂ), .num (Real.pi : ℂ), .num ((1 : ℝ) : ℂ), .num ((0 : ℝ) : ℂ),
    some (.a3 (tab 0 1 (dat true))), some (.a3 (tab 0 1 (dat false)))⟩

noncomputable def fs : Fs := ⟨fun _ => none, fun s => if s = "in/data.npy" then some dict else none⟩

noncomputable def S : Settings := ⟨⟨-1, 1, 0, -1⟩, false, 2, 1, 1, 0, oneBand (1 / 2) 0 0, nematic, "spch", 2⟩

theorem lat : LatticeOk S.nx S.ny S.nz S.hr S.syms := lattice_square _ _ _ _ _ _ _

theorem load : load1p fs "test" "in/" "data.npy" none = some dict := by
  simp [load1p, fs]

theorem sg_conj (m : Int) : sg (-m - 1) = star (sg m) := by
  unfold sg
  by_cases h : 0 ≤ m
  · rw [if_pos h, if_neg (by omega)]
    simp
  · rw [if_neg h, if_pos (by omega)]
    simp

theorem sg_im (m : Nat) : (sg m).im ≤ 0 := by simp [sg]

theorem G_at (i j k : Nat) (m : Int) (h : m = 0 ∨ m = -1) : runG S 0 Real.pi sg 20 i j k m = Ex2.G i j k m := by
  have key : runG S 0 Real.pi sg 20 i j k 0 = Ex2.G i j k 0 := by
    obtain ⟨_, s2⟩ := siwObj_sigma sg 20 Real.pi
    have hs : sigmaSpec (siwObj (samplesF sg 20) Real.pi) (posHalf sg 20) 0 = -Complex.I := by
      have hn : 20 ≤ (siwObj (samplesF sg 20) Real.pi).nivCore := (estimate_bounds _ _ _ _ _ _).1
      rw [sigma_inside sg 20 Real.pi (core_le sg 20 Real.pi le_rfl) (fun m _ _ => sg_conj m) 0 (by omega) (by omega)]
      simp [sg]
    have hs' : sigmaSpec Ex2.se [-Complex.I] 0 = -Complex.I := by simp [sigmaSpec, Ex2.se]
    unfold runG Ex2.G gBand
    rw [hs, hs', s2]
    rfl
  rcases h with rfl | rfl
  · exact key
  · rw [Ex2.Gm, ← key]
    exact gBand_conj _ _ _ _ _ _ _ i j k 0

theorem g_at (m : Int) (h : m = 0 ∨ m = -1) : runGloc S 0 Real.pi sg 20 m = Ex2.g m := by
  unfold runGloc Ex2.g gLocBand
  simp only [G_at _ _ _ m h]
  rfl

theorem bubQ_at (q : Mom) : onBox 1 (bubQ 2 1 1 (Real.pi : ℂ) (runG S 0 Real.pi sg 20) q 0) = onBox 1 (bubQ 2 1 1 (Real.pi : ℂ) Ex2.G q 0) := by
  funext a
  have : ((a.val : Int) - (1 : Nat)) = 0 ∨ ((a.val : Int) - (1 : Nat)) = -1 := by have := a.isLt; omega
  unfold onBox bubQ
  simp only [sub_zero, G_at _ _ _ _ this]

theorem bubLoc_at : onBox 1 (bubLoc (Real.pi : ℂ) (runGloc S 0 Real.pi sg 20) 0) = onBox 1 (bubLoc (Real.pi : ℂ) Ex2.g 0) := by
  funext a
  have : ((a.val : Int) - (1 : Nat)) = 0 ∨ ((a.val : Int) - (1 : Nat)) = -1 := by have := a.isLt; omega
  unfold onBox bubLoc
  simp only [sub_zero, g_at _ this]

theorem dat_box (dens : Bool) : onBox2 1 (dat dens) 0 = Ex2.G2 dens 0 := by
  ext i j
  have hi := i.isLt
  have hj := j.isLt
  unfold onBox2 dat
  rw [Matrix.of_apply, dif_pos (by omega)]
  congr 1 <;> (apply Fin.ext; simp)

theorem dat_conj (dens : Bool) (w v v' : Int) : dat dens (-w) (-v - 1) (-v' - 1) = star (dat dens w v v') := by
  unfold dat
  by_cases h : w = 0 ∧ -1 ≤ v ∧ v < 1 ∧ -1 ≤ v' ∧ v' < 1
  · rw [dif_pos h, dif_pos (by omega)]
    have := Ex2.G2_conj dens 0 (by simp) ⟨(v + 1).toNat, by omega⟩ ⟨(v' + 1).toNat, by omega⟩
    rw [← this, neg_zero]
    congr 1 <;> (apply Fin.ext; simp [Fin.val_rev]; omega)
  · rw [dif_neg h, dif_neg (by omega), star_zero]

theorem hypL (x : Int) (hx : x ∈ Finset.Icc (-((0 : Nat) : Int)) (0 : Nat)) :
    chi0Box (1 + 0) (Real.pi : ℂ) (bubLoc (Real.pi : ℂ) (runGloc S 0 Real.pi sg 20) x) = chi0Box (1 + 0) (Real.pi : ℂ) (bubLoc (Real.pi : ℂ) Ex2.g x) ∧
    chi0Box 1 (Real.pi : ℂ) (bubLoc (Real.pi : ℂ) (runGloc S 0 Real.pi sg 20) x) = chi0Box 1 (Real.pi : ℂ) (bubLoc (Real.pi : ℂ) Ex2.g x) := by
  obtain rfl : x = 0 := by simpa using hx
  have : chi0Box 1 (Real.pi : ℂ) (bubLoc (Real.pi : ℂ) (runGloc S 0 Real.pi sg 20) 0) = chi0Box 1 (Real.pi : ℂ) (bubLoc (Real.pi : ℂ) Ex2.g 0) := by
    unfold chi0Box
    rw [bubLoc_at]
  exact ⟨this, this⟩

theorem hypQ (q : Mom) (x : Int) (hx : x ∈ Finset.Icc (-((0 : Nat) : Int)) (0 : Nat)) :
    onBox (1 + 0) (bubQ 2 1 1 (Real.pi : ℂ) (runG S 0 Real.pi sg 20) q x) = onBox (1 + 0) (bubQ 2 1 1 (Real.pi : ℂ) Ex2.G q x) := by
  obtain rfl : x = 0 := by simpa using hx
  exact bubQ_at q

theorem hypX (dens : Bool) (x : Int) (hx : x ∈ Finset.Icc (-((0 : Nat) : Int)) (0 : Nat)) (i j : Fin (2 * 1)) :
    gchiOf (c := 1) (Real.pi : ℂ) (runGloc S 0 Real.pi sg 20) dens (onBox2 1 (used false (dat dens))) x i j =
      rpaChi (urOf dens 1 / (Real.pi * Real.pi : ℂ)) (onBox (1 + 0) (bubLoc (Real.pi : ℂ) (runGloc S 0 Real.pi sg 20) x)) (core 1 0 i) (core 1 0 j) := by
  obtain rfl : x = 0 := by simpa using hx
  have h := Ex2.gchi_G2 dens 0 i j
  have hb : onBox (1 + 0) (bubLoc (Real.pi : ℂ) (runGloc S 0 Real.pi sg 20) 0) = onBox (1 + 0) (bubLoc (Real.pi : ℂ) Ex2.g 0) := bubLoc_at
  rw [hb, ← h]
  unfold gchiOf
  rw [show used false (dat dens) = dat dens from rfl, dat_box, g_at _ (by have := i.isLt; omega), g_at _ (by have := j.isLt; omega)]

/-- the program returns on this input -/
theorem returns : ∃ out, mainRun fs "test" "in/" "data.npy" none S = .ok out := by
  obtain ⟨box', hbuild, q1, q2, q3, q4⟩ := buildG2_value S.box S.symVVp dict (Real.pi : ℂ) ((1 : ℝ) : ℂ) rfl rfl 0 1 0 1 (dat true) (dat false) rfl rfl
    1 0 (Or.inl rfl) (Or.inr ⟨rfl, rfl⟩) (by omega) le_rfl le_rfl le_rfl le_rfl
  have hbox : box' = ⟨(0 : Nat), (1 : Nat), (0 : Nat), (1 : Nat)⟩ := by
    obtain ⟨b1, b2, b3, b4⟩ := box'
    simp only [S] at q1 q2 q3 q4
    rw [q1, q2, q3, q4]
    simp
  have hn : 20 ≤ (siwObj (samplesF sg 20) Real.pi).nivCore := (estimate_bounds _ _ _ _ _ _).1
  obtain ⟨s1, s2⟩ := siwObj_sigma sg 20 Real.pi
  obtain ⟨mp, hmp, _⟩ := irrk_representative 2 1 1 nematic (by decide)
  obtain ⟨label, hlab, hl⟩ := bubble_labels 2 1 1 (1 + 0) 0 (Real.pi : ℂ) nematic mp hmp (runG S 0 Real.pi sg 20) (gBand_invariant lat _ _ _)
  have hg : ∀ (N : Nat) (n : Int), -(N : Int) ≤ n → n < N → runGloc S 0 Real.pi sg 20 (-n - 1) = star (runGloc S 0 Real.pi sg 20 n) :=
    fun _ m _ _ => gLocBand_conj _ _ _ _ _ _ _ m
  have hG : ∀ N : Nat, ∀ i j k, ∀ n : Int, -(N : Int) ≤ n → n < N → runG S 0 Real.pi sg 20 i j k (-n - 1) = star (runG S 0 Real.pi sg 20 i j k n) :=
    fun _ i j k m _ _ => gBand_conj _ _ _ _ _ _ _ i j k m
  obtain ⟨out, hout⟩ := run_returns (c := 1) 0 2 1 1 ((siwObj (samplesF sg 20) Real.pi).nivCore + 1) 0 Real.pi ((1 : ℝ) : ℂ) ((9 / 10 : ℝ) : ℂ) Real.pi_ne_zero (by decide)
    (runG S 0 Real.pi sg 20) (runGloc S 0 Real.pi sg 20) (hg _) (hG _) (by omega) (onBox2 1 (used false (dat true))) (onBox2 1 (used false (dat false))) label
    (samplesF sg 20) 2 (by omega) "spch" (by simp) fun lamD lamM => by
      rw [Complex.ofReal_one]
      exact ⟨_, dga_rpa 0 2 1 1 _ 20 0 (Real.pi : ℂ) 1 ((9 / 10 : ℝ) : ℂ) (Complex.conj_ofReal _) Ex2.hpc _ _ sg (hg _)
        (fun m _ _ => gLoc_ne_zero 2 1 1 (by omega) _ _ sg 20 Real.pi Real.pi_pos le_rfl (fun m _ => sg_im m) m) (hG _) (by omega) (by omega)
        _ _ label lamD lamM 2 (by omega) (fun x hx i j => hypX true x hx i j) (fun x hx i j => hypX false x hx i j)
        (fun x hx => by
          obtain ⟨e1, e2⟩ := hypL x hx
          rw [e1]
          exact Ex2.hypL x hx)
        (fun q x hx => by
          have e := hypQ q x hx
          have e' : chi0Box (1 + 0) (Real.pi : ℂ) (bubQ 2 1 1 (Real.pi : ℂ) (runG S 0 Real.pi sg 20) q x) =
              chi0Box (1 + 0) (Real.pi : ℂ) (bubQ 2 1 1 (Real.pi : ℂ) Ex2.G q x) := by unfold chi0Box; rw [e]
          rw [e, e']
          exact Ex2.hypQ q x hx) hl⟩
  have hcr : ∃ sgo, createDga out.sigma (siwObj (samplesF sg 20) Real.pi) 0 1e-4 = some sgo := by
    unfold createDga SelfEnergy.getSiw
    simp only [s1]
    split_ifs <;> simp
  obtain ⟨sgo, hsgo⟩ := hcr
  refine ⟨⟨⟨(0 : Nat), (1 : Nat), (0 : Nat), (1 : Nat)⟩, out, sgo⟩, ?_⟩
  unfold mainRun
  rw [load]
  simp only [hbuild, hbox]
  unfold calcFrom
  have e1 : toFour (2 * 1) ⟨"dens", tab 0 1 (used false (dat true)), (Real.pi : ℂ), ((1 : ℝ) : ℂ), none⟩ = some (objOf true 0 (Real.pi : ℂ) ((1 : ℝ) : ℂ) (onBox2 1 (used false (dat true)))) :=
    toFour_tab true 0 1 _ _ _
  have e2 : toFour (2 * 1) ⟨"magn", tab 0 1 (used false (dat false)), (Real.pi : ℂ), ((1 : ℝ) : ℂ), none⟩ = some (objOf false 0 (Real.pi : ℂ) ((1 : ℝ) : ℂ) (onBox2 1 (used false (dat false)))) :=
    toFour_tab false 0 1 _ _ _
  have hgen := genDmft_eq (nb := 0) 2 1 1 (oneBand (1 / 2) 0 0) 0 (siwObj (samplesF sg 20) Real.pi) (posHalf sg 20) s1 (by simpa [posHalf] using core_le sg 20 Real.pi le_rfl) 1 0
  rw [s2] at hgen
  rw [hlab] at hmp
  simp only [dict, arrOf, numOf, Complex.ofReal_re, Int.toNat_natCast]
  erw [e1, e2]
  simp only [S, hmp, hgen]
  erw [hout]
  simp only [hsgo]

/-- `main_run` and `main_run_conj` apply to it -/
example : ∃ out, mainRun fs "test" "in/" "data.npy" none S = .ok out ∧ out.box = ⟨0, 1, 0, 1⟩ ∧
    IsDga 1 0 2 1 1 0 Real.pi ((1 : ℝ) : ℂ) "spch" (runG S 0 Real.pi sg 20) (runGloc S 0 Real.pi sg 20) sg (onBox2 1 (dat true)) (onBox2 1 (dat false)) out.run ∧
    ∃ Sig : Nat → Nat → Nat → Int → ℂ, out.run.sigma = flat3 (table 2 1 1 fun i j k => samplesF (Sig i j k) 1) ∧
      ∀ i j k, Sig i j k (-1) = star (Sig i j k 0) := by
  obtain ⟨out, h⟩ := returns
  have hn : 20 ≤ (siwObj (samplesF sg 20) Real.pi).nivCore := (estimate_bounds _ _ _ _ _ _).1
  obtain ⟨r1, r2, _⟩ := main_run fs "test" "in/" "data.npy" none S lat dict load 20 le_rfl sg rfl (fun m _ => sg_im m) (9 / 10) Real.pi 1 0 Real.pi_pos rfl rfl rfl rfl
    0 1 0 1 (dat true) (dat false) rfl rfl 1 0 0 1 (Or.inl rfl) (Or.inr ⟨rfl, rfl⟩) rfl (by simp [S]) (by omega) le_rfl le_rfl le_rfl le_rfl (by omega)
    (by omega) (by decide) (by decide) (fun i j k _ _ _ x hx => by rw [show S.nx = 2 from rfl, show S.ny = 1 from rfl, show S.nz = 1 from rfl, hypQ _ x hx]; exact (Ex2.hypQ _ x hx).2.2.2) out h
  obtain ⟨Sig, e1, e2, _⟩ := main_run_conj fs "test" "in/" "data.npy" none S lat dict load 20 le_rfl sg rfl sg_conj (9 / 10) Real.pi 1 0 Real.pi_pos rfl rfl rfl rfl
    0 1 0 1 (dat true) (dat false) rfl rfl (dat_conj true) (dat_conj false) 1 0 0 1 (Or.inl rfl) (Or.inr ⟨rfl, rfl⟩) rfl (by simp [S]) (by omega) le_rfl le_rfl le_rfl le_rfl (by omega)
    (by omega) (by decide) (by decide) out h
  exact ⟨out, h, r1, r2, Sig, e1, fun i j k => e2 i j k 0 (by omega) (by omega)⟩

/-- a complete set of worm measurements for `worm_to_dict` and `worm_run` -/
example : Sym.InputOk (sym1b "worm-last") (Sym.exFile (K := ℂ) fun _ => 3) 2 1 (fun _ => 1)
    (fun _ s _ ix => if ix = [0, 0, 0] then none else some (Sym.exGroup s)) := Sym.exInput "worm-last" 1 le_rfl _ rfl rfl

end DGA.Pipe.Ex3
