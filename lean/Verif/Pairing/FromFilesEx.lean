/-
  A concrete input file and settings that meet every hypothesis of C130: isolated atoms on a 4x4 lattice, self-energy 0, inverse temperature
  and interaction `pi`, two-particle data of the random-phase approximation on `2*2` fermionic and 5 bosonic frequencies, two ranks.
-/
import Verif.Pairing.FromFilesProps
import Verif.Pipeline.LamRunEx

noncomputable section

namespace DGA.Pairing.Ex4

open DGA.RankFiles DGA.Mpi DGA.Pipe DGA.Fp DGA.Mf DGA.Bz DGA.Bubble DGA.Two DGA.Inp DGA.Wan

/-- propagator of the isolated atom -/
def gA (v : Int) : ℂ := 1 / (Complex.I * ((2 * (v : ℝ) + 1 : ℝ) : ℂ))

/-- its bubble -/
def bR (x v : Int) : ℝ := Real.pi / ((2 * v + 1) * (2 * (v - x) + 1))

/-- sum of the bubble over the core box -/
def sR (x : Int) : ℝ := bR x (-2) + bR x (-1) + bR x 0 + bR x 1

/-- two-particle data -/
def datR (dens : Bool) (w v v' : Int) : ℝ :=
  ((if v = v' then bR w v else 0) - (if dens then 1 else -1) / Real.pi * bR w v * bR w v' / (1 + (if dens then 1 else -1) / Real.pi * sR w) +
    if dens = true ∧ w = 0 then -(2 * Real.pi) / ((2 * v + 1) * (2 * v' + 1)) else 0) / Real.pi

def dat (dens : Bool) (w v v' : Int) : ℂ := (datR dens w v v' : ℂ)

def dict : Dict :=
  ⟨.a1 [], .a1 (samplesF (fun _ => 0) 20), .num ((9 / 10 : ℝ) : ℂ), .num (Real.pi : ℂ), .num (Real.pi : ℂ), .num ((0 : ℝ) : ℂ),
    some (.a3 (tab 2 2 (dat true))), some (.a3 (tab 2 2 (dat false)))⟩

def fs : Fs := ⟨fun _ => none, fun s => if s = "in/data.npy" then some dict else none⟩

def S : Settings := ⟨⟨-1, 2, 0, -1⟩, false, 4, 4, 1, 0, oneBand 0 0 0, square, "none", 2⟩

theorem load : load1p fs "test" "in/" "data.npy" none = some dict := by
  simp [load1p, fs]

theorem bR_symm (w v : Int) : bR (-w) (-v - 1) = bR w v := by
  unfold bR
  push_cast
  congr 1
  ring

theorem sR_symm (w : Int) : sR (-w) = sR w := by
  unfold sR
  rw [← bR_symm (-w) (-2), ← bR_symm (-w) (-1), ← bR_symm (-w) 0, ← bR_symm (-w) 1, _root_.neg_neg]
  norm_num
  ring

theorem datR_rev (dens : Bool) (w v v' : Int) : datR dens (-w) (-v - 1) (-v' - 1) = datR dens w v v' := by
  unfold datR
  rw [bR_symm, bR_symm, sR_symm]
  have e1 : (-v - 1 = -v' - 1) = (v = v') := by rw [eq_iff_iff]; omega
  have e2 : (-w = 0) = (w = 0) := by rw [eq_iff_iff]; omega
  simp only [e1, e2]
  have e3 : ((2 * ((-v - 1 : Int) : ℝ) + 1) * (2 * ((-v' - 1 : Int) : ℝ) + 1)) = (2 * (v : ℝ) + 1) * (2 * (v' : ℝ) + 1) := by push_cast; ring
  rw [e3]

theorem dat_conj (dens : Bool) (w v v' : Int) : dat dens (-w) (-v - 1) (-v' - 1) = star (dat dens w v v') := by
  unfold dat
  rw [datR_rev]
  exact (Complex.conj_ofReal _).symm

theorem dat_symm (dens : Bool) (w v v' : Int) : dat dens w v v' = dat dens w v' v := by
  unfold dat datR
  congr 3
  · congr 1
    · by_cases h : v = v'
      · subst h; rfl
      · rw [if_neg h, if_neg (Ne.symm h)]
    · ring
  · rw [mul_comm (2 * (v : ℝ) + 1)]

theorem core_ge : 20 ≤ (siwObj (samplesF (fun _ => 0) 20) Real.pi).nivCore := (estimate_bounds _ _ _ _ _ _).1

def theFiles : Files fs "test" "in/" "data.npy" none S where
  d := dict
  load := load
  N := 20
  hN := le_rfl
  Sg := fun _ => 0
  siw := rfl
  Sg_conj := fun _ => (star_zero ℂ).symm
  n := 9 / 10
  beta := Real.pi
  u := Real.pi
  mu := 0
  beta_pos := Real.pi_pos
  d_n := rfl
  d_beta := rfl
  d_u := rfl
  d_mu := rfl
  wD := 2
  vD := 2
  wM := 2
  vM := 2
  D := dat true
  M := dat false
  dens := rfl
  magn := rfl
  D_conj := dat_conj true
  M_conj := dat_conj false
  c := 2
  w := 2
  sh := 0
  as := 6
  box_c := Or.inl rfl
  box_w := Or.inr ⟨rfl, rfl⟩
  box_sh := rfl
  box_as := by simp [S]
  c_pos := by omega
  cD := le_rfl
  cM := le_rfl
  wwD := le_rfl
  wwM := le_rfl
  cN := by omega
  fit := by have := core_ge; omega
  ranks := by decide
  syms := by decide
  lat := lattice_square _ _ _ _ _ _ _
  pp := by decide

instance : NeZero S.nx := ⟨by decide⟩
instance : NeZero S.ny := ⟨by decide⟩
instance : NeZero S.nz := ⟨by decide⟩

theorem G_at (i j k : Nat) (m : Int) (h1 : -20 ≤ m) (h2 : m < 20) : theFiles.G i j k m = gA m := by
  have hn := core_ge
  show gBand (nb := 0) 4 4 1 (oneBand 0 0 0) 0 (siwObj (samplesF (fun _ => 0) 20) Real.pi) (posHalf (fun _ => 0) 20) i j k m = gA m
  obtain ⟨_, s2⟩ := siwObj_sigma (fun _ => 0) 20 Real.pi
  unfold gBand
  rw [bloch_square, Complex.ofReal_re, sigma_inside (fun _ => 0) 20 Real.pi (core_le _ 20 Real.pi le_rfl) (fun m _ _ => (map_zero _).symm) m (by omega) (by omega), s2]
  unfold gA iv ekSquare
  simp [Real.pi_ne_zero]

theorem g_at (m : Int) (h1 : -20 ≤ m) (h2 : m < 20) : theFiles.gloc m = gA m := by
  have h := fun i j k => G_at i j k m h1 h2
  show gLocBand (nb := 0) 4 4 1 (oneBand 0 0 0) 0 (siwObj (samplesF (fun _ => 0) 20) Real.pi) (posHalf (fun _ => 0) 20) m = gA m
  unfold gLocBand
  have h' : ∀ i j k, gBand (nb := 0) 4 4 1 (oneBand 0 0 0) 0 (siwObj (samplesF (fun _ => 0) 20) Real.pi) (posHalf (fun _ => 0) 20) i j k m = gA m := h
  simp only [h']
  unfold kSum
  simp
  ring

theorem gA_mul (a b : Int) : gA a * gA b = ((-1 / ((2 * a + 1) * (2 * b + 1)) : ℝ) : ℂ) := by
  unfold gA
  push_cast
  rw [div_mul_div_comm, one_mul, show Complex.I * (2 * (a : ℂ) + 1) * (Complex.I * (2 * (b : ℂ) + 1)) = -((2 * (a : ℂ) + 1) * (2 * (b : ℂ) + 1)) by
    linear_combination ((2 * (a : ℂ) + 1) * (2 * (b : ℂ) + 1)) * Complex.I_mul_I]
  rw [div_neg, neg_div]

theorem bubLoc_at (x v : Int) (hx : -2 ≤ x ∧ x ≤ 2) (hv : -2 ≤ v ∧ v < 2) : bubLoc (Real.pi : ℂ) theFiles.gloc x v = (bR x v : ℂ) := by
  unfold bubLoc bR
  rw [g_at v (by omega) (by omega), g_at (v - x) (by omega) (by omega), gA_mul]
  push_cast
  ring

theorem bubQ_at (q : Mom) (x v : Int) (hx : -2 ≤ x ∧ x ≤ 2) (hv : -2 ≤ v ∧ v < 2) : bubQ 4 4 1 (Real.pi : ℂ) theFiles.G q x v = (bR x v : ℂ) := by
  rw [← bubLoc_at x v hx hv]
  unfold bubQ bubLoc
  simp only [G_at _ _ _ v (by omega) (by omega), G_at _ _ _ (v - x) (by omega) (by omega), g_at v (by omega) (by omega), g_at (v - x) (by omega) (by omega)]
  unfold kSum
  simp
  ring

theorem onBox4 (f : Int → ℂ) (g : Int → ℝ) (h : ∀ v : Int, -2 ≤ v ∧ v < 2 → f v = (g v : ℂ)) (i : Fin (2 * (2 + 0))) :
    Pipe.onBox (2 + 0) f i = (g ((i.val : Int) - 2) : ℂ) := by
  have := i.isLt
  exact h _ (by omega)

theorem sum4 (f : Int → ℂ) (g : Int → ℝ) (h : ∀ v : Int, -2 ≤ v ∧ v < 2 → f v = (g v : ℂ)) :
    ∑ i, Pipe.onBox (2 + 0) f i = ((g (-2) + g (-1) + g 0 + g 1 : ℝ) : ℂ) := by
  simp only [onBox4 f g h]
  rw [show ∑ i : Fin (2 * (2 + 0)), ((g ((i.val : Int) - 2) : ℝ) : ℂ) = ∑ i : Fin 4, ((g ((i.val : Int) - 2) : ℝ) : ℂ) from rfl, Fin.sum_univ_four]
  push_cast
  rfl

theorem chi0_at (f : Int → ℂ) (x : Int) (h : ∀ v : Int, -2 ≤ v ∧ v < 2 → f v = (bR x v : ℂ)) : chi0Box (2 + 0) (Real.pi : ℂ) f = ((sR x / Real.pi ^ 2 : ℝ) : ℂ) := by
  unfold chi0Box
  rw [sum4 f (bR x) h]
  unfold sR
  push_cast
  rfl

/-- values of the summed bubble -/
theorem sR_val (x : Int) (hx : -2 ≤ x ∧ x ≤ 2) : sR x ≠ 0 ∧ 1 + sR x / Real.pi ≠ 0 ∧ 1 - sR x / Real.pi ≠ 0 := by
  have hpi := Real.pi_ne_zero
  have key : sR x = Real.pi * (1 / ((-3) * (-3 - 2 * x)) + 1 / ((-1) * (-1 - 2 * x)) + 1 / (1 * (1 - 2 * x)) + 1 / (3 * (3 - 2 * x))) := by
    unfold sR bR
    push_cast
    ring_nf
  obtain ⟨l, r⟩ := hx
  rw [key, mul_div_cancel_left₀ _ hpi]
  have : x = -2 ∨ x = -1 ∨ x = 0 ∨ x = 1 ∨ x = 2 := by omega
  rcases this with rfl | rfl | rfl | rfl | rfl <;> norm_num [hpi]

theorem bR_ne (x v : Int) : bR x v ≠ 0 := by
  unfold bR
  have h1 : (2 * (v : ℝ) + 1) ≠ 0 := by exact_mod_cast (by omega : 2 * v + 1 ≠ 0)
  have h2 : (2 * ((v : ℝ) - x) + 1) ≠ 0 := by exact_mod_cast (by omega : 2 * (v - x) + 1 ≠ 0)
  exact div_ne_zero Real.pi_ne_zero (mul_ne_zero h1 h2)

theorem denoms (f : Int → ℂ) (x : Int) (hx : -2 ≤ x ∧ x ≤ 2) (h : ∀ v : Int, -2 ≤ v ∧ v < 2 → f v = (bR x v : ℂ)) :
    chi0Box (2 + 0) (Real.pi : ℂ) f ≠ 0 ∧ 1 + (Real.pi : ℂ) * chi0Box (2 + 0) (Real.pi : ℂ) f ≠ 0 ∧ 1 - (Real.pi : ℂ) * chi0Box (2 + 0) (Real.pi : ℂ) f ≠ 0 ∧
    ∀ a, Pipe.onBox (2 + 0) f a ≠ 0 := by
  obtain ⟨h1, h2, h3⟩ := sR_val x hx
  have hpi := Real.pi_ne_zero
  have e : Real.pi * (sR x / Real.pi ^ 2) = sR x / Real.pi := by field_simp
  rw [chi0_at f x h]
  refine ⟨?_, ?_, ?_, ?_⟩
  · exact_mod_cast div_ne_zero h1 (pow_ne_zero 2 hpi)
  · rw [← Complex.ofReal_mul, e]; exact_mod_cast h2
  · rw [← Complex.ofReal_mul, e]; exact_mod_cast h3
  · intro a
    rw [onBox4 f (bR x) h]
    exact_mod_cast bR_ne x _

theorem gchi_at (dens : Bool) (x : Int) (hx : -2 ≤ x ∧ x ≤ 2) (i j : Fin (2 * 2)) :
    gchiOf (Real.pi : ℂ) theFiles.gloc dens (onBox2 2 (used false (dat dens))) x i j =
      rpaChi (urOf dens (Real.pi : ℂ) / (Real.pi * Real.pi : ℂ)) (Pipe.onBox (2 + 0) (bubLoc (Real.pi : ℂ) theFiles.gloc x)) (core 2 0 i) (core 2 0 j) := by
  have hi := i.isLt
  have hj := j.isLt
  have hpi : (Real.pi : ℂ) ≠ 0 := by exact_mod_cast Real.pi_ne_zero
  have hb := fun v hv => bubLoc_at x v hx hv
  unfold gchiOf rpaChi
  rw [Matrix.of_apply, sum4 _ _ hb, onBox4 _ _ hb, onBox4 _ _ hb, g_at _ (by omega) (by omega), g_at _ (by omega) (by omega), gA_mul]
  simp only [onBox2, Matrix.of_apply, used, core, Bool.false_eq_true, if_false, Fin.mk.injEq, add_left_inj, dat, datR]
  have hu : urOf dens (Real.pi : ℂ) / (Real.pi * Real.pi : ℂ) = (((if dens then 1 else -1) / Real.pi : ℝ) : ℂ) := by
    cases dens
    · simp [urOf]; field_simp
    · simp [urOf]
  have he : (((i.val : Int) - (2 : Nat)) = ((j.val : Int) - (2 : Nat))) = (i.val + 0 = j.val + 0) := by rw [eq_iff_iff]; omega
  rw [hu]
  rw [Complex.ofReal_div, mul_div_cancel₀ _ hpi]
  simp only [he, add_zero]
  rw [show sR x = bR x (-2) + bR x (-1) + bR x 0 + bR x 1 from rfl]
  generalize (if dens = true then (1 : ℝ) else -1) / Real.pi = a
  generalize bR x (-2) + bR x (-1) + bR x 0 + bR x 1 = s
  push_cast
  split_ifs <;> push_cast <;> ring

theorem returns : ∃ out, mainRun fs "test" "in/" "data.npy" none S = .ok out := by
  apply theFiles.run_of_sde (by decide)
  intro label hl lamD lamM
  have mem : ∀ x ∈ Finset.Icc (-((2 : Nat) : Int)) (2 : Nat), -2 ≤ x ∧ x ≤ 2 := fun x hx => by simpa using hx
  have hzero : ∀ x : Int, chi0Box (2 + 0) (Real.pi : ℂ) (bubLoc (Real.pi : ℂ) theFiles.gloc x) - chi0Box 2 (Real.pi : ℂ) (bubLoc (Real.pi : ℂ) theFiles.gloc x) = 0 :=
    fun x => sub_self _
  exact ⟨_, dga_rpa (c := 2) 0 4 4 1 theFiles.NG 20 2 (Real.pi : ℂ) (Real.pi : ℂ) ((9 / 10 : ℝ) : ℂ) (Complex.conj_ofReal _) (by exact_mod_cast Real.pi_ne_zero)
    theFiles.G theFiles.gloc (fun _ => 0) (fun m _ _ => theFiles.gloc_conj m)
    (fun m _ _ => gLoc_ne_zero 4 4 1 (by omega) _ _ (fun _ => 0) 20 Real.pi Real.pi_pos le_rfl (fun m _ => by simp) m)
    (fun i j k m _ _ => theFiles.G_conj i j k m) theFiles.fit (by omega) (onBox2 2 (used false (dat true))) (onBox2 2 (used false (dat false))) label lamD lamM 2 (by omega)
    (fun x hx i j => gchi_at true x (mem x hx) i j) (fun x hx i j => gchi_at false x (mem x hx) i j)
    (fun x hx => by
      obtain ⟨a1, a2, a3, _⟩ := denoms _ x (mem x hx) (fun v hv => bubLoc_at x v (mem x hx) hv)
      rw [hzero, mul_zero, sub_zero, add_zero 1]
      exact ⟨a1, a2, a3, one_ne_zero, one_ne_zero⟩)
    (fun q x hx => denoms _ x (mem x hx) (fun v hv => bubQ_at q x v (mem x hx) hv)) hl⟩

/-- Eliashberg settings: d-wave, symmetrised vertices, shifted second run -/
def E : EliSettings := ⟨"d-wave", true, true, 1 / 100, 50, 2, true⟩

/-- a root finder that returns `mu`, start vectors 1 -/
def X (mu : ℝ) : Chance S.nx S.ny S.nz := ⟨fun _ _ => some mu, fun _ _ _ _ _ => 1, fun _ _ _ _ _ => 1, fun _ _ _ => 1⟩

theorem re_bound (s : SelfEnergy) : ∃ B : ℝ, ∀ k m, (sigmaSpec s (rowOf s k) m).re ≤ B := by
  obtain ⟨B, hB⟩ := (insert 0 (insert s.smom0 (s.sigma.flatten.map Complex.re).toFinset)).exists_le
  refine ⟨B, fun k m => ?_⟩
  have h0 : 0 ≤ B := hB 0 (by simp)
  have h1 : s.smom0 ≤ B := hB _ (by simp)
  have hrow : ∀ l, ((rowOf s k).getD l 0).re ≤ B := by
    have key : ∀ r : List ℂ, (r ∈ s.sigma ∨ r = []) → ∀ l, (r.getD l 0).re ≤ B := by
      intro r hr l
      rw [List.getD_eq_getElem?_getD]
      cases hl : r[l]? with
      | none => simpa using h0
      | some z =>
        have hz := List.mem_of_getElem? hl
        rcases hr with hr | hr
        · apply hB
          simp only [Option.getD_some, Finset.mem_insert, List.mem_toFinset, List.mem_map, List.mem_flatten]
          exact Or.inr (Or.inr ⟨z, ⟨r, hr, hz⟩, rfl⟩)
        · rw [hr] at hz; simp at hz
    apply key
    have g : ∀ n, s.sigma.getD n [] ∈ s.sigma ∨ s.sigma.getD n [] = [] := by
      intro n
      rw [List.getD_eq_getElem?_getD]
      cases hn : s.sigma[n]? with
      | none => right; rfl
      | some r => left; exact List.mem_of_getElem? hn
    unfold rowOf
    split_ifs <;> exact g _
  have htail : ∀ n, ((s.smom0 : ℂ) - (s.smom1 : ℂ) / iv s.beta n).re ≤ B := by
    intro n
    have : ((s.smom1 : ℂ) / iv s.beta n).re = 0 := by
      unfold iv
      rw [Complex.div_re]
      simp
    rw [Complex.sub_re, this]
    simpa using h1
  unfold sigmaSpec
  split_ifs
  · exact hrow _
  · exact htail _
  · rw [Complex.conj_re]; exact hrow _
  · rw [Complex.conj_re]; exact htail _

/-- the complete run returns on this input, with a Green's function without poles on the Matsubara axis; (a) to (e) of C130 apply to the result -/
example : ∃ mu r, mainEli fs "test" "in/" "data.npy" none S E (X mu) = .ok r ∧ r.npp = 1 ∧ r.sing.length = 2 ∧ r.trip.length = 2 ∧
    ∀ k m, Files.gDga S r k m ≠ 0 := by
  obtain ⟨out, h⟩ := returns
  obtain ⟨B, hB⟩ := re_bound out.sigma
  obtain ⟨r, hr, e1, e2⟩ := theFiles.eli_returns E (X (B + 1)) out h (B + 1) (by simp [gfMu, updateMu, X]; norm_num)
  obtain ⟨_, h2, h3, h4, _⟩ := theFiles.eli_run E (X (B + 1)) r hr
  refine ⟨B + 1, r, hr, h2, h3, h4, ?_⟩
  intro k m
  unfold Files.gDga
  apply one_div_ne_zero
  intro hz
  have := congrArg Complex.re hz
  rw [e1, e2] at this
  have hek : (bloch S.hr (kPt S.nx S.ny S.nz k.1.val k.2.1.val k.2.2.val)).re = 0 := by
    show (bloch (nb := 0) (oneBand 0 0 0) _).re = 0
    rw [bloch_square, Complex.ofReal_re]
    unfold ekSquare
    simp
  rw [hek] at this
  have hb := hB (flatQ k) m
  simp [iv] at this
  linarith

example : E.kSym ∈ Eli.namedK ∧ E.kSym = "d-wave" ∧ S.nx = S.ny ∧ Bz.Sym.xInv ∈ S.syms ∧ Bz.Sym.yInv ∈ S.syms ∧ Bz.Sym.xySym ∈ S.syms ∧ S.nz = 1 ∧
    (∀ m : Nat, m < theFiles.N → (theFiles.Sg m).im ≤ 0) ∧ (∀ w v v', theFiles.D w v v' = theFiles.D w v' v) ∧
    (∀ w v v', theFiles.M w v v' = theFiles.M w v' v) ∧
    ∀ i j k, i < S.nx → j < S.ny → k < S.nz → ∀ x ∈ Finset.Icc (-(theFiles.w : Int)) theFiles.w, ∀ a,
      Pipe.onBox (theFiles.c + theFiles.sh) (bubQ S.nx S.ny S.nz (theFiles.beta : ℂ) (runG S theFiles.mu theFiles.beta theFiles.Sg theFiles.N) (i, j, k) x) a ≠ 0 := by
  refine ⟨by decide, rfl, rfl, by decide, by decide, by decide, rfl, fun m _ => le_of_eq Complex.zero_im, fun w v v' => dat_symm true w v v',
    fun w v v' => dat_symm false w v v', ?_⟩
  intro i j k _ _ _ x hx a
  have hx' : -2 ≤ x ∧ x ≤ 2 := by
    rw [Finset.mem_Icc] at hx
    exact hx
  exact (denoms _ x hx' (fun v hv => bubQ_at (i, j, k) x v hx' hv)).2.2.2 a

/-- C131: the run on two ranks and the one on seven ranks return the same -/
example : ∃ mu r, S.ranks = 2 ∧ mainEli fs "test" "in/" "data.npy" none S E (X mu) = .ok r ∧
    mainEli fs "test" "in/" "data.npy" none { S with ranks := 7 } E (X mu) = .ok r := by
  obtain ⟨out, h⟩ := returns
  obtain ⟨r, hr, e1, e2⟩ := theFiles.eli_returns E (X 1) out h 1 (by simp [gfMu, updateMu, X]; norm_num)
  exact ⟨1, r, rfl, hr, (theFiles.eli_ranks 7 (by norm_num) E (X 1)).2.trans hr⟩

end DGA.Pairing.Ex4
