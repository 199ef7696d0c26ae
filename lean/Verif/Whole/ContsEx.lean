/-
  C142: an input with a self-energy of 20 positive frequencies: non-interacting isolated atoms on a 4x4 lattice, 2 core and 18 shell frequencies.  It meets
  every hypothesis of C142.
-/
import Verif.Whole.ContsReturn
import Verif.Whole.Ex

noncomputable section

namespace DGA.Whole.ContEx

open DGA.RankFiles DGA.Mpi DGA.Pipe DGA.Fp DGA.Mf DGA.Bz DGA.Bubble DGA.Two DGA.Inp DGA.Wan DGA.Pairing
open DGA.Pairing.Ex4 (gA bR bR_symm gA_mul core_ge)

/-- two-particle data: the bubble and, for the density at zero frequency, the disconnected part -/
def datR (dens : Bool) (w v v' : Int) : ℝ :=
  ((if v = v' then bR w v else 0) + if dens = true ∧ w = 0 then -(2 * Real.pi) / ((2 * v + 1) * (2 * v' + 1)) else 0) / Real.pi

def dat (dens : Bool) (w v v' : Int) : ℂ := (datR dens w v v' : ℂ)

def dict : Dict :=
  ⟨.a1 [], .a1 (samplesF (fun _ => 0) 20), .num ((9 / 10 : ℝ) : ℂ), .num (Real.pi : ℂ), .num ((0 : ℝ) : ℂ), .num ((0 : ℝ) : ℂ),
    some (.a3 (tab 2 2 (dat true))), some (.a3 (tab 2 2 (dat false)))⟩

def fs : Fs := ⟨fun _ => none, fun s => if s = "in/data.npy" then some dict else none⟩

def S : Settings := ⟨⟨-1, 2, 18, -1⟩, false, 4, 4, 1, 0, oneBand 0 0 0, square, "none", 2⟩

theorem load : load1p fs "test" "in/" "data.npy" none = some dict := by
  simp [load1p, fs]

theorem dat_conj (dens : Bool) (w v v' : Int) : dat dens (-w) (-v - 1) (-v' - 1) = star (dat dens w v v') := by
  have : datR dens (-w) (-v - 1) (-v' - 1) = datR dens w v v' := by
    unfold datR
    rw [bR_symm]
    have e1 : (-v - 1 = -v' - 1) = (v = v') := by rw [eq_iff_iff]; omega
    have e2 : (-w = 0) = (w = 0) := by rw [eq_iff_iff]; omega
    simp only [e1, e2]
    have e3 : ((2 * ((-v - 1 : Int) : ℝ) + 1) * (2 * ((-v' - 1 : Int) : ℝ) + 1)) = (2 * (v : ℝ) + 1) * (2 * (v' : ℝ) + 1) := by push_cast; ring
    rw [e3]
  unfold dat
  rw [this]
  exact (Complex.conj_ofReal _).symm

def theFiles : Files fs "test" "in/" "data.npy" none S where
  d := dict
  load := load
  N := 20
  hN := le_rfl
  Sg := fun _ => 0
  siw := rfl
  Sg_conj := fun _ => (star_zero ℂ).symm
  n := 9 / 10
  beta := Real.pi
  u := 0
  mu := 0
  beta_pos := Real.pi_pos
  d_n := rfl
  d_beta := rfl
  d_u := rfl
  d_mu := rfl
  wD := 2
  vD := 2
  wM := 2
  vM := 2
  D := dat true
  M := dat false
  dens := rfl
  magn := rfl
  D_conj := dat_conj true
  M_conj := dat_conj false
  c := 2
  w := 2
  sh := 18
  as := 24
  box_c := Or.inl rfl
  box_w := Or.inr ⟨rfl, rfl⟩
  box_sh := rfl
  box_as := by simp [S]
  c_pos := by omega
  cD := le_rfl
  cM := le_rfl
  wwD := le_rfl
  wwM := le_rfl
  cN := by omega
  fit := by have := core_ge; omega
  ranks := by decide
  syms := by decide
  lat := lattice_square _ _ _ _ _ _ _
  pp := by decide

instance : NeZero S.nx := ⟨by decide⟩
instance : NeZero S.ny := ⟨by decide⟩
instance : NeZero S.nz := ⟨by decide⟩

/-- the self-energy vanishes, in its tail, too -/
theorem sigma_zero (m : Int) : sigmaSpec (siwObj (samplesF (fun _ => 0) 20) Real.pi) (posHalf (fun _ => 0) 20) m = 0 := by
  have hget : ∀ k, (posHalf (fun _ => (0 : ℂ)) 20).getD k 0 = 0 := by
    intro k
    unfold posHalf
    rw [List.getD_eq_getElem?_getD, List.getElem?_map]
    cases (List.range 20)[k]? <;> rfl
  have hk : ∀ n, kMean [posHalf (fun _ => (0 : ℂ)) 20] n = 0 := by
    intro n
    unfold kMean
    simp only [List.map_cons, List.map_nil, hget]
    simp
  obtain ⟨hsig, -⟩ := siwObj_sigma (fun _ => 0) 20 Real.pi
  have hfit : ∀ N, fitSmom Real.pi [posHalf (fun _ => (0 : ℂ)) 20] N = (0, 0) := by
    intro N
    unfold fitSmom
    simp [hk]
  have h0 : (siwObj (samplesF (fun _ => 0) 20) Real.pi).smom0 = 0 := by
    show (fitSmom Real.pi (siwObj (samplesF (fun _ => 0) 20) Real.pi).sigma _).1 = 0
    rw [hsig, hfit]
  have h1 : (siwObj (samplesF (fun _ => 0) 20) Real.pi).smom1 = 0 := by
    show (fitSmom Real.pi (siwObj (samplesF (fun _ => 0) 20) Real.pi).sigma _).2 = 0
    rw [hsig, hfit]
  unfold sigmaSpec
  rw [h0, h1, hget, hget]
  simp

theorem G_at (i j k : Nat) (m : Int) : theFiles.G i j k m = gA m := by
  show gBand (nb := 0) 4 4 1 (oneBand 0 0 0) 0 (siwObj (samplesF (fun _ => 0) 20) Real.pi) (posHalf (fun _ => 0) 20) i j k m = gA m
  obtain ⟨_, s2⟩ := siwObj_sigma (fun _ => 0) 20 Real.pi
  unfold gBand
  rw [bloch_square, Complex.ofReal_re, sigma_zero, s2]
  unfold gA iv ekSquare
  simp [Real.pi_ne_zero]

theorem g_at (m : Int) : theFiles.gloc m = gA m := by
  have h := fun i j k => G_at i j k m
  show gLocBand (nb := 0) 4 4 1 (oneBand 0 0 0) 0 (siwObj (samplesF (fun _ => 0) 20) Real.pi) (posHalf (fun _ => 0) 20) m = gA m
  unfold gLocBand
  have h' : ∀ i j k, gBand (nb := 0) 4 4 1 (oneBand 0 0 0) 0 (siwObj (samplesF (fun _ => 0) 20) Real.pi) (posHalf (fun _ => 0) 20) i j k m = gA m := h
  simp only [h']
  unfold kSum
  simp
  ring

theorem bubLoc_at (x v : Int) : bubLoc (Real.pi : ℂ) theFiles.gloc x v = (bR x v : ℂ) := by
  unfold bubLoc bR
  rw [g_at, g_at, gA_mul]
  push_cast
  ring

theorem bubQ_at (q : Mom) (x v : Int) : bubQ 4 4 1 (Real.pi : ℂ) theFiles.G q x v = (bR x v : ℂ) := by
  rw [← bubLoc_at x v]
  unfold bubQ bubLoc
  simp only [G_at, g_at]
  unfold kSum
  simp
  ring

theorem bR_ne (x v : Int) : bR x v ≠ 0 := Ex4.bR_ne x v

/-- the bubble without `pi` -/
def bQ (x v : Int) : ℚ := 1 / ((2 * v + 1) * (2 * (v - x) + 1))

theorem bQ_sum : ∀ x : Int, x = -2 ∨ x = -1 ∨ x = 0 ∨ x = 1 ∨ x = 2 → (∑ a : Fin (2 * (2 + 18)), bQ x ((a.val : Int) - (2 + 18 : Nat))) ≠ 0 := by
  rintro x (rfl | rfl | rfl | rfl | rfl) <;> decide +kernel

theorem chi0_ne (f : Int → ℂ) (x : Int) (hx : -2 ≤ x ∧ x ≤ 2) (h : ∀ v : Int, f v = (bR x v : ℂ)) : chi0Box (2 + 18) (Real.pi : ℂ) f ≠ 0 := by
  have hpi : (Real.pi : ℂ) ≠ 0 := by exact_mod_cast Real.pi_ne_zero
  have e : (∑ a, Pipe.onBox (2 + 18) f a) = (Real.pi : ℂ) * ((∑ a : Fin (2 * (2 + 18)), bQ x ((a.val : Int) - (2 + 18 : Nat)) : ℚ) : ℂ) := by
    rw [Rat.cast_sum, Finset.mul_sum]
    apply Finset.sum_congr rfl
    intro a _
    unfold Pipe.onBox
    rw [h]
    unfold bR bQ
    push_cast
    ring
  unfold chi0Box
  rw [e]
  have hq := bQ_sum x (by omega)
  exact div_ne_zero (mul_ne_zero hpi (by exact_mod_cast hq)) (pow_ne_zero 2 hpi)

theorem gchi_at (dens : Bool) (x : Int) (i j : Fin (2 * 2)) :
    gchiOf (Real.pi : ℂ) theFiles.gloc dens (onBox2 2 (used false (dat dens))) x i j =
      rpaChi 0 (Pipe.onBox (2 + 18) (bubLoc (Real.pi : ℂ) theFiles.gloc x)) (core 2 18 i) (core 2 18 j) := by
  have hpi : (Real.pi : ℂ) ≠ 0 := by exact_mod_cast Real.pi_ne_zero
  unfold gchiOf rpaChi
  rw [Matrix.of_apply, g_at, g_at, gA_mul]
  simp only [onBox2, Matrix.of_apply, used, core, Pipe.onBox, Bool.false_eq_true, if_false, Fin.mk.injEq, dat, datR, bubLoc_at, zero_mul, zero_div, sub_zero]
  rw [Complex.ofReal_div, mul_div_cancel₀ _ hpi]
  have he : (((i.val : Int) - (2 : Nat)) = ((j.val : Int) - (2 : Nat))) = (i.val + 18 = j.val + 18) := by rw [eq_iff_iff]; omega
  have hi : ((i.val + 18 : Nat) : Int) - (2 + 18 : Nat) = (i.val : Int) - (2 : Nat) := by push_cast; ring
  rw [hi]
  simp only [he]
  push_cast
  split_ifs <;> push_cast <;> ring

theorem returns : ∃ out, mainRun fs "test" "in/" "data.npy" none S = .ok out := by
  apply theFiles.run_of_sde (by decide)
  intro label hl lamD lamM
  have mem : ∀ x ∈ Finset.Icc (-((2 : Nat) : Int)) (2 : Nat), -2 ≤ x ∧ x ≤ 2 := fun x hx => by simpa using hx
  have z1 : ((0 : ℝ) : ℂ) / ((Real.pi : ℂ) * (Real.pi : ℂ)) = 0 := by simp
  have z2 : -((0 : ℝ) : ℂ) / ((Real.pi : ℂ) * (Real.pi : ℂ)) = 0 := by simp
  exact ⟨_, dga_rpa (c := 2) 18 4 4 1 theFiles.NG 20 2 (Real.pi : ℂ) ((0 : ℝ) : ℂ) ((9 / 10 : ℝ) : ℂ) (Complex.conj_ofReal _) (by exact_mod_cast Real.pi_ne_zero)
    theFiles.G theFiles.gloc (fun _ => 0) (fun m _ _ => theFiles.gloc_conj m)
    (fun m _ _ => gLoc_ne_zero 4 4 1 (by omega) _ _ (fun _ => 0) 20 Real.pi Real.pi_pos le_rfl (fun m _ => by simp) m)
    (fun i j k m _ _ => theFiles.G_conj i j k m) theFiles.fit (by omega) (onBox2 2 (used false (dat true))) (onBox2 2 (used false (dat false))) label lamD lamM 2 (by omega)
    (fun x hx i j => by rw [z1]; exact gchi_at true x i j) (fun x hx i j => by rw [z2]; exact gchi_at false x i j)
    (fun x hx => ⟨chi0_ne _ x (mem x hx) fun v => bubLoc_at x v, by simp, by simp, by simp, by simp⟩)
    (fun q x hx => ⟨chi0_ne _ x (mem x hx) fun v => bubQ_at q x v, by simp, by simp, fun a => by
      unfold Pipe.onBox
      rw [bubQ_at]
      exact_mod_cast bR_ne x _⟩) hl⟩

/-! ### Everything is continued -/

/-- everything is asked for -/
def plan : Plan := ⟨true, true, true, true, true, Ex4.E, {}, 0, 0⟩

/-- five points from -2 to 2, two frequencies -/
def K : ContSet := ⟨2, 5, -2, 2, 0, "linear", none, false⟩

def theConts : ContPlan := ⟨some (K, true), some ⟨some (K, true), some (K, true), some (K, true), some (K, true)⟩⟩

/-- every optimisation finds a constant spectrum -/
def T : Tools := ⟨fun _ _ w _ _ => some (w.map fun _ => 1), fun _ x => x, fun _ => some fun x => x⟩

/-- a root finder that returns 1, start vectors 1 -/
def X : Chance S.nx S.ny S.nz := ⟨fun _ _ => some 1, fun _ _ _ _ _ => 1, fun _ _ _ _ _ => 1, fun _ _ _ => 1⟩

theorem ranges : ({} : Cfg.Optics).setRanges ⟨(theFiles.w : Int), theFiles.c, theFiles.sh, theFiles.as⟩ =
    some (⟨1, 1, 2, 22, 1⟩, ⟨(theFiles.w : Int), theFiles.c, theFiles.sh, ((24 : Nat) : Int)⟩) := by rfl

theorem mu_found (s : SelfEnergy) : gfMu X.newton s (bandOf S) theFiles.n 0 = some 1 := by
  simp [gfMu, updateMu, X]
  norm_num

theorem mesh_s : MeshIs K false (Optics.oddGrid 2 1) := by
  unfold MeshIs Ana.getWMesh Ana.linearMesh Ana.linspace Optics.oddGrid
  simp only [K, String.reduceEq, if_false, if_true, Bool.false_eq_true, Option.some.injEq]
  apply List.map_congr_left
  intro k _
  push_cast
  ring

theorem mesh_s' : MeshIs K false (Optics.meshOf 2 fun j => (j : ℝ)) := by
  have : Optics.meshOf 2 (fun j => (j : ℝ)) = Optics.oddGrid 2 1 := by
    unfold Optics.meshOf Optics.oddGrid
    apply List.map_congr_left
    intro k _
    push_cast
    ring
  rw [this]
  exact mesh_s

theorem mesh_b : MeshIs K true (Ana.linspace 0 2 5) := by
  unfold MeshIs Ana.getWMesh Ana.linearMesh
  simp only [K, String.reduceEq, if_false, if_true, Option.some.injEq]
  rw [show max (-2 : ℝ) 0 = 0 by norm_num]

theorem kkt_some (A w : List ℝ) (h : A.length = w.length) (hw : w ≠ []) : (Ana.kkt A w "fermionic").isSome := by
  unfold Ana.kkt Ana.cellWidths
  rw [if_pos h]
  obtain ⟨a, ha⟩ : ∃ a, w.head? = some a := Option.isSome_iff_exists.1 (by rw [List.isSome_head?]; simp [hw])
  obtain ⟨b, hb⟩ : ∃ b, w.getLast? = some b := Option.isSome_iff_exists.1 (by simp [hw])
  rw [ha, hb]
  simp only [Option.bind_some, Option.map_some]
  simp only [Ana.kktTerm, String.reduceEq, or_self, if_false, true_or, if_true, Option.map_some]
  have key : ∀ {α β : Type} (l : List α) (f : α → β), (l.mapM fun a => some (f a)) = some (l.map f) := fun l f =>
    DGA.Bubble.mapM_some' l f _ fun _ _ => rfl
  simp only [key, Option.map_some, Option.isSome_some]

theorem solved (name : String) (im w : List ℝ) (data : List ℂ) (model : List ℝ) (hw : w ≠ []) :
    ∃ A, T.solve name im w data model = some A ∧ (Ana.kkt A w "fermionic").isSome :=
  ⟨_, rfl, kkt_some _ _ (by simp) hw⟩

/-- the whole run returns, with all continuations -/
theorem conts_return : ∃ x fits c, mainConts fs "test" "in/" "data.npy" none S plan true none (fun _ _ _ _ => 0) theConts T X = .ok (x, fits, c) ∧
    S.ranks = 2 ∧ c.cond.isSome ∧ ∃ y, c.maxEnt = some y ∧ y.s.isSome ∧ y.g.isSome ∧ y.d.isSome ∧ y.m.isSome := by
  obtain ⟨out, h⟩ := returns
  have hr : mainRun fs "test" "in/" "data.npy" none (withAs S 24) = .ok out := by
    rw [(theFiles.enlarge 24 le_rfl).mainRun_eq]
    rw [theFiles.mainRun_eq] at h
    exact h
  obtain ⟨x, h1, h2, -, -, -, h6⟩ := one_returns theFiles (by decide) plan true X 24 ⟨1, 1, 2, 22, 1⟩ ranges (fun _ => rfl) (fun _ => by decide)
    (fun _ => by decide) out hr 1 (mu_found _)
  obtain ⟨fits, h3⟩ := (poly_iff theFiles plan true none (fun _ _ _ _ => 0) X x).2 ⟨h1, fun h => absurd rfl h⟩
  have hwne : ∀ w, MeshIs K false w → w ≠ [] := by
    intro w hw
    rw [← Option.some.inj (mesh_s.symm.trans hw)]
    simp [Optics.oddGrid]
  obtain ⟨c, c1, c2, c3⟩ := conts_returns theFiles (by decide) plan true none (fun _ _ _ _ => 0) theConts T X x fits h3
    (by
      intro K' m1 O hK hO
      cases hK
      refine ⟨fun _ => ?_, _, mesh_b, fun _ _ _ => rfl⟩
      have := (optics_sizes theFiles (by decide) plan true X x h1 O hO).2.2
      obtain ⟨v, hv⟩ : ∃ v, O.vertex = some v := by
        obtain ⟨g1, -⟩ := (one_iff theFiles plan true X x).1 h1
        obtain ⟨a, o, -, -, -, -, q⟩ := (all_iff theFiles plan.forAll X x.all).1 g1
        have hO' : x.all.optics = some O := hO
        rcases q with ⟨e, -⟩ | ⟨-, -, -, mu, bub, F, V, e, -⟩ | ⟨-, -, e, -⟩
        · cases e
        · rw [e] at hO'
          cases hO'
          exact ⟨_, rfl⟩
        · cases e
      exact (this v hv).2)
    (by
      intro M hM
      cases hM
      have hsK : ∀ K' b, some (K, true) = some (K', b) → K' = K := by
        intro K' b h
        cases h
        rfl
      refine ⟨by decide, ⟨1, mu_found _⟩, ?_, ⟨?_, ?_⟩, ?_, fun _ => rfl, Or.inr ?_⟩
      · obtain ⟨mp, hmp, -⟩ := irrk_representative S.nx S.ny S.nz S.syms theFiles.syms
        have := ex_irr
        unfold Cfg.irrPoints at this
        rw [show Bz.fbz2irrk 4 4 1 square = some mp from hmp] at this
        refine ⟨mp, hmp, ?_⟩
        simp only [Option.map_some, Option.getD_some, Cfg.nIrr, irrkInd, List.length_map] at this
        rw [this]
        decide
      · rintro K' b (hK | hK) <;> cases hK <;> exact ⟨_, mesh_s⟩
      · rintro K' b (hK | hK) <;> cases hK <;> exact ⟨_, mesh_b⟩
      · intro K' hK
        cases hK
        exact ⟨2, _, by norm_num, ⟨by simp, fun i j _ h _ => by exact_mod_cast h⟩, mesh_s'⟩
      · rintro name K' w (hK | hK) hw im data model <;> cases hK <;> exact solved _ _ _ _ _ (hwne w hw))
  obtain ⟨y, hy, s1, s2, s3, s4⟩ := c3 _ rfl
  exact ⟨x, fits, c, c1, rfl, c2.2 ⟨h6, rfl⟩, y, hy, s1.2 ⟨_, rfl⟩, s2.2 ⟨_, rfl⟩, s3.2 ⟨_, rfl⟩, s4.2 ⟨_, rfl⟩⟩

example : ∃ x fits c, mainConts fs "test" "in/" "data.npy" none S plan true none (fun _ _ _ _ => 0) theConts T X = .ok (x, fits, c) ∧
    mainConts fs "test" "in/" "data.npy" none { S with ranks := 1 } plan true none (fun _ _ _ _ => 0) theConts T X = .ok (x, fits, c) ∧
    ∃ y o, c.maxEnt = some y ∧ y.mu = 1 ∧ y.d = some o ∧ o.w = Ana.linspace 0 2 5 ∧ HoldsAt S o.mat fun p =>
      orZeros o.w (boseCont (T.solve "chi_d") Real.pi o.w 2 2 (chiAt S 2 x.main.run.chi.dens p)) := by
  obtain ⟨x, fits, c, h, -, -, y, hy, -, -, hd, -⟩ := conts_return
  refine ⟨x, fits, c, h, (conts_ranks theFiles (by decide) _ _ _ _ _ _ _ _ _ _ h).1, y, ?_⟩
  obtain ⟨-, -, h3⟩ := conts_values theFiles (by decide) _ _ _ _ _ _ _ _ _ _ h
  rcases h3 with ⟨h3, -⟩ | ⟨M, y', hM, hy', h20, hmu, -, -, h4, -⟩
  · cases h3
  · cases hM
    obtain rfl : y = y' := Option.some.inj (hy.symm.trans hy')
    have hm1 : y.mu = 1 := (Option.some.inj ((mu_found _).symm.trans hmu)).symm
    rcases h4 with ⟨h4, -⟩ | ⟨K0, b, w, hK, hw, h5⟩
    · cases h4
    · cases hK
      rcases h5 with ⟨h5, -⟩ | ⟨o, -, ho, how, hmat⟩
      · cases h5
      · subst how
        refine ⟨o, hy, hm1, ho, Option.some.inj (hw.symm.trans mesh_b), hmat⟩

/-- (g): the default mesh with one point less, on which the self-energy cannot be continued -/
def Keven : ContSet := ⟨20, 500, -15, 15, 1 / 100, "tan", some (1 / 25), false⟩

example (out : MainOut) (h : calcFrom S theFiles.d ⟨theFiles.w, theFiles.c, theFiles.sh, theFiles.as⟩ (theFiles.obj "dens" theFiles.D) (theFiles.obj "magn" theFiles.M) = .ok out)
    (g d m : Option (ContSet × Bool)) : maxEntMain S T X.newton theFiles.d out ⟨some (Keven, true), g, d, m⟩ = none :=
  maxEnt_even theFiles out h T X.newton _ Keven rfl rfl (by norm_num [Keven]) 250 (by norm_num) rfl (Or.inl (by simp [Keven]))

/-- (h): the default mesh -/
example : (∃ m f, 0 < m ∧ Optics.OddMesh m f ∧ MeshIs { Keven with nwr := 501 } false (Optics.meshOf m f)) ∧ ∃ w, MeshIs { Keven with nwr := 501 } true w :=
  symmetric_meshes { Keven with nwr := 501 } rfl (by norm_num [Keven]) 250 (by norm_num) rfl (Or.inl (by simp [Keven]))

end DGA.Whole.ContEx
