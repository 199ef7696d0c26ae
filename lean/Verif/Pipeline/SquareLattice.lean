/-
  The complete calculation for a tight-binding Hamiltonian (`lattice.type = t_tp_tpp` or `from_wannier90`): from the hopping elements, the DMFT
  self-energy and the two-particle Green's functions to the DGA self-energy (C78).
-/
import Verif.Pipeline.Conj
import Verif.Wannier.Props2
import Verif.TwoPoint.Props

namespace DGA.Pipe

open DGA.Bz DGA.Mf DGA.Two DGA.Wan DGA.Bubble DGA.Fp

/-! ### Specification -/

/-- the band of a table of hopping elements: `e(q) = Σ_R exp(i q·R) / w_R · H(R)`, first orbital -/
noncomputable def bloch {nb : Nat} (h : Hr (nb + 1)) (q : Fin 3 → ℝ) : ℂ :=
  ∑ R, Complex.exp (Complex.I * ((∑ x, h.rGrid R 0 0 x * q x : ℝ) : ℂ)) / (h.w R : ℂ) * h.hr R 0 0

/-- the momentum of a grid point -/
noncomputable def kPt (nx ny nz : Nat) (i j k : Nat) : Fin 3 → ℝ := ![2 * Real.pi * i / nx, 2 * Real.pi * j / ny, 2 * Real.pi * k / nz]

/-- A table of hopping elements that fits the symmetries of the config file: the band is real, and on the grid it has the symmetries. -/
structure LatticeOk {nb : Nat} (nx ny nz : Nat) (h : Hr (nb + 1)) (syms : List Sym) : Prop where
  real : ∀ q, (bloch h q).im = 0
  sym : ∀ σ ∈ syms, ∀ p, InGrid nx ny nz p → bloch h (kPt nx ny nz (Bz.image nx ny nz σ p).1 (Bz.image nx ny nz σ p).2.1 (Bz.image nx ny nz σ p).2.2) =
    bloch h (kPt nx ny nz p.1 p.2.1 p.2.2)

theorem bloch_convham {nb : Nat} (h : Hr (nb + 1)) (q : Fin 3 → ℝ) : bloch h q = convham h (fun x (_ : Unit) => q x) () 0 0 := rfl

theorem getEk_bloch {nb : Nat} (h : Hr (nb + 1)) (nx ny nz i j k : Nat) (hj : j < ny) (hk : k < nz) :
    getEk h nx ny nz i j k = bloch h (kPt nx ny nz i j k) := by
  unfold getEk getEkFull convham bloch Hr.dot
  have e : ∀ x, kmeshFlat nx ny nz x (flatIdx ny nz i j k) = kPt nx ny nz i j k x := by
    intro x
    rw [kmeshFlat_at nx ny nz i j k hj hk]
    unfold kPt kAxis
    fin_cases x <;> simp <;> ring
  simp only [e]

/-- hopping elements with `H(-R) = conj H(R)` give a real band -/
theorem bloch_real {nb : Nat} (h : Hr (nb + 1)) (σ : Fin (nb + 1) → Fin (nb + 1) → Fin h.nr ≃ Fin h.nr) (hh : Hermitian h σ) (q : Fin 3 → ℝ) :
    (bloch h q).im = 0 := by
  have := (hk_hermitian h σ hh (fun x (_ : Unit) => q x) 0 () 0 0).1
  rw [← bloch_convham] at this
  have h2 := congrArg Complex.im this
  rw [show star (bloch h q) = (starRingEnd ℂ) (bloch h q) from rfl, Complex.conj_im] at h2
  linarith

/-- the built-in model -/
theorem bloch_square (t tp tpp : ℝ) (q : Fin 3 → ℝ) : bloch (nb := 0) (oneBand t tp tpp) q = (ekSquare (q 0) (q 1) t tp tpp : ℂ) := by
  rw [bloch_convham, square_band_ek]

theorem lattice_square (nx ny nz : Nat) (t tp tpp : ℝ) (syms : List Sym) : LatticeOk (nb := 0) nx ny nz (oneBand t tp tpp) syms := by
  refine ⟨fun q => by rw [bloch_square, Complex.ofReal_im], ?_⟩
  intro σ hσ p hp
  have h := square_invariant t tp tpp nx ny nz syms σ hσ p hp
  have himg : InGrid nx ny nz (Bz.image nx ny nz σ p) := related_inGrid hp (.step hσ .refl)
  rw [getEk_bloch _ nx ny nz _ _ _ himg.2.1 himg.2.2, getEk_bloch _ nx ny nz _ _ _ hp.2.1 hp.2.2] at h
  exact h

/-! ### Model -/

/-- dga_main.py:87-90: the DMFT lattice Green's function on the k mesh for the band `hr.get_ek(k_grid)` and the local self-energy
    `siw[None, None, None, :]` (one row, broadcast over the momenta).  `get_ek` returns a complex array whose imaginary part vanishes
    (`LatticeOk.real`; C44, C73); its real part is used here. -/
noncomputable def giwkDmft {nb : Nat} (nx ny nz : Nat) (h : Hr (nb + 1)) (mu : ℝ) (s : SelfEnergy) (nivAsympt : Nat) : Arr3 (List ℂ) :=
  table nx ny nz fun i j k => (gFullRow s nivAsympt (getEk h nx ny nz i j k).re mu 0).getD []

/-- two_point.py:432-433 `set_gloc`, 422-430 `k_mean('full')`: mean over the mesh at each of the `nv` frequencies -/
noncomputable def glocDmft (giwk : Arr3 (List ℂ)) (nv : Nat) : List ℂ := (List.range nv).map fun (m : Nat) => kMean (flat3 giwk) m

/-- dga_main.py:108: `BubbleGenerator(wn, giwk_dmft, is_full_wn=True)` of the DMFT Green's function -/
noncomputable def genDmft {nb : Nat} (nx ny nz : Nat) (h : Hr (nb + 1)) (mu : ℝ) (s : SelfEnergy) (nivAsympt niw : Nat) : Bub ℂ :=
  let g := giwkDmft nx ny nz h mu s nivAsympt
  let nv := 2 * (s.nivCore + nivAsympt)
  ⟨wn niw, g, nv, glocDmft g nv, (s.beta : ℂ), "minus", true⟩

/-- the Green's function as a function of momentum and Matsubara index: `1 / (i v + mu - e(k) - Sigma(v))` -/
noncomputable def gBand {nb : Nat} (nx ny nz : Nat) (h : Hr (nb + 1)) (mu : ℝ) (s : SelfEnergy) (r : List ℂ) (i j k : Nat) (m : Int) : ℂ :=
  1 / (iv s.beta m + (mu : ℂ) - (((bloch h (kPt nx ny nz i j k)).re : ℝ) : ℂ) - sigmaSpec s r m)

theorem giwkDmft_eq {nb : Nat} (nx ny nz : Nat) (h : Hr (nb + 1)) (mu : ℝ) (s : SelfEnergy) (r : List ℂ) (hr : s.sigma = [r]) (hcore : s.nivCore ≤ r.length)
    (nivAsympt : Nat) :
    giwkDmft nx ny nz h mu s nivAsympt = table nx ny nz fun i j k => samplesF (gBand nx ny nz h mu s r i j k) (s.nivCore + nivAsympt) := by
  unfold giwkDmft table
  apply List.map_congr_left; intro i _
  apply List.map_congr_left; intro j hj
  apply List.map_congr_left; intro k hk
  rw [List.mem_range] at hj hk
  beta_reduce
  rw [getEk_bloch h nx ny nz i j k hj hk,
    gFull_value s (by rw [hr]; intro r' h; rw [List.mem_singleton] at h; subst h; exact hcore), hr]
  rfl

/-- mean over the momenta -/
noncomputable def gLocBand {nb : Nat} (nx ny nz : Nat) (h : Hr (nb + 1)) (mu : ℝ) (s : SelfEnergy) (r : List ℂ) (m : Int) : ℂ :=
  (kSum nx ny nz fun i j k => gBand nx ny nz h mu s r i j k m) / ((nx * ny * nz : Nat) : ℂ)

theorem genDmft_eq {nb : Nat} (nx ny nz : Nat) (h : Hr (nb + 1)) (mu : ℝ) (s : SelfEnergy) (r : List ℂ) (hr : s.sigma = [r]) (hcore : s.nivCore ≤ r.length)
    (nivAsympt niw : Nat) :
    genDmft nx ny nz h mu s nivAsympt niw =
      genOf nx ny nz (s.nivCore + nivAsympt) niw (s.beta : ℂ) (gBand nx ny nz h mu s r) (gLocBand nx ny nz h mu s r) := by
  unfold genDmft genOf
  simp only [giwkDmft_eq nx ny nz h mu s r hr hcore]
  congr 1
  unfold glocDmft
  apply List.ext_getElem?
  intro m
  rw [List.getElem?_map]
  by_cases hm : m < 2 * (s.nivCore + nivAsympt)
  · rw [List.getElem?_range hm, samplesF_get? _ _ _ hm, Option.map_some]
    congr 1
    unfold kMean gLocBand
    congr 1
    · rw [flat3_table, List.map_map]
      rw [← kSum_flat3, flat3_table]
      congr 1
      apply List.map_congr_left
      intro l _
      simp only [Function.comp]
      rw [List.getD_eq_getElem?_getD, samplesF_get? _ _ _ hm]
      rfl
    · rw [flat3_table, List.length_map, List.length_range]
  · rw [List.getElem?_eq_none (by simp; omega), List.getElem?_eq_none (by rw [samplesF_length]; omega)]
    rfl

theorem gBand_conj {nb : Nat} (nx ny nz : Nat) (h : Hr (nb + 1)) (mu : ℝ) (s : SelfEnergy) (r : List ℂ) (i j k : Nat) (m : Int) :
    gBand nx ny nz h mu s r i j k (-m - 1) = star (gBand nx ny nz h mu s r i j k m) :=
  gFull_symm s r _ mu m

theorem gLocBand_conj {nb : Nat} (nx ny nz : Nat) (h : Hr (nb + 1)) (mu : ℝ) (s : SelfEnergy) (r : List ℂ) (m : Int) :
    gLocBand nx ny nz h mu s r (-m - 1) = star (gLocBand nx ny nz h mu s r m) := by
  unfold gLocBand kSum
  rw [show ∀ x y : ℂ, star (x / y) = star x / star y from fun x y => map_div₀ (starRingEnd ℂ) x y, star_natCast]
  simp only [star_sum, gBand_conj]

theorem gBand_invariant {nb : Nat} {nx ny nz : Nat} {h : Hr (nb + 1)} {syms : List Sym} (hl : LatticeOk nx ny nz h syms) (mu : ℝ) (s : SelfEnergy)
    (r : List ℂ) : Invariant nx ny nz syms (gBand nx ny nz h mu s r) := by
  intro σ hσ p hp
  funext m
  unfold gBand
  rw [hl.sym σ hσ p hp]

/-- C78.  The whole program on a lattice whose band is real and has the configured symmetries: for all hopping elements, chemical potential, local
    DMFT self-energy (an array `r` of positive Matsubara frequencies with its fitted tail), interaction, filling, grid, symmetry set, lambda corrections and
    number of ranks, and for two-particle Green's functions with the conjugation symmetry `G2(-w,-v,-v') = conj G2(w,v,v')`, every
    self-energy the calculation returns has the symmetry of the lattice and obeys `Sigma(k,-v) = conj Sigma(k,v)`. -/
theorem dga_lattice {c nb : Nat} (sh nx ny nz niw nivAsympt Ns : Nat) (h : Hr (nb + 1)) (mu u n : ℝ) (s : SelfEnergy) (hb0 : s.beta ≠ 0)
    (r : List ℂ) (hr : s.sigma = [r]) (hcore : s.nivCore ≤ r.length)
    (syms : List Sym) (hl : LatticeOk nx ny nz h syms) (mp : Arr3 Nat) (hmp : fbz2irrk nx ny nz syms = some mp)
    (hfit : niw + (c + sh) ≤ s.nivCore + nivAsympt) (hS : c ≤ Ns)
    (G2D G2M : Int → Matrix (Fin (2 * c)) (Fin (2 * c)) ℂ)
    (hD : ∀ x ∈ Finset.Icc (-(niw : Int)) niw, ∀ i j, G2D (-x) i.rev j.rev = star (G2D x i j))
    (hM : ∀ x ∈ Finset.Icc (-(niw : Int)) niw, ∀ i j, G2M (-x) i.rev j.rev = star (G2M x i j))
    (lamD lamM : Option ℝ) (R : Nat) (hR : 0 < R) (sig : List (List ℂ))
    (hrun : dgaSelfEnergy sh R nx ny nz (flat3 mp) (objOf true niw (s.beta : ℂ) (u : ℂ) G2D) (objOf false niw (s.beta : ℂ) (u : ℂ) G2M)
        (genDmft nx ny nz h mu s nivAsympt niw) (lamD.map Complex.ofReal) (lamM.map Complex.ofReal) (u : ℂ) (n : ℂ)
        (samplesF (sigmaSpec s r) Ns) = some sig) :
    ∃ Sig : Nat → Nat → Nat → Int → ℂ, sig = flat3 (table nx ny nz fun i j k => samplesF (Sig i j k) c) ∧
      (∀ σ ∈ syms, ∀ p, InGrid nx ny nz p → ∀ v : Int, -(c : Int) ≤ v → v < c →
        Sig (Bz.image nx ny nz σ p).1 (Bz.image nx ny nz σ p).2.1 (Bz.image nx ny nz σ p).2.2 v = Sig p.1 p.2.1 p.2.2 v) ∧
      ∀ i j k, ∀ v : Int, -(c : Int) ≤ v → v < c → Sig i j k (-v - 1) = star (Sig i j k v) := by
  rw [genDmft_eq nx ny nz h mu s r hr hcore] at hrun
  have re : ∀ x : ℝ, star (x : ℂ) = x := Complex.conj_ofReal
  have hb0' : (s.beta : ℂ) ≠ 0 := by exact_mod_cast hb0
  have hlam : ∀ (lam : Option ℝ) (l : ℂ), lam.map Complex.ofReal = some l → star l = l := by
    intro lam l hl
    cases lam with
    | none => cases hl
    | some x =>
      rw [Option.map_some] at hl
      rw [← Option.some.inj hl]
      exact re x
  obtain ⟨Sig1, e1, i1⟩ := dga_symmetric sh nx ny nz _ niw (s.beta : ℂ) u n (re _) hb0' syms mp hmp _
    (gBand_invariant hl mu s r) _ (fun m _ _ => gLocBand_conj nx ny nz h mu s r m)
    (fun i j k m _ _ => gBand_conj nx ny nz h mu s r i j k m) hfit G2D G2M _ _ _ R hR sig hrun
  obtain ⟨label, hlab, _⟩ := label_of nx ny nz syms mp hmp
  rw [hlab] at hrun
  obtain ⟨Sig2, e2, i2⟩ := dga_conj_symmetric sh nx ny nz _ Ns niw (s.beta : ℂ) u n (re _) hb0' (re _) (re _) _ _ _
    (fun m _ _ => gLocBand_conj nx ny nz h mu s r m)
    (fun i j k m _ _ => gBand_conj nx ny nz h mu s r i j k m) (fun m _ _ => sigmaSpec_symm s r m) hfit hS G2D G2M hD hM label
    (lamD.map Complex.ofReal) (lamM.map Complex.ofReal)
    (hlam lamD) (hlam lamM) R hR sig hrun
  refine ⟨Sig2, e2, ?_, i2⟩
  have same : ∀ p, InGrid nx ny nz p → Sig1 p.1 p.2.1 p.2.2 = samplesF (Sig2 p.1 p.2.1 p.2.2) c := by
    intro p hp
    obtain ⟨i, j, k⟩ := p
    obtain ⟨h1, h2, h3⟩ := hp
    simp only at h1 h2 h3 ⊢
    rw [e1] at e2
    rw [flat3_table, flat3_table] at e2
    have hl1 : i * ny + j < nx * ny := by
      calc i * ny + j < i * ny + ny := by omega
        _ = (i + 1) * ny := by ring
        _ ≤ nx * ny := Nat.mul_le_mul_right _ h1
    have hl2 : (i * ny + j) * nz + k < nx * ny * nz := by
      calc (i * ny + j) * nz + k < (i * ny + j) * nz + nz := by omega
        _ = (i * ny + j + 1) * nz := by ring
        _ ≤ nx * ny * nz := Nat.mul_le_mul_right _ hl1
    have := congrArg (fun l : List (List ℂ) => l[(i * ny + j) * nz + k]?) e2
    beta_reduce at this
    rw [List.getElem?_map, List.getElem?_map, List.getElem?_range hl2, Option.map_some, Option.map_some] at this
    have d1 : ((i * ny + j) * nz + k) / nz = i * ny + j := by
      rw [mul_comm, Nat.mul_add_div (by omega), Nat.div_eq_of_lt h3, add_zero]
    have d2 : ((i * ny + j) * nz + k) % nz = k := by rw [mul_comm, Nat.mul_add_mod, Nat.mod_eq_of_lt h3]
    have d3 : (i * ny + j) / ny = i := by rw [mul_comm, Nat.mul_add_div (by omega), Nat.div_eq_of_lt h2, add_zero]
    have d4 : (i * ny + j) % ny = j := by rw [mul_comm, Nat.mul_add_mod, Nat.mod_eq_of_lt h2]
    rw [d1, d2, d3, d4] at this
    exact Option.some.inj this
  intro σ hσ p hp v hv1 hv2
  have himg : InGrid nx ny nz (Bz.image nx ny nz σ p) := related_inGrid hp (.step hσ .refl)
  have h1 := i1 σ hσ p hp
  rw [same _ himg, same _ hp] at h1
  have h2 := congrArg (fun l : List ℂ => l[(v + c).toNat]?) h1
  beta_reduce at h2
  rw [samplesF_get? _ _ _ (by omega), samplesF_get? _ _ _ (by omega), show ((v + c).toNat : Int) - c = v by omega] at h2
  exact Option.some.inj h2

/-- C78 on the built-in square lattice: for all hoppings `t, t', t''` and every set of symmetries of the program -/
theorem dga_square_lattice {c : Nat} (sh nx ny nz niw nivAsympt Ns : Nat) (t tp tpp mu u n : ℝ) (s : SelfEnergy) (hb0 : s.beta ≠ 0)
    (r : List ℂ) (hr : s.sigma = [r]) (hcore : s.nivCore ≤ r.length)
    (syms : List Sym) (mp : Arr3 Nat) (hmp : fbz2irrk nx ny nz syms = some mp)
    (hfit : niw + (c + sh) ≤ s.nivCore + nivAsympt) (hS : c ≤ Ns)
    (G2D G2M : Int → Matrix (Fin (2 * c)) (Fin (2 * c)) ℂ)
    (hD : ∀ x ∈ Finset.Icc (-(niw : Int)) niw, ∀ i j, G2D (-x) i.rev j.rev = star (G2D x i j))
    (hM : ∀ x ∈ Finset.Icc (-(niw : Int)) niw, ∀ i j, G2M (-x) i.rev j.rev = star (G2M x i j))
    (lamD lamM : Option ℝ) (R : Nat) (hR : 0 < R) (sig : List (List ℂ))
    (h : dgaSelfEnergy sh R nx ny nz (flat3 mp) (objOf true niw (s.beta : ℂ) (u : ℂ) G2D) (objOf false niw (s.beta : ℂ) (u : ℂ) G2M)
        (genDmft (nb := 0) nx ny nz (oneBand t tp tpp) mu s nivAsympt niw) (lamD.map Complex.ofReal) (lamM.map Complex.ofReal) (u : ℂ) (n : ℂ)
        (samplesF (sigmaSpec s r) Ns) = some sig) :
    ∃ Sig : Nat → Nat → Nat → Int → ℂ, sig = flat3 (table nx ny nz fun i j k => samplesF (Sig i j k) c) ∧
      (∀ σ ∈ syms, ∀ p, InGrid nx ny nz p → ∀ v : Int, -(c : Int) ≤ v → v < c →
        Sig (Bz.image nx ny nz σ p).1 (Bz.image nx ny nz σ p).2.1 (Bz.image nx ny nz σ p).2.2 v = Sig p.1 p.2.1 p.2.2 v) ∧
      ∀ i j k, ∀ v : Int, -(c : Int) ≤ v → v < c → Sig i j k (-v - 1) = star (Sig i j k v) :=
  dga_lattice sh nx ny nz niw nivAsympt Ns (nb := 0) (oneBand t tp tpp) mu u n s hb0 r hr hcore syms (lattice_square nx ny nz t tp tpp syms) mp hmp hfit hS
    G2D G2M hD hM lamD lamM R hR sig h

end DGA.Pipe
