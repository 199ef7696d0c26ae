/-
  Model of the tight-binding module: src/dga/wannier.py (Hamiltonians in real and momentum space, light vertex).
  Arithmetic is exact (ℝ, ℂ); arrays are functions on finite index types.
-/
import Mathlib.Analysis.SpecialFunctions.Complex.Circle
import Mathlib.Data.Fin.VecNotation

namespace DGA.Wan

/-- wannier.py:13-22 `WannierHr`: `hr[R, a, b]`, `r_grid[R, a, b, :]`, `r_weights[R, 0]`, `orbs[R, a, b, :]`, `n_orbs = nb`.
    A length-one orbital axis of `r_grid` is written out (numpy broadcasting). -/
structure Hr (nb : Nat) where
  nr : Nat
  hr : Fin nr → Fin nb → Fin nb → ℂ
  rGrid : Fin nr → Fin nb → Fin nb → Fin 3 → ℝ
  w : Fin nr → ℝ
  orbs : Fin nr → Fin nb → Fin nb → Fin 2 → ℝ

/-- `np.matmul(r_grid, kmesh)[R, a, b, ik]` of wannier.py:484 and 496 -/
def Hr.dot {nb : Nat} (h : Hr nb) (k : Fin 3 → ℝ) (R : Fin h.nr) (a b : Fin nb) : ℝ := ∑ x : Fin 3, h.rGrid R a b x * k x

/-- wannier.py:478-486 `convham`; `kmesh` has the axes `(3, nk)`, the result `(nk, nb, nb)`.  The k axis may be any index type. -/
noncomputable def convham {nb : Nat} {ι : Type} (h : Hr nb) (kmesh : Fin 3 → ι → ℝ) (ik : ι) (a b : Fin nb) : ℂ :=
  ∑ R, Complex.exp (Complex.I * ((h.dot (fun x => kmesh x ik) R a b : ℝ) : ℂ)) / (h.w R : ℂ) * h.hr R a b

/-- wannier.py:456-472 `convham2`: the same array filled element by element -/
noncomputable def convham2 {nb nk : Nat} (h : Hr nb) (kmesh : Fin 3 → Fin nk → ℝ) : Fin nk → Fin nb → Fin nb → ℂ :=
  (List.finRange nb).foldl (fun hk ib2 => (List.finRange nb).foldl (fun hk ib1 => (List.finRange nk).foldl (fun hk ik =>
      fun ik' a b => if ik' = ik ∧ a = ib1 ∧ b = ib2 then
        ∑ R, Complex.exp (Complex.I * ((h.dot (fun x => kmesh x ik) R ib1 ib2 : ℝ) : ℂ)) / (h.w R : ℂ) * h.hr R ib1 ib2
      else hk ik' a b) hk) hk) fun _ _ _ => 0

/-- wannier.py:491-498 `light_vertex` -/
noncomputable def lightVertex {nb : Nat} {ι : Type} (h : Hr nb) (kmesh : Fin 3 → ι → ℝ) (der : Fin 3) (ik : ι) (a b : Fin nb) : ℂ :=
  ∑ R, Complex.exp (Complex.I * ((h.dot (fun x => kmesh x ik) R a b : ℝ) : ℂ)) / (h.w R : ℂ) * Complex.I * (h.rGrid R a b der : ℂ) * h.hr R a b

/-- brillouin_zone.py:243-246 `KGrid.set_k_axes`, one axis: `np.linspace(0, 2 pi, n, endpoint=False)` -/
noncomputable def kAxis (n i : Nat) : ℝ := (i : ℝ) * (2 * Real.pi / (n : ℝ))

/-- brillouin_zone.py:210-213 `KGrid.kmesh` (indexing 'ij'): component `x` at the mesh point `(i, j, k)` -/
noncomputable def kmeshAt (nx ny nz : Nat) (x : Fin 3) (i j k : Nat) : ℝ := ![kAxis nx i, kAxis ny j, kAxis nz k] x

/-- `k_grid.kmesh.reshape(3, -1)` (wannier.py:25 and 33; also brillouin_zone.py:215-220 `kmesh_list`): C order -/
noncomputable def kmeshFlat (nx ny nz : Nat) (x : Fin 3) (l : Nat) : ℝ :=
  kmeshAt nx ny nz x (l / nz / ny) (l / nz % ny) (l % nz)

/-- C-order position of the mesh point `(i, j, k)` in the flattened k axis (the inverse `reshape` of wannier.py:28, 30, 36, 38) -/
def flatIdx (ny nz i j k : Nat) : Nat := (i * ny + j) * nz + k

/-- wannier.py:24-30 `WannierHr.get_ek(k_grid, one_band=False)`: `reshape(*nk, n_orbs, n_orbs)`, entry `[i, j, k, a, b]` -/
noncomputable def getEkFull {nb : Nat} (h : Hr nb) (nx ny nz i j k : Nat) (a b : Fin nb) : ℂ :=
  convham h (kmeshFlat nx ny nz) (flatIdx ny nz i j k) a b

/-- wannier.py:24-30 `WannierHr.get_ek(k_grid)` (`one_band=True`): `[:, :, :, 0, 0]` -/
noncomputable def getEk {nb : Nat} (h : Hr (nb + 1)) (nx ny nz i j k : Nat) : ℂ := getEkFull h nx ny nz i j k 0 0

/-- wannier.py:32-38 `WannierHr.get_light_vertex(k_grid, der, one_band=False)` -/
noncomputable def getLightVertexFull {nb : Nat} (h : Hr nb) (nx ny nz : Nat) (der : Fin 3) (i j k : Nat) (a b : Fin nb) : ℂ :=
  lightVertex h (kmeshFlat nx ny nz) der (flatIdx ny nz i j k) a b

/-- wannier.py:32-38 `WannierHr.get_light_vertex` (`one_band=True`) -/
noncomputable def getLightVertex {nb : Nat} (h : Hr (nb + 1)) (nx ny nz : Nat) (der : Fin 3) (i j k : Nat) : ℂ :=
  getLightVertexFull h nx ny nz der i j k 0 0

/-- the twelve lattice vectors of wannier.py:184-186 and 206-208 -/
def r12 : Fin 12 → Fin 3 → ℝ :=
  ![![1, 0, 0], ![0, 1, 0], ![-1, 0, 0], ![0, -1, 0],
    ![1, 1, 0], ![1, -1, 0], ![-1, 1, 0], ![-1, -1, 0],
    ![2, 0, 0], ![0, 2, 0], ![-2, 0, 0], ![0, -2, 0]]

/-- wannier.py:182-189 `wannier_one_band_2d_t_tp_tpp` -/
def oneBand (t tp tpp : ℝ) : Hr 1 where
  nr := 12
  hr := fun R _ _ => ((-(![t, t, t, t, tp, tp, tp, tp, tpp, tpp, tpp, tpp] : Fin 12 → ℝ) R : ℝ) : ℂ)
  rGrid := fun R _ _ => r12 R
  w := fun _ => 1
  orbs := fun _ _ _ _ => 1

/-- wannier.py:204-211 `wannier_one_band_2d_nematic` -/
def oneBandNematic (tx ty tppx tppy tpxy : ℝ) : Hr 1 where
  nr := 12
  hr := fun R _ _ => ((-(![tx, ty, tx, ty, tpxy, tpxy, tpxy, tpxy, tppx, tppy, tppx, tppy] : Fin 12 → ℝ) R : ℝ) : ℂ)
  rGrid := fun R _ _ => r12 R
  w := fun _ => 1
  orbs := fun _ _ _ _ => 1

/-- wannier.py:328-330 `ek_square` -/
noncomputable def ekSquare (kx ky t tp tpp : ℝ) : ℝ :=
  -2 * t * (Real.cos kx + Real.cos ky) - 4 * tp * Real.cos kx * Real.cos ky - 2 * tpp * (Real.cos (2 * kx) + Real.cos (2 * ky))

/-- wannier.py:333-335 `del_ek_del_kx_square` -/
noncomputable def delEkDelKxSquare (kx ky t tp tpp : ℝ) : ℝ :=
  -2 * t * (-Real.sin kx) + 4 * tp * Real.sin kx * Real.cos ky - 2 * tpp * (-2 * Real.sin (2 * kx))

/-- wannier.py:348-355 `ek_3d` at one mesh point; also 358-365 `ek_3d_klist`.  `hr` is the 3×3 hopping table. -/
noncomputable def ek3d (kx ky kz : ℝ) (hr : Fin 3 → Fin 3 → ℝ) : ℝ :=
  let ek := -2 * (hr 0 0 * Real.cos kx + hr 0 1 * Real.cos ky + hr 0 2 * Real.cos kz)
  let ek := ek - 2 * (hr 1 0 * Real.cos (kx + ky) + hr 1 1 * Real.cos (kx - ky))
  ek - 2 * (hr 2 0 * Real.cos (2 * kx) + hr 2 1 * Real.cos (2 * ky) + hr 2 2 * Real.cos kz)

/-- wannier.py:338-345 `ekpq_3d` -/
noncomputable def ekpq3d (kx ky kz qx qy qz : ℝ) (hr : Fin 3 → Fin 3 → ℝ) : ℝ := ek3d (kx + qx) (ky + qy) (kz + qz) hr

/-- wannier.py:192-193 `one_band_2d_t_tp_tpp` -/
def tabSquare (t tp tpp : ℝ) : Fin 3 → Fin 3 → ℝ := ![![t, t, 0], ![tp, tp, 0], ![tpp, tpp, 0]]
/-- wannier.py:196-197 `one_band_2d_quasi1d`, 200-201 `one_band_2d_nematic` -/
def tabNematic (tx ty tppx tppy tpxy : ℝ) : Fin 3 → Fin 3 → ℝ := ![![tx, ty, 0], ![tpxy, tpxy, 0], ![tppx, tppy, 0]]
/-- wannier.py:214-215 `one_band_2d_triangular_t_tp_tpp` -/
def tabTriangular (t tp tpp : ℝ) : Fin 3 → Fin 3 → ℝ := ![![t, t, 0], ![tp, 0, 0], ![tpp, tpp, 0]]

/-! ### Emery model -/

/-- wannier.py:108, the dictionary `r2ind` as the list of its keys in the order of their values -/
def emeryR : List (Int × Int × Int) := [(0, 0, 0), (1, 0, 0), (0, 1, 0), (-1, 0, 0), (0, -1, 0), (1, -1, 0), (-1, 1, 0)]

/-- wannier.py:59-65 `create_r_grid`: entry `[R, a, b, :]` -/
def createRGrid (r2ind : List (Int × Int × Int)) (R : Fin r2ind.length) : Fin 3 → ℝ :=
  ![((r2ind.get R).1 : ℝ), ((r2ind.get R).2.1 : ℝ), ((r2ind.get R).2.2 : ℝ)]

/-- wannier.py:68-74 `create_orbs`.  The statement is `orbs[io1, io2, :] = [io1 + 1, io2 + 1]` on an array with the axes
    `[R, a, b, :]`: it writes the pair to the entries `R = io1`, `a = io2`, every `b`; for `io1 ≥ n_rp` it would raise
    (not reached when `n_orbs ≤ n_rp`). -/
def createOrbs (nr nb : Nat) (R : Fin nr) (a _b : Fin nb) : Fin 2 → ℝ :=
  if R.val < nb then ![(R.val : ℝ) + 1, (a.val : ℝ) + 1] else ![0, 0]

/-- wannier.py:77-81 `insert_hr_elemend`: `orb1`, `orb2` count from one; a missing `r_vec` would raise `KeyError`
    (`idxOf` then returns the length and nothing is written; not reached). -/
noncomputable def insertHr (r2ind : List (Int × Int × Int)) (rv : Int × Int × Int) (orb1 orb2 : Nat) (v : ℝ)
    (hr : Nat → Nat → Nat → ℝ) : Nat → Nat → Nat → ℝ :=
  fun R a b => if R = r2ind.idxOf rv ∧ a = orb1 - 1 ∧ b = orb2 - 1 then v else hr R a b

/-- the sequence of insertions of wannier.py:118-177 -/
def emeryElems (ed ep tpd tpp tppP : ℝ) : List ((Int × Int × Int) × Nat × Nat × ℝ) :=
  [((0, 0, 0), 1, 1, ed), ((0, 0, 0), 2, 2, ep), ((0, 0, 0), 3, 3, ep),
   ((0, 0, 0), 1, 2, tpd), ((0, 0, 0), 2, 1, tpd), ((0, 0, 0), 1, 3, tpd), ((0, 0, 0), 3, 1, tpd),
   ((-1, 0, 0), 1, 2, -tpd), ((0, -1, 0), 1, 3, -tpd), ((1, 0, 0), 2, 1, -tpd), ((0, 1, 0), 3, 1, -tpd),
   ((0, 0, 0), 2, 3, tpp), ((0, 0, 0), 3, 2, tpp),
   ((1, 0, 0), 2, 3, -tpp), ((0, 1, 0), 3, 2, -tpp), ((-1, 0, 0), 3, 2, -tpp), ((0, -1, 0), 2, 3, -tpp),
   ((-1, 1, 0), 3, 2, tpp), ((1, -1, 0), 2, 3, tpp),
   ((1, 0, 0), 2, 2, tppP), ((0, 1, 0), 3, 3, tppP), ((-1, 0, 0), 2, 2, tppP), ((0, -1, 0), 3, 3, tppP)]

/-- wannier.py:105-179 `wannier_emery_model` -/
noncomputable def emery (ed ep tpd tpp tppP : ℝ) : Hr 3 where
  nr := emeryR.length
  hr := fun R a b =>
    (((emeryElems ed ep tpd tpp tppP).foldl (fun h e => insertHr emeryR e.1 e.2.1 e.2.2.1 e.2.2.2 h) (fun _ _ _ => 0)) R.val a.val b.val : ℝ)
  rGrid := fun R _ _ => createRGrid emeryR R
  w := fun _ => 1
  orbs := createOrbs emeryR.length 3

/-- wannier.py:84-102 `emery_model_ek`, the matrix at one momentum -/
noncomputable def emeryHk (kx ky ed ep tpd tpp tppP : ℝ) : Fin 3 → Fin 3 → ℂ :=
  let e (s : ℝ) := Complex.exp (Complex.I * (s : ℂ))
  ![![(ed : ℂ), tpd * (1 - e (-kx)), tpd * (1 - e (-ky))],
    ![tpd * (1 - e kx), ep + 2 * tppP * Real.cos kx, tpp * (1 - e kx) * (1 - e (-ky))],
    ![tpd * (1 - e ky), tpp * (1 - e (-kx)) * (1 - e ky), ep + 2 * tppP * Real.cos ky]]

end DGA.Wan
