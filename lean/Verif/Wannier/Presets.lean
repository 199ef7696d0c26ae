/-
  C76: the named hopping tables of src/dga/wannier.py:200-260 and the dispersion on a list of momenta.
-/
import Verif.Wannier.Props3

namespace DGA.Wan

/-- wannier.py:218-221 `standard_cuprates(t)` -/
noncomputable def standardCuprates (t : ℝ) : Fin 3 → Fin 3 → ℝ :=
  let tp := -(2 / 10) * t
  let tpp := 1 / 10 * t
  ![![t, t, 0], ![tp, tp, 0], ![tpp, tpp, 0]]

/-- wannier.py:224-227 `motoharu_nickelates(t)` -/
noncomputable def motoharuNickelates (t : ℝ) : Fin 3 → Fin 3 → ℝ :=
  let tp := -(25 / 100) * t
  let tpp := 12 / 100 * t
  ![![t, t, 0], ![tp, tp, 0], ![tpp, tpp, 0]]

/-- wannier.py:230-233 `unfrustrated_square(t)` -/
noncomputable def unfrustratedSquare (t : ℝ) : Fin 3 → Fin 3 → ℝ :=
  let tp := 0
  let tpp := 0
  ![![t, t, 0], ![tp, tp, 0], ![tpp, tpp, 0]]

/-- wannier.py:237-250 `Ba2CuO4_plane()` -/
noncomputable def ba2CuO4Plane : Fin 3 → Fin 3 → ℝ := tabNematic (185 / 10000) (47 / 100) (13 / 10000) (85 / 1000) (68 / 10000)

/-- wannier.py:253-260 `Ba2CuO4_plane_2d_projection()` -/
noncomputable def ba2CuO4Projection : Fin 3 → Fin 3 → ℝ := tabNematic (258 / 10000) (5181 / 10000) (-(14 / 10000)) (894 / 10000) (119 / 10000)

/-- wannier.py:358-365 `ek_3d_klist(kgrid, hr)`: rows `(kx, ky, kz)` -/
noncomputable def ek3dKlist (ks : List (ℝ × ℝ × ℝ)) (hr : Fin 3 → Fin 3 → ℝ) : List ℝ :=
  let kx := ks.map (·.1)
  let ky := ks.map (·.2.1)
  let kz := ks.map (·.2.2)
  let ek := List.zipWith (fun c z => -2 * (c + hr 0 2 * Real.cos z)) (List.zipWith (fun x y => hr 0 0 * Real.cos x + hr 0 1 * Real.cos y) kx ky) kz
  let ek := List.zipWith (fun e c => e - 2 * c) ek (List.zipWith (fun x y => hr 1 0 * Real.cos (x + y) + hr 1 1 * Real.cos (x - y)) kx ky)
  List.zipWith (fun e c => e - 2 * c) ek
    (List.zipWith (fun c z => c + hr 2 2 * Real.cos z) (List.zipWith (fun x y => hr 2 0 * Real.cos (2 * x) + hr 2 1 * Real.cos (2 * y)) kx ky) kz)

/-- C76. The dispersion on a list of momenta is, entry by entry, the dispersion on the mesh. -/
theorem klist_is_mesh (ks : List (ℝ × ℝ × ℝ)) (hr : Fin 3 → Fin 3 → ℝ) : ek3dKlist ks hr = ks.map fun k => ek3d k.1 k.2.1 k.2.2 hr := by
  induction ks with
  | nil => rfl
  | cons k ks ih =>
    rw [List.map_cons, ← ih]
    rfl

/-- C76. The dispersions of the named tables are, at every momentum, the bands of the real-space models with the hoppings they stand for. -/
theorem preset_bands {ι : Type} (t : ℝ) (kmesh : Fin 3 → ι → ℝ) (ik : ι) :
    (ek3d (kmesh 0 ik) (kmesh 1 ik) (kmesh 2 ik) (standardCuprates t) : ℂ) = convham (oneBand t (-0.2 * t) (0.1 * t)) kmesh ik 0 0 ∧
    (ek3d (kmesh 0 ik) (kmesh 1 ik) (kmesh 2 ik) (motoharuNickelates t) : ℂ) = convham (oneBand t (-0.25 * t) (0.12 * t)) kmesh ik 0 0 ∧
    (ek3d (kmesh 0 ik) (kmesh 1 ik) (kmesh 2 ik) (unfrustratedSquare t) : ℂ) = convham (oneBand t 0 0) kmesh ik 0 0 ∧
    (ek3d (kmesh 0 ik) (kmesh 1 ik) (kmesh 2 ik) ba2CuO4Plane : ℂ) = convham (oneBandNematic 0.0185 0.47 0.0013 0.085 0.0068) kmesh ik 0 0 ∧
    (ek3d (kmesh 0 ik) (kmesh 1 ik) (kmesh 2 ik) ba2CuO4Projection : ℂ) =
      convham (oneBandNematic 0.0258 0.5181 (-0.0014) 0.0894 0.0119) kmesh ik 0 0 := by
  rw [table_is_model_square, table_is_model_square, table_is_model_square, table_is_model, table_is_model]
  refine ⟨?_, ?_, ?_, ?_, ?_⟩ <;> congr 2 <;>
    simp only [standardCuprates, motoharuNickelates, ba2CuO4Plane, ba2CuO4Projection, tabSquare, tabNematic] <;> norm_num

/-- C76. The presets on the square lattice: the unfrustrated one is perfectly nested, `ε(k + (π,π)) = -ε(k)`, with the band edges `±4t`; for the
    cuprate and nickelate tables (`t ≠ 0`) nesting fails. -/
theorem preset_nesting (t kx ky kz : ℝ) :
    ekpq3d kx ky kz Real.pi Real.pi 0 (unfrustratedSquare t) = -ek3d kx ky kz (unfrustratedSquare t) ∧
    |ek3d kx ky kz (unfrustratedSquare t)| ≤ 4 * |t| ∧
    (t ≠ 0 → ekpq3d 0 0 0 Real.pi Real.pi 0 (standardCuprates t) ≠ -ek3d 0 0 0 (standardCuprates t)) ∧
    (t ≠ 0 → ekpq3d 0 0 0 Real.pi Real.pi 0 (motoharuNickelates t) ≠ -ek3d 0 0 0 (motoharuNickelates t)) := by
  have hpp : Real.cos (Real.pi + Real.pi) = 1 := by rw [← two_mul]; exact Real.cos_two_pi
  refine ⟨square_nesting kx ky kz t, ?_, ?_, ?_⟩
  · have e : ek3d kx ky kz (unfrustratedSquare t) = -2 * t * (Real.cos kx + Real.cos ky) := by
      simp [ek3d, unfrustratedSquare]; ring
    rw [e, abs_mul, abs_mul, abs_neg, abs_of_pos (show (0 : ℝ) < 2 by norm_num)]
    have h2 : |Real.cos kx + Real.cos ky| ≤ 2 :=
      (abs_add_le _ _).trans (by linarith [Real.abs_cos_le_one kx, Real.abs_cos_le_one ky])
    nlinarith [abs_nonneg t]
  · intro h e
    simp [ekpq3d, ek3d, standardCuprates, hpp] at e
    apply h
    linarith
  · intro h e
    simp [ekpq3d, ek3d, motoharuNickelates, hpp] at e
    apply h
    linarith

/-- non-vacuity: two momenta -/
example : ek3dKlist [(0, 0, 0), (Real.pi, 0, 0)] (unfrustratedSquare 1) = [-4, 0] := by
  rw [klist_is_mesh]
  simp [ek3d, unfrustratedSquare]
  norm_num

end DGA.Wan
