/-
  C123: helpers around the auxiliary susceptibility that are not on the main path:
  src/dga/local_four_point.py:170-172, 194-195, 528-544 and src/dga/pairing_vertex.py:27-30.
-/
import Verif.FourPoint.Model
import Mathlib.Tactic.FieldSimp
import Mathlib.Tactic.Ring
import Mathlib.Tactic.NormNum

namespace DGA.Fp

open DGA.Mf

variable {K : Type} [Field K]

/-! ### model -/

/-- local_four_point.py:541-544 `local_gchi_aux_from_gammar_wn` (here `u` is the channel interaction handed in by the caller) -/
noncomputable def localAuxW {n : Nat} (gam : Mat n K) (g0 : Vec n K) (beta u : K) : Option (Mat n K) :=
  inv? (addC (diag (fun i => 1 / g0 i) + gam) (-(u / (beta * beta))))

/-- local_four_point.py:535-538 `local_gchi_aux_from_gammar` -/
noncomputable def localGchiAux {n : Nat} (gam : FourP n K) (gchi0 : List (Vec n K)) : Option (FourP n K) :=
  (overWn gam gam.mat gchi0 fun m g0 => gam.ur.bind fun ur => localAuxW m g0 gam.beta ur).bind fun l => construct gam l

/-- numpy broadcasting of an array of shape `(m,)` against the last axis, of length `n > 1`, of an array of shape `(niw, n, n)`: the value used
    in column `j`; any other length raises `ValueError` -/
def lastAxis (n : Nat) (f : List K) (j : Nat) : Option K :=
  if f.length = n then f[j]? else if f.length = 1 then f[0]? else none

/-- the factor array of local_four_point.py:530-531 (two one-dimensional arrays of the same length) -/
def asymptFactor (ur : K) (chiU chiA : List K) : Option (List K) :=
  zipW (fun cu ca => -(1 - ur * cu) + (1 - ur * cu) ^ 2 / (1 - ur * ca)) chiU chiA

/-- local_four_point.py:528-532 `gchi_aux_asympt`: `mat + mat @ u_mat @ mat * factor`, `u_mat` the constant matrix of the bare `u`; the factor
    array has one axis, so numpy aligns it with the LAST axis of the matrix product.  A box of one frequency is not modelled (boxes are even). -/
def gchiAuxAsympt {n : Nat} (o : FourP n K) (chiU chiA : List K) : Option (FourP n K) :=
  o.ur.bind fun ur => (asymptFactor ur chiU chiA).bind fun f =>
    if f.length = n ∨ f.length = 1 then
      construct o (o.mat.map fun m => Matrix.of fun i j => m i j + (m * (Matrix.of fun _ _ => o.u : Mat n K) * m) i j * (lastAxis n f j.val).getD 0)
    else none

/-- pairing_vertex.py:27-30 `ladder_vertex_from_chi_aux`, one slice -/
def ladderVertex {n : Nat} (aux : Mat n K) (vrg : Vec n K) (chi : K) (g0 : Vec n K) (beta ur : K) : Mat n K :=
  Matrix.of fun i j => beta ^ 2 * 1 / g0 i * ((if i = j then 1 else 0) - aux i j * 1 / g0 j) + ur * (1 - ur * chi) * beta * vrg i * beta * vrg j

/-- local_four_point.py:170-172 `LocalFourPoint.append_shell` (in place) -/
def appendShell4 {c : Nat} (s : Nat) (o : FourP (2 * c) K) (val : K) : FourP (2 * (c + s)) K := ⟨o.channel, o.mat.map fun m => shell2 s m val, o.beta, o.u, o.wnSel⟩

/-! ### theorems -/

/-- C123 (a): the two ways of building the auxiliary susceptibility from the vertex agree for every input, including which inputs raise -/
theorem localGchiAux_eq {n : Nat} (gam : FourP n K) (gchi0 : List (Vec n K)) : localGchiAux gam gchi0 = gchiAuxFromGammar gam gchi0 := by
  unfold localGchiAux gchiAuxFromGammar localAuxW auxGamW
  simp only [pow_two]

/-- C123 (b): over more than one bosonic frequency on the full range (an odd number) the function cannot be used with one susceptibility value per
    frequency, whatever the even fermionic box: the shapes do not fit and it raises -/
theorem gchiAuxAsympt_full_range_raises {c : Nat} (o : FourP (2 * c) K) (chiU chiA : List K) (niw : Nat) (hn : 0 < niw)
    (hU : chiU.length = 2 * niw + 1) : gchiAuxAsympt o chiU chiA = none := by
  unfold gchiAuxAsympt
  cases hu : o.ur with
  | none => rfl
  | some ur =>
    rw [Option.bind_some]
    unfold asymptFactor zipW
    by_cases h : chiU.length = chiA.length
    · rw [if_pos h, Option.bind_some, if_neg]
      rw [List.length_zipWith, ← h, hU, Nat.min_self]
      omega
    · rw [if_neg h]; rfl

/-- C123 (c): with a single bosonic frequency it is a rank-one update with the bare interaction (not the channel interaction, and without
    `1/beta^2`), and it changes nothing if the two susceptibilities agree -/
theorem gchiAuxAsympt_single {n : Nat} (hn : 1 < n) (o o' : FourP n K) (m : Mat n K) (hm : o.mat = [m]) (ur cu ca : K) (hur : o.ur = some ur)
    (h : gchiAuxAsympt o [cu] [ca] = some o') :
    (∃ m', o'.mat = [m'] ∧ ∀ i j, m' i j = m i j + o.u * (-(1 - ur * cu) + (1 - ur * cu) ^ 2 / (1 - ur * ca)) * (∑ l, m i l) * ∑ l, m l j) ∧
    (ca = cu → 1 - ur * cu ≠ 0 → o'.mat = o.mat) := by
  have key : o'.mat = [Matrix.of fun i j => m i j + o.u * (-(1 - ur * cu) + (1 - ur * cu) ^ 2 / (1 - ur * ca)) * (∑ l, m i l) * ∑ l, m l j] := by
    unfold gchiAuxAsympt asymptFactor zipW at h
    rw [hur] at h
    simp only [Option.bind_some, List.length_cons, List.length_nil, if_true, List.zipWith_cons_cons, List.zipWith_nil_left, or_true] at h
    have hmat : ∀ (l : List (Mat n K)) (q : FourP n K), construct o l = some q → q.mat = l := by
      intro l q hq
      unfold construct newNPoint at hq
      cases hw : o.wnSel with
      | none =>
        rw [hw] at hq
        simp only [if_true] at hq
        split at hq
        · simp only [Option.some.injEq] at hq; rw [← hq]
        · simp at hq
      | some w =>
        rw [hw] at hq
        simp only [Bool.false_eq_true, if_false] at hq
        split at hq
        · simp only [Option.some.injEq] at hq; rw [← hq]
        · simp at hq
    rw [hmat _ _ h, hm, List.map_cons, List.map_nil]
    congr 1
    ext i j
    simp only [Matrix.of_apply]
    congr 1
    have hla : (lastAxis n [-(1 - ur * cu) + (1 - ur * cu) ^ 2 / (1 - ur * ca)] j.val).getD 0 = -(1 - ur * cu) + (1 - ur * cu) ^ 2 / (1 - ur * ca) := by
      unfold lastAxis
      rw [if_neg (by simp; omega), if_pos (by simp)]
      simp
    rw [hla, Matrix.mul_apply]
    have e : ∀ l, (m * (Matrix.of fun _ _ => o.u : Mat n K)) i l = (∑ x, m i x) * o.u := by
      intro l
      rw [Matrix.mul_apply, Finset.sum_mul]
      rfl
    simp only [e]
    rw [← Finset.mul_sum]
    ring
  refine ⟨⟨_, key, fun i j => rfl⟩, ?_⟩
  rintro rfl hne
  rw [key, hm]
  congr 1
  ext i j
  simp only [Matrix.of_apply]
  have : -(1 - ur * ca) + (1 - ur * ca) ^ 2 / (1 - ur * ca) = 0 := by field_simp; ring
  rw [this]
  ring

/-- C123 (d): the pairing-vertex variant of the ladder vertex is the local vertex formula, and the sum of the two saved components, with the
    three-leg vertex multiplied by `beta` (it is meant for the older convention in which `1/beta` was part of the three-leg vertex) -/
theorem ladderVertex_eq {n : Nat} (aux : Mat n K) (vrg : Vec n K) (chi : K) (g0 : Vec n K) (beta ur : K) :
    ladderVertex aux vrg chi g0 beta ur = fDcSlice aux (fun i => beta * vrg i) chi g0 beta ur ∧
    ladderVertex aux vrg chi g0 beta ur = buildF false (ladderComponents aux (fun i => beta * vrg i) g0 beta ur) ur chi := by
  constructor
  · ext i j; simp only [ladderVertex, fDcSlice, Matrix.of_apply]; ring
  · ext i j; simp only [ladderVertex, buildF, ladderComponents, Matrix.of_apply, Bool.false_eq_true, if_false]; ring

omit [Field K] in
/-- C123 (e): `append_shell` in place and `get_urange` (a new object) hold the same arrays and the same channel, temperature and interaction -/
theorem appendShell4_eq {c : Nat} (s : Nat) (o : FourP (2 * c) K) (val : K) (q : FourP (2 * (c + s)) K) (h : getUrange s o val = some q) :
    appendShell4 s o val = q := by
  unfold getUrange construct newNPoint at h
  unfold appendShell4
  cases hw : o.wnSel with
  | none =>
    rw [hw] at h
    simp only [if_true] at h
    split at h
    · simpa using h
    · simp at h
  | some w =>
    rw [hw] at h
    simp only [Bool.false_eq_true, if_false] at h
    split at h
    · simpa using h
    · simp at h

/-! ### non-vacuity -/

/-- a single-frequency object on a box of two for which the function succeeds -/
example : ∃ (o o' : FourP 2 ℚ), o.mat.length = 1 ∧ o.ur = some (-3) ∧ gchiAuxAsympt o [1] [2] = some o' := by
  refine ⟨⟨"magn", [Matrix.of fun _ _ => 1], 2, 3, none⟩, ?_⟩
  simp only [gchiAuxAsympt, NPoint.ur, getUr, asymptFactor, zipW, construct, newNPoint, knownChannels]
  norm_num

end DGA.Fp
