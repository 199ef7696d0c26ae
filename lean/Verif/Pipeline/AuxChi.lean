/-
  The auxiliary susceptibility as a four-point object (C27): `gchi_aux_core` and `gchi_aux_core_from_gammar_urange`.
-/
import Verif.Pipeline.Local

namespace DGA.Pipe

open DGA.Mf DGA.Bz DGA.Bubble DGA.Fp

variable {K : Type} [Field K]

/-- Specification: `X` is the auxiliary susceptibility of `A`: it contains everything of `A` except the chains held together by a
    bare `ur`, `X = A + ur/beta^2 (sum over v' of X) (sum over v of A)`. -/
def IsAux {n : Nat} (beta ur : K) (A X : Matrix (Fin n) (Fin n) K) : Prop :=
  ∀ i j, X i j = A i j + ur / beta ^ 2 * ((∑ k, X i k) * (∑ k, A k j))

theorem isAux_of_inv {n : Nat} (beta ur : K) (A X C : Matrix (Fin n) (Fin n) K) (hC : C * A = 1)
    (hX : X * (C + (-(ur / beta ^ 2)) • ones n K) = 1) : IsAux beta ur A X := by
  intro i j
  have h : X - (ur / beta ^ 2) • (X * ones n K * A) = A := by
    have e : (X * (C + (-(ur / beta ^ 2)) • ones n K)) * A = A := by rw [hX, one_mul]
    rw [mul_add, add_mul, mul_assoc, hC, mul_one, Matrix.mul_smul, Matrix.smul_mul, neg_smul, ← sub_eq_add_neg] at e
    exact e
  have h2 := congrFun (congrFun h i) j
  have h3 : (X * ones n K * A) i j = (∑ k, X i k) * ∑ k, A k j := by
    rw [Matrix.mul_apply, Finset.mul_sum]
    refine Finset.sum_congr rfl fun k _ => ?_
    congr 1
    rw [Matrix.mul_apply]
    simp [ones]
  rw [Matrix.sub_apply, Matrix.smul_apply, h3, smul_eq_mul, sub_eq_iff_eq_add] at h2
  exact h2

/-- Contracted: `chi* - chi = ur chi* chi`. -/
theorem isAux_phys {n : Nat} (beta ur : K) (A X : Matrix (Fin n) (Fin n) K) (h : IsAux beta ur A X) :
    phys beta X - phys beta A = ur * phys beta X * phys beta A := by
  unfold phys
  have : ∑ a, ∑ b, X a b = (∑ a, ∑ b, A a b) + ur / beta ^ 2 * ((∑ a, ∑ b, X a b) * ∑ a, ∑ b, A a b) := by
    conv_lhs => rw [Finset.sum_congr rfl fun a _ => Finset.sum_congr rfl fun b _ => h a b]
    simp only [Finset.sum_add_distrib, ← Finset.mul_sum]
    congr 2
    rw [← Finset.sum_mul]
    congr 1
    exact Finset.sum_comm
  generalize (∑ a, ∑ b, X a b) = x at *
  generalize (∑ a, ∑ b, A a b) = y at *
  rw [div_sub_div_same, show x - y = ur / beta ^ 2 * (x * y) by linear_combination this]
  ring

theorem gchiAuxCore_eq {n : Nat} (dens : Bool) (niw : Nat) (beta u : K) (A : Int → Mat n K) :
    gchiAuxCore (⟨chName dens, (wn niw).map A, beta, u, none⟩ : FourP n K) =
      ((wn niw).mapM fun (x : Int) => auxW (A x) beta (urOf dens u)).map fun l => ⟨chName dens, l, beta, u, none⟩ := by
  unfold gchiAuxCore
  have hm : ((List.range (NPoint.wn (⟨chName dens, (wn niw).map A, beta, u, none⟩ : FourP n K)).length).mapM fun i =>
      (((wn niw).map A)[i]?).bind fun m => (NPoint.ur (⟨chName dens, (wn niw).map A, beta, u, none⟩ : FourP n K)).bind fun ur =>
        auxW m beta ur) = (wn niw).mapM fun (x : Int) => auxW (A x) beta (urOf dens u) := by
    rw [objWn]
    apply mapM_range_congr
    intro j x hx
    simp only [List.getElem?_map, hx, Option.map_some, Option.bind_some, ur_obj]
  simp only
  rw [hm]
  cases (wn niw).mapM fun (x : Int) => auxW (A x) beta (urOf dens u) with
  | none => rfl
  | some l => rw [Option.bind_some, construct_eq _ (chName_known dens), Option.map_some]

/-- **C27.** `gchi_aux_core` of a local object, where it is defined: the object it returns has the channel, temperature and interaction of the input and holds at every
    frequency the auxiliary susceptibility with the interaction of the channel. -/
theorem gchiAuxCore_value {n : Nat} (dens : Bool) (niw : Nat) (beta u : K) (A : Int → Mat n K) (o : FourP n K)
    (h : gchiAuxCore (⟨chName dens, (wn niw).map A, beta, u, none⟩ : FourP n K) = some o) :
    ∃ X : Int → Mat n K, o = ⟨chName dens, (wn niw).map X, beta, u, none⟩ ∧ ∀ x ∈ wn niw, IsAux beta (urOf dens u) (A x) (X x) ∧
      phys beta (X x) - phys beta (A x) = urOf dens u * phys beta (X x) * phys beta (A x) := by
  rw [gchiAuxCore_eq] at h
  cases h2 : (wn niw).mapM fun (x : Int) => auxW (A x) beta (urOf dens u) with
  | none => rw [h2] at h; simp at h
  | some l =>
    rw [h2, Option.map_some, Option.some.injEq] at h
    obtain ⟨X, hX, rfl⟩ := mapM_ex 0 _ _ _ h2
    refine ⟨X, h.symm, ?_⟩
    intro x hx
    have hx := hX x hx
    unfold auxW at hx
    cases hi : inv? (A x) with
    | none => rw [hi] at hx; simp at hx
    | some C =>
      rw [hi, Option.bind_some, addC_eq] at hx
      have := isAux_of_inv beta (urOf dens u) (A x) (X x) C (inv?_left hi) (inv?_left hx)
      exact ⟨this, isAux_phys _ _ _ _ this⟩

/-- **C27.** `gchi_aux_core_from_gammar_urange`: at every frequency the auxiliary susceptibility of the solution of the
    Bethe–Salpeter equation on the full box, with the vertex `Γ` on the core and its asymptotic value on the shell. -/
theorem gchiAuxUrange_value {c : Nat} (s : Nat) (dens : Bool) (niw : Nat) (beta u : K) (Γ : Int → Mat (2 * c) K)
    (B : Int → Vec (2 * (c + s)) K) (o : FourP (2 * (c + s)) K)
    (h : gchiAuxFromGammarUrange s (⟨chName dens, (wn niw).map Γ, beta, u, none⟩ : FourP (2 * c) K) ((wn niw).map B) = some o)
    (chi : Int → Mat (2 * (c + s)) K) (hl : ∀ x ∈ wn niw, Ladder beta (urOf dens u) (B x) (Γ x) (chi x)) :
    ∃ X : Int → Mat (2 * (c + s)) K, o = ⟨chName dens, (wn niw).map X, beta, u, none⟩ ∧
      ∀ x ∈ wn niw, IsAux beta (urOf dens u) (chi x) (X x) ∧
        phys beta (X x) - phys beta (chi x) = urOf dens u * phys beta (X x) * phys beta (chi x) := by
  unfold gchiAuxFromGammarUrange getUrange at h
  rw [ur_obj, Option.bind_some, construct_eq _ (chName_known dens), Option.bind_some] at h
  simp only [List.map_map] at h
  rw [overWn_map _ (wn niw) (objWn ..)] at h
  cases h2 : (wn niw).mapM fun (x : Int) =>
      auxGamW (((fun m => shell2 s m (urOf dens u / beta ^ 2)) ∘ Γ) x) (B x) beta (urOf dens u) with
  | none => rw [h2] at h; simp at h
  | some l =>
    rw [h2, Option.bind_some, construct_eq _ (chName_known dens), Option.some.injEq] at h
    obtain ⟨X, hX, rfl⟩ := mapM_ex 0 _ _ _ h2
    refine ⟨X, h.symm, ?_⟩
    intro x hx
    have hL := hl x hx
    have hx := hX x hx
    unfold auxGamW at hx
    rw [addC_eq, diag_eq] at hx
    unfold Ladder at hL
    have e : withShell s (Γ x) (urOf dens u / beta ^ 2) = shell2 s (Γ x) (urOf dens u / beta ^ 2) := by
      ext i j
      rfl
    rw [e] at hL
    have := isAux_of_inv beta (urOf dens u) (chi x) (X x) _ (mul_eq_one_comm.mp hL) (inv?_left hx)
    exact ⟨this, isAux_phys _ _ _ _ this⟩

/-- non-vacuity: one bosonic frequency, two fermionic ones -/
example : ∃ o X, gchiAuxCore (⟨"dens", [(1 : Mat 2 ℚ)], 1, 1 / 4, none⟩ : FourP 2 ℚ) = some o ∧ o.mat = [X] ∧ X 0 1 = 1 / 2 ∧ X 0 0 = 3 / 2 := by
  refine ⟨⟨"dens", [!![3 / 2, 1 / 2; 1 / 2, 3 / 2]], 1, 1 / 4, none⟩, _, ?_, rfl, by norm_num, by norm_num⟩
  have h1 : inv? (1 : Mat 2 ℚ) = some 1 := (inv?_iff _ _).2 (by rw [one_mul])
  have h2 : inv? (addC (1 : Mat 2 ℚ) (-((1 / 4 : ℚ) / 1 ^ 2))) = some !![3 / 2, 1 / 2; 1 / 2, 3 / 2] := by
    rw [inv?_iff, addC_eq]
    ext i j
    fin_cases i <;> fin_cases j <;> norm_num [Matrix.mul_apply, ones, Fin.sum_univ_two]
  have hw : NPoint.wn (⟨"dens", [(1 : Mat 2 ℚ)], 1, 1 / 4, none⟩ : FourP 2 ℚ) = [0] := by decide +kernel
  unfold gchiAuxCore
  rw [hw]
  simp [List.range_succ, NPoint.ur, getUr, auxW, h1, construct, newNPoint, knownChannels] 
  rw [show (1 / 4 : ℚ) / 1 ^ 2 = 4⁻¹ by norm_num] at h2
  simp [h2]

end DGA.Pipe
