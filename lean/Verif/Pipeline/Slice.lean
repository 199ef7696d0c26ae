/-
  One frequency slice: what the auxiliary susceptibility, the physical susceptibility and the three-leg vertex of the program are,
  in terms of the solution of the Bethe–Salpeter equation on the full box.
-/
import Verif.Pipeline.Spec
import Verif.FourPoint.Props2

namespace DGA.Pipe

open DGA.Fp

variable {K : Type} [Field K]

omit [Field K] in
theorem withShell_eq {c : Nat} (s : Nat) (Γ : Mat (2 * c) K) (val : K) : withShell s Γ val = shell2 s Γ val := rfl

theorem ladder_iff {c s : Nat} (beta U : K) (B : Vec (2 * (c + s)) K) (Γ : Mat (2 * c) K) (chi : Mat (2 * (c + s)) K) :
    Ladder beta U B Γ chi ↔ gchirGamW (shell2 s Γ (U / beta ^ 2)) B = some chi := by
  unfold Ladder gchirGamW
  rw [inv?_iff, diag_eq, withShell_eq]
  exact mul_eq_one_comm

theorem ladder_unique {c s : Nat} {beta U : K} {B : Vec (2 * (c + s)) K} {Γ : Mat (2 * c) K} {chi chi' : Mat (2 * (c + s)) K}
    (h : Ladder beta U B Γ chi) (h' : Ladder beta U B Γ chi') : chi = chi' := by
  rw [ladder_iff] at h h'
  rw [h] at h'
  exact Option.some.inj h'

/-- if the core problem and the full problem are both solvable, the denominator of the Sherman–Morrison formula does not vanish -/
theorem denom_ne_zero {c s : Nat} (gam X : Mat (2 * c) K) (g0 : Vec (2 * (c + s)) K) (h0 : ∀ i, g0 i ≠ 0) (beta ur : K)
    (hb : beta ≠ 0) (hX : auxGamW gam (cut1 (c := c) (s := s) g0) beta ur = some X) (chi : Mat (2 * (c + s)) K)
    (hL : Ladder beta ur g0 gam chi) :
    1 + ur * (physical beta X + physicalBubble beta g0 - physicalBubble beta (cut1 (c := c) (s := s) g0)) ≠ 0 := by
  have hk : (ur / beta ^ 2) * total (blockAux X g0) =
      ur * (physical beta X + physicalBubble beta g0 - physicalBubble beta (cut1 (c := c) (s := s) g0)) := by
    rw [blockAux_total]
    unfold physical physicalBubble total
    field_simp
    ring
  have hX' : (diag (fun i => 1 / cut1 (c := c) (s := s) g0 i) + (gam + (-(ur / beta ^ 2)) • ones _ K)) * X = 1 := by
    unfold auxGamW at hX
    rw [inv?_iff, addC_eq, add_assoc] at hX
    exact hX
  have hblock : (diag (fun i => 1 / g0 i) + (sel c s K).transpose * (gam + (-(ur / beta ^ 2)) • ones _ K) * sel c s K) * blockAux X g0 = 1 :=
    block_inverse g0 h0 _ X hX'
  rw [← hk]
  unfold Ladder at hL
  rw [withShell_eq, shell2_eq, ← diag_eq, add_left_comm, add_comm (_ • ones _ K)] at hL
  generalize blockAux X g0 = Z at *
  generalize diag (fun i => 1 / g0 i) + (sel c s K).transpose * (gam + (-(ur / beta ^ 2)) • ones _ K) * sel c s K = M at *
  rcases Nat.eq_zero_or_pos (2 * (c + s)) with hn | hn
  · have : total Z = 0 := by
      unfold total
      apply Finset.sum_eq_zero
      intro i _
      have := i.isLt
      omega
    rw [this]; simp
  · intro hz
    generalize ur / beta ^ 2 = k at *
    have e1 : (M + k • ones _ K) * (Z * ones _ K) = 0 := by
      rw [Matrix.add_mul, ← Matrix.mul_assoc, hblock, Matrix.one_mul, Matrix.smul_mul, ← Matrix.mul_assoc, ones_mul_ones,
        smul_smul]
      have : ones (2 * (c + s)) K + (k * total Z) • ones _ K = (1 + k * total Z) • ones _ K := by rw [add_smul, one_smul]
      rw [this, hz, zero_smul]
    have e2 : Z * ones _ K = 0 := by
      have := congrArg (fun A => chi * A) e1
      simp only [Matrix.mul_zero] at this
      rw [← Matrix.mul_assoc, hL, Matrix.one_mul] at this
      exact this
    have e3 : ones (2 * (c + s)) K = 0 := by
      have := congrArg (fun A => M * A) e2
      simp only [Matrix.mul_zero] at this
      rw [← Matrix.mul_assoc, hblock, Matrix.one_mul] at this
      exact this
    have := congrFun (congrFun e3 ⟨0, hn⟩) ⟨0, hn⟩
    simp [ones] at this

/-- the three-leg vertex and the physical susceptibility of the program in terms of the ladder -/
theorem slice_value {c s : Nat} (gam X : Mat (2 * c) K) (g0 : Vec (2 * (c + s)) K) (h0 : ∀ i, g0 i ≠ 0) (beta ur : K)
    (hb : beta ≠ 0) (hX : auxGamW gam (cut1 (c := c) (s := s) g0) beta ur = some X) (chi : Mat (2 * (c + s)) K)
    (hL : Ladder beta ur g0 gam chi) :
    1 - ur * phys beta chi ≠ 0 ∧
    (∀ i, vrgSlice true X (cut1 (c := c) (s := s) g0) i =
      ((∑ j, chi (core c s i) j) / g0 (core c s i)) / (1 - ur * phys beta chi)) ∧
    (phys beta chi ≠ 0 →
      chiPhysUrange (physical beta X) (physicalBubble beta (cut1 (c := c) (s := s) g0)) (physicalBubble beta g0) ur = phys beta chi) := by
  have hd := denom_ne_zero gam X g0 h0 beta ur hb hX chi hL
  obtain ⟨chi', h1, h2⟩ := vrg_is_row_sum gam X g0 h0 beta ur hb hX hd
  have hf := full_chi gam X g0 h0 beta ur hb hX hd
  have hL' := (ladder_iff beta ur g0 gam chi).1 hL
  rw [h1] at hL'
  have hcc := Option.some.inj hL'
  subst hcc
  rw [h1] at hf
  have hf := Option.some.inj hf
  have ht : total (blockAux X g0) = beta ^ 2 * (physical beta X + physicalBubble beta g0 -
      physicalBubble beta (cut1 (c := c) (s := s) g0)) := by
    rw [blockAux_total]
    unfold physical physicalBubble total
    field_simp
    ring
  have hphys : phys beta chi' = (physical beta X + physicalBubble beta g0 - physicalBubble beta (cut1 (c := c) (s := s) g0)) /
      (1 + ur * (physical beta X + physicalBubble beta g0 - physicalBubble beta (cut1 (c := c) (s := s) g0))) := by
    have hp : phys beta chi' = total chi' / beta ^ 2 := rfl
    rw [hp, hf, total_sub, total_smul, total_mul_ones_mul, ht]
    generalize physical beta X + physicalBubble beta g0 - physicalBubble beta (cut1 (c := c) (s := s) g0) = A at *
    have hd' : 1 + A * ur ≠ 0 := by rwa [mul_comm] at hd
    field_simp
    ring
  have hone : 1 - ur * phys beta chi' = 1 /
      (1 + ur * (physical beta X + physicalBubble beta g0 - physicalBubble beta (cut1 (c := c) (s := s) g0))) := by
    rw [hphys]
    generalize physical beta X + physicalBubble beta g0 - physicalBubble beta (cut1 (c := c) (s := s) g0) = A at *
    have hd' : 1 + A * ur ≠ 0 := by rwa [mul_comm] at hd
    field_simp
    ring
  have hne : 1 - ur * phys beta chi' ≠ 0 := by rw [hone]; exact one_div_ne_zero hd
  refine ⟨hne, ?_, ?_⟩
  · intro i
    rw [eq_div_iff hne, mul_comm]
    exact h2 i
  · intro hp
    have hA : physical beta X + physicalBubble beta g0 - physicalBubble beta (cut1 (c := c) (s := s) g0) ≠ 0 := by
      intro hA
      rw [hphys, hA] at hp
      simp at hp
    obtain ⟨chi2, k1, k2⟩ := chi_phys_is_contraction gam X g0 h0 beta ur hb hX hA hd
    rw [h1] at k1
    rw [k2, ← Option.some.inj k1]
    rfl

end DGA.Pipe
