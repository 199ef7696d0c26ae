/-
  The complete calculation in the random-phase limit: if the impurity susceptibilities are those of the bare interaction, the program
  returns, for any number of ranks, the self-energy of the exchange of RPA density and spin fluctuations (C79).
-/
import Verif.Pipeline.Success

namespace DGA.Pipe

open DGA.Mf DGA.Bz DGA.Bubble DGA.Fp

variable {K : Type} [Field K]

/-- susceptibility of the bare vertex `a`: `B_i δ_ij - a B_i B_j / (1 + a sum B)` -/
def rpaChi {n : Nat} (a : K) (B : Fin n → K) : Matrix (Fin n) (Fin n) K :=
  Matrix.of fun i j => (if i = j then B i else 0) - a * B i * B j / (1 + a * ∑ l, B l)

/-- physical bubble on a box of `2 n` frequencies -/
def chi0Box (n : Nat) (beta : K) (f : Int → K) : K := (∑ a, onBox n f a) / beta ^ 2

theorem rpa_mul {n : Nat} (D a a'' : K) (B : Fin n → K) (hB : ∀ i, B i ≠ 0) (h : D * a'' = a * (1 + a'' * ∑ l, B l)) (hD : D ≠ 0) :
    (Matrix.of fun i j => (if i = j then B i else 0) - a * B i * B j / D : Mat n K) *
      addC (diag fun i => 1 / B i) a'' = 1 := by
  ext i j
  rw [Matrix.mul_apply, Matrix.one_apply]
  have e : ∀ l, (Matrix.of fun i j => (if i = j then B i else 0) - a * B i * B j / D : Mat n K) i l * addC (diag fun i => 1 / B i) a'' l j =
      (if i = l then B i * ((if l = j then 1 / B l else 0) + a'') else 0) -
        (if l = j then a * B i / D else 0) - a * B i / D * a'' * B l := by
    intro l
    have := hB l
    simp only [addC, diag, Matrix.of_apply]
    split <;> split <;> field_simp <;> ring
  rw [Finset.sum_congr rfl fun l _ => e l, Finset.sum_sub_distrib, Finset.sum_sub_distrib, Finset.sum_ite_eq, if_pos (Finset.mem_univ _),
    Finset.sum_ite_eq', if_pos (Finset.mem_univ _), ← Finset.mul_sum]
  have h2 : B i * a'' - a * B i / D - a * B i / D * a'' * ∑ l, B l = 0 := by
    field_simp
    linear_combination B i * h
  have := hB i
  split
  · next hij =>
    subst hij
    rw [mul_add, mul_one_div_cancel (hB i)]
    linear_combination h2
  · rw [zero_add]
    exact h2

theorem rpa_inv {n : Nat} (a : K) (B : Fin n → K) (hB : ∀ i, B i ≠ 0) (hD : 1 + a * ∑ l, B l ≠ 0) :
    rpaChi a B * addC (diag fun i => 1 / B i) a = 1 := rpa_mul _ a a B hB (by ring) hD

theorem inv?_left {n : Nat} (A B : Mat n K) (h : B * A = 1) : inv? A = some B := (inv?_iff A B).2 (mul_eq_one_comm.1 h)

theorem core_eq (c s : Nat) (i j : Fin (2 * c)) : (core c s i = core c s j) = (i = j) := by
  rw [eq_iff_iff, Fin.ext_iff, Fin.ext_iff]
  simp [core]

/-- the core block of the RPA susceptibility is regular -/
theorem rpa_core_inv {c s : Nat} (a : K) (B : Vec (2 * (c + s)) K) (hB : ∀ i, B i ≠ 0)
    (hD : 1 + a * ∑ l, B l ≠ 0) (hs : 1 + a * (∑ l, B l - ∑ l, B (core c s l)) ≠ 0) (chi : Mat (2 * c) K)
    (hchi : ∀ i j, chi i j = rpaChi a B (core c s i) (core c s j)) : ∃ Y, Y * chi = 1 := by
  have h3 := rpa_mul (1 + a * ∑ l, B l) a (a / (1 + a * (∑ l, B l - ∑ l, B (core c s l)))) (fun i => B (core c s i)) (fun i => hB _)
    (by field_simp; ring) hD
  have e : chi = Matrix.of fun i j => (if i = j then B (core c s i) else 0) - a * B (core c s i) * B (core c s j) / (1 + a * ∑ l, B l) := by
    ext i j
    rw [hchi]
    simp only [rpaChi, Matrix.of_apply, core_eq]
  rw [← e] at h3
  exact ⟨_, mul_eq_one_comm.1 h3⟩

/-- the irreducible vertex extracted from the RPA susceptibility is the bare one -/
theorem gamUrange_rpa {c s : Nat} (B : Vec (2 * (c + s)) K) (hB : ∀ i, B i ≠ 0) (beta u : K)
    (hD : 1 + u / (beta * beta) * ∑ l, B l ≠ 0) (hs : 1 + u / (beta * beta) * (∑ l, B l - ∑ l, B (core c s l)) ≠ 0)
    (chi : Mat (2 * c) K) (hchi : ∀ i j, chi i j = rpaChi (u / (beta * beta)) B (core c s i) (core c s j)) :
    gamUrangeW (s := s) chi B beta u = some (Matrix.of fun _ _ => u / (beta * beta)) := by
  unfold gamUrangeW
  generalize u / (beta * beta) = a at *
  rw [inv?_left _ _ (rpa_inv a B hB hD), Option.bind_some]
  have hcore : ∀ i j : Fin (2 * c), (core c s i = core c s j) = (i = j) := by
    intro i j
    rw [eq_iff_iff, Fin.ext_iff, Fin.ext_iff]
    simp [core]
  have h1 : cut2 (c := c) (s := s) (rpaChi a B) =
      Matrix.of fun i j => (if i = j then B (core c s i) else 0) - a * B (core c s i) * B (core c s j) / (1 + a * ∑ l, B l) := by
    ext i j
    show rpaChi a B (core c s i) (core c s j) = _
    simp only [rpaChi, Matrix.of_apply, hcore]
  have h2 : chi = cut2 (c := c) (s := s) (rpaChi a B) := by
    ext i j
    exact hchi i j
  have h3 := rpa_mul (1 + a * ∑ l, B l) a (a / (1 + a * (∑ l, B l - ∑ l, B (core c s l)))) (fun i => B (core c s i)) (fun i => hB _)
    (by field_simp; ring) hD
  rw [h2, h1, (inv?_iff _ _).2 h3, Option.bind_some, Option.map_some]
  congr 1
  ext i j
  simp [addC]

theorem auxGam_rpa {n : Nat} (g0 : Vec n K) (h0 : ∀ i, g0 i ≠ 0) (beta u : K) :
    auxGamW (Matrix.of fun _ _ => u / (beta * beta)) g0 beta u = some (diag g0) := by
  unfold auxGamW
  rw [inv?_iff, show addC (diag (fun i => 1 / g0 i) + (Matrix.of fun _ _ => u / (beta * beta) : Mat n K)) (-(u / beta ^ 2)) = diag fun i => 1 / g0 i by
    ext i j
    simp only [addC, Matrix.of_apply, Matrix.add_apply, pow_two]
    ring]
  ext i j
  rw [diag_eq, diag_eq, Matrix.diagonal_mul_diagonal]
  simp only [Matrix.diagonal_apply, Matrix.one_apply]
  split
  · exact one_div_mul_cancel (h0 i)
  · rfl

omit [Field K] in
theorem shell2_const {c : Nat} (s : Nat) (a : K) : shell2 s (Matrix.of fun _ _ => a : Mat (2 * c) K) a = Matrix.of fun _ _ => a := by
  ext i j
  simp [shell2]

theorem fob_rpa {n : Nat} (a : K) (B : Vec n K) (hD : 1 + a * ∑ l, B l ≠ 0) :
    (fob2GamSlice (Matrix.of fun _ _ => a : Mat n K) B).isSome := by
  unfold fob2GamSlice
  rw [(inv?_iff _ (1 - (Matrix.of fun i _ => a * B i / (1 + a * ∑ l, B l) : Mat n K))).2]
  · rfl
  · ext i j
    rw [Matrix.mul_sub, Matrix.mul_one, Matrix.sub_apply, Matrix.mul_apply]
    simp only [Matrix.add_apply, Matrix.of_apply, add_mul, Matrix.one_apply, ite_mul, one_mul, zero_mul, Finset.sum_add_distrib,
      Finset.sum_ite_eq, Finset.mem_univ, if_true]
    rw [show ∑ l, a * B i * (a * B l / (1 + a * ∑ l, B l)) = a * B i * (a * ∑ l, B l) / (1 + a * ∑ l, B l) by
      rw [← Finset.mul_sum, ← Finset.sum_div, ← Finset.mul_sum]; ring]
    field_simp
    ring

theorem rpa_ladder {c s : Nat} (beta U : K) (B : Vec (2 * (c + s)) K) (hB : ∀ i, B i ≠ 0) (hD : 1 + U / (beta * beta) * ∑ l, B l ≠ 0) :
    Ladder beta U B (Matrix.of fun _ _ => U / (beta * beta) : Mat (2 * c) K) (rpaChi (U / (beta * beta)) B) := by
  unfold Ladder
  rw [withShell_eq, show U / beta ^ 2 = U / (beta * beta) by rw [pow_two], shell2_const]
  have := rpa_inv (U / (beta * beta)) B hB hD
  rw [addC_eq] at this
  convert this using 2
  rw [diag_eq]
  congr 1
  ext i j
  simp [ones]

theorem rpa_row {n : Nat} (a : K) (B : Vec n K) (hD : 1 + a * ∑ l, B l ≠ 0) (i : Fin n) : ∑ j, rpaChi a B i j = B i / (1 + a * ∑ l, B l) := by
  simp only [rpaChi, Matrix.of_apply]
  rw [Finset.sum_sub_distrib, Finset.sum_ite_eq, if_pos (Finset.mem_univ _), ← Finset.sum_div, ← Finset.mul_sum]
  field_simp
  ring

theorem rpa_phys {n : Nat} (beta U : K) (hb : beta ≠ 0) (B : Vec n K) (hD : 1 + U * ((∑ l, B l) / beta ^ 2) ≠ 0) :
    phys beta (rpaChi (U / (beta * beta)) B) = (∑ l, B l) / beta ^ 2 / (1 + U * ((∑ l, B l) / beta ^ 2)) := by
  have e : 1 + U / (beta * beta) * ∑ l, B l = 1 + U * ((∑ l, B l) / beta ^ 2) := by field_simp
  unfold phys
  rw [Finset.sum_congr rfl fun i _ => rpa_row _ B (by rwa [e]) i, ← Finset.sum_div, e]
  ring

theorem rpa_vertex {n : Nat} (a : K) (B : Vec n K) (hB : ∀ i, B i ≠ 0) (hD : 1 + a * ∑ l, B l ≠ 0) (i j : Fin n) :
    vertexF B (rpaChi a B) i j = a / (1 + a * ∑ l, B l) := by
  unfold vertexF rpaChi
  have h1 := hB i
  have h2 := hB j
  simp only [Matrix.of_apply]
  split
  · next h => subst h; field_simp; ring
  · field_simp; ring

/-- with the bare vertex the equation of motion of a channel is `U²/2` times the (lambda-corrected) RPA susceptibility -/
theorem rpa_eom {n : Nat} (beta U : K) (hb : beta ≠ 0) (lam : Option K) (B : Vec n K) (hB : ∀ i, B i ≠ 0)
    (hD : 1 + U * ((∑ l, B l) / beta ^ 2) ≠ 0) (i : Fin n) :
    eomTerm beta U lam B (rpaChi (U / (beta * beta)) B) i =
      U ^ 2 / 2 * withLambda lam ((∑ l, B l) / beta ^ 2 / (1 + U * ((∑ l, B l) / beta ^ 2))) := by
  have e : 1 + U / (beta * beta) * ∑ l, B l = 1 + U * ((∑ l, B l) / beta ^ 2) := by field_simp
  unfold eomTerm
  rw [rpa_phys beta U hb B hD, rpa_row _ B (by rwa [e]), e, div_div_cancel_left' (hB i)]
  generalize (∑ l, B l) / beta ^ 2 = x at *
  have : 1 - U * (x / (1 + U * x)) = (1 + U * x)⁻¹ := by field_simp; ring
  rw [this, div_mul_cancel₀ _ (inv_ne_zero hD)]
  ring

end DGA.Pipe
