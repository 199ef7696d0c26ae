/-
  Helper lemmas for the four-point algebra.
-/
import Verif.FourPoint.Model
import Verif.Bubble.Lemmas
import Mathlib.Tactic.Ring
import Mathlib.Tactic.FieldSimp
import Mathlib.Tactic.LinearCombination
import Mathlib.Tactic.NoncommRing
import Mathlib.LinearAlgebra.Matrix.NonsingularInverse

namespace DGA.Fp

open DGA.Mf DGA.Bubble

variable {K : Type} [Field K]

omit [Field K] in
theorem construct_eq {α β : Type} (o : NPoint K α) (hk : o.channel ∈ knownChannels) (l : List β) :
    construct o l = some ⟨o.channel, l, o.beta, o.u, o.wnSel⟩ := by
  unfold construct newNPoint
  cases h : o.wnSel <;> simp [hk]

omit [Field K] in
theorem wn_congr {α β : Type} (o : NPoint K α) (l : List β) (hl : l.length = o.mat.length) :
    (⟨o.channel, l, o.beta, o.u, o.wnSel⟩ : NPoint K β).wn = o.wn := by
  unfold NPoint.wn
  cases h : o.wnSel <;> simp [nFromMat, hl]

omit [Field K] in
theorem toVec_samplesF (G : Int → K) (c : Nat) :
    toVec (2 * c) (samplesF G c) = some fun i => G ((i.val : Int) - c) := by
  unfold toVec
  rw [dif_pos (samplesF_length G c)]
  congr 1
  funext i
  have := samplesF_get? G c i.val i.isLt
  rw [List.getElem?_eq_getElem (by rw [samplesF_length]; exact i.isLt)] at this
  exact Option.some.inj this

theorem getGgv_value (G : Int → K) (N c : Nat) (h : c ≤ N) :
    getGgv (2 * c) (samplesF G N) (c : Int) =
      some (Matrix.of fun i j => G ((i.val : Int) - c) * G ((j.val : Int) - c)) := by
  unfold getGgv
  simp only [samplesF_length, show 2 * N / 2 = N by omega]
  rw [if_neg (by omega)]
  have h2 := slice_samplesF G N c 0 (by simpa using h)
  simp only [add_zero] at h2
  rw [h2, toVec_samplesF]
  rfl

theorem zipWith_get? {α β γ : Type} (f : α → β → γ) (a : List α) (b : List β) (k : Nat) :
    (List.zipWith f a b)[k]? = (a[k]?).bind fun x => (b[k]?).map fun y => f x y := by
  rw [List.getElem?_zipWith]
  cases a[k]? <;> cases b[k]? <;> rfl

omit [Field K] in
/-- `overWn` succeeds with the given slices iff every slice does -/
theorem overWn_some {α β γ δ : Type} (o : NPoint K α) (a : List β) (b : List γ) (f : β → γ → Option δ)
    (ha : o.wn.length ≤ a.length) (hb : o.wn.length ≤ b.length) (r : List δ) (hr : r.length = o.wn.length)
    (h : ∀ (k : Nat) x y z, a[k]? = some x → b[k]? = some y → r[k]? = some z → f x y = some z) :
    overWn o a b f = some r := by
  have key : ∀ n, n ≤ o.wn.length →
      ((List.range n).mapM fun i => (a[i]?).bind fun x => (b[i]?).bind fun y => f x y) = some (r.take n) := by
    intro n
    induction n with
    | zero => intro _; rfl
    | succ n ih =>
      intro hn
      rw [List.range_succ, List.mapM_append, ih (by omega)]
      have e1 : a[n]? = some (a[n]'(by omega)) := List.getElem?_eq_getElem _
      have e2 : b[n]? = some (b[n]'(by omega)) := List.getElem?_eq_getElem _
      have e3 : r[n]? = some (r[n]'(by omega)) := List.getElem?_eq_getElem _
      have := h n _ _ _ e1 e2 e3
      rw [List.take_add_one, e3]
      simp [e1, e2, this]
  have := key o.wn.length (le_refl _)
  rw [← hr, List.take_length] at this
  unfold overWn
  rw [← hr]
  exact this

omit [Field K] in
/-- what `overWn` returns, slice by slice -/
theorem overWn_get {α β γ δ : Type} (o : NPoint K α) (a : List β) (b : List γ) (f : β → γ → Option δ) (r : List δ)
    (h : overWn o a b f = some r) :
    r.length = o.wn.length ∧ ∀ k, k < o.wn.length → ∃ x y z, a[k]? = some x ∧ b[k]? = some y ∧ f x y = some z ∧
      r[k]? = some z := by
  unfold overWn at h
  obtain ⟨h1, h2⟩ := mapM_getElem? _ _ _ h
  rw [List.length_range] at h1
  refine ⟨h1, ?_⟩
  intro k hk
  have h3 := h2 k k (List.getElem?_range hk)
  rw [List.getElem?_eq_getElem (show k < r.length by omega)] at h3
  cases hx : a[k]? with
  | none => rw [hx] at h3; simp at h3
  | some x =>
    cases hy : b[k]? with
    | none => rw [hx, hy] at h3; simp at h3
    | some y =>
      rw [hx, hy] at h3
      exact ⟨x, y, r[k]'(by omega), rfl, rfl, h3, List.getElem?_eq_getElem _⟩

omit [Field K] in
/-- a slice that raises makes the whole call raise -/
theorem overWn_none {α β γ δ : Type} (o : NPoint K α) (a : List β) (b : List γ) (f : β → γ → Option δ) (k : Nat)
    (hk : k < o.wn.length) (x : β) (y : γ) (hx : a[k]? = some x) (hy : b[k]? = some y) (h : f x y = none) :
    overWn o a b f = none := by
  unfold overWn
  apply mapM_eq_none _ _ k (List.mem_range.mpr hk)
  rw [hx, hy]
  exact h

/-! ### matrices -/

theorem inv?_iff {n : Nat} (A B : Mat n K) : inv? A = some B ↔ A * B = 1 := by
  unfold inv?
  constructor
  · intro h
    split at h
    · cases h
    · rename_i hd
      have : B = A⁻¹ := (Option.some.inj h).symm
      rw [this]
      exact Matrix.mul_nonsing_inv A (isUnit_iff_ne_zero.mpr hd)
  · intro h
    have hd : A.det ≠ 0 := by
      intro h0
      have := congrArg Matrix.det h
      rw [Matrix.det_mul, h0, zero_mul, Matrix.det_one] at this
      exact zero_ne_one this
    rw [if_neg hd, Matrix.inv_eq_right_inv h]

theorem inv?_none_iff {n : Nat} (A : Mat n K) : inv? A = none ↔ A.det = 0 := by
  unfold inv?
  split <;> simp_all

theorem inv?_left {n : Nat} {A B : Mat n K} (h : inv? A = some B) : B * A = 1 :=
  mul_eq_one_comm.mp ((inv?_iff A B).mp h)

theorem diag_eq {n : Nat} (v : Vec n K) : diag v = Matrix.diagonal v := by
  ext i j
  simp [diag, Matrix.diagonal]

/-- the matrix of ones -/
def ones (n : Nat) (K : Type) [Field K] : Mat n K := Matrix.of fun _ _ => 1

theorem addC_eq {n : Nat} (A : Mat n K) (c : K) : addC A c = A + c • ones n K := by
  ext i j
  simp [addC, ones]

/-- sum of all entries -/
def total {n : Nat} (A : Mat n K) : K := ∑ i, ∑ j, A i j

theorem ones_mul_ones {n : Nat} (X : Mat n K) : ones n K * X * ones n K = total X • ones n K := by
  ext i j
  simp only [Matrix.mul_apply, ones, Matrix.of_apply, one_mul, mul_one, Matrix.smul_apply, smul_eq_mul, total]
  rw [Finset.sum_comm]

/-- Sherman–Morrison for a constant shift -/
theorem sherman {n : Nat} (L X : Mat n K) (k : K) (h : L * X = 1) (hd : 1 + k * total X ≠ 0) :
    (L + k • ones n K) * (X - (k / (1 + k * total X)) • (X * ones n K * X)) = 1 := by
  have e1 : L * (X * ones n K * X) = ones n K * X := by
    rw [← Matrix.mul_assoc, ← Matrix.mul_assoc, h, Matrix.one_mul]
  have e2 : ones n K * (X * ones n K * X) = total X • (ones n K * X) := by
    rw [← Matrix.mul_assoc, ← Matrix.mul_assoc, ones_mul_ones, Matrix.smul_mul]
  rw [Matrix.add_mul, Matrix.mul_sub, Matrix.mul_sub, h, Matrix.mul_smul, e1, Matrix.smul_mul, Matrix.smul_mul,
    Matrix.mul_smul, e2, smul_smul, smul_smul]
  have e3 : k = k / (1 + k * total X) + k * (k / (1 + k * total X)) * total X := by
    field_simp
  have e4 : k • (ones n K * X) = (k / (1 + k * total X)) • (ones n K * X) +
      (k * (k / (1 + k * total X)) * total X) • (ones n K * X) := by
    rw [← add_smul, ← e3]
  rw [e4]
  abel

/-! ### selection of the core -/

/-- the selection matrix of the core box -/
def sel (c s : Nat) (K : Type) [Field K] : Matrix (Fin (2 * c)) (Fin (2 * (c + s))) K :=
  Matrix.of fun i j => if emb c s i = j then 1 else 0

theorem emb_inj (c s : Nat) (i j : Fin (2 * c)) : emb c s i = emb c s j ↔ i = j := by
  simp [emb, Fin.ext_iff]

theorem sel_mul {c s : Nat} {ι : Type} (A : Matrix (Fin (2 * (c + s))) ι K) (i : Fin (2 * c)) (j : ι) :
    (sel c s K * A) i j = A (emb c s i) j := by
  simp [Matrix.mul_apply, sel]

theorem mul_selT {c s : Nat} {ι : Type} (A : Matrix ι (Fin (2 * (c + s))) K) (i : ι) (j : Fin (2 * c)) :
    (A * (sel c s K).transpose) i j = A i (emb c s j) := by
  simp [Matrix.mul_apply, sel]

theorem sel_selT (c s : Nat) : sel c s K * (sel c s K).transpose = 1 := by
  ext i j
  rw [mul_selT]
  simp [sel, Matrix.one_apply, emb_inj, eq_comm]

theorem cut2_eq {c s : Nat} (A : Mat (2 * (c + s)) K) : cut2 A = sel c s K * A * (sel c s K).transpose := by
  ext i j
  rw [mul_selT, sel_mul]
  rfl

theorem selT_mul {c s : Nat} (B : Mat (2 * c) K) (i j : Fin (2 * (c + s))) :
    ((sel c s K).transpose * B * sel c s K) i j =
      if h : (s ≤ i.val ∧ i.val < s + 2 * c) ∧ (s ≤ j.val ∧ j.val < s + 2 * c) then
        B ⟨i.val - s, by omega⟩ ⟨j.val - s, by omega⟩ else 0 := by
  have hrow : ∀ (k : Fin (2 * c)), ((sel c s K).transpose * B) i k =
      if h : s ≤ i.val ∧ i.val < s + 2 * c then B ⟨i.val - s, by omega⟩ k else 0 := by
    intro k
    rw [Matrix.mul_apply]
    split
    · rename_i h
      rw [Finset.sum_eq_single ⟨i.val - s, by omega⟩]
      · simp [sel, emb, Fin.ext_iff, Nat.sub_add_cancel h.1]
      · intro b _ hb
        have : ¬ emb c s b = i := by
          intro he
          apply hb
          rw [Fin.ext_iff] at he ⊢
          simp [emb] at he ⊢
          omega
        simp [sel, this]
      · intro h; exact absurd (Finset.mem_univ _) h
    · rename_i h
      apply Finset.sum_eq_zero
      intro b _
      have : ¬ emb c s b = i := by
        intro he
        apply h
        rw [Fin.ext_iff] at he
        simp [emb] at he
        have := b.isLt
        omega
      simp [sel, this]
  rw [Matrix.mul_apply]
  simp only [hrow]
  by_cases hj : s ≤ j.val ∧ j.val < s + 2 * c
  · rw [Finset.sum_eq_single ⟨j.val - s, by omega⟩]
    · have : emb c s ⟨j.val - s, by omega⟩ = j := by
        simp [emb, Nat.sub_add_cancel hj.1]
      by_cases hi : s ≤ i.val ∧ i.val < s + 2 * c
      · rw [dif_pos hi, dif_pos ⟨hi, hj⟩]
        simp [sel, this]
      · rw [dif_neg hi, dif_neg (fun h => hi h.1)]
        simp
    · intro b _ hb
      have : ¬ emb c s b = j := by
        intro he
        apply hb
        rw [Fin.ext_iff] at he ⊢
        simp [emb] at he ⊢
        omega
      simp [sel, this]
    · intro h; exact absurd (Finset.mem_univ _) h
  · rw [dif_neg (fun h => hj h.2)]
    apply Finset.sum_eq_zero
    intro b _
    have : ¬ emb c s b = j := by
      intro he
      apply hj
      rw [Fin.ext_iff] at he
      simp [emb] at he
      have := b.isLt
      omega
    simp [sel, this]

/-- appending a constant shell in matrix form -/
theorem shell2_eq {c : Nat} (s : Nat) (A : Mat (2 * c) K) (k : K) :
    shell2 s A k = k • ones _ K + (sel c s K).transpose * (A + (-k) • ones _ K) * sel c s K := by
  ext i j
  rw [Matrix.add_apply, selT_mul]
  by_cases h : (s ≤ i.val ∧ i.val < s + 2 * c) ∧ (s ≤ j.val ∧ j.val < s + 2 * c)
  · simp [shell2, h, ones]
  · simp [shell2, h, ones]

/-- Woodbury: replacing the core part of the inverse -/
theorem woodbury {c s : Nat} (M T : Mat (2 * (c + s)) K) (X Xi chi chii : Mat (2 * c) K) (hM : M * T = 1)
    (hX : sel c s K * T * (sel c s K).transpose = X) (hXi : X * Xi = 1) (hchi : chi * chii = 1) :
    ∃ Z, (M + (sel c s K).transpose * (chii - Xi) * sel c s K) * Z = 1 ∧
      sel c s K * Z * (sel c s K).transpose = chi := by
  have hXi' : Xi * X = 1 := mul_eq_one_comm.mp hXi
  have hchi' : chii * chi = 1 := mul_eq_one_comm.mp hchi
  generalize hP : sel c s K = P at *
  refine ⟨T - T * P.transpose * (Xi - Xi * chi * Xi) * P * T, ?_, ?_⟩
  · have e1 : M * (T * P.transpose * (Xi - Xi * chi * Xi) * P * T) = P.transpose * (Xi - Xi * chi * Xi) * P * T := by
      calc _ = (M * T) * P.transpose * (Xi - Xi * chi * Xi) * P * T := by simp only [Matrix.mul_assoc]
        _ = _ := by rw [hM, Matrix.one_mul]
    have e2 : P.transpose * (chii - Xi) * P * (T * P.transpose * (Xi - Xi * chi * Xi) * P * T) =
        P.transpose * ((chii - Xi) * X * (Xi - Xi * chi * Xi)) * P * T := by
      rw [← hX]; simp only [Matrix.mul_assoc]
    have e3 : (chii - Xi) * X * (Xi - Xi * chi * Xi) = (chii - Xi) - (Xi - Xi * chi * Xi) := by
      have f1 : X * (Xi - Xi * chi * Xi) = 1 - chi * Xi := by
        rw [Matrix.mul_sub, hXi]
        simp only [← Matrix.mul_assoc, hXi, Matrix.one_mul]
      rw [Matrix.mul_assoc, f1, Matrix.mul_sub, Matrix.mul_one, Matrix.sub_mul, ← Matrix.mul_assoc, hchi',
        Matrix.one_mul, ← Matrix.mul_assoc]
    generalize T * P.transpose * (Xi - Xi * chi * Xi) * P * T = W at *
    rw [Matrix.add_mul, Matrix.mul_sub, Matrix.mul_sub, hM, e1, e2, e3]
    simp only [Matrix.mul_sub, Matrix.sub_mul]
    abel
  · rw [Matrix.mul_sub, Matrix.sub_mul, hX]
    have : P * (T * P.transpose * (Xi - Xi * chi * Xi) * P * T) * P.transpose = X * (Xi - Xi * chi * Xi) * X := by
      rw [← hX]; simp only [Matrix.mul_assoc]
    rw [this, Matrix.mul_sub, hXi, Matrix.sub_mul, Matrix.one_mul]
    have : X * (Xi * chi * Xi) * X = chi := by
      calc _ = (X * Xi) * chi * (Xi * X) := by simp only [Matrix.mul_assoc]
        _ = chi := by rw [hXi, hXi', Matrix.one_mul, Matrix.mul_one]
    rw [this]
    abel

/-- the auxiliary inverse on the full box is block diagonal -/
theorem block_inverse {c s : Nat} (g0 : Vec (2 * (c + s)) K) (h0 : ∀ i, g0 i ≠ 0) (B X : Mat (2 * c) K)
    (h : (diag (fun i => 1 / cut1 (c := c) (s := s) g0 i) + B) * X = 1) :
    (diag (fun i => 1 / g0 i) + (sel c s K).transpose * B * sel c s K) *
      ((sel c s K).transpose * X * sel c s K + (1 - (sel c s K).transpose * sel c s K) * diag g0) = 1 := by
  have hP := sel_selT (K := K) c s
  have hd : diag (fun i => 1 / g0 i) * (sel c s K).transpose =
      (sel c s K).transpose * diag (fun i => 1 / cut1 (c := c) (s := s) g0 i) := by
    ext i j
    rw [diag_eq, diag_eq, Matrix.diagonal_mul, Matrix.mul_diagonal]
    simp only [Matrix.transpose_apply, sel, Matrix.of_apply]
    split
    · rename_i he; subst he; simp [cut1]
    · simp
  have hd' : sel c s K * diag (fun i => 1 / g0 i) =
      diag (fun i => 1 / cut1 (c := c) (s := s) g0 i) * sel c s K := by
    ext i j
    rw [diag_eq, diag_eq, Matrix.diagonal_mul, Matrix.mul_diagonal]
    simp only [sel, Matrix.of_apply]
    split
    · rename_i he; subst he; simp [cut1]
    · simp
  have hdd : diag (fun i => 1 / g0 i) * diag g0 = 1 := by
    rw [diag_eq, diag_eq, Matrix.diagonal_mul_diagonal]
    ext i j
    simp only [Matrix.diagonal_apply, Matrix.one_apply]
    split
    · rename_i he; subst he; rw [one_div, inv_mul_cancel₀ (h0 i)]
    · rfl
  generalize sel c s K = P at *
  generalize diag (fun i => 1 / g0 i) = D at *
  generalize diag (fun i => 1 / cut1 (c := c) (s := s) g0 i) = Dc at *
  have e1 : D * (P.transpose * X * P) = P.transpose * (Dc * X) * P := by
    calc _ = (D * P.transpose) * X * P := by simp only [Matrix.mul_assoc]
      _ = _ := by rw [hd]; simp only [Matrix.mul_assoc]
  have e2 : D * ((1 - P.transpose * P) * diag g0) = 1 - P.transpose * P := by
    have : D * (P.transpose * P) = P.transpose * P * D := by
      rw [← Matrix.mul_assoc, hd, Matrix.mul_assoc, ← hd', Matrix.mul_assoc]
    rw [← Matrix.mul_assoc, Matrix.mul_sub, Matrix.mul_one, this, Matrix.sub_mul, hdd, Matrix.mul_assoc, hdd,
      Matrix.mul_one]
  have e3 : P.transpose * B * P * (P.transpose * X * P) = P.transpose * (B * X) * P := by
    calc _ = P.transpose * B * (P * P.transpose) * X * P := by simp only [Matrix.mul_assoc]
      _ = _ := by rw [hP, Matrix.mul_one]; simp only [Matrix.mul_assoc]
  have e4 : P.transpose * B * P * ((1 - P.transpose * P) * diag g0) = 0 := by
    have : P * (1 - P.transpose * P) = 0 := by
      rw [Matrix.mul_sub, Matrix.mul_one, ← Matrix.mul_assoc, hP, Matrix.one_mul, sub_self]
    calc _ = P.transpose * B * (P * (1 - P.transpose * P)) * diag g0 := by simp only [Matrix.mul_assoc]
      _ = 0 := by rw [this]; simp
  rw [Matrix.add_mul, Matrix.mul_add, Matrix.mul_add, e1, e2, e3, e4, add_zero]
  have : P.transpose * (Dc * X) * P + P.transpose * (B * X) * P = P.transpose * P := by
    rw [← Matrix.add_mul, ← Matrix.mul_add, ← Matrix.add_mul, h, Matrix.mul_one]
  calc _ = (P.transpose * (Dc * X) * P + P.transpose * (B * X) * P) + (1 - P.transpose * P) := by abel
    _ = 1 := by rw [this]; abel

end DGA.Fp
