/-
  The boxes of FourPoint/Model.lean (`cut1`, `cut2`, `shell2` on `Fin`-indexed vectors and matrices) are the list routines
  of Matsubara/Model.lean (`cutV`, `cutV2`, `appendShell`).
-/
import Verif.FourPoint.Lemmas
import Verif.Matsubara.Props2

namespace DGA.Fp

open DGA.Mf

variable {K : Type} [Field K]

/-- a matrix as the nested list numpy stores -/
def rowsOf {n : Nat} (A : Mat n K) : List (List K) := List.ofFn fun i => List.ofFn fun j => A i j

/-- `cut_v` of a vector of a box of `2(c+s)` frequencies -/
theorem cutV_ofFn {α : Type} {c s : Nat} (v : Fin (2 * (c + s)) → α) :
    cutV (List.ofFn v) (c : Int) = List.ofFn (cut1 (c := c) (s := s) v) := by
  have hl : (List.ofFn v).length = 2 * (c + s) := by simp
  unfold cutV
  simp only [nFromMat_eq _ (c + s) hl]
  rw [if_neg (by omega)]
  apply List.ext_getElem?
  intro k
  by_cases hk : k < 2 * c
  · rw [Py.slice_get?_in _ _ _ (by omega) (by simp; omega) _ (by push_cast; omega), List.getElem?_ofFn,
      List.getElem?_ofFn, dif_pos hk, dif_pos (by omega)]
    unfold cut1 emb
    congr 2
    apply Fin.ext
    simp only
    omega
  · rw [List.getElem?_eq_none (by rw [Py.length_slice_in _ _ _ (by omega) (by omega) (by simp; omega)]; omega),
      List.getElem?_eq_none (by simp; omega)]

omit [Field K] in
/-- C21 on matrices: `cut_v(..., axes=(-2, -1))` -/
theorem cutV2_rowsOf {c s : Nat} (A : Mat (2 * (c + s)) K) :
    cutV2 (rowsOf A) (c : Int) = rowsOf (cut2 (c := c) (s := s) A) := by
  unfold cutV2 rowsOf
  rw [List.map_ofFn]
  have : (fun row => cutV row (c : Int)) ∘ (fun i => List.ofFn fun j => A i j) =
      fun i => List.ofFn (cut1 (c := c) (s := s) (A i)) := by
    funext i
    exact cutV_ofFn (c := c) (s := s) (A i)
  rw [this, cutV_ofFn (c := c) (s := s)]
  rfl

omit [Field K] in
theorem rowsOf_at2 {n : Nat} (A : Mat (2 * n) K) (v v' : Int) (h1 : -(n : Int) ≤ v) (h2 : v < n) (h3 : -(n : Int) ≤ v')
    (h4 : v' < n) : at2 (rowsOf A) v v' = some (A ⟨(v + n).toNat, by omega⟩ ⟨(v' + n).toNat, by omega⟩) := by
  unfold at2 rowsOf
  rw [atF_eq _ n (by simp), if_pos ⟨h1, h2⟩, List.getElem?_ofFn, dif_pos (by omega), Option.bind_some,
    atF_eq _ n (by simp), if_pos ⟨h3, h4⟩, List.getElem?_ofFn, dif_pos (by omega)]

omit [Field K] in
theorem rowsOf_len {n : Nat} (A : Mat n K) : (rowsOf A).length = n ∧ ∀ r ∈ rowsOf A, r.length = n := by
  refine ⟨by simp [rowsOf], ?_⟩
  intro r hr
  simp only [rowsOf, List.mem_ofFn] at hr
  obtain ⟨i, rfl⟩ := hr
  simp

omit [Field K] in
/-- C21 on matrices: `append_v_vp_shell` -/
theorem appendShell_rowsOf {c : Nat} (hc : 0 < c) (s : Nat) (A : Mat (2 * c) K) (val : K) :
    appendShell (rowsOf A) val s = some (rowsOf (shell2 s A val)) := by
  obtain ⟨l1, l2⟩ := rowsOf_len A
  obtain ⟨m1, m2⟩ := rowsOf_len (shell2 s A val)
  obtain ⟨t, ht, tl, tr, tv⟩ := appendShell_value (rowsOf A) val c s hc l1 l2
  rw [ht]
  congr 1
  apply ext_at2 _ _ (c + s) tl m1 tr m2
  intro v v' h1 h2 h3 h4
  rw [tv v v' h1 h2 h3 h4, rowsOf_at2 _ v v' h1 h2 h3 h4]
  unfold shell2
  rw [Matrix.of_apply]
  by_cases hin : -(c : Int) ≤ v ∧ v < c ∧ -(c : Int) ≤ v' ∧ v' < c
  · rw [if_pos hin, dif_pos (by simp only; omega), rowsOf_at2 _ v v' hin.1 hin.2.1 hin.2.2.1 hin.2.2.2]
    congr 2 <;> apply Fin.ext <;> simp only <;> omega
  · rw [if_neg hin, dif_neg (by simp only; omega)]

/-- non-vacuity: a 2×2 matrix padded by one frequency and cut back -/
example : appendShell (rowsOf (n := 2 * 1) (fun _ _ => (1 : ℚ))) 0 1 =
    some (rowsOf (shell2 (c := 1) 1 (fun _ _ => (1 : ℚ)) 0)) := appendShell_rowsOf (by omega) 1 _ 0

end DGA.Fp
