/-
  Facts about `np.unique` (helper lemmas for C09 – C11).
-/
import Verif.Bz.Lemmas

namespace DGA.Bz

theorem mem_squeeze (x : Nat) (l : List Nat) : x ∈ squeeze l ↔ x ∈ l := by
  induction l using squeeze.induct with
  | case1 => simp [squeeze]
  | case2 a => simp [squeeze]
  | case3 a l ih => simp only [squeeze, if_true, ih]; simp
  | case4 a b l h ih => simp only [squeeze, if_neg h, List.mem_cons, ih]

theorem squeeze_sorted (l : List Nat) (h : l.Pairwise (· ≤ ·)) : (squeeze l).Pairwise (· < ·) := by
  induction l using squeeze.induct with
  | case1 => simp [squeeze]
  | case2 a => simp [squeeze]
  | case3 a l ih =>
    simp only [squeeze, if_true]
    exact ih (List.pairwise_cons.1 h).2
  | case4 a b l hne ih =>
    simp only [squeeze, if_neg hne]
    rw [List.pairwise_cons]
    obtain ⟨h1, h2⟩ := List.pairwise_cons.1 h
    refine ⟨?_, ih h2⟩
    intro x hx
    rw [mem_squeeze] at hx
    have hb := h1 b (by simp)
    rcases List.mem_cons.1 hx with rfl | hx
    · omega
    · have := (List.pairwise_cons.1 h2).1 x hx; omega

theorem mem_insertN (x y : Nat) (l : List Nat) : x ∈ insertN y l ↔ x = y ∨ x ∈ l := by
  induction l with
  | nil => simp [insertN]
  | cons a l ih =>
    unfold insertN
    split
    · simp
    · simp only [List.mem_cons, ih]; exact or_left_comm

theorem insertN_sorted (y : Nat) (l : List Nat) (h : l.Pairwise (· ≤ ·)) : (insertN y l).Pairwise (· ≤ ·) := by
  induction l with
  | nil => simp [insertN]
  | cons a l ih =>
    unfold insertN
    obtain ⟨h1, h2⟩ := List.pairwise_cons.1 h
    split
    · rename_i hle
      refine List.pairwise_cons.2 ⟨?_, h⟩
      intro x hx
      rcases List.mem_cons.1 hx with rfl | hx
      · exact hle
      · exact Nat.le_trans hle (h1 x hx)
    · rename_i hle
      refine List.pairwise_cons.2 ⟨?_, ih h2⟩
      intro x hx
      rcases (mem_insertN x y l).1 hx with rfl | hx
      · omega
      · exact h1 x hx

theorem mem_sortN (x : Nat) (f : List Nat) : x ∈ sortN f ↔ x ∈ f := by
  induction f with
  | nil => simp [sortN]
  | cons a f ih =>
    show x ∈ insertN a (sortN f) ↔ _
    rw [mem_insertN, ih, List.mem_cons]

theorem sortN_sorted (f : List Nat) : (sortN f).Pairwise (· ≤ ·) := by
  induction f with
  | nil => exact .nil
  | cons a f ih => exact insertN_sorted a _ ih

theorem mem_uniq (x : Nat) (f : List Nat) : x ∈ uniq f ↔ x ∈ f := by
  unfold uniq; rw [mem_squeeze, mem_sortN]

/-- the distinct values come out strictly increasing -/
theorem uniq_sorted (f : List Nat) : (uniq f).Pairwise (· < ·) := squeeze_sorted _ (sortN_sorted f)

theorem uniq_nodup (f : List Nat) : (uniq f).Nodup := (uniq_sorted f).imp (by intro a b h; omega)

theorem idxOf_get (l : List Nat) (x : Nat) (h : x ∈ l) : l[l.idxOf x]? = some x := by
  rw [List.getElem?_eq_getElem (List.idxOf_lt_length_of_mem h), List.getElem_idxOf]

theorem idxOf_nodup (l : List Nat) (hn : l.Nodup) (i x : Nat) (h : l[i]? = some x) : l.idxOf x = i := by
  induction l generalizing i with
  | nil => simp at h
  | cons a l ih =>
    cases i with
    | zero => simp at h; subst h; simp
    | succ i =>
      simp only [List.getElem?_cons_succ] at h
      have hm := List.mem_of_getElem? h
      have hne : a ≠ x := by rintro rfl; exact (List.nodup_cons.1 hn).1 hm
      rw [List.idxOf_cons, show (a == x) = false by simpa using hne]
      simp [ih (List.nodup_cons.1 hn).2 i h]

end DGA.Bz
