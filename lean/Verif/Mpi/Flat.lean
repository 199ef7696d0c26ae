import Verif.Mpi.Props
import Mathlib.Order.Basic
import Mathlib.Order.Lattice

/-
  Rows distributed over ranks and collected again (mpi_aux.py:105-119 slices, 130-136 gather), on lists of rows.
-/

namespace DGA.Mpi

theorem slice_nat {α : Type} (l : List α) (a b : Nat) (h : b ≤ l.length) : Py.slice l (a : Int) (b : Int) = (l.take b).drop a := by
  apply List.ext_getElem?
  intro k
  by_cases hk : a + k < b
  · rw [Py.slice_get?_in l a b (by omega) (by omega) k (by omega), List.getElem?_drop, List.getElem?_take, if_pos hk]
    congr 1
  · have hn : (Py.slice l (a : Int) (b : Int))[k]? = none := by
      rw [Py.slice_get?, if_neg]
      unfold Py.clip
      split <;> split <;> omega
    rw [hn, List.getElem?_eq_none (by simp; omega)]

/-- The row blocks of the ranks, concatenated in rank order, are the whole list; with a function applied to each row, the function
    applied to the whole list. -/
theorem ranks_flatten {α β : Type} (f : α → β) (l : List α) (R : Nat) (hR : 0 < R) :
    ((List.range R).mapM fun r => (mySlice l.length R r).map fun (p : Nat × Nat) => (Py.slice l p.1 p.2).map f).map List.flatten =
      some (l.map f) := by
  obtain ⟨b, h0, hn, hmono, hs⟩ := slices_contiguous l.length R hR
  have hle : ∀ k, k ≤ R → b k ≤ l.length := by
    have : ∀ d k, k + d = R → b k ≤ b R := by
      intro d
      induction d with
      | zero =>
        intro k hk
        have : k = R := by omega
        subst this; exact Nat.le_refl _
      | succ d ih => intro k hk; exact Nat.le_trans (hmono k (by omega)) (ih (k + 1) (by omega))
    intro k hk
    rw [← hn]; exact this (R - k) k (by omega)
  have key : ∀ k, k ≤ R → ((List.range k).mapM fun r => (mySlice l.length R r).map fun (p : Nat × Nat) => (Py.slice l p.1 p.2).map f) =
      some ((List.range k).map fun r => (Py.slice l (b r) (b (r + 1))).map f) := by
    intro k
    induction k with
    | zero => intro _; rfl
    | succ k ih =>
      intro hk
      rw [List.range_succ, List.mapM_append, ih (by omega)]
      simp [hs k (by omega)]
  have flat : ∀ k, k ≤ R → ((List.range k).map fun r => (Py.slice l (b r) (b (r + 1))).map f).flatten = (l.take (b k)).map f := by
    intro k
    induction k with
    | zero => intro _; simp [h0]
    | succ k ih =>
      intro hk
      rw [List.range_succ, List.map_append, List.flatten_append, ih (by omega)]
      simp only [List.map_cons, List.map_nil, List.flatten_cons, List.flatten_nil, List.append_nil]
      rw [slice_nat l _ _ (hle (k + 1) hk), ← List.map_append]
      congr 1
      have : l.take (b k) = (l.take (b (k + 1))).take (b k) := by rw [List.take_take, Nat.min_eq_left (hmono k (by omega))]
      rw [this, List.take_append_drop]
  rw [key R (le_refl _), Option.map_some, flat R (le_refl _), hn, List.take_length]

/-- The row blocks of the ranks: their concatenation is the list, and the first rank has a row exactly if there are at least as many rows as ranks (the
    additional rows go to the last ranks, mpi_aux.py:110-111). -/
theorem blocks {α : Type} (l : List α) (R : Nat) (hR : 0 < R) :
    ∃ bs : List (List α), ((List.range R).mapM fun r => (mySlice l.length R r).map fun (p : Nat × Nat) => Py.slice l p.1 p.2) = some bs ∧
      bs.flatten = l ∧ bs.length = R ∧ (bs.headD [] ≠ [] ↔ R ≤ l.length) := by
  have e : ∀ k, k ≤ R → ((List.range k).mapM fun r => (mySlice l.length R r).map fun (p : Nat × Nat) => Py.slice l p.1 p.2) =
      some ((List.range k).map fun r => Py.slice l (lo l.length R r) (lo l.length R (r + 1))) := by
    intro k
    induction k with
    | zero => intro _; rfl
    | succ k ih =>
      intro hk
      rw [List.range_succ, List.mapM_append, ih (by omega)]
      have hs : mySlice l.length R k = some (lo l.length R k, lo l.length R (k + 1)) := by
        unfold mySlice
        rw [slices_get? l.length R k hR, if_pos (by omega)]
      simp [hs]
  refine ⟨_, e R le_rfl, ?_, by simp, ?_⟩
  · have h := ranks_flatten (id : α → α) l R hR
    simp only [List.map_id] at h
    rw [e R le_rfl] at h
    simpa using h
  · obtain ⟨m, rfl⟩ : ∃ m, R = m + 1 := ⟨R - 1, by omega⟩
    have hlt := Nat.mod_lt l.length hR
    have h1 : lo l.length (m + 1) 1 = l.length / (m + 1) := by unfold lo; omega
    have h0 : lo l.length (m + 1) 0 = 0 := lo_zero _ _
    have hd : l.length / (m + 1) ≤ l.length := Nat.div_le_self _ _
    rw [List.range_succ_eq_map, List.map_cons, List.headD_cons, h0, Nat.zero_add, h1]
    have hs := slice_nat l 0 (l.length / (m + 1)) hd
    rw [hs, List.drop_zero, ← Nat.div_pos_iff.trans (and_iff_right hR)]
    rw [ne_eq, List.take_eq_nil_iff, not_or]
    constructor
    · intro h; omega
    · intro h
      refine ⟨by omega, fun h' => ?_⟩
      subst h'
      simp at h

end DGA.Mpi
