/- Helper lemmas for the MPI distributor model (not property statements). -/
import Verif.Mpi.Model

namespace DGA.Mpi

/-- closed form of the size of rank `r` -/
def szc (n R r : Nat) : Nat := n / R + if R - n % R ≤ r then 1 else 0

/-- closed form of the first task of rank `r` -/
def lo (n R r : Nat) : Nat := r * (n / R) + (r - (R - n % R))

theorem nExcess_eq (n R : Nat) : nExcess n R = n % R := by
  have h1 := Nat.div_add_mod n R
  have h2 := Nat.mul_comm R (n / R)
  unfold nExcess nPerRank
  omega

theorem sizes_eq (n R : Nat) (hR : 0 < R) : sizes n R = (List.range R).map (szc n R) := by
  have hlt := Nat.mod_lt n hR
  apply List.ext_getElem?
  intro i
  unfold sizes
  rw [nExcess_eq]
  by_cases hz : n % R = 0
  · simp only [hz, ne_eq, not_true, if_false]
    simp only [List.getElem?_replicate, List.getElem?_map, nPerRank]
    by_cases hi : i < R
    · have hi2 : ¬ R ≤ i := by omega
      simp [hi, szc, hz, hi2]
    · simp [hi]
  · simp only [hz, ne_eq, not_false_iff, if_true]
    simp only [List.getElem?_mapIdx, List.getElem?_replicate, List.getElem?_map, nPerRank]
    by_cases hi : i < R
    · have hc : Py.clip R (-((n % R : Nat) : Int)) = R - n % R := by
        rw [Py.clip_of_neg _ _ (by omega)]; omega
      rw [hc]
      simp only [hi, if_true, Option.map_some, List.getElem?_range, szc]
      split <;> simp
    · simp [hi]

theorem length_sizes (n R : Nat) (hR : 0 < R) : (sizes n R).length = R := by
  rw [sizes_eq n R hR]; simp

theorem lo_succ (n R r : Nat) : lo n R (r + 1) = lo n R r + szc n R r := by
  unfold lo szc
  rw [Nat.succ_mul]
  split <;> omega

theorem lo_zero (n R : Nat) : lo n R 0 = 0 := by simp [lo]

theorem lo_R (n R : Nat) (hR : 0 < R) : lo n R R = n := by
  have hlt := Nat.mod_lt n hR
  have h := Nat.div_add_mod n R
  unfold lo
  omega

theorem lo_mono {n R a b : Nat} (h : a ≤ b) : lo n R a ≤ lo n R b := by
  induction h with
  | refl => exact Nat.le_refl _
  | step _ ih => rw [lo_succ]; omega

theorem sum_range_szc (n R r : Nat) : ((List.range r).map (szc n R)).sum = lo n R r := by
  induction r with
  | zero => simp [lo_zero]
  | succ r ih => rw [List.range_succ, List.map_append, List.sum_append, ih, lo_succ]; simp

theorem sum_take_sizes (n R r : Nat) (hR : 0 < R) (hr : r ≤ R) : ((sizes n R).take r).sum = lo n R r := by
  rw [sizes_eq n R hR, ← List.map_take, List.take_range, Nat.min_eq_left hr, sum_range_szc]

theorem cumsumAux_get? (l : List Nat) : ∀ (acc k : Nat),
    (cumsumAux acc l)[k]? = if k < l.length then some (acc + (l.take (k + 1)).sum) else none := by
  induction l with
  | nil => intro acc k; simp [cumsumAux]
  | cons x xs ih =>
    intro acc k
    cases k with
    | zero => simp [cumsumAux]
    | succ k =>
      simp only [cumsumAux, List.getElem?_cons_succ, ih, List.length_cons, List.take_succ_cons, List.sum_cons]
      by_cases h : k < xs.length
      · simp [h]; omega
      · simp [h]

theorem slices_get? (n R r : Nat) (hR : 0 < R) :
    (slices n R)[r]? = if r < R then some (lo n R r, lo n R (r + 1)) else none := by
  unfold slices sliceEnds
  rw [List.getElem?_zipWith, cumsumAux_get?, length_sizes n R hR]
  by_cases h : r < R
  · rw [if_pos h, sum_take_sizes n R (r + 1) hR h, sizes_eq n R hR]
    simp [h]
    rw [lo_succ]; omega
  · simp [h]

theorem slice_range (n a b : Nat) (hb : b ≤ n) :
    Py.slice (List.range n) a b = (List.range (b - a)).map (a + ·) := by
  by_cases hab : a ≤ b
  · apply List.ext_getElem?
    intro k
    by_cases hk : k < b - a
    · rw [Py.slice_get?_in _ _ _ (by omega) (by simp; omega) k (by omega)]
      have h2 : ((a : Int) + k).toNat = a + k := by omega
      rw [h2, List.getElem?_range (by omega)]
      simp [hk]
    · rw [List.getElem?_eq_none, List.getElem?_eq_none]
      · simp; omega
      · rw [Py.length_slice_in _ _ _ (by omega) (by omega) (by simp; omega)]; omega
  · have : b - a = 0 := by omega
    rw [this, Py.slice_eq_nil_of_le]
    · simp
    · simp only [List.length_range]
      rw [Py.clip_of_nonneg _ (b : Int) (by omega) (by omega)]
      by_cases h : (a : Int) ≤ n
      · rw [Py.clip_of_nonneg _ _ (by omega) (by omega)]; omega
      · unfold Py.clip; split <;> omega

theorem myTasks_eq (n R r : Nat) (hR : 0 < R) (hr : r < R) :
    myTasks n R r = some ((List.range (szc n R r)).map (lo n R r + ·)) := by
  have h1 : lo n R (r + 1) ≤ n := by
    have := lo_mono (n := n) (R := R) (show r + 1 ≤ R by omega)
    rw [lo_R n R hR] at this; exact this
  unfold myTasks mySlice
  rw [slices_get? n R r hR, if_pos hr]
  simp only [Option.map_some]
  rw [slice_range n _ _ h1, lo_succ]
  congr 3
  omega

theorem range_add_flatten (n R k : Nat) :
    ((List.range k).map fun r => (List.range (szc n R r)).map (lo n R r + ·)).flatten = List.range (lo n R k) := by
  induction k with
  | zero => simp [lo_zero]
  | succ k ih =>
    rw [List.range_succ, List.map_append, List.flatten_append, ih, lo_succ, List.range_add]
    simp

theorem sum_map_mul (l : List Nat) (s : Nat) : (l.map (· * s)).sum = l.sum * s := by
  induction l with
  | nil => simp
  | cons x xs ih => simp [ih, Nat.add_mul]

theorem flatten_segments {α : Type} (buf : List α) (c : Nat → Nat) :
    ∀ k, (((List.range k).map fun r => (buf.drop (((List.range r).map c).sum)).take (c r)).flatten
      = buf.take (((List.range k).map c).sum)) := by
  intro k
  induction k with
  | zero => simp
  | succ k ih =>
    rw [List.range_succ, List.map_append, List.flatten_append, ih, List.map_append, List.sum_append]
    simp [List.take_add]

theorem sizes_mul_eq (n R s : Nat) (hR : 0 < R) :
    (sizes n R).map (· * s) = (List.range R).map fun r => szc n R r * s := by
  rw [sizes_eq n R hR, List.map_map]; rfl

theorem sum_range_mul (n R s r : Nat) : ((List.range r).map fun r => szc n R r * s).sum = lo n R r * s := by
  have : ((List.range r).map fun r => szc n R r * s) = ((List.range r).map (szc n R)).map (· * s) := by
    rw [List.map_map]; rfl
  rw [this, sum_map_mul, sum_range_szc]

theorem scatter_eq {α : Type} (n R : Nat) (hR : 0 < R) (full : NdArray α) (hwf : full.WF) (hfirst : full.first = n)
    (r : Nat) (hr : r < R) :
    scatter n R full r = some ⟨szc n R r, full.other,
      (full.buf.drop (lo n R r * full.other)).take (szc n R r * full.other)⟩ := by
  have hlen : full.buf.length = n * full.other := by rw [← hfirst]; exact hwf
  have h1 : mySize n R r = some (szc n R r) := by
    unfold mySize; rw [sizes_eq n R hR]; simp [hr]
  unfold scatter
  rw [h1]
  simp only []
  rw [sizes_mul_eq n R _ hR, if_pos, scattervSeg, ← List.map_take, List.take_range,
    Nat.min_eq_left (Nat.le_of_lt hr), sum_range_mul]
  · simp [List.getD_eq_getElem?_getD, hr]
  · rw [sum_range_mul, lo_R n R hR, hlen]; exact Nat.le_refl _

end DGA.Mpi
