/-
  Python / numpy primitives used by the models.

  A numpy axis is a `List`; the entries are arbitrary (for an N-d array the entries are the remaining axes).
  These definitions model the language/runtime, not a file of /repo; each comment names the Python construct.
-/

namespace Py

/-- Normalisation of one bound of a step-1 Python slice on a sequence of length `n`:
    negative bounds get `n` added, then the bound is clipped to `[0, n]`. -/
def clip (n : Nat) (i : Int) : Nat :=
  if i < 0 then (i + (n : Int)).toNat else min i.toNat n

/-- `l[a:b]` -/
def slice {α : Type _} (l : List α) (a b : Int) : List α :=
  (l.drop (clip l.length a)).take (clip l.length b - clip l.length a)

/-- `l[a:]` -/
def sliceFrom {α : Type _} (l : List α) (a : Int) : List α := l.drop (clip l.length a)

/-- `l[:b]` -/
def sliceTo {α : Type _} (l : List α) (b : Int) : List α := l.take (clip l.length b)

/-- `l[i]` with Python's negative indices; `none` is `IndexError`. -/
def get? {α : Type _} (l : List α) (i : Int) : Option α :=
  if i < 0 then (if 0 ≤ i + (l.length : Int) then l[(i + (l.length : Int)).toNat]? else none)
  else l[i.toNat]?

/-- `np.arange(a, b)` on integers -/
def arange (a b : Int) : List Int := (List.range (b - a).toNat).map fun k : Nat => a + (k : Int)

theorem clip_le (n : Nat) (i : Int) : clip n i ≤ n := by
  unfold clip; split <;> omega

theorem clip_of_nonneg (n : Nat) (i : Int) (h0 : 0 ≤ i) (h : i ≤ n) : clip n i = i.toNat := by
  unfold clip; split <;> omega

theorem clip_of_neg (n : Nat) (i : Int) (h0 : i < 0) : clip n i = (i + n).toNat := by
  unfold clip; split <;> omega

@[simp] theorem clip_zero (n : Nat) : clip n 0 = 0 := by unfold clip; simp

theorem length_slice {α : Type _} (l : List α) (a b : Int) :
    (slice l a b).length = clip l.length b - clip l.length a := by
  have h1 := clip_le l.length a
  have h2 := clip_le l.length b
  simp only [slice, List.length_take, List.length_drop]
  omega

theorem length_slice_in {α : Type _} (l : List α) (a b : Int) (ha : 0 ≤ a) (hab : a ≤ b) (hb : b ≤ l.length) :
    (slice l a b).length = (b - a).toNat := by
  rw [length_slice, clip_of_nonneg _ _ ha (by omega), clip_of_nonneg _ _ (by omega) hb]; omega

theorem slice_get? {α : Type _} (l : List α) (a b : Int) (k : Nat) :
    (slice l a b)[k]? = if k < clip l.length b - clip l.length a then l[clip l.length a + k]? else none := by
  simp only [slice, List.getElem?_take, List.getElem?_drop]

/-- In-bounds slice: position `k` holds the element at `a + k`. -/
theorem slice_get?_in {α : Type _} (l : List α) (a b : Int) (ha : 0 ≤ a) (hb : b ≤ l.length) (k : Nat)
    (hk : (k : Int) < b - a) : (slice l a b)[k]? = l[(a + k).toNat]? := by
  rw [slice_get?, clip_of_nonneg _ _ ha (by omega), clip_of_nonneg _ _ (by omega) hb, if_pos (by omega)]
  congr 1; omega

theorem slice_eq_nil_of_le {α : Type _} (l : List α) (a b : Int) (h : clip l.length b ≤ clip l.length a) :
    slice l a b = [] := by
  simp [slice, Nat.sub_eq_zero_of_le h]

theorem slice_all {α : Type _} (l : List α) : slice l 0 l.length = l := by
  simp only [slice, clip_zero, List.drop_zero, Nat.sub_zero]
  rw [clip_of_nonneg _ _ (by omega) (by omega)]
  simp

theorem length_arange (a b : Int) : (arange a b).length = (b - a).toNat := by simp [arange]

theorem arange_get? (a b : Int) (k : Nat) (h : (k : Int) < b - a) : (arange a b)[k]? = some (a + k) := by
  rw [arange, List.getElem?_map, List.getElem?_range (by omega)]; rfl

theorem mem_arange (a b x : Int) : x ∈ arange a b ↔ a ≤ x ∧ x < b := by
  simp only [arange, List.mem_map, List.mem_range]
  constructor
  · rintro ⟨k, hk, rfl⟩; omega
  · rintro ⟨h1, h2⟩; exact ⟨(x - a).toNat, by omega, by omega⟩

theorem nodup_arange (a b : Int) : (arange a b).Nodup := by
  unfold arange
  rw [List.Nodup, List.pairwise_map]
  exact (List.nodup_range (n := (b - a).toNat)).imp (by intro x y h; omega)

end Py
