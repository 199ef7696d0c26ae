/-
  Helper lemmas for the Brillouin zone model.
-/
import Verif.Bz.Model
import Verif.Matsubara.Lemmas

namespace DGA.Bz

open DGA.Mf

/-- array with entries `F i j k` -/
def table {α : Type} (nx ny nz : Nat) (F : Nat → Nat → Nat → α) : Arr3 α :=
  (List.range nx).map fun i => (List.range ny).map fun j => (List.range nz).map fun k => F i j k

/-- folding of an axis index to the first half -/
def fold (n i : Nat) : Nat := if i ≤ n / 2 then i else n - i

theorem range_map_get? {α : Type} (n : Nat) (f : Nat → α) (i : Nat) :
    ((List.range n).map f)[i]? = if i < n then some (f i) else none := by
  rw [List.getElem?_map]
  by_cases h : i < n
  · rw [List.getElem?_range h, if_pos h]; rfl
  · rw [List.getElem?_eq_none (by simpa using h), if_neg h]; rfl

theorem eq_range_map {α : Type} (l : List α) (n : Nat) (f : Nat → α) (hl : l.length = n)
    (h : ∀ i, i < n → l[i]? = some (f i)) : l = (List.range n).map f := by
  apply List.ext_getElem?
  intro i
  rw [range_map_get?]
  by_cases hi : i < n
  · rw [h i hi, if_pos hi]
  · rw [List.getElem?_eq_none (by omega), if_neg hi]

theorem inv1_tab {α : Type} (n : Nat) (f : Nat → α) :
    inv1 ((List.range n).map f) = some ((List.range n).map fun i => f (fold n i)) := by
  unfold inv1
  simp only [List.length_map, List.length_range]
  by_cases h0 : n ≤ 1
  · -- nothing is assigned
    have hn : n = 0 ∨ n = 1 := by omega
    rcases hn with rfl | rfl <;> rfl
  · have hsl : (Py.slice ((List.range n).map f) 1 ((n / 2 + n % 2 : Nat) : Int)).length = n / 2 + n % 2 - 1 := by
      rw [Py.length_slice_in _ _ _ (by omega) (by omega) (by simp; omega)]; omega
    obtain ⟨r, hr, hrl, hrv⟩ := updSlice_get? (fun (_ x : α) => x) ((List.range n).map f) ((n / 2 + 1 : Nat) : Int) n
      (Py.slice ((List.range n).map f) 1 ((n / 2 + n % 2 : Nat) : Int)).reverse (by omega) (by omega) (by simp)
      (by rw [List.length_reverse, hsl]; omega)
    rw [hr]
    congr 1
    apply eq_range_map _ _ _ (by simpa using hrl)
    intro i hi
    unfold fold
    by_cases hh : i ≤ n / 2
    · rw [if_pos hh, (hrv i).1 (by omega), range_map_get?, if_pos hi]
    · rw [if_neg hh]
      obtain ⟨x, y, _, hy, hz⟩ := (hrv i).2 (by omega) (by omega)
      rw [hz, ← hy, List.getElem?_reverse (by rw [hsl]; omega), hsl,
        Py.slice_get?_in _ _ _ (by omega) (by simp; omega) _ (by omega), range_map_get?, if_pos (by omega)]
      congr 2; omega

theorem inv0_table {α : Type} (nx ny nz : Nat) (F : Nat → Nat → Nat → α) :
    inv0 (table nx ny nz F) = some (table nx ny nz fun i j k => F (fold nx i) j k) := by
  unfold inv0 table; rw [inv1_tab]

theorem invA1_table {α : Type} (nx ny nz : Nat) (F : Nat → Nat → Nat → α) :
    invA1 (table nx ny nz F) = some (table nx ny nz fun i j k => F i (fold ny j) k) := by
  unfold invA1 table
  rw [List.mapM_map, mapM_some _ _ (fun i => (List.range ny).map fun j => (List.range nz).map fun k => F i (fold ny j) k)]
  intro i _
  simp only [Function.comp]
  rw [inv1_tab]

theorem invA2_table {α : Type} (nx ny nz : Nat) (F : Nat → Nat → Nat → α) :
    invA2 (table nx ny nz F) = some (table nx ny nz fun i j k => F i j (fold nz k)) := by
  unfold invA2 table
  rw [List.mapM_map, mapM_some _ _ (fun i => (List.range ny).map fun j => (List.range nz).map fun k => F i j (fold nz k))]
  intro i _
  simp only [Function.comp]
  rw [List.mapM_map, mapM_some _ _ (fun j => (List.range nz).map fun k => F i j (fold nz k))]
  intro j _
  simp only [Function.comp]
  rw [inv1_tab]

theorem zipWith_range {β γ δ : Type} (n : Nat) (f : Nat → β) (g : Nat → γ) (h : β → γ → δ) :
    List.zipWith h ((List.range n).map f) ((List.range n).map g) = (List.range n).map fun k => h (f k) (g k) := by
  apply eq_range_map
  · simp
  · intro i hi
    rw [List.getElem?_zipWith, range_map_get?, range_map_get?, if_pos hi, if_pos hi]

theorem xySym_table (nx ny nz : Nat) (F : Nat → Nat → Nat → Nat) :
    xySym nx ny (table nx ny nz F) =
      some (if nx = ny then table nx ny nz fun i j k => min (F i j k) (F j i k) else table nx ny nz F) := by
  unfold xySym
  by_cases h : nx = ny
  · rw [if_pos h, if_pos h]
    subst h
    unfold table
    rw [mapM_some]
    intro i hi
    rw [mapM_some]
    intro j hj
    rw [List.mem_range] at hi hj
    rw [range_map_get?, range_map_get?, if_pos hi, if_pos hj, Option.bind_some, Option.bind_some, range_map_get?,
      range_map_get?, if_pos hi, if_pos hj, Option.bind_some, Option.bind_some, zipWith_range]
  · rw [if_neg h, if_neg h]

theorem range_map_reverse {α : Type} (n : Nat) (f : Nat → α) :
    ((List.range n).map f).reverse = (List.range n).map fun i => f (n - 1 - i) := by
  apply eq_range_map
  · simp
  · intro i hi
    rw [List.getElem?_reverse (by simpa using hi), range_map_get?, if_pos (by simp; omega)]
    simp

theorem range_map_sliceFrom {α : Type} (n : Nat) (f : Nat → α) :
    Py.sliceFrom ((List.range n).map f) 1 = (List.range (n - 1)).map fun i => f (i + 1) := by
  apply eq_range_map
  · unfold Py.sliceFrom Py.clip; simp; omega
  · intro i hi
    unfold Py.sliceFrom
    rw [List.getElem?_drop, Py.clip_of_nonneg _ _ (by omega) (by simp; omega), range_map_get?, if_pos (by omega)]
    congr 2; omega

theorem xyInv_table {α : Type} (nx ny nz : Nat) (F : Nat → Nat → Nat → α) :
    xyInv (table nx ny nz F) =
      some (table nx ny nz fun i j k => if nx / 2 < i ∧ 1 ≤ j then F (nx - i) (ny - j) k else F i j k) := by
  by_cases h0 : nx ≤ 1
  · have hn : nx = 0 ∨ nx = 1 := by omega
    rcases hn with rfl | rfl
    · unfold table xyInv
      simp [Py.slice, Py.clip, updSlice]
    · unfold table xyInv
      simp [Py.slice, Py.clip, updSlice]
  · -- rows of source and destination
    let row : Nat → List (List α) := fun i => (List.range ny).map fun j => (List.range nz).map fun k => F i j k
    have hT : table nx ny nz F = (List.range nx).map row := rfl
    have hsrc : ((Py.slice ((List.range nx).map row) 1 ((nx / 2 + nx % 2 : Nat) : Int)).map fun r =>
        (Py.sliceFrom r 1).reverse).reverse = (List.range (nx / 2 + nx % 2 - 1)).map fun a =>
          (List.range (ny - 1)).map fun b => (List.range nz).map fun k =>
            F (nx / 2 + nx % 2 - 1 - a) (ny - 1 - b) k := by
      have e : Py.slice ((List.range nx).map row) 1 ((nx / 2 + nx % 2 : Nat) : Int) =
          (List.range (nx / 2 + nx % 2 - 1)).map fun a => row (a + 1) := by
        apply eq_range_map
        · rw [Py.length_slice_in _ _ _ (by omega) (by omega) (by simp; omega)]; omega
        · intro i hi
          rw [Py.slice_get?_in _ _ _ (by omega) (by simp; omega) _ (by omega), range_map_get?, if_pos (by omega)]
          congr 2; omega
      rw [e, List.map_map, range_map_reverse]
      apply List.map_congr_left
      intro a ha
      rw [List.mem_range] at ha
      simp only [Function.comp, row]
      rw [range_map_sliceFrom, range_map_reverse]
      apply List.map_congr_left
      intro b hb
      rw [List.mem_range] at hb
      apply List.map_congr_left
      intro k _
      congr 1 <;> omega
    have hdst : Py.slice ((List.range nx).map row) ((nx / 2 + 1 : Nat) : Int) nx =
        (List.range (nx - (nx / 2 + 1))).map fun a => row (nx / 2 + 1 + a) := by
      apply eq_range_map
      · rw [Py.length_slice_in _ _ _ (by omega) (by omega) (by simp)]; omega
      · intro i hi
        rw [Py.slice_get?_in _ _ _ (by omega) (by simp) _ (by omega), range_map_get?, if_pos (by omega)]
        congr 2
    unfold xyInv
    rw [hT]
    simp only [List.length_map, List.length_range, hsrc, hdst]
    rw [if_pos (by omega)]
    -- the assigned rows
    let new : Nat → List (List α) := fun i => (List.range ny).map fun j => (List.range nz).map fun k =>
      if 1 ≤ j then F (nx - i) (ny - j) k else F i j k
    have hrow : ∀ a, a < nx - (nx / 2 + 1) →
        updSlice (fun (_ x : List α) => x) (row (nx / 2 + 1 + a)) 1 (row (nx / 2 + 1 + a)).length
          ((List.range (ny - 1)).map fun b => (List.range nz).map fun k =>
            F (nx / 2 + nx % 2 - 1 - a) (ny - 1 - b) k) = some (new (nx / 2 + 1 + a)) := by
      intro a ha
      have hl : (row (nx / 2 + 1 + a)).length = ny := by simp [row]
      rw [hl]
      by_cases hy : ny = 0
      · subst hy; rfl
      obtain ⟨r, hr, hrl, hrv⟩ := updSlice_get? (fun (_ x : List α) => x) (row (nx / 2 + 1 + a)) 1 ny
        ((List.range (ny - 1)).map fun b => (List.range nz).map fun k =>
            F (nx / 2 + nx % 2 - 1 - a) (ny - 1 - b) k) (by omega) (by omega) (by omega) (by simp; omega)
      rw [hr]
      congr 1
      apply eq_range_map _ _ _ (by omega)
      intro j hj
      by_cases h1 : 1 ≤ j
      · obtain ⟨x, y, _, hy', hz⟩ := (hrv j).2 (by omega) (by omega)
        rw [hz, ← hy', range_map_get?, if_pos (by omega)]
        congr 1
        apply List.map_congr_left
        intro k _
        rw [if_pos h1]
        congr 1 <;> omega
      · rw [(hrv j).1 (by omega)]
        simp only [row]
        rw [range_map_get?, if_pos hj]
        congr 1
        apply List.map_congr_left
        intro k _
        rw [if_neg h1]
    have hlen2 : nx / 2 + nx % 2 - 1 = nx - (nx / 2 + 1) := by omega
    have hzip : List.zip ((List.range (nx - (nx / 2 + 1))).map fun a => row (nx / 2 + 1 + a))
        ((List.range (nx / 2 + nx % 2 - 1)).map fun a => (List.range (ny - 1)).map fun b => (List.range nz).map fun k =>
            F (nx / 2 + nx % 2 - 1 - a) (ny - 1 - b) k) =
        (List.range (nx - (nx / 2 + 1))).map fun a => (row (nx / 2 + 1 + a),
          (List.range (ny - 1)).map fun b => (List.range nz).map fun k =>
            F (nx / 2 + nx % 2 - 1 - a) (ny - 1 - b) k) := by
      rw [hlen2, List.zip, zipWith_range]
    rw [hzip, List.mapM_map, mapM_some _ _ (fun a => new (nx / 2 + 1 + a))
      (by intro a ha; rw [List.mem_range] at ha; exact hrow a ha), Option.bind_some]
    obtain ⟨r, hr, hrl, hrv⟩ := updSlice_get? (fun (_ x : List (List α)) => x) ((List.range nx).map row)
      ((nx / 2 + 1 : Nat) : Int) nx ((List.range (nx - (nx / 2 + 1))).map fun a => new (nx / 2 + 1 + a))
      (by omega) (by omega) (by simp) (by simp; omega)
    rw [hr]
    congr 1
    apply eq_range_map _ _ _ (by simpa using hrl)
    intro i hi
    by_cases h1 : nx / 2 < i
    · obtain ⟨x, y, _, hy', hz⟩ := (hrv i).2 (by omega) (by omega)
      rw [hz, ← hy', range_map_get?, if_pos (by omega)]
      congr 1
      simp only [new]
      apply List.map_congr_left
      intro j _
      apply List.map_congr_left
      intro k _
      by_cases h2 : 1 ≤ j
      · rw [if_pos h2, if_pos ⟨h1, h2⟩]; congr 1; omega
      · rw [if_neg h2, if_neg (by omega)]; congr 1; omega
    · rw [(hrv i).1 (by omega), range_map_get?, if_pos hi]
      congr 1
      simp only [row]
      apply List.map_congr_left
      intro j _
      apply List.map_congr_left
      intro k _
      rw [if_neg (by omega)]

/-- linear index of a grid point in C order -/
def lin (ny nz i j k : Nat) : Nat := (i * ny + j) * nz + k

theorem unflat_eq {α : Type} (g : Nat → α) (m n : Nat) :
    unflat ((List.range (m * n)).map g) m n = (List.range m).map fun i => (List.range n).map fun j => g (i * n + j) := by
  unfold unflat
  apply List.map_congr_left
  intro i hi
  rw [List.mem_range] at hi
  have hb : (i + 1) * n ≤ m * n := Nat.mul_le_mul_right n hi
  rw [Nat.add_mul, Nat.one_mul] at hb
  apply eq_range_map
  · simp; omega
  · intro j hj
    rw [List.getElem?_take, if_pos hj, List.getElem?_drop, range_map_get?, if_pos (by omega)]

theorem reshape3_range {α : Type} (g : Nat → α) (nx ny nz : Nat) :
    reshape3 ((List.range (nx * ny * nz)).map g) nx ny nz = table nx ny nz fun i j k => g (lin ny nz i j k) := by
  unfold reshape3 table
  rw [Nat.mul_assoc, unflat_eq, List.map_map]
  apply List.map_congr_left
  intro i _
  simp only [Function.comp]
  rw [unflat_eq]
  apply List.map_congr_left
  intro j _
  apply List.map_congr_left
  intro k _
  unfold lin
  rw [Nat.add_mul, Nat.mul_assoc, Nat.add_assoc]

theorem start_table (nx ny nz : Nat) :
    reshape3 (List.range (nx * ny * nz)) nx ny nz = table nx ny nz (lin ny nz) := by
  have := reshape3_range (fun x => x) nx ny nz
  rw [List.map_id'] at this
  exact this

theorem at3_table {α : Type} (nx ny nz : Nat) (F : Nat → Nat → Nat → α) (i j k : Nat) (hi : i < nx) (hj : j < ny)
    (hk : k < nz) : at3 (table nx ny nz F) i j k = some (F i j k) := by
  unfold at3 table
  rw [range_map_get?, if_pos hi, Option.bind_some, range_map_get?, if_pos hj, Option.bind_some, range_map_get?,
    if_pos hk]

theorem flatten_range {α : Type} (a b : Nat) (g : Nat → Nat → α) :
    ((List.range a).map fun i => (List.range b).map (g i)).flatten =
      (List.range (a * b)).map fun l => g (l / b) (l % b) := by
  induction a with
  | zero => simp
  | succ a ih =>
    rw [List.range_succ, List.map_append, List.flatten_append, ih, Nat.add_mul, Nat.one_mul, List.range_add,
      List.map_append]
    congr 1
    simp only [List.map_cons, List.map_nil, List.flatten_cons, List.flatten_nil, List.append_nil, List.map_map]
    apply List.map_congr_left
    intro x hx
    rw [List.mem_range] at hx
    simp only [Function.comp]
    rw [Nat.mul_comm a b, Nat.mul_add_div (by omega), Nat.div_eq_of_lt hx, Nat.mul_add_mod, Nat.mod_eq_of_lt hx,
      Nat.add_zero]

/-- grid point of a linear index -/
def pt (ny nz l : Nat) : Nat × Nat × Nat := (l / nz / ny, l / nz % ny, l % nz)

theorem flat3_table {α : Type} (nx ny nz : Nat) (F : Nat → Nat → Nat → α) :
    flat3 (table nx ny nz F) =
      (List.range (nx * ny * nz)).map fun l => F (l / nz / ny) (l / nz % ny) (l % nz) := by
  unfold flat3 table
  rw [flatten_range nx ny (fun i j => (List.range nz).map fun k => F i j k),
    flatten_range (nx * ny) nz (fun l k => F (l / ny) (l % ny) k)]

theorem lin_div (ny nz i j k : Nat) (hj : j < ny) (hk : k < nz) : pt ny nz (lin ny nz i j k) = (i, j, k) := by
  unfold pt lin
  have hz : 0 < nz := by omega
  have hy : 0 < ny := by omega
  have e1 : ((i * ny + j) * nz + k) / nz = i * ny + j := by
    rw [Nat.mul_comm, Nat.mul_add_div hz, Nat.div_eq_of_lt hk, Nat.add_zero]
  have e2 : ((i * ny + j) * nz + k) % nz = k := by
    rw [Nat.mul_comm, Nat.mul_add_mod, Nat.mod_eq_of_lt hk]
  have e3 : (i * ny + j) / ny = i := by
    rw [Nat.mul_comm, Nat.mul_add_div hy, Nat.div_eq_of_lt hj, Nat.add_zero]
  have e4 : (i * ny + j) % ny = j := by
    rw [Nat.mul_comm, Nat.mul_add_mod, Nat.mod_eq_of_lt hj]
  rw [e1, e2, e3, e4]

theorem lin_lt (nx ny nz i j k : Nat) (hi : i < nx) (hj : j < ny) (hk : k < nz) :
    lin ny nz i j k < nx * ny * nz := by
  unfold lin
  have h1 : i * ny + j + 1 ≤ nx * ny := by
    have := Nat.mul_le_mul_right ny (show i + 1 ≤ nx from hi)
    rw [Nat.add_mul, Nat.one_mul] at this
    omega
  have h2 := Nat.mul_le_mul_right nz h1
  rw [Nat.add_mul, Nat.one_mul] at h2
  omega

theorem pt_bounds (nx ny nz l : Nat) (h : l < nx * ny * nz) :
    (pt ny nz l).1 < nx ∧ (pt ny nz l).2.1 < ny ∧ (pt ny nz l).2.2 < nz ∧
      lin ny nz (pt ny nz l).1 (pt ny nz l).2.1 (pt ny nz l).2.2 = l := by
  have hz : 0 < nz := by
    rcases Nat.eq_zero_or_pos nz with h0 | h0
    · subst h0; simp at h
    · exact h0
  have hy : 0 < ny := by
    rcases Nat.eq_zero_or_pos ny with h0 | h0
    · subst h0; simp at h
    · exact h0
  unfold pt lin
  refine ⟨?_, Nat.mod_lt _ hy, Nat.mod_lt _ hz, ?_⟩
  · rw [Nat.div_div_eq_div_mul, Nat.div_lt_iff_lt_mul (Nat.mul_pos hz hy), Nat.mul_comm nz ny, ← Nat.mul_assoc]
    exact h
  · simp only
    rw [Nat.mul_comm (l / nz / ny) ny, Nat.div_add_mod, Nat.mul_comm, Nat.div_add_mod]

theorem lin_mono (ny nz i j k i' j' k' : Nat) (hi : i' ≤ i) (hj : j' ≤ j) (hk : k' ≤ k) :
    lin ny nz i' j' k' ≤ lin ny nz i j k := by
  unfold lin
  have h1 := Nat.mul_le_mul_right ny hi
  have h2 := Nat.mul_le_mul_right nz (show i' * ny + j' ≤ i * ny + j by omega)
  omega

theorem lin_swap (n nz a b k : Nat) (ha : a < n) (hb : b < n) :
    min (lin n nz a b k) (lin n nz b a k) = lin n nz (min a b) (max a b) k := by
  rcases Nat.lt_trichotomy a b with h | h | h
  · have : lin n nz a b k ≤ lin n nz b a k := by
      unfold lin
      have h1 := Nat.mul_le_mul_right n (show a + 1 ≤ b from h)
      rw [Nat.add_mul, Nat.one_mul] at h1
      have h2 := Nat.mul_le_mul_right nz (show a * n + b ≤ b * n + a by omega)
      omega
    rw [Nat.min_eq_left this, Nat.min_eq_left (by omega), Nat.max_eq_right (by omega)]
  · subst h; simp
  · have : lin n nz b a k ≤ lin n nz a b k := by
      unfold lin
      have h1 := Nat.mul_le_mul_right n (show b + 1 ≤ a from h)
      rw [Nat.add_mul, Nat.one_mul] at h1
      have h2 := Nat.mul_le_mul_right nz (show b * n + a ≤ a * n + b by omega)
      omega
    rw [Nat.min_eq_right this, Nat.min_eq_right (by omega), Nat.max_eq_left (by omega)]

end DGA.Bz
