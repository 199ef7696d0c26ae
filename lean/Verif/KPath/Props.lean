/-
  C83, C84: paths through the Brillouin zone and lookup of momenta.
-/
import Verif.KPath.Model
import Verif.Bubble.Lemmas
import Mathlib.Tactic.NormNum
import Mathlib.Tactic.Linarith

namespace DGA.KPath

open DGA.Bz

noncomputable section

/-! ### rounding -/

theorem rint_cases (x : ℝ) : rint x = ⌊x⌋ ∧ Int.fract x ≤ 1 / 2 ∨ rint x = ⌊x⌋ + 1 ∧ 1 / 2 ≤ Int.fract x := by
  unfold rint
  by_cases h1 : Int.fract x < 1 / 2
  · rw [if_pos h1]; exact Or.inl ⟨rfl, h1.le⟩
  · rw [if_neg h1]
    push Not at h1
    by_cases h2 : 1 / 2 < Int.fract x
    · rw [if_pos h2]; exact Or.inr ⟨rfl, h1⟩
    · rw [if_neg h2]
      push Not at h2
      by_cases h3 : ⌊x⌋ % 2 = 0
      · rw [if_pos h3]; exact Or.inl ⟨rfl, h2⟩
      · rw [if_neg h3]; exact Or.inr ⟨rfl, h1⟩

theorem rint_near (x : ℝ) : |(rint x : ℝ) - x| ≤ 1 / 2 := by
  have h := Int.fract_add_floor x
  have h0 := Int.fract_nonneg x
  have h1 := (Int.fract_lt_one x).le
  rcases rint_cases x with ⟨e, hf⟩ | ⟨e, hf⟩
  · rw [e, abs_le]; constructor <;> linarith
  · rw [e, abs_le]; push_cast; constructor <;> linarith

theorem rint_int (n : ℤ) : rint (n : ℝ) = n := by
  have h := rint_near (n : ℝ)
  rw [abs_le] at h
  have h1 : (rint (n : ℝ) : ℝ) < n + 1 := by linarith
  have h2 : (n : ℝ) - 1 < rint (n : ℝ) := by linarith
  have h1' : rint (n : ℝ) < n + 1 := by exact_mod_cast h1
  have h2' : n - 1 < rint (n : ℝ) := by exact_mod_cast h2
  omega

theorem rint_le (x : ℝ) (n : ℤ) (h : x ≤ n) : rint x ≤ n := by
  rcases eq_or_lt_of_le h with e | l
  · rw [e, rint_int]
  · have hfl : ⌊x⌋ < n := Int.floor_lt.mpr l
    rcases rint_cases x with ⟨e, _⟩ | ⟨e, _⟩ <;> omega

theorem le_rint (x : ℝ) (n : ℤ) (h : (n : ℝ) ≤ x) : n ≤ rint x := by
  have hfl : n ≤ ⌊x⌋ := Int.le_floor.mpr h
  rcases rint_cases x with ⟨e, _⟩ | ⟨e, _⟩ <;> omega

/-! ### specification of a path -/

/-- specification: the coordinates lie within one zone of the origin -/
def InZone (c : V3 ℝ) : Prop := |c.1| ≤ 1 ∧ |c.2.1| ≤ 1 ∧ |c.2.2| ≤ 1

/-- specification: the grid point `p` is nearest, in every direction, to the fraction `t` of the way from `a` to `b` (measured in grid steps) -/
def NearLine (nk : V3 ℕ) (a b : V3 ℝ) (t : ℝ) (p : V3 ℤ) : Prop :=
  |(p.1 : ℝ) - (a.1 + t * (b.1 - a.1)) * nk.1| ≤ 1 / 2 ∧ |(p.2.1 : ℝ) - (a.2.1 + t * (b.2.1 - a.2.1)) * nk.2.1| ≤ 1 / 2 ∧
    |(p.2.2 : ℝ) - (a.2.2 + t * (b.2.2 - a.2.2)) * nk.2.2| ≤ 1 / 2

/-- specification: distance of two corners in grid steps -/
def gridDist (nk : V3 ℕ) (a b : V3 ℝ) : ℝ :=
  Real.sqrt (((b.1 - a.1) * nk.1) ^ 2 + ((b.2.1 - a.2.1) * nk.2.1) ^ 2 + ((b.2.2 - a.2.2) * nk.2.2) ^ 2)

theorem segCoord_eq (a b : ℝ) (nk n j : ℕ) : segCoord a b nk n j = (a + (j : ℝ) / n * (b - a)) * nk := by unfold segCoord; ring

/-- the number of points of a segment is the rounded distance of its corners -/
theorem segCount_near (a b : V3 ℝ) (nk : V3 ℕ) : |(segCount a b nk : ℝ) - gridDist nk a b| ≤ 1 / 2 := by
  unfold segCount gridDist
  rw [show (a.1 * nk.1 - b.1 * nk.1) ^ 2 + (a.2.1 * nk.2.1 - b.2.1 * nk.2.1) ^ 2 + (a.2.2 * nk.2.2 - b.2.2 * nk.2.2) ^ 2
    = ((b.1 - a.1) * nk.1) ^ 2 + ((b.2.1 - a.2.1) * nk.2.1) ^ 2 + ((b.2.2 - a.2.2) * nk.2.2) ^ 2 by ring]
  generalize hs : Real.sqrt (((b.1 - a.1) * nk.1) ^ 2 + ((b.2.1 - a.2.1) * nk.2.1) ^ 2 + ((b.2.2 - a.2.2) * nk.2.2) ^ 2) = s
  have h0 : 0 ≤ s := by rw [← hs]; exact Real.sqrt_nonneg _
  have hr : 0 ≤ rint s := le_rint s 0 (by simpa using h0)
  have := rint_near s
  have e : (((rint s).toNat : ℕ) : ℝ) = (rint s : ℝ) := by
    have : ((rint s).toNat : ℤ) = rint s := Int.toNat_of_nonneg hr
    exact_mod_cast this
  rw [e]
  exact this

/-- rounded but not wrapped points of a segment -/
def segIdx (a b : V3 ℝ) (nk : V3 ℕ) : List (V3 ℤ) :=
  (List.range (segCount a b nk)).map fun (j : ℕ) =>
    (rint (segCoord a.1 b.1 nk.1 (segCount a b nk) j), rint (segCoord a.2.1 b.2.1 nk.2.1 (segCount a b nk) j),
      rint (segCoord a.2.2 b.2.2 nk.2.2 (segCount a b nk) j))

def pathIdx (nk : V3 ℕ) : List (V3 ℝ) → List (V3 ℤ)
  | a :: b :: r => segIdx a b nk ++ pathIdx nk (b :: r)
  | _ => []

def wrap3 (nk : V3 ℕ) (p : V3 ℤ) : V3 ℤ := (wrapOnce nk.1 p.1, wrapOnce nk.2.1 p.2.1, wrapOnce nk.2.2 p.2.2)

theorem segment_eq (a b : V3 ℝ) (nk : V3 ℕ) : segment a b nk = (segIdx a b nk).map (wrap3 nk) := by
  unfold segment segIdx; rw [List.map_map]; rfl

theorem buildPath_fst (nk : V3 ℕ) (c : List (V3 ℝ)) : (buildPath nk c).1 = (pathIdx nk c).map (wrap3 nk) := by
  induction c with
  | nil => rfl
  | cons a l ih =>
    cases l with
    | nil => rfl
    | cons b r => simp only [buildPath, pathIdx, List.map_append, segment_eq]; rw [ih]

theorem coord_bound (a b : ℝ) (nk n j : ℕ) (hj : j < n) (ha : |a| ≤ 1) (hb : |b| ≤ 1) :
    -(nk : ℤ) ≤ rint (segCoord a b nk n j) ∧ rint (segCoord a b nk n j) ≤ nk := by
  rw [abs_le] at ha hb
  rw [segCoord_eq]
  have hn : (0 : ℝ) < n := by exact_mod_cast (by omega : 0 < n)
  have ht0 : (0 : ℝ) ≤ (j : ℝ) / n := by positivity
  have ht1 : (j : ℝ) / n ≤ 1 := by rw [div_le_one hn]; exact_mod_cast hj.le
  generalize (j : ℝ) / n = t at ht0 ht1
  have hk : (0 : ℝ) ≤ nk := Nat.cast_nonneg _
  have h1 : a + t * (b - a) ≤ 1 := by nlinarith
  have h2 : -1 ≤ a + t * (b - a) := by nlinarith
  constructor
  · apply le_rint; push_cast; nlinarith
  · apply rint_le; push_cast; nlinarith

theorem pathIdx_bound (nk : V3 ℕ) (c : List (V3 ℝ)) (hc : ∀ x ∈ c, InZone x) : ∀ p ∈ pathIdx nk c,
    (-(nk.1 : ℤ) ≤ p.1 ∧ p.1 ≤ nk.1) ∧ (-(nk.2.1 : ℤ) ≤ p.2.1 ∧ p.2.1 ≤ nk.2.1) ∧ (-(nk.2.2 : ℤ) ≤ p.2.2 ∧ p.2.2 ≤ nk.2.2) := by
  induction c with
  | nil => intro p hp; cases hp
  | cons a l ih =>
    cases l with
    | nil => intro p hp; cases hp
    | cons b r =>
      intro p hp
      simp only [pathIdx, List.mem_append] at hp
      rcases hp with hp | hp
      · unfold segIdx at hp
        rw [List.mem_map] at hp
        obtain ⟨j, hj, rfl⟩ := hp
        rw [List.mem_range] at hj
        have ha := hc a (by simp)
        have hb := hc b (by simp)
        exact ⟨coord_bound _ _ _ _ _ hj ha.1 hb.1, coord_bound _ _ _ _ _ hj ha.2.1 hb.2.1, coord_bound _ _ _ _ _ hj ha.2.2 hb.2.2⟩
      · exact ih (fun x hx => hc x (List.mem_cons_of_mem _ hx)) p hp

theorem get?_wrap {α : Type} (n : ℕ) (hn : 0 < n) (f : ℕ → α) (i : ℤ) (h1 : -(n : ℤ) ≤ i) (h2 : i ≤ n) :
    Py.get? ((List.range n).map f) (wrapOnce n i) = some (f (i % n).toNat) := by
  unfold wrapOnce Py.get?
  have hl : ((List.range n).map f).length = n := by simp
  rw [hl]
  by_cases h : (n : ℤ) ≤ i
  · have : i = n := by omega
    subst this
    simp [hn]
  · rw [if_neg h]
    by_cases hi : i < 0
    · rw [if_pos hi, if_pos (by omega)]
      have e : (i % n).toNat = (i + n).toNat := by
        rw [← Int.add_emod_right, Int.emod_eq_of_lt (by omega) (by omega)]
      rw [e, List.getElem?_map, List.getElem?_range (by omega)]
      rfl
    · rw [if_neg hi, Int.emod_eq_of_lt (by omega) (by omega), List.getElem?_map, List.getElem?_range (by omega)]
      rfl

theorem mapM_eq {α β : Type} (l : List α) (g : α → β) (h : α → Option β) (hh : ∀ x ∈ l, h x = some (g x)) : l.mapM h = some (l.map g) := by
  induction l with
  | nil => rfl
  | cons a l ih =>
    rw [List.mapM_cons, hh a (by simp), ih fun x hx => hh x (by simp [hx])]
    rfl

theorem buildPath_counts (nk : V3 ℕ) (c : List (V3 ℝ)) (i : ℕ) :
    (buildPath nk c).2[i]? = (c[i]?).bind fun a => (c[i + 1]?).map fun b => segCount a b nk := by
  induction c generalizing i with
  | nil => simp [buildPath]
  | cons a l ih =>
    cases l with
    | nil => cases i <;> simp [buildPath]
    | cons b r =>
      cases i with
      | zero => simp [buildPath]
      | succ i => simp only [buildPath, List.getElem?_cons_succ]; rw [ih i]; simp

theorem pathIdx_get (nk : V3 ℕ) (c : List (V3 ℝ)) (i j : ℕ) (a b : V3 ℝ) (ha : c[i]? = some a) (hb : c[i + 1]? = some b) (hj : j < segCount a b nk) :
    (pathIdx nk c)[((buildPath nk c).2.take i).sum + j]? = (segIdx a b nk)[j]? := by
  induction c generalizing i with
  | nil => simp at ha
  | cons x l ih =>
    cases l with
    | nil => simp at hb
    | cons y r =>
      have hlen : (segIdx x y nk).length = segCount x y nk := by simp [segIdx]
      cases i with
      | zero =>
        simp only [List.getElem?_cons_zero, Option.some.injEq, zero_add, List.getElem?_cons_succ] at ha hb
        subst ha; subst hb
        simp only [buildPath, pathIdx, List.take_zero, List.sum_nil, zero_add]
        rw [List.getElem?_append_left (by omega)]
      | succ i =>
        rw [List.getElem?_cons_succ] at ha hb
        simp only [buildPath, pathIdx, List.take_succ_cons, List.sum_cons]
        rw [List.getElem?_append_right (by omega), hlen, ← ih i ha hb]
        congr 1
        omega

theorem pathIdx_length (nk : V3 ℕ) (c : List (V3 ℝ)) : (pathIdx nk c).length = (buildPath nk c).2.sum := by
  induction c with
  | nil => rfl
  | cons a l ih =>
    cases l with
    | nil => rfl
    | cons b r => simp only [buildPath, pathIdx, List.length_append, List.sum_cons, ih]; simp [segIdx]

/-- C83 (a): a quantity on the grid is mapped onto the path without an index error; the `j`-th value of the `i`-th segment is the value at the
    grid point nearest to the fraction `j/n` of the way between the two corners, taken periodically, and every segment has as many points as
    its length in grid steps, rounded -/
theorem map_to_kpath_value {α : Type} (nx ny nz : ℕ) (hx : 0 < nx) (hy : 0 < ny) (hz : 0 < nz) (F : ℕ → ℕ → ℕ → α) (c : List (V3 ℝ)) (hc2 : 2 ≤ c.length)
    (hc : ∀ x ∈ c, InZone x) :
    ∃ pts : List (V3 ℤ), mapToPath (nx, ny, nz) c (table nx ny nz F) =
        some (pts.map fun (p : V3 ℤ) => F (p.1 % nx).toNat (p.2.1 % ny).toNat (p.2.2 % nz).toNat) ∧
      pts.length = (buildPath (nx, ny, nz) c).2.sum ∧
      ∀ (i : ℕ) (a b : V3 ℝ), c[i]? = some a → c[i + 1]? = some b →
        ∃ n : ℕ, (buildPath (nx, ny, nz) c).2[i]? = some n ∧ |(n : ℝ) - gridDist (nx, ny, nz) a b| ≤ 1 / 2 ∧
          ∀ j < n, ∃ p, pts[((buildPath (nx, ny, nz) c).2.take i).sum + j]? = some p ∧ NearLine (nx, ny, nz) a b ((j : ℝ) / n) p := by
  refine ⟨pathIdx (nx, ny, nz) c, ?_, pathIdx_length _ c, ?_⟩
  · unfold mapToPath
    rw [if_neg (by omega), buildPath_fst, List.mapM_map]
    refine mapM_eq _ _ _ fun p hp => ?_
    have hb := pathIdx_bound (nx, ny, nz) c hc p hp
    simp only [Function.comp, wrap3, table]
    rw [get?_wrap nx hx _ _ hb.1.1 hb.1.2, Option.bind_some, get?_wrap ny hy _ _ hb.2.1.1 hb.2.1.2, Option.bind_some,
      get?_wrap nz hz _ _ hb.2.2.1 hb.2.2.2]
  · intro i a b ha hb
    refine ⟨segCount a b (nx, ny, nz), ?_, segCount_near a b _, fun j hj => ?_⟩
    · rw [buildPath_counts, ha, hb]; rfl
    · refine ⟨(rint (segCoord a.1 b.1 nx (segCount a b (nx, ny, nz)) j), rint (segCoord a.2.1 b.2.1 ny (segCount a b (nx, ny, nz)) j),
          rint (segCoord a.2.2 b.2.2 nz (segCount a b (nx, ny, nz)) j)), ?_, ?_⟩
      · rw [pathIdx_get _ c i j a b ha hb hj]
        unfold segIdx
        rw [List.getElem?_map, List.getElem?_range hj]
        rfl
      · refine ⟨?_, ?_, ?_⟩
        · have := rint_near (segCoord a.1 b.1 nx (segCount a b (nx, ny, nz)) j); dsimp only; rw [segCoord_eq] at this ⊢; exact this
        · have := rint_near (segCoord a.2.1 b.2.1 ny (segCount a b (nx, ny, nz)) j); dsimp only; rw [segCoord_eq] at this ⊢; exact this
        · have := rint_near (segCoord a.2.2 b.2.2 nz (segCount a b (nx, ny, nz)) j); dsimp only; rw [segCoord_eq] at this ⊢; exact this

/-- the known points lie in the zone -/
theorem knownPoint_inZone (s : String) (c : V3 ℝ) (h : knownPoint s = some c) : InZone c := by
  unfold knownPoint at h
  repeat' split at h
  all_goals first
    | (injection h with h; subst h; unfold InZone; norm_num [abs_le])
    | cases h

/-- C83 (b): a nearest grid point on the line through a corner that is a grid point is that corner -/
theorem corner_on_path (nk : V3 ℕ) (a b : V3 ℝ) (g p : V3 ℤ) (h1 : a.1 * nk.1 = g.1) (h2 : a.2.1 * nk.2.1 = g.2.1) (h3 : a.2.2 * nk.2.2 = g.2.2)
    (h : NearLine nk a b 0 p) : p = g := by
  obtain ⟨n1, n2, n3⟩ := h
  have key : ∀ (u v : ℤ) (y : ℝ), y = v → |(u : ℝ) - y| ≤ 1 / 2 → u = v := by
    intro u v y e hu
    rw [e, abs_le] at hu
    have h1 : (u : ℝ) < v + 1 := by linarith
    have h2 : (v : ℝ) - 1 < u := by linarith
    have h1' : u < v + 1 := by exact_mod_cast h1
    have h2' : v - 1 < u := by exact_mod_cast h2
    omega
  have e1 := key p.1 g.1 _ (by rw [zero_mul, add_zero, h1]) n1
  have e2 := key p.2.1 g.2.1 _ (by rw [zero_mul, add_zero, h2]) n2
  have e3 := key p.2.2 g.2.2 _ (by rw [zero_mul, add_zero, h3]) n3
  obtain ⟨p1, p2, p3⟩ := p
  obtain ⟨g1, g2, g3⟩ := g
  simp only at e1 e2 e3
  rw [e1, e2, e3]

/-- the tick of the corner `i+1` is one point before the position where the path reaches that corner -/
theorem tick_position (counts : List ℕ) (i : ℕ) (h : i < counts.length) : (cind counts)[i + 1]? = some (((counts.take (i + 1)).sum : ℤ) - 1) := by
  unfold cind
  rw [List.getElem?_cons_succ, List.getElem?_map, List.getElem?_range h]
  rfl

end

end DGA.KPath
