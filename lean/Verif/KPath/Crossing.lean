/-
  C146: crossings of a path with the Fermi surface: src/postproc/util.py:4-15.
-/
import Verif.KPath.Props2
import Mathlib.Tactic.IntervalCases
import Mathlib.Analysis.Complex.Norm

namespace DGA.KPath

open DGA.Bz

noncomputable section

/-! ### Model -/

/-- `np.linalg.norm` of the difference of two points of the plane, postproc/util.py:12 -/
def dist2 (p q : ℝ × ℝ) : ℝ := Real.sqrt ((p.1 - q.1) ^ 2 + (p.2 - q.2) ^ 2)

/-- `np.min` of an array; an empty one raises.  Used by postproc/util.py:12. -/
def minOf : List ℝ → Option ℝ
  | [] => none
  | x :: t => some (t.foldl min x)

/-- postproc/util.py:12 distance of a point to the Fermi surface -/
def distFermi (F : List (ℝ × ℝ)) (p : ℝ × ℝ) : Option ℝ := minOf (F.map fun f => dist2 f p)

/-- postproc/util.py:4-13 `find_fermi_crossing`: `F` the points of the Fermi surface, `vals` the first two coordinates along the path (`k_val[0]`, `k_val[1]`),
    `counts` the numbers of points of its segments (`nk_seg` is the difference of `cind`, brillouin_zone.py:439-441).  A negative length gives an empty range.
    The distances are not negative, so that the nearest to 0 is the smallest. -/
def findFermiCrossing (F vals : List (ℝ × ℝ)) (counts : List ℕ) : Option (List ℤ) :=
  (List.range counts.length).mapM fun j =>
    ((cind counts)[j]?).bind fun a => ((cind counts)[j + 1]?).bind fun b =>
      ((List.range (b - a).toNat).mapM fun (i : ℕ) => (Py.get? vals ((i : ℤ) + a)).bind (distFermi F)).bind fun ds => (argNear 0 ds).map fun (i : ℕ) => (i : ℤ) + a

/-- the first two coordinates along a path on a given axis, brillouin_zone.py:380-382, 71 of postproc/plot_giwk_cont.py: both are looked up in the axis `kx` -/
def planeVals (kx : List ℝ) (pts : List (V3 ℤ)) : Option (List (ℝ × ℝ)) :=
  pts.mapM fun (p : V3 ℤ) => (Py.get? kx p.1).bind fun x => (Py.get? kx p.2.1).map fun y => (x, y)

/-! ### Specification -/

/-- first point looked at for a segment: the first segment starts at the first point, every other one with the last point of the segment before -/
def first (counts : List ℕ) (j : ℕ) : ℕ := if j = 0 then 0 else (counts.take j).sum - 1

/-- the point behind the last one looked at -/
def behind (counts : List ℕ) (j : ℕ) : ℕ := (counts.take (j + 1)).sum - 1

/-- Euclidean distance of two points of the plane -/
def planeDist (p q : ℝ × ℝ) : ℝ := ‖(⟨p.1 - q.1, p.2 - q.2⟩ : ℂ)‖

/-- `k` is the first point of `a … b - 1` that is nearest to the Fermi surface -/
def NearestOn (F : List (ℝ × ℝ)) (v : ℕ → ℝ × ℝ) (a b k : ℕ) : Prop :=
  a ≤ k ∧ k < b ∧ ∃ f ∈ F, ∀ f' ∈ F, (∀ i, a ≤ i → i < b → planeDist f (v k) ≤ planeDist f' (v i)) ∧ ∀ i, a ≤ i → i < k → planeDist f (v k) < planeDist f' (v i)

/-- no segment without a point to look at: the first has two points at least, every other one has one -/
def Segments (counts : List ℕ) : Prop := ∀ j n, counts[j]? = some n → (if j = 0 then 2 else 1) ≤ n

/-! ### Theorems -/

theorem dist2_plane (p q : ℝ × ℝ) : dist2 p q = planeDist p q := by
  unfold dist2 planeDist
  rw [Complex.norm_def, Complex.normSq_mk]
  congr 1
  ring

theorem minOf_least (l : List ℝ) (x : ℝ) (h : minOf l = some x) : x ∈ l ∧ ∀ y ∈ l, x ≤ y := by
  cases l with
  | nil => cases h
  | cons a t =>
    rw [← Option.some.inj h]
    clear h
    induction t generalizing a with
    | nil => simp
    | cons b t ih =>
      rw [List.foldl_cons]
      obtain ⟨h1, h2⟩ := ih (min a b)
      constructor
      · rcases List.mem_cons.1 h1 with e | e
        · rw [e]
          rcases min_choice a b with e | e <;> rw [e] <;> simp
        · simp [e]
      · intro y hy
        have hm := h2 (min a b) (by simp)
        simp only [List.mem_cons] at hy
        rcases hy with rfl | rfl | hy
        · exact hm.trans (min_le_left _ _)
        · exact hm.trans (min_le_right _ _)
        · exact h2 y (by simp [hy])

theorem distFermi_some (F : List (ℝ × ℝ)) (hF : F ≠ []) (p : ℝ × ℝ) : ∃ x, distFermi F p = some x := by
  cases F with
  | nil => exact absurd rfl hF
  | cons a t => exact ⟨_, rfl⟩

theorem distFermi_spec (F : List (ℝ × ℝ)) (p : ℝ × ℝ) (x : ℝ) (h : distFermi F p = some x) : 0 ≤ x ∧ (∃ f ∈ F, x = dist2 f p) ∧ ∀ f ∈ F, x ≤ dist2 f p := by
  obtain ⟨h1, h2⟩ := minOf_least _ x h
  obtain ⟨f, hf, e⟩ := List.mem_map.1 h1
  exact ⟨by rw [← e]; exact Real.sqrt_nonneg _, ⟨f, hf, e.symm⟩, fun g hg => h2 _ (List.mem_map.2 ⟨g, hg, rfl⟩)⟩

theorem cind_at (counts : List ℕ) (j : ℕ) (h : j ≤ counts.length) :
    (cind counts)[j]? = some (if j = 0 then 0 else ((counts.take j).sum : ℤ) - 1) := by
  cases j with
  | zero => rfl
  | succ j =>
    rw [tick_position counts j (by omega)]
    simp

/-- one segment -/
theorem segment_crossing (F : List (ℝ × ℝ)) (hF : F ≠ []) (vals : List (ℝ × ℝ)) (v : ℕ → ℝ × ℝ) (a b : ℕ) (hab : a < b) (hv : ∀ i, a ≤ i → i < b → vals[i]? = some (v i)) :
    ∃ k : ℕ, (((List.range ((b : ℤ) - a).toNat).mapM fun (i : ℕ) => (Py.get? vals ((i : ℤ) + a)).bind (distFermi F)).bind fun ds => (argNear 0 ds).map fun (i : ℕ) => (i : ℤ) + a) =
      some (k : ℤ) ∧ NearestOn F v a b k := by
  obtain ⟨D, hD⟩ : ∃ D : ℕ → ℝ, ∀ i, distFermi F (v i) = some (D i) := ⟨fun i => (distFermi_some F hF (v i)).choose, fun i => (distFermi_some F hF (v i)).choose_spec⟩
  have hlen : ((b : ℤ) - a).toNat = b - a := by omega
  rw [hlen, mapM_eq (List.range (b - a)) (fun i => D (i + a)) _ (by
    intro i hi
    have hi := List.mem_range.1 hi
    unfold Py.get?
    rw [if_neg (by omega), show ((i : ℤ) + a).toNat = i + a by omega, hv (i + a) (by omega) (by omega), Option.bind_some, hD])]
  obtain ⟨i, hi⟩ := argNear_some 0 ((List.range (b - a)).map fun i => D (i + a)) (by
    intro h
    have := congrArg List.length h
    simp at this
    omega)
  rw [Option.bind_some, hi]
  have hi' : i < b - a := by
    obtain ⟨x, hx, -⟩ := argNear_spec 0 _ i hi
    have := (List.getElem?_eq_some_iff.1 hx).1
    simpa using this
  obtain ⟨x, hx, s1, s2⟩ := argNear_spec 0 _ i hi
  have hat : ∀ n, n < b - a → ((List.range (b - a)).map fun i => D (i + a))[n]? = some (D (n + a)) := by
    intro n hn
    rw [List.getElem?_map, List.getElem?_range hn]
    rfl
  rw [hat i hi'] at hx
  obtain rfl := Option.some.inj hx
  refine ⟨i + a, by simp, by omega, by omega, ?_⟩
  obtain ⟨p0, ⟨f, hf, e⟩, -⟩ := distFermi_spec F _ _ (hD (i + a))
  refine ⟨f, hf, fun f' hf' => ⟨?_, ?_⟩⟩
  all_goals simp only [← dist2_plane]
  · intro n h1 h2
    obtain ⟨q0, -, q⟩ := distFermi_spec F _ _ (hD n)
    have := s1 (n - a) (D n) (by rw [hat _ (by omega)]; congr 2; omega)
    rw [sub_zero, sub_zero, abs_of_nonneg p0, abs_of_nonneg q0] at this
    rw [← e]
    exact this.trans (q f' hf')
  · intro n h1 h2
    obtain ⟨q0, -, q⟩ := distFermi_spec F _ _ (hD n)
    have := s2 (n - a) (D n) (by omega) (by rw [hat _ (by omega)]; congr 2; omega)
    rw [sub_zero, sub_zero, abs_of_nonneg p0, abs_of_nonneg q0] at this
    rw [← e]
    exact this.trans_le (q f' hf')

theorem take_sum_succ (l : List ℕ) (j n : ℕ) (h : l[j]? = some n) : (l.take (j + 1)).sum = (l.take j).sum + n := by
  rw [List.take_add_one, h]
  simp

theorem take_sum_pos (counts : List ℕ) (hs : Segments counts) (j : ℕ) (hj : 0 < j) (hl : j ≤ counts.length) : 2 ≤ (counts.take j).sum := by
  obtain ⟨n, hn⟩ : ∃ n, counts[0]? = some n := ⟨counts[0], List.getElem?_eq_getElem (by omega)⟩
  have h1 := take_sum_succ counts 0 n hn
  have h2 := hs 0 n hn
  simp only [if_pos] at h2
  simp only [List.take_zero, List.sum_nil, zero_add] at h1
  have : (counts.take 1).sum ≤ (counts.take j).sum := (List.take_sublist_take_left (by omega : 1 ≤ j)).sum_le_sum (by simp)
  omega

theorem first_lt (counts : List ℕ) (hs : Segments counts) (j : ℕ) (hj : j < counts.length) : first counts j < behind counts j := by
  obtain ⟨n, hn⟩ : ∃ n, counts[j]? = some n := ⟨counts[j], List.getElem?_eq_getElem hj⟩
  have h1 := take_sum_succ counts j n hn
  have h2 := hs j n hn
  unfold first behind
  split_ifs at h2 ⊢ with h
  · omega
  · have := take_sum_pos counts hs j (by omega) hj.le
    omega

theorem behind_le (counts : List ℕ) (j : ℕ) : behind counts j ≤ counts.sum - 1 := by
  unfold behind
  have : (counts.take (j + 1)).sum ≤ counts.sum := (List.take_sublist _ _).sum_le_sum (by simp)
  omega

theorem cind_pair (counts : List ℕ) (hs : Segments counts) (j : ℕ) (hj : j < counts.length) :
    (cind counts)[j]? = some ((first counts j : ℕ) : ℤ) ∧ (cind counts)[j + 1]? = some ((behind counts j : ℕ) : ℤ) := by
  rw [cind_at counts j hj.le, cind_at counts (j + 1) hj]
  unfold first behind
  have h2 := take_sum_pos counts hs (j + 1) (by omega) hj
  constructor
  · split_ifs with h
    · rfl
    · have := take_sum_pos counts hs j (by omega) hj.le
      congr 1
      omega
  · rw [if_neg (by omega)]
    congr 1
    omega

/-- **C146 (a).** One point per segment: the first of those looked at that is nearest to the Fermi surface. -/
theorem fermi_crossing (F vals : List (ℝ × ℝ)) (v : ℕ → ℝ × ℝ) (counts : List ℕ) (hF : F ≠ []) (hs : Segments counts) (hv : ∀ i, i < counts.sum → vals[i]? = some (v i)) :
    ∃ k : ℕ → ℕ, findFermiCrossing F vals counts = some ((List.range counts.length).map fun j => ((k j : ℕ) : ℤ)) ∧
      ∀ j, j < counts.length → NearestOn F v (first counts j) (behind counts j) (k j) := by
  have hone : ∀ j, j < counts.length → ∃ k : ℕ, _ ∧ _ := fun j hj =>
    segment_crossing F hF vals v (first counts j) (behind counts j) (first_lt counts hs j hj) fun i _ h2 => hv i (by have := behind_le counts j; omega)
  choose! k hk hn using hone
  refine ⟨k, ?_, hn⟩
  unfold findFermiCrossing
  refine mapM_eq _ _ _ fun j hj => ?_
  have hj := List.mem_range.1 hj
  obtain ⟨c1, c2⟩ := cind_pair counts hs j hj
  rw [c1, c2]
  exact hk j hj

/-- **C146 (b).** The segments together look at every point of the path but the last exactly once. -/
theorem looked_at_once (counts : List ℕ) (hne : counts ≠ []) (i : ℕ) :
    (i + 1 < counts.sum ↔ ∃ j, j < counts.length ∧ first counts j ≤ i ∧ i < behind counts j) ∧
    ∀ j j', j < counts.length → j' < counts.length → first counts j ≤ i → i < behind counts j → first counts j' ≤ i → i < behind counts j' → j = j' := by
  have hmono : ∀ j j', j < j' → j' < counts.length → behind counts j ≤ first counts j' := by
    intro j j' h1 h2
    unfold first behind
    rw [if_neg (by omega)]
    have : (counts.take (j + 1)).sum ≤ (counts.take j').sum := (List.take_sublist_take_left (by omega : j + 1 ≤ j')).sum_le_sum (by simp)
    omega
  refine ⟨⟨?_, ?_⟩, ?_⟩
  · intro hi
    have hex : ∃ j, j < counts.length ∧ i < behind counts j := by
      refine ⟨counts.length - 1, ?_, ?_⟩
      · have := List.length_pos_iff.2 hne
        omega
      · unfold behind
        have := List.length_pos_iff.2 hne
        rw [show counts.length - 1 + 1 = counts.length by omega, List.take_length]
        omega
    classical
    obtain ⟨j, ⟨h1, h2⟩, hmin⟩ : ∃ j, (j < counts.length ∧ i < behind counts j) ∧ ∀ m, m < j → ¬ (m < counts.length ∧ i < behind counts m) :=
      ⟨Nat.find hex, Nat.find_spec hex, fun m hm => Nat.find_min hex hm⟩
    refine ⟨j, h1, ?_, h2⟩
    by_contra hlt
    have hpos : j ≠ 0 := by
      rintro rfl
      simp [first] at hlt
    refine hmin (j - 1) (by omega) ⟨by omega, ?_⟩
    unfold first at hlt
    rw [if_neg hpos] at hlt
    unfold behind
    rw [show j - 1 + 1 = j by omega]
    omega
  · rintro ⟨j, -, -, h3⟩
    have := behind_le counts j
    omega
  · intro j j' h1 h2 a1 a2 b1 b2
    rcases lt_trichotomy j j' with h | h | h
    · have := hmono j j' h h2
      omega
    · exact h
    · have := hmono j' j h h1
      omega

/-- **C146 (c).** The last point of the path is never returned, be it on the Fermi surface or not. -/
theorem last_never (F vals : List (ℝ × ℝ)) (v : ℕ → ℝ × ℝ) (counts : List ℕ) (hF : F ≠ []) (hs : Segments counts) (hv : ∀ i, i < counts.sum → vals[i]? = some (v i))
    (r : List ℤ) (h : findFermiCrossing F vals counts = some r) (x : ℤ) (hx : x ∈ r) : 0 ≤ x ∧ x + 1 < counts.sum := by
  obtain ⟨k, hk, hn⟩ := fermi_crossing F vals v counts hF hs hv
  obtain rfl := Option.some.inj (h.symm.trans hk)
  obtain ⟨j, hj, rfl⟩ := List.mem_map.1 hx
  obtain ⟨-, h2, -⟩ := hn j (List.mem_range.1 hj)
  have := behind_le counts j
  omega

theorem mapM_none {α β : Type} (l : List α) (h : α → Option β) (x : α) (hx : x ∈ l) (hn : h x = none) : l.mapM h = none := by
  induction l with
  | nil => cases hx
  | cons a l ih =>
    rw [List.mapM_cons]
    rcases List.mem_cons.1 hx with rfl | hx
    · rw [hn]; rfl
    · rw [ih hx]
      cases h a <;> rfl

/-- **C146 (d).** Nothing is returned if and only if there is a segment and either the Fermi surface is empty or a segment has no point to look at. -/
theorem crossing_fails (F vals : List (ℝ × ℝ)) (v : ℕ → ℝ × ℝ) (counts : List ℕ) (hv : ∀ i, i < counts.sum → vals[i]? = some (v i)) :
    findFermiCrossing F vals counts = none ↔ counts ≠ [] ∧ (F = [] ∨ ¬ Segments counts) := by
  constructor
  · intro h
    refine ⟨?_, ?_⟩
    · rintro rfl
      cases h
    · by_contra hc
      push Not at hc
      obtain ⟨k, hk, -⟩ := fermi_crossing F vals v counts hc.1 hc.2 hv
      rw [h] at hk
      cases hk
  · rintro ⟨hne, h⟩
    by_cases hs : Segments counts
    · have hF : F = [] := h.resolve_right (not_not.2 hs)
      have hl := List.length_pos_iff.2 hne
      refine mapM_none _ _ 0 (List.mem_range.2 hl) ?_
      obtain ⟨c1, c2⟩ := cind_pair counts hs 0 hl
      rw [c1, c2]
      simp only [Option.bind_some]
      have hlt := first_lt counts hs 0 hl
      rw [mapM_none _ _ 0 (List.mem_range.2 (by omega)) (by
        rw [hF]
        cases Py.get? vals (((0 : ℕ) : ℤ) + ((first counts 0 : ℕ) : ℤ)) <;> rfl)]
      rfl
    · unfold Segments at hs
      push Not at hs
      obtain ⟨j, n, hn, hlt⟩ := hs
      have hj : j < counts.length := (List.getElem?_eq_some_iff.1 hn).1
      refine mapM_none _ _ j (List.mem_range.2 hj) ?_
      rw [cind_at counts j hj.le, cind_at counts (j + 1) hj, if_neg (by omega : ¬ j + 1 = 0), take_sum_succ counts j n hn]
      simp only [Option.bind_some]
      rw [show ((((counts.take j).sum + n : ℕ) : ℤ) - 1 - if j = 0 then 0 else ((counts.take j).sum : ℤ) - 1).toNat = 0 by
        split_ifs at hlt ⊢ with h0
        · subst h0
          simp only [List.take_zero, List.sum_nil]
          omega
        · omega]
      rfl

/-- **C146 (e).** A path of the program, on an axis `kx` of as many points as the grid has in both directions of the plane: one crossing per segment, measured
    at the grid points next to the straight lines between the corners. -/
theorem path_crossing (nk : V3 ℕ) (c : List (V3 ℝ)) (kx : ℕ → ℝ) (n : ℕ) (hn : 0 < n) (h1 : nk.1 = n) (h2 : nk.2.1 = n) (hc : ∀ x ∈ c, InZone x) (F : List (ℝ × ℝ))
    (hF : F ≠ []) (hs : Segments (buildPath nk c).2) :
    ∃ (vals : List (ℝ × ℝ)) (v : ℕ → ℝ × ℝ) (k : ℕ → ℕ), planeVals ((List.range n).map kx) (buildPath nk c).1 = some vals ∧ vals.length = (buildPath nk c).2.sum ∧
      (∀ i j a b, c[i]? = some a → c[i + 1]? = some b → j < segCount a b nk → ∃ p : V3 ℤ, NearLine nk a b ((j : ℝ) / segCount a b nk) p ∧
        v (((buildPath nk c).2.take i).sum + j) = (kx (p.1 % n).toNat, kx (p.2.1 % n).toNat)) ∧
      findFermiCrossing F vals (buildPath nk c).2 = some ((List.range (buildPath nk c).2.length).map fun j => ((k j : ℕ) : ℤ)) ∧
      ∀ j, j < (buildPath nk c).2.length → NearestOn F v (first (buildPath nk c).2 j) (behind (buildPath nk c).2 j) (k j) := by
  have hvals : planeVals ((List.range n).map kx) (buildPath nk c).1 =
      some ((pathIdx nk c).map fun p : V3 ℤ => (kx (p.1 % n).toNat, kx (p.2.1 % n).toNat)) := by
    rw [buildPath_fst]
    unfold planeVals
    rw [List.mapM_map]
    refine mapM_eq _ _ _ fun p hp => ?_
    obtain ⟨b1, b2, -⟩ := pathIdx_bound nk c hc p hp
    rw [h1] at b1
    rw [h2] at b2
    show ((Py.get? ((List.range n).map kx) (wrapOnce nk.1 p.1)).bind fun x => (Py.get? ((List.range n).map kx) (wrapOnce nk.2.1 p.2.1)).map fun y => (x, y)) = _
    rw [h1, h2, get?_wrap n hn kx p.1 b1.1 b1.2, get?_wrap n hn kx p.2.1 b2.1 b2.2]
    rfl
  have hlen : ((pathIdx nk c).map fun p : V3 ℤ => (kx (p.1 % n).toNat, kx (p.2.1 % n).toNat)).length = (buildPath nk c).2.sum := by
    rw [List.length_map, pathIdx_length]
  set vals := (pathIdx nk c).map fun p : V3 ℤ => (kx (p.1 % n).toNat, kx (p.2.1 % n).toNat) with hvd
  have hv : ∀ i, i < (buildPath nk c).2.sum → vals[i]? = some (vals.getD i (0, 0)) := by
    intro i hi
    rw [List.getD_eq_getElem?_getD, List.getElem?_eq_getElem (by omega)]
    rfl
  obtain ⟨k, hk, hn'⟩ := fermi_crossing F vals _ (buildPath nk c).2 hF hs hv
  refine ⟨vals, fun i => vals.getD i (0, 0), k, hvals, hlen, ?_, hk, hn'⟩
  intro i j a b ha hb hj
  have hg := pathIdx_get nk c i j a b ha hb hj
  unfold segIdx at hg
  rw [List.getElem?_map, List.getElem?_range hj] at hg
  refine ⟨(rint (segCoord a.1 b.1 nk.1 (segCount a b nk) j), rint (segCoord a.2.1 b.2.1 nk.2.1 (segCount a b nk) j),
    rint (segCoord a.2.2 b.2.2 nk.2.2 (segCount a b nk) j)), ?_, ?_⟩
  rotate_left
  · beta_reduce
    rw [List.getD_eq_getElem?_getD, hvd, List.getElem?_map, hg]
    rfl
  · have r1 := rint_near (segCoord a.1 b.1 nk.1 (segCount a b nk) j)
    have r2 := rint_near (segCoord a.2.1 b.2.1 nk.2.1 (segCount a b nk) j)
    have r3 := rint_near (segCoord a.2.2 b.2.2 nk.2.2 (segCount a b nk) j)
    rw [segCoord_eq] at r1 r2 r3
    refine ⟨?_, ?_, ?_⟩
    · dsimp only
      rw [segCoord_eq]
      exact r1
    · dsimp only
      rw [segCoord_eq]
      exact r2
    · dsimp only
      rw [segCoord_eq]
      exact r3

/-! ### Cases -/

/-- (a), (b), (c): two segments of two points each, the Fermi surface crosses the second one; (c) the last point is on it in the second case, but is not returned -/
example (x : ℝ) : ∃ k : ℕ → ℕ, findFermiCrossing [(x, 0)] [(0, 0), (1, 0), (2, 0), (3, 0)] [2, 2] = some ((List.range 2).map fun j => ((k j : ℕ) : ℤ)) ∧
    NearestOn [(x, 0)] (fun i => ((i : ℝ), 0)) 0 1 (k 0) ∧ NearestOn [(x, 0)] (fun i => ((i : ℝ), 0)) 1 3 (k 1) := by
  obtain ⟨k, hk, hn⟩ := fermi_crossing [(x, 0)] [(0, 0), (1, 0), (2, 0), (3, 0)] (fun i => ((i : ℝ), 0)) [2, 2] (by simp)
    (by intro j n h; rcases j with _ | _ | _ <;> simp at h <;> subst h <;> simp)
    (by intro i hi; simp only [List.sum_cons, List.sum_nil] at hi; interval_cases i <;> norm_num)
  exact ⟨k, hk, hn 0 (by simp), hn 1 (by simp)⟩

example (r : List ℤ) (h : findFermiCrossing [(3, 0)] [(0, 0), (1, 0), (2, 0), (3, 0)] [2, 2] = some r) : (3 : ℤ) ∉ r := by
  intro h3
  have := (last_never [(3, 0)] [(0, 0), (1, 0), (2, 0), (3, 0)] (fun i => ((i : ℝ), 0)) [2, 2] (by simp)
    (by intro j n h; rcases j with _ | _ | _ <;> simp at h <;> subst h <;> simp)
    (by intro i hi; simp only [List.sum_cons, List.sum_nil] at hi; interval_cases i <;> norm_num) r h 3 h3).2
  simp at this

/-- (d): a first segment of one point -/
example : findFermiCrossing [(3, 0)] [(0, 0), (1, 0), (2, 0)] [1, 2] = none :=
  (crossing_fails [(3, 0)] [(0, 0), (1, 0), (2, 0)] (fun i => ((i : ℝ), 0)) [1, 2]
    (by intro i hi; simp only [List.sum_cons, List.sum_nil] at hi; interval_cases i <;> norm_num)).2 ⟨by simp, Or.inr (by
      intro h
      have := h 0 1 rfl
      simp at this)⟩

/-- (e): the path of plot_giwk_cont.py:55 along one axis, half a zone on a grid of 8 points: 4 points -/
example : Segments (buildPath (8, 8, 1) [(0, 0, 0), (1 / 2, 0, 0)]).2 := by
  intro j n h
  rw [buildPath_counts] at h
  rcases j with _ | j
  · simp only [List.getElem?_cons_zero, List.getElem?_cons_succ, Option.bind_some, Option.map_some, Option.some.injEq] at h
    have := segCount_axis 4 8 (1 / 2) (by norm_num) 8 1
    rw [this] at h
    subst h
    simp
  · simp at h

end

end DGA.KPath
