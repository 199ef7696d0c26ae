/-
  C150: the paths that dga_max_ent.py prepares and the figures it draws along them: src/dga/dga_max_ent.py:57-58, 105-115, 166-168, 189-191,
  src/dga/high_level_plotting.py:12-84.
-/
import Verif.KPath.Crossing
import Verif.Matsubara.Lemmas

namespace DGA.KPath

open DGA.Bz

noncomputable section

/-! ### Model -/

/-- dga_max_ent.py:57, split at `-` (brillouin_zone.py:392-395) -/
def maxEntPaths : List (List String) :=
  [["Gamma", "X", "M2", "Gamma"], ["Gamma", "Y", "M2", "Gamma"], ["Gamma", "X", "M", "Gamma"], ["Gamma", "Y", "M", "Gamma"], ["Gamma", "X", "M", "Y", "Gamma"]]

/-- brillouin_zone.py:360-382 the constructor of a path through known points: its corners; raises if a coordinate cannot be looked up (other corner strings are not modelled) -/
def newPath (nk : V3 ℕ) (names : List String) : Option (List (V3 ℝ)) :=
  (names.mapM knownPoint).bind fun c => if c.length ≤ 1 then none else (pathVals nk (buildPath nk c).1).map fun _ => c

/-- dga_max_ent.py:57-58: all paths, on every rank, before anything is continued -/
def preparePaths (nk : V3 ℕ) : Option (List (List (V3 ℝ))) := maxEntPaths.mapM (newPath nk)

/-- brillouin_zone.py:431-433 `k_axis` -/
def pathAxis (counts : List ℕ) : List ℝ := (List.range counts.sum).map fun (i : ℕ) => (i : ℝ) / ((counts.sum : ℝ) - 1)

/-- brillouin_zone.py:410-413 `x_ticks`, with `cind` -/
def ticks (counts : List ℕ) : Option (List ℝ) := (cind counts).mapM fun i => Py.get? (pathAxis counts) i

/-- `np.max`; an empty array raises.  Used by high_level_plotting.py:39, 72. -/
def maxOf : List ℝ → Option ℝ
  | [] => none
  | x :: t => some (t.foldl max x)

/-- what high_level_plotting.py:12-55 draws: the image (point of the path, frequency), the local spectral function, the positions of the ticks, the frequency window, and the end of the
    horizontal line -/
structure DispFig where
  image : List (List ℝ)
  aw : List ℝ
  xticks : List ℝ
  window : ℝ × ℝ
  line : ℝ

/-- high_level_plotting.py:12-55 `plot_real_frequency_dispersion` for the Green's function `G` on the mesh `w`; the spectral functions are those of two_point.py:491-500 -/
def dispersionFigure (w : List ℝ) (nk : V3 ℕ) (corners : List (V3 ℝ)) (G : Arr3 (List ℂ)) (wmin wmax : Option ℝ) : Option DispFig :=
  let flat := G.flatten.flatten
  let aw := (List.range w.length).map fun (j : ℕ) => -((flat.map fun (r : List ℂ) => r.getD j 0).sum / (flat.length : ℂ)).im / Real.pi
  (wmin.or w.head?).bind fun lo => (wmax.or w.getLast?).bind fun hi =>
    (mapToPath nk corners G).bind fun rows => (ticks (buildPath nk corners).2).bind fun t =>
      open Classical in
      (maxOf (((w.zip aw).filter fun p => decide (p.1 < hi ∧ lo < p.1)).map (·.2))).map fun m =>
        ⟨rows.map fun (r : List ℂ) => r.map fun (z : ℂ) => -z.im / Real.pi, aw, t, (lo, hi), m * (105 / 100)⟩

/-- the order in which numpy compares complex numbers (language construct, used by high_level_plotting.py:70) -/
def lexLt (a b : ℂ) : Prop := a.re < b.re ∨ a.re = b.re ∧ a.im < b.im

open Classical in
/-- `np.argmax` of complex numbers, high_level_plotting.py:70: the first position of the largest; an empty array raises -/
def argmaxC : List ℂ → Option ℕ
  | [] => none
  | a :: l => match argmaxC l with
    | none => some 0
    | some i => if lexLt a ((l[i]?).getD 0) then some (i + 1) else some 0

/-- what high_level_plotting.py:58-83 draws: the image (point of the path, frequency), the line of the peaks, the positions of the ticks, the frequency window -/
structure ChiFig where
  image : List (List ℝ)
  peaks : List ℝ
  xticks : List ℝ
  window : ℝ × ℝ

/-- high_level_plotting.py:58-83 `plot_chi_along_kpath` -/
def chiFigure (w : List ℝ) (nk : V3 ℕ) (corners : List (V3 ℝ)) (chi : Arr3 (List ℂ)) : Option ChiFig :=
  (argNear 0 w).bind fun i0 => (w[i0 + 1]?).bind fun wmin => (mapToPath nk corners chi).bind fun rows =>
    (rows.mapM fun (r : List ℂ) => (argmaxC (List.zipWith (fun (x : ℝ) (z : ℂ) => z * (x : ℂ)) w r)).bind fun (i : ℕ) => (w[i]? : Option ℝ)).bind fun (peaks : List ℝ) =>
      (maxOf peaks).bind fun m => (ticks (buildPath nk corners).2).map fun t =>
        ⟨rows.map fun (r : List ℂ) => List.zipWith (fun (x : ℝ) (z : ℂ) => z.re * x) w r, peaks, t, (wmin, m * 2)⟩

/-! ### Specification -/

/-- `y` is the largest of the numbers -/
def IsMax (l : List ℝ) (y : ℝ) : Prop := y ∈ l ∧ ∀ x ∈ l, x ≤ y

/-- on the strictly increasing mesh `w`, `x` is the smallest frequency at which `ω·f(ω)` is largest, where `f` has the values `v` -/
def PeakAt (w v : List ℝ) (x : ℝ) : Prop :=
  ∃ (i : ℕ) (a : ℝ), w[i]? = some x ∧ v[i]? = some a ∧ (∀ (j : ℕ) (y b : ℝ), w[j]? = some y → v[j]? = some b → y * b ≤ x * a ∧ (j < i → y * b < x * a))

/-! ### Theorems: the paths -/

theorem rint_mono {x y : ℝ} (h : x ≤ y) : rint x ≤ rint y := by
  have hf : ⌊x⌋ ≤ ⌊y⌋ := Int.floor_le_floor h
  rcases lt_or_eq_of_le hf with hlt | he
  · rcases rint_cases x with ⟨e, -⟩ | ⟨e, -⟩ <;> rcases rint_cases y with ⟨e', -⟩ | ⟨e', -⟩ <;> omega
  · have hfr : Int.fract x ≤ Int.fract y := by
      have h1 := Int.fract_add_floor x
      have h2 := Int.fract_add_floor y
      rw [he] at h1
      linarith
    unfold rint
    rw [he]
    split_ifs <;> first | omega | linarith

theorem rint_half_lt (n : ℕ) (hn : 0 < n) : 0 ≤ rint (1 / 2 * (n : ℝ)) ∧ rint (1 / 2 * (n : ℝ)) < n := by
  refine ⟨le_rint _ 0 (by push_cast; positivity), ?_⟩
  rcases Nat.lt_or_ge n 2 with h | h
  · have : n = 1 := by omega
    subst this
    have : ⌊(1 / 2 : ℝ)⌋ = 0 := by norm_num [Int.floor_eq_iff]
    have hf : Int.fract (1 / 2 : ℝ) = 1 / 2 := by unfold Int.fract; rw [this]; norm_num
    unfold rint
    norm_num [hf, this]
  · have h2 : (2 : ℝ) ≤ n := by exact_mod_cast h
    have := rint_le (1 / 2 * (n : ℝ)) ((n : ℤ) - 1) (by push_cast; linarith)
    omega

/-- in a quarter of the plane between the origin and `M` -/
def InQuarter (c : V3 ℝ) : Prop := (0 ≤ c.1 ∧ c.1 ≤ 1 / 2) ∧ (0 ≤ c.2.1 ∧ c.2.1 ≤ 1 / 2) ∧ c.2.2 = 0

theorem quarter_coord (a b : ℝ) (nk n j : ℕ) (hj : j < n) (ha : 0 ≤ a ∧ a ≤ 1 / 2) (hb : 0 ≤ b ∧ b ≤ 1 / 2) :
    0 ≤ rint (segCoord a b nk n j) ∧ rint (segCoord a b nk n j) ≤ rint (1 / 2 * (nk : ℝ)) := by
  rw [segCoord_eq]
  have hn : (0 : ℝ) < n := by exact_mod_cast (by omega : 0 < n)
  have ht0 : (0 : ℝ) ≤ (j : ℝ) / n := by positivity
  have ht1 : (j : ℝ) / n ≤ 1 := by rw [div_le_one hn]; exact_mod_cast hj.le
  generalize (j : ℝ) / n = t at ht0 ht1
  have hk : (0 : ℝ) ≤ nk := Nat.cast_nonneg _
  have h1 : a + t * (b - a) ≤ 1 / 2 := by nlinarith
  have h2 : 0 ≤ a + t * (b - a) := by nlinarith
  exact ⟨le_rint _ 0 (by push_cast; positivity), rint_mono (mul_le_mul_of_nonneg_right h1 hk)⟩

theorem quarter_points (nk : V3 ℕ) (h1 : 0 < nk.1) (h2 : 0 < nk.2.1) (h3 : 0 < nk.2.2) (c : List (V3 ℝ)) (hc : ∀ x ∈ c, InQuarter x) : ∀ p ∈ (buildPath nk c).1,
    (0 ≤ p.1 ∧ p.1 < nk.1) ∧ (0 ≤ p.2.1 ∧ p.2.1 ≤ rint (1 / 2 * (nk.2.1 : ℝ))) ∧ p.2.2 = 0 := by
  rw [buildPath_fst]
  intro p hp
  obtain ⟨q, hq, rfl⟩ := List.mem_map.1 hp
  have key : (0 ≤ q.1 ∧ q.1 ≤ rint (1 / 2 * (nk.1 : ℝ))) ∧ (0 ≤ q.2.1 ∧ q.2.1 ≤ rint (1 / 2 * (nk.2.1 : ℝ))) ∧ q.2.2 = 0 := by
    clear hp
    induction c with
    | nil => cases hq
    | cons a l ih =>
      cases l with
      | nil => cases hq
      | cons b r =>
        simp only [pathIdx, List.mem_append] at hq
        rcases hq with hq | hq
        · unfold segIdx at hq
          obtain ⟨j, hj, rfl⟩ := List.mem_map.1 hq
          rw [List.mem_range] at hj
          have ha := hc a (by simp)
          have hb := hc b (by simp)
          refine ⟨quarter_coord _ _ _ _ _ hj ha.1 hb.1, quarter_coord _ _ _ _ _ hj ha.2.1 hb.2.1, ?_⟩
          show rint (segCoord a.2.2 b.2.2 nk.2.2 _ j) = 0
          rw [ha.2.2, hb.2.2, segCoord_eq]
          have := rint_int 0
          simpa using this
        · exact ih (fun x hx => hc x (List.mem_cons_of_mem _ hx)) hq
  have g1 := rint_half_lt nk.1 h1
  have g2 := rint_half_lt nk.2.1 h2
  unfold wrap3 wrapOnce
  simp only
  rw [if_neg (by omega), if_neg (by omega), if_neg (by omega)]
  exact ⟨⟨key.1.1, by omega⟩, key.2.1, key.2.2⟩

theorem mapM_mem {α β : Type} (f : α → Option β) : ∀ (l : List α), (l.mapM f).isSome ↔ ∀ x ∈ l, (f x).isSome := by
  intro l
  induction l with
  | nil => simp
  | cons a l ih =>
    rw [List.mapM_cons]
    rcases h : f a with _ | b
    · simp [h]
    · rcases h2 : l.mapM f with _ | bs
      · rw [h2] at ih
        simp only [Option.isSome_none, Bool.false_eq_true, false_iff] at ih
        simp only [Option.bind_eq_bind, Option.bind_some, Option.bind_none, Option.isSome_none, Bool.false_eq_true, List.mem_cons, false_iff]
        intro hh
        exact ih fun x hx => hh x (Or.inr hx)
      · rw [h2] at ih
        have := ih.1 rfl
        simp only [Option.bind_eq_bind, Option.bind_some, Option.pure_def, Option.isSome_some, List.mem_cons, true_iff]
        rintro x (rfl | hx)
        · rw [h]; rfl
        · exact this x hx

theorem axis_none (n : ℕ) (i : ℤ) (h : (n : ℤ) ≤ i) : Py.get? (axisVals n) i = none := by
  unfold Py.get? axisVals
  rw [if_neg (by omega), List.getElem?_eq_none (by simp; omega)]

/-- a path through the quarter exists if the y coordinates can be found on the x axis -/
theorem newPath_quarter (nk : V3 ℕ) (h1 : 0 < nk.1) (h2 : 0 < nk.2.1) (h3 : 0 < nk.2.2) (h : rint (1 / 2 * (nk.2.1 : ℝ)) < nk.1) (c : List (V3 ℝ)) (hc : ∀ x ∈ c, InQuarter x) :
    (pathVals nk (buildPath nk c).1).isSome := by
  unfold pathVals
  rw [mapM_mem]
  intro p hp
  obtain ⟨e1, e2, e3⟩ := quarter_points nk h1 h2 h3 c hc p hp
  rw [axis_get nk.1 _ e1.1 e1.2, axis_get nk.1 _ e2.1 (by omega), e3, axis_get nk.1 0 le_rfl (by omega)]
  rfl

/-- **C150 (a).** dga_max_ent.py gets past the preparation of its paths exactly if half the number of momenta along y, rounded, is smaller than the number of momenta along x: the
    coordinates of all directions are looked up on the x axis.  It raises before anything is continued on any other grid, whatever else is configured. -/
theorem prepare_iff (nx ny nz : ℕ) (hx : 0 < nx) (hy : 0 < ny) (hz : 0 < nz) : (preparePaths (nx, ny, nz)).isSome ↔ rint (1 / 2 * (ny : ℝ)) < nx := by
  unfold preparePaths
  rw [mapM_mem]
  constructor
  · intro h
    by_contra hc
    push Not at hc
    have h2 := h ["Gamma", "Y", "M2", "Gamma"] (by simp [maxEntPaths])
    have hny : 2 ≤ ny := by
      by_contra h1
      have := (rint_half_lt ny hy).2
      omega
    have hk : (["Gamma", "Y", "M2", "Gamma"].mapM knownPoint) = some [(0, 0, 0), (0, 0.5, 0), (0.25, 0.25, 0), (0, 0, 0)] := by simp [knownPoint]
    unfold newPath at h2
    rw [hk, Option.bind_some, if_neg (by simp), Option.isSome_map] at h2
    unfold pathVals at h2
    rw [mapM_mem] at h2
    have hcount : 0 < segCount ((0, 0.5, 0) : V3 ℝ) (0.25, 0.25, 0) (nx, ny, nz) := by
      have hn := segCount_near ((0, 0.5, 0) : V3 ℝ) (0.25, 0.25, 0) (nx, ny, nz)
      have hd : 1 / 2 < gridDist (nx, ny, nz) ((0, 0.5, 0) : V3 ℝ) (0.25, 0.25, 0) := by
        unfold gridDist
        apply Real.lt_sqrt_of_sq_lt
        have e1 : (1 : ℝ) ≤ nx := by exact_mod_cast hx
        have e2 : (2 : ℝ) ≤ ny := by exact_mod_cast hny
        norm_num
        nlinarith
      rw [abs_le] at hn
      by_contra h0
      have : segCount ((0, 0.5, 0) : V3 ℝ) (0.25, 0.25, 0) (nx, ny, nz) = 0 := by omega
      rw [this] at hn
      norm_num at hn
      linarith [hn.1]
    have hmem : wrap3 (nx, ny, nz) (rint 0, rint (1 / 2 * (ny : ℝ)), rint 0) ∈ (buildPath (nx, ny, nz) [((0, 0, 0) : V3 ℝ), (0, 0.5, 0), (0.25, 0.25, 0), (0, 0, 0)]).1 := by
      rw [buildPath_fst]
      apply List.mem_map_of_mem
      simp only [pathIdx, List.mem_append]
      right; left
      unfold segIdx
      rw [List.mem_map]
      refine ⟨0, List.mem_range.2 hcount, ?_⟩
      simp only [segCoord, Nat.cast_zero, zero_div, zero_mul, add_zero]
      norm_num
    have h3 := h2 _ hmem
    have hlt := (rint_half_lt ny hy).2
    have hw : (wrap3 (nx, ny, nz) (rint 0, rint (1 / 2 * (ny : ℝ)), rint 0)).2.1 = rint (1 / 2 * (ny : ℝ)) := by
      unfold wrap3 wrapOnce
      simp only
      rw [if_neg (by omega)]
    rw [hw, axis_none nx _ hc] at h3
    rcases Py.get? (axisVals nx) (wrap3 (nx, ny, nz) (rint 0, rint (1 / 2 * (ny : ℝ)), rint 0)).1 with _ | v <;> simp at h3
  · intro h names hn
    have hq : ∀ s ∈ names, ∃ c, knownPoint s = some c ∧ InQuarter c := by
      intro s hs
      simp only [maxEntPaths, List.mem_cons, List.not_mem_nil, or_false] at hn
      have : s = "Gamma" ∨ s = "X" ∨ s = "Y" ∨ s = "M" ∨ s = "M2" := by
        rcases hn with rfl | rfl | rfl | rfl | rfl <;> simp only [List.mem_cons, List.not_mem_nil, or_false] at hs <;> tauto
      rcases this with rfl | rfl | rfl | rfl | rfl <;> refine ⟨_, by simp [knownPoint]; rfl, ?_⟩ <;> unfold InQuarter <;> norm_num
    have hl : 1 < names.length := by
      simp only [maxEntPaths, List.mem_cons, List.not_mem_nil, or_false] at hn
      rcases hn with rfl | rfl | rfl | rfl | rfl <;> simp
    obtain ⟨c, hcs⟩ := Option.isSome_iff_exists.1 ((mapM_mem knownPoint names).2 fun s hs => by obtain ⟨c, e, -⟩ := hq s hs; rw [e]; rfl)
    obtain ⟨c1, c2⟩ := DGA.Mf.mapM_getElem? _ _ _ hcs
    have hcq : ∀ x ∈ c, InQuarter x := by
      intro x hx
      obtain ⟨i, hi⟩ := List.mem_iff_getElem?.1 hx
      have hil : i < names.length := by rw [← c1]; exact (List.getElem?_eq_some_iff.1 hi).1
      have e := c2 i _ (List.getElem?_eq_getElem hil)
      obtain ⟨c', e', hc'⟩ := hq _ (List.getElem_mem hil)
      rw [hi, e'] at e
      exact Option.some.inj e ▸ hc'
    unfold newPath
    rw [hcs, Option.bind_some, if_neg (by omega), Option.isSome_map]
    exact newPath_quarter (nx, ny, nz) hx hy hz h c hcq

/-- **C150 (a).** In particular it raises on every grid with an even number of at least `2 nx` momenta along y, and never on one with at most as many along y as along x. -/
theorem prepare_raises (nx ny nz : ℕ) (hx : 0 < nx) (hy : 0 < ny) (hz : 0 < nz) :
    (ny % 2 = 0 → 2 * nx ≤ ny → preparePaths (nx, ny, nz) = none) ∧ (ny ≤ nx → (preparePaths (nx, ny, nz)).isSome) := by
  constructor
  · intro he hle
    have := (prepare_iff nx ny nz hx hy hz).not
    rw [Option.not_isSome_iff_eq_none] at this
    rw [this]
    obtain ⟨m, rfl⟩ : ∃ m, ny = 2 * m := ⟨ny / 2, by omega⟩
    rw [show (1 / 2 * ((2 * m : ℕ) : ℝ)) = ((m : ℤ) : ℝ) by push_cast; ring, rint_int]
    omega
  · intro hle
    rw [prepare_iff nx ny nz hx hy hz]
    have := (rint_half_lt ny hy).2
    omega

/-! ### Theorems: the figures -/

theorem maxOf_spec (l : List ℝ) : (maxOf l = none ↔ l = []) ∧ ∀ m, maxOf l = some m → IsMax l m := by
  cases l with
  | nil => simp [maxOf]
  | cons x t =>
    refine ⟨by simp [maxOf], ?_⟩
    intro m hm
    simp only [maxOf, Option.some.injEq] at hm
    subst hm
    have key : ∀ (t : List ℝ) (x : ℝ), (t.foldl max x = x ∨ t.foldl max x ∈ t) ∧ x ≤ t.foldl max x ∧ ∀ y ∈ t, y ≤ t.foldl max x := by
      intro t
      induction t with
      | nil => intro x; simp
      | cons a t ih =>
        intro x
        obtain ⟨h1, h2, h3⟩ := ih (max x a)
        simp only [List.foldl_cons, List.mem_cons, forall_eq_or_imp]
        refine ⟨?_, (le_max_left _ _).trans h2, (le_max_right _ _).trans h2, h3⟩
        rcases h1 with h1 | h1
        · rw [h1]
          rcases le_total x a with h | h
          · right; left; exact max_eq_right h
          · left; exact max_eq_left h
        · exact Or.inr (Or.inr h1)
    obtain ⟨h1, h2, h3⟩ := key t x
    refine ⟨?_, ?_⟩
    · rcases h1 with h1 | h1
      · rw [h1]; exact List.mem_cons_self
      · exact List.mem_cons_of_mem _ h1
    · intro y hy
      rcases List.mem_cons.1 hy with rfl | hy
      · exact h2
      · exact h3 y hy

theorem ticks_iff (counts : List ℕ) : (ticks counts).isSome ↔ 0 < counts.sum := by
  unfold ticks
  rw [mapM_mem]
  have hl : (pathAxis counts).length = counts.sum := by simp [pathAxis]
  constructor
  · intro h
    have := h 0 (by simp [cind])
    unfold Py.get? at this
    rw [if_neg (by omega)] at this
    by_contra hc
    rw [List.getElem?_eq_none (by rw [hl]; simpa using Nat.le_of_not_lt hc)] at this
    cases this
  · intro h i hi
    have hb : -1 ≤ i ∧ i < (counts.sum : ℤ) := by
      unfold cind at hi
      rcases List.mem_cons.1 hi with rfl | hi
      · exact ⟨by omega, by exact_mod_cast h⟩
      · obtain ⟨k, -, rfl⟩ := List.mem_map.1 hi
        have : (counts.take (k + 1)).sum ≤ counts.sum := by
          conv_rhs => rw [← List.take_append_drop (k + 1) counts, List.sum_append]
          omega
        exact ⟨by omega, by omega⟩
    unfold Py.get?
    rw [hl]
    split_ifs
    · rw [List.getElem?_eq_getElem (by rw [hl]; omega)]; rfl
    · omega
    · rw [List.getElem?_eq_getElem (by rw [hl]; omega)]; rfl

/-- the grid point of the full table that the point `p` of a path stands for -/
def gridPoint {α : Type} (nx ny nz : ℕ) (F : ℕ → ℕ → ℕ → α) (p : V3 ℤ) : α := F (p.1 % nx).toNat (p.2.1 % ny).toNat (p.2.2 % nz).toNat

/-- the points at the positions `pts` run through the corners: segment `i` has the number of points nearest to the distance of its corners on the grid, and its point `j` lies next to the
    fraction `j/n` of the line between them -/
def RunsThrough (nk : V3 ℕ) (c : List (V3 ℝ)) (pts : List (V3 ℤ)) : Prop :=
  pts.length = (buildPath nk c).2.sum ∧
    ∀ (i : ℕ) (a b : V3 ℝ), c[i]? = some a → c[i + 1]? = some b →
      ∃ n : ℕ, (buildPath nk c).2[i]? = some n ∧ |(n : ℝ) - gridDist nk a b| ≤ 1 / 2 ∧
        ∀ j < n, ∃ p, pts[((buildPath nk c).2.take i).sum + j]? = some p ∧ NearLine nk a b ((j : ℝ) / n) p

theorem rows_of (nx ny nz : ℕ) (hx : 0 < nx) (hy : 0 < ny) (hz : 0 < nz) {α : Type} (F : ℕ → ℕ → ℕ → α) (c : List (V3 ℝ)) (hc2 : 2 ≤ c.length) (hc : ∀ x ∈ c, InZone x) :
    ∃ pts, RunsThrough (nx, ny, nz) c pts ∧ mapToPath (nx, ny, nz) c (table nx ny nz F) = some (pts.map (gridPoint nx ny nz F)) := by
  obtain ⟨pts, h1, h2, h3⟩ := map_to_kpath_value nx ny nz hx hy hz F c hc2 hc
  exact ⟨pts, ⟨h2, h3⟩, h1⟩

/-- the local spectral function, as drawn: minus the imaginary part of the mean over the grid, over π -/
def localA (nx ny nz m : ℕ) (F : ℕ → ℕ → ℕ → List ℂ) : List ℝ :=
  (List.range m).map fun (j : ℕ) => -((((table nx ny nz F).flatten.flatten).map fun (r : List ℂ) => r.getD j 0).sum / (((table nx ny nz F).flatten.flatten).length : ℂ)).im / Real.pi

theorem some_or (a : ℝ) (x : Option ℝ) : (some a).or x = some a := rfl

open Classical in
theorem window_empty (w a : List ℝ) (h : a.length = w.length) (lo hi : ℝ) :
    ((w.zip a).filter fun p => decide (p.1 < hi ∧ lo < p.1)).map (·.2) = [] ↔ ¬ ∃ x ∈ w, lo < x ∧ x < hi := by
  rw [List.map_eq_nil_iff, List.filter_eq_nil_iff]
  constructor
  · rintro hh ⟨x, hx, h1, h2⟩
    obtain ⟨i, hi'⟩ := List.mem_iff_getElem?.1 hx
    have hil := (List.getElem?_eq_some_iff.1 hi').1
    have hm : (x, a[i]'(by omega)) ∈ w.zip a := by
      apply List.mem_iff_getElem?.2
      refine ⟨i, ?_⟩
      rw [List.getElem?_zip_eq_some]
      exact ⟨hi', List.getElem?_eq_getElem (by omega)⟩
    have := hh _ hm
    simp [h1, h2] at this
  · rintro hh ⟨x, y⟩ hm
    simp only [decide_eq_true_eq]
    rintro ⟨h1, h2⟩
    exact hh ⟨x, (List.of_mem_zip hm).1, h2, h1⟩

/-- **C150 (b).** A dispersion figure is drawn for exactly these windows: some frequency of the mesh lies strictly inside, and the path has at least one point. -/
theorem dispersion_iff (nx ny nz : ℕ) (hx : 0 < nx) (hy : 0 < ny) (hz : 0 < nz) (w : List ℝ) (F : ℕ → ℕ → ℕ → List ℂ) (c : List (V3 ℝ)) (hc2 : 2 ≤ c.length) (hc : ∀ x ∈ c, InZone x)
    (lo hi : ℝ) : (dispersionFigure w (nx, ny, nz) c (table nx ny nz F) (some lo) (some hi)).isSome ↔ 0 < (buildPath (nx, ny, nz) c).2.sum ∧ ∃ x ∈ w, lo < x ∧ x < hi := by
  obtain ⟨pts, -, hm⟩ := rows_of nx ny nz hx hy hz F c hc2 hc
  unfold dispersionFigure
  simp only [some_or, Option.bind_some, hm]
  rw [← ticks_iff]
  rcases ht : ticks (buildPath (nx, ny, nz) c).2 with _ | t
  · simp
  · simp only [Option.bind_some, Option.isSome_map, Option.isSome_some, true_and]
    rw [← not_iff_not, Option.not_isSome_iff_eq_none, (maxOf_spec _).1, window_empty _ _ (by simp)]

/-- **C150 (b).** Without a window, the mesh must have a frequency besides its first and last one. -/
theorem dispersion_full (nx ny nz : ℕ) (hx : 0 < nx) (hy : 0 < ny) (hz : 0 < nz) (w : List ℝ) (hw : w.Pairwise (· < ·)) (F : ℕ → ℕ → ℕ → List ℂ) (c : List (V3 ℝ)) (hc2 : 2 ≤ c.length)
    (hc : ∀ x ∈ c, InZone x) : (dispersionFigure w (nx, ny, nz) c (table nx ny nz F) none none).isSome ↔ 0 < (buildPath (nx, ny, nz) c).2.sum ∧ 3 ≤ w.length := by
  rcases hl : w with _ | ⟨a, t⟩
  · simp [dispersionFigure]
  · rw [← hl]
    have h0 : w.head? = some a := by rw [hl]; rfl
    obtain ⟨b, hb⟩ : ∃ b, w.getLast? = some b := by rw [hl, List.getLast?_cons]; exact ⟨_, rfl⟩
    have he : dispersionFigure w (nx, ny, nz) c (table nx ny nz F) none none = dispersionFigure w (nx, ny, nz) c (table nx ny nz F) (some a) (some b) := by
      unfold dispersionFigure
      rw [h0, hb]; rfl
    rw [he, dispersion_iff nx ny nz hx hy hz w F c hc2 hc]
    have hpos : 0 < w.length := by rw [hl]; simp
    rw [List.head?_eq_getElem?] at h0
    rw [List.getLast?_eq_getElem?] at hb
    have hp := List.pairwise_iff_getElem.1 hw
    obtain ⟨l0, e0⟩ := List.getElem?_eq_some_iff.1 h0
    obtain ⟨l1, e1⟩ := List.getElem?_eq_some_iff.1 hb
    refine and_congr_right fun _ => ⟨?_, ?_⟩
    · rintro ⟨x, hx', h1, h2⟩
      obtain ⟨i, hil, rfl⟩ := List.mem_iff_getElem.1 hx'
      by_contra hlt
      have : i = 0 ∨ i = w.length - 1 := by omega
      rcases this with rfl | rfl
      · rw [e0] at h1; exact lt_irrefl _ h1
      · rw [e1] at h2; exact lt_irrefl _ h2
    · intro h3
      refine ⟨w[1]'(by omega), List.getElem_mem _, ?_, ?_⟩
      · rw [← e0]; exact hp 0 1 _ _ (by omega)
      · rw [← e1]; exact hp 1 (w.length - 1) _ _ (by omega)

open Classical in
/-- **C150 (b).** What is drawn: at each point of the path the spectral function of its grid point, the local spectral function, the window asked for, and a line that ends at 1.05 times
    the largest local value inside the window. -/
theorem dispersion_value (nx ny nz : ℕ) (hx : 0 < nx) (hy : 0 < ny) (hz : 0 < nz) (w : List ℝ) (F : ℕ → ℕ → ℕ → List ℂ) (c : List (V3 ℝ)) (hc2 : 2 ≤ c.length) (hc : ∀ x ∈ c, InZone x)
    (lo hi : ℝ) (fig : DispFig) (h : dispersionFigure w (nx, ny, nz) c (table nx ny nz F) (some lo) (some hi) = some fig) :
    fig.window = (lo, hi) ∧ fig.aw = localA nx ny nz w.length F ∧
    (∃ pts, RunsThrough (nx, ny, nz) c pts ∧ fig.image = pts.map fun p => (gridPoint nx ny nz F p).map fun (z : ℂ) => -z.im / Real.pi) ∧
    IsMax ((((w.zip fig.aw).filter fun p => decide (lo < p.1 ∧ p.1 < hi))).map (·.2)) (fig.line / (105 / 100)) := by
  obtain ⟨pts, hp, hm⟩ := rows_of nx ny nz hx hy hz F c hc2 hc
  unfold dispersionFigure at h
  simp only [some_or, Option.bind_some, hm] at h
  rcases ht : ticks (buildPath (nx, ny, nz) c).2 with _ | t
  · rw [ht] at h; cases h
  rw [ht, Option.bind_some] at h
  obtain ⟨m, hmx, rfl⟩ := Option.map_eq_some_iff.1 h
  refine ⟨rfl, rfl, ⟨pts, hp, ?_⟩, ?_⟩
  · simp [List.map_map, Function.comp_def]
  · have := (maxOf_spec _).2 m hmx
    simp only [and_comm (a := lo < _)]
    rw [mul_div_assoc, div_self (by norm_num), mul_one]
    exact this

theorem argmaxC_lt (l : List ℂ) (h : l ≠ []) : ∃ i, argmaxC l = some i ∧ i < l.length := by
  induction l with
  | nil => exact absurd rfl h
  | cons x t ih =>
    rw [argmaxC]
    rcases t with _ | ⟨y, t'⟩
    · exact ⟨0, rfl, by simp⟩
    · obtain ⟨i, hi, hl⟩ := ih (by simp)
      rw [hi]
      simp only
      split_ifs
      · exact ⟨i + 1, rfl, by simpa using hl⟩
      · exact ⟨0, rfl, by simp⟩

theorem argmaxC_real (l : List ℝ) (i : ℕ) (h : argmaxC (l.map fun (x : ℝ) => (x : ℂ)) = some i) :
    ∃ a, l[i]? = some a ∧ ∀ (j : ℕ) (b : ℝ), l[j]? = some b → b ≤ a ∧ (j < i → b < a) := by
  induction l generalizing i with
  | nil => cases h
  | cons x t ih =>
    rw [List.map_cons, argmaxC] at h
    rcases ht : argmaxC (t.map fun (x : ℝ) => (x : ℂ)) with _ | k
    · rw [ht] at h
      simp only [Option.some.injEq] at h
      subst h
      have hn : t = [] := by
        by_contra hne
        obtain ⟨i, hi, -⟩ := argmaxC_lt (t.map fun (x : ℝ) => (x : ℂ)) (by simpa using hne)
        rw [hi] at ht
        cases ht
      subst hn
      refine ⟨x, rfl, ?_⟩
      rintro (_ | j) b hb
      · simp at hb; subst hb; exact ⟨le_rfl, fun hh => absurd hh (lt_irrefl _)⟩
      · simp at hb
    · rw [ht] at h
      obtain ⟨a, ha, hall⟩ := ih k ht
      have hg : ((t.map fun (x : ℝ) => (x : ℂ))[k]?).getD 0 = (a : ℂ) := by simp [ha]
      simp only at h
      split_ifs at h with hlt <;> (unfold lexLt at hlt; rw [hg] at hlt)
      · simp only [Option.some.injEq] at h
        subst h
        have hxa : x < a := by
          rcases hlt with h1 | ⟨-, h1⟩
          · simpa using h1
          · simp at h1
        refine ⟨a, by simpa using ha, ?_⟩
        rintro (_ | j) b hb
        · simp at hb; subst hb; exact ⟨hxa.le, fun _ => hxa⟩
        · have := hall j b (by simpa using hb)
          exact ⟨this.1, fun hh => this.2 (by omega)⟩
      · simp only [Option.some.injEq] at h
        subst h
        have hxa : a ≤ x := by
          by_contra hh
          exact hlt (Or.inl (by simpa using hh))
        refine ⟨x, rfl, ?_⟩
        rintro (_ | j) b hb
        · simp at hb; subst hb; exact ⟨le_rfl, fun hh => absurd hh (lt_irrefl _)⟩
        · exact ⟨((hall j b (by simpa using hb)).1).trans hxa, fun hh => absurd hh (by omega)⟩

theorem argNear_zero (a : ℝ) (t : List ℝ) (h0 : 0 ≤ a) (h : (a :: t).Pairwise (· < ·)) : argNear 0 (a :: t) = some 0 := by
  rw [argNear]
  rcases hi : argNear 0 t with _ | i
  · rfl
  · simp only
    rw [if_neg]
    rw [sub_zero, sub_zero, abs_of_nonneg h0]
    rcases hg : t[i]? with _ | b
    · exfalso
      have key : ∀ (l : List ℝ) (k : ℕ), argNear 0 l = some k → k < l.length := by
        intro l
        induction l with
        | nil => intro k hk; cases hk
        | cons z l ih =>
          intro k hk
          rw [argNear] at hk
          rcases hh : argNear 0 l with _ | k'
          · rw [hh] at hk; simp at hk; subst hk; simp
          · rw [hh] at hk
            simp only at hk
            split_ifs at hk <;> simp only [Option.some.injEq] at hk <;> subst hk
            · have := ih k' hh; simpa using this
            · simp
      have := key t i hi
      rw [List.getElem?_eq_getElem this] at hg
      cases hg
    · have hb : b ∈ t := List.mem_of_getElem? hg
      have := List.rel_of_pairwise_cons h hb
      rw [Option.getD_some, abs_of_nonneg (h0.trans this.le)]
      linarith

/-- the frequency of the peak of one row -/
theorem peak_row (w v : List ℝ) (x : ℝ)
    (h : (argmaxC (List.zipWith (fun (x : ℝ) (z : ℂ) => z * (x : ℂ)) w (v.map fun (y : ℝ) => (y : ℂ)))).bind (fun (i : ℕ) => (w[i]? : Option ℝ)) = some x) : PeakAt w v x := by
  have e : List.zipWith (fun (x : ℝ) (z : ℂ) => z * (x : ℂ)) w (v.map fun (y : ℝ) => (y : ℂ)) = (List.zipWith (fun (x y : ℝ) => x * y) w v).map fun (x : ℝ) => (x : ℂ) := by
    rw [List.zipWith_map_right, List.map_zipWith]
    congr 1
    funext x y
    push_cast
    ring
  rw [e] at h
  obtain ⟨i, hi, hx⟩ := Option.bind_eq_some_iff.1 h
  obtain ⟨a, ha, hall⟩ := argmaxC_real _ _ hi
  rw [List.getElem?_zipWith_eq_some] at ha
  obtain ⟨x', a', h1, h2, h3⟩ := ha
  rw [h1] at hx
  cases hx
  refine ⟨i, a', h1, h2, ?_⟩
  intro j y b hy hb
  have := hall j (y * b) (by rw [List.getElem?_zipWith_eq_some]; exact ⟨y, b, hy, hb, rfl⟩)
  rw [← h3] at this
  exact this

/-- the continued susceptibility: real values on the mesh, for every momentum -/
def chiTable (nx ny nz : ℕ) (V : ℕ → ℕ → ℕ → List ℝ) : Arr3 (List ℂ) := table nx ny nz fun x y z => (V x y z).map fun (r : ℝ) => (r : ℂ)

theorem grid_length (nx ny nz : ℕ) (hx : 0 < nx) (hy : 0 < ny) (hz : 0 < nz) (w : List ℝ) (F : ℕ → ℕ → ℕ → List ℂ)
    (hF : ∀ x y z, x < nx → y < ny → z < nz → (F x y z).length = w.length) (p : V3 ℤ) : (gridPoint nx ny nz F p).length = w.length := by
  unfold gridPoint
  have h1 := Int.emod_lt_of_pos p.1 (by exact_mod_cast hx : (0 : ℤ) < nx)
  have h2 := Int.emod_lt_of_pos p.2.1 (by exact_mod_cast hy : (0 : ℤ) < ny)
  have h3 := Int.emod_lt_of_pos p.2.2 (by exact_mod_cast hz : (0 : ℤ) < nz)
  exact hF _ _ _ (by omega) (by omega) (by omega)

theorem chi_iff_any (nx ny nz : ℕ) (hx : 0 < nx) (hy : 0 < ny) (hz : 0 < nz) (w : List ℝ) (hw : w.Pairwise (· < ·)) (h0 : ∀ x ∈ w, 0 ≤ x) (F : ℕ → ℕ → ℕ → List ℂ)
    (hF : ∀ x y z, x < nx → y < ny → z < nz → (F x y z).length = w.length) (c : List (V3 ℝ)) (hc2 : 2 ≤ c.length) (hc : ∀ x ∈ c, InZone x) :
    (chiFigure w (nx, ny, nz) c (table nx ny nz F)).isSome ↔ 0 < (buildPath (nx, ny, nz) c).2.sum ∧ 2 ≤ w.length := by
  obtain ⟨pts, hp, hm⟩ := rows_of nx ny nz hx hy hz F c hc2 hc
  rcases w with _ | ⟨a, t⟩
  · simp [chiFigure, argNear]
  rcases t with _ | ⟨b, t⟩
  · simp [chiFigure, argNear]
  have ha := argNear_zero a (b :: t) (h0 a (by simp)) hw
  unfold chiFigure
  rw [ha, hm]
  simp only [Option.bind_some, List.getElem?_cons_succ, List.getElem?_cons_zero]
  set rows := pts.map (gridPoint nx ny nz F) with hrows
  obtain ⟨peaks, hpk⟩ := Option.isSome_iff_exists.1 ((mapM_mem (fun (r : List ℂ) =>
      (argmaxC (List.zipWith (fun (x : ℝ) (z : ℂ) => z * (x : ℂ)) (a :: b :: t) r)).bind fun (i : ℕ) => ((a :: b :: t)[i]? : Option ℝ)) rows).2 (by
    intro r hr
    obtain ⟨p, -, rfl⟩ := List.mem_map.1 hr
    obtain ⟨i, hi, hil⟩ := argmaxC_lt (List.zipWith (fun (x : ℝ) (z : ℂ) => z * (x : ℂ)) (a :: b :: t) (gridPoint nx ny nz F p)) (by
      intro hh
      have := congrArg List.length hh
      rw [List.length_zipWith, grid_length nx ny nz hx hy hz (a :: b :: t) F hF] at this
      simp at this)
    rw [hi, Option.bind_some, List.getElem?_eq_getElem (by rw [List.length_zipWith] at hil; omega)]
    rfl))
  rw [hpk, Option.bind_some]
  have hlen : peaks.length = pts.length := by rw [(DGA.Mf.mapM_getElem? _ _ _ hpk).1, hrows, List.length_map]
  rw [← ticks_iff]
  rcases hmx : maxOf peaks with _ | m
  · have hn := (maxOf_spec peaks).1.1 hmx
    rw [hn] at hlen
    have h0' : ¬ (ticks (buildPath (nx, ny, nz) c).2).isSome := by
      rw [ticks_iff, ← hp.1, ← hlen]; simp
    simp [h0']
  · simp

/-- **C150 (c).** A susceptibility figure on a mesh of non-negative increasing frequencies is drawn exactly if the mesh has two frequencies and the path has a point. -/
theorem chi_iff (nx ny nz : ℕ) (hx : 0 < nx) (hy : 0 < ny) (hz : 0 < nz) (w : List ℝ) (hw : w.Pairwise (· < ·)) (h0 : ∀ x ∈ w, 0 ≤ x) (V : ℕ → ℕ → ℕ → List ℝ)
    (hV : ∀ x y z, (V x y z).length = w.length) (c : List (V3 ℝ)) (hc2 : 2 ≤ c.length) (hc : ∀ x ∈ c, InZone x) :
    (chiFigure w (nx, ny, nz) c (chiTable nx ny nz V)).isSome ↔ 0 < (buildPath (nx, ny, nz) c).2.sum ∧ 2 ≤ w.length :=
  chi_iff_any nx ny nz hx hy hz w hw h0 _ (fun x y z _ _ _ => by rw [List.length_map, hV]) c hc2 hc

/-- **C150 (c).** What is drawn: at each point of the path `ω·χ''` of its grid point; a line through the frequencies where that is largest; and a window from the second frequency of the
    mesh to twice the largest of those frequencies.  -/
theorem chi_value (nx ny nz : ℕ) (hx : 0 < nx) (hy : 0 < ny) (hz : 0 < nz) (w : List ℝ) (hw : w.Pairwise (· < ·)) (h0 : ∀ x ∈ w, 0 ≤ x) (V : ℕ → ℕ → ℕ → List ℝ)
    (hV : ∀ x y z, (V x y z).length = w.length) (c : List (V3 ℝ)) (hc2 : 2 ≤ c.length) (hc : ∀ x ∈ c, InZone x) (fig : ChiFig)
    (h : chiFigure w (nx, ny, nz) c (chiTable nx ny nz V) = some fig) :
    ∃ pts, RunsThrough (nx, ny, nz) c pts ∧ fig.image = (pts.map fun p => List.zipWith (fun x y => x * y) w (gridPoint nx ny nz V p)) ∧
      fig.peaks.length = pts.length ∧ (∀ (i : ℕ) p x, pts[i]? = some p → fig.peaks[i]? = some x → PeakAt w (gridPoint nx ny nz V p) x) ∧
      w[1]? = some fig.window.1 ∧ IsMax fig.peaks (fig.window.2 / 2) := by
  obtain ⟨pts, hp, hm⟩ := rows_of nx ny nz hx hy hz (fun x y z => (V x y z).map fun (r : ℝ) => (r : ℂ)) c hc2 hc
  rcases w with _ | ⟨a, t⟩
  · simp [chiFigure, argNear] at h
  have ha := argNear_zero a t (h0 a (by simp)) hw
  unfold chiFigure chiTable at h
  rw [ha, hm] at h
  simp only [Option.bind_some, zero_add] at h
  obtain ⟨wm, hwm, h⟩ := Option.bind_eq_some_iff.1 h
  obtain ⟨peaks, hpk, h⟩ := Option.bind_eq_some_iff.1 h
  obtain ⟨m, hmx, h⟩ := Option.bind_eq_some_iff.1 h
  obtain ⟨tk, -, rfl⟩ := Option.map_eq_some_iff.1 h
  obtain ⟨l1, l2⟩ := DGA.Mf.mapM_getElem? _ _ _ hpk
  refine ⟨pts, hp, ?_, by simpa using l1, ?_, hwm, ?_⟩
  · simp only [List.map_map]
    refine List.map_congr_left fun p _ => ?_
    simp only [Function.comp_apply, gridPoint, List.zipWith_map_right]
    congr 1
    funext x y
    simp [mul_comm]
  · intro i p x hpi hxi
    have := l2 i (gridPoint nx ny nz (fun x y z => (V x y z).map fun (r : ℝ) => (r : ℂ)) p) (by rw [List.getElem?_map, hpi]; rfl)
    simp only at hxi
    rw [hxi] at this
    exact peak_row _ _ x this
  · have := (maxOf_spec peaks).2 m hmx
    simpa using this

/-- **C150 (c).** A momentum whose continuation failed (all zeros) is drawn with its peak at the first frequency, which lies below the window. -/
theorem failed_row (w v : List ℝ) (hw : w.Pairwise (· < ·)) (hv : ∀ y ∈ v, y = 0) (x : ℝ) (h : PeakAt w v x) : w.head? = some x ∧ ∀ y, w[1]? = some y → x < y := by
  obtain ⟨i, a, h1, h2, h3⟩ := h
  have ha : a = 0 := hv a (List.mem_of_getElem? h2)
  have hi : i = 0 := by
    by_contra hne
    obtain ⟨l1, -⟩ := List.getElem?_eq_some_iff.1 h1
    obtain ⟨l2, -⟩ := List.getElem?_eq_some_iff.1 h2
    have hv0 : v[0]'(by omega) = 0 := hv _ (List.getElem_mem _)
    have := (h3 0 (w[0]'(by omega)) (v[0]'(by omega)) (List.getElem?_eq_getElem _) (List.getElem?_eq_getElem _)).2 (by omega)
    rw [hv0, ha] at this
    simp at this
  subst hi
  refine ⟨by rw [List.head?_eq_getElem?]; exact h1, ?_⟩
  intro y hy
  obtain ⟨l0, e0⟩ := List.getElem?_eq_some_iff.1 h1
  obtain ⟨l1, e1⟩ := List.getElem?_eq_some_iff.1 hy
  rw [← e0, ← e1]
  exact List.pairwise_iff_getElem.1 hw 0 1 _ _ (by omega)

/-- **C150 (c).** If the continuation failed at every momentum of the path and the mesh begins at zero, the window is upside down: its lower end is above its upper end. -/
theorem failed_window (nx ny nz : ℕ) (hx : 0 < nx) (hy : 0 < ny) (hz : 0 < nz) (w : List ℝ) (hw : w.Pairwise (· < ·)) (h0 : w.head? = some 0) (V : ℕ → ℕ → ℕ → List ℝ)
    (hV : ∀ x y z, (V x y z).length = w.length) (hzero : ∀ x y z, ∀ v ∈ V x y z, v = 0) (c : List (V3 ℝ)) (hc2 : 2 ≤ c.length) (hc : ∀ x ∈ c, InZone x) (fig : ChiFig)
    (h : chiFigure w (nx, ny, nz) c (chiTable nx ny nz V) = some fig) : fig.window.2 = 0 ∧ fig.window.2 < fig.window.1 := by
  have hnn : ∀ x ∈ w, 0 ≤ x := by
    rcases w with _ | ⟨a, t⟩
    · cases h0
    · simp only [List.head?_cons, Option.some.injEq] at h0
      subst h0
      intro x hx
      rcases List.mem_cons.1 hx with rfl | hx
      · exact le_rfl
      · exact (List.rel_of_pairwise_cons hw hx).le
  obtain ⟨pts, -, -, hl, hpk, hw1, hmem, -⟩ := chi_value nx ny nz hx hy hz w hw hnn V hV c hc2 hc fig h
  obtain ⟨i, hi⟩ := List.mem_iff_getElem?.1 hmem
  have hil := (List.getElem?_eq_some_iff.1 hi).1
  obtain ⟨f1, f2⟩ := failed_row w _ hw (hzero _ _ _) _ (hpk i _ _ (List.getElem?_eq_getElem (by omega)) hi)
  rw [h0] at f1
  have e : fig.window.2 / 2 = 0 := (Option.some.inj f1).symm
  have e' : fig.window.2 = 0 := by linarith
  refine ⟨e', ?_⟩
  have := f2 _ hw1
  rw [e] at this
  rw [e']
  exact this

/-- the corners of the five paths: Γ X M/2 Γ, Γ Y M/2 Γ, Γ X M Γ, Γ Y M Γ, Γ X M Y Γ -/
def quarterPaths : List (List (V3 ℝ)) :=
  [[(0, 0, 0), (1 / 2, 0, 0), (1 / 4, 1 / 4, 0), (0, 0, 0)], [(0, 0, 0), (0, 1 / 2, 0), (1 / 4, 1 / 4, 0), (0, 0, 0)],
    [(0, 0, 0), (1 / 2, 0, 0), (1 / 2, 1 / 2, 0), (0, 0, 0)], [(0, 0, 0), (0, 1 / 2, 0), (1 / 2, 1 / 2, 0), (0, 0, 0)],
    [(0, 0, 0), (1 / 2, 0, 0), (1 / 2, 1 / 2, 0), (0, 1 / 2, 0), (0, 0, 0)]]

theorem mapM_weaken {α β : Type} (f g : α → Option β) (h : ∀ x y, f x = some y → g x = some y) : ∀ (l : List α) (r : List β), l.mapM f = some r → l.mapM g = some r := by
  intro l
  induction l with
  | nil => intro r hr; exact hr
  | cons a l ih =>
    intro r hr
    rw [List.mapM_cons] at hr ⊢
    simp only [Option.bind_eq_bind, Option.bind_eq_some_iff, Option.pure_def, Option.some.injEq] at hr ⊢
    obtain ⟨b, hb, bs, hbs, rfl⟩ := hr
    exact ⟨b, h a b hb, bs, ih bs hbs, rfl⟩

/-- the prepared paths are these -/
theorem prepared (nk : V3 ℕ) (ps : List (List (V3 ℝ))) (h : preparePaths nk = some ps) : ps = quarterPaths := by
  have := mapM_weaken (newPath nk) (fun names => names.mapM knownPoint) (by
    intro x y hxy
    unfold newPath at hxy
    rw [Option.bind_eq_some_iff] at hxy
    obtain ⟨c, hc, hxy⟩ := hxy
    split_ifs at hxy
    rw [Option.map_eq_some_iff] at hxy
    obtain ⟨_, -, rfl⟩ := hxy
    exact hc) _ _ h
  have he : maxEntPaths.mapM (fun names => names.mapM knownPoint) = some quarterPaths := by
    simp [maxEntPaths, knownPoint, quarterPaths]
    norm_num
  rw [he] at this
  exact (Option.some.inj this).symm

theorem quarterPaths_zone : ∀ c ∈ quarterPaths, 2 ≤ c.length ∧ ∀ x ∈ c, InZone x := by
  intro c hc
  simp only [quarterPaths, List.mem_cons, List.not_mem_nil, or_false] at hc
  rcases hc with rfl | rfl | rfl | rfl | rfl <;> refine ⟨by simp, ?_⟩ <;> intro x hx <;> simp only [List.mem_cons, List.not_mem_nil, or_false] at hx <;>
    rcases hx with rfl | rfl | rfl | rfl | rfl <;> unfold InZone <;> norm_num

theorem seg_pos (nk : V3 ℕ) (a b : V3 ℝ) (h : 1 / 4 < ((b.1 - a.1) * nk.1) ^ 2 + ((b.2.1 - a.2.1) * nk.2.1) ^ 2 + ((b.2.2 - a.2.2) * nk.2.2) ^ 2) : 0 < segCount a b nk := by
  have hn := segCount_near a b nk
  have hd : 1 / 2 < gridDist nk a b := by
    unfold gridDist
    apply Real.lt_sqrt_of_sq_lt
    norm_num at h ⊢
    linarith
  rw [abs_le] at hn
  by_contra h0
  have : segCount a b nk = 0 := by omega
  rw [this] at hn
  norm_num at hn
  linarith [hn.1]

theorem seg_zero (nk : V3 ℕ) (a b : V3 ℝ) (h : ((b.1 - a.1) * nk.1) ^ 2 + ((b.2.1 - a.2.1) * nk.2.1) ^ 2 + ((b.2.2 - a.2.2) * nk.2.2) ^ 2 ≤ 1 / 4) : segCount a b nk = 0 := by
  unfold segCount
  have h1 : Real.sqrt ((a.1 * nk.1 - b.1 * nk.1) ^ 2 + (a.2.1 * nk.2.1 - b.2.1 * nk.2.1) ^ 2 + (a.2.2 * nk.2.2 - b.2.2 * nk.2.2) ^ 2) ≤ 1 / 2 * ((1 : ℕ) : ℝ) := by
    apply Real.sqrt_le_iff.2
    norm_num at h ⊢
    nlinarith
  have h2 := rint_mono h1
  have h3 := (rint_half_lt 1 one_pos).2
  omega

/-- **C150 (d).** Where the driver gets past the preparation, all its paths have points exactly if there are two momenta at least along x. -/
theorem paths_have_points (nx ny nz : ℕ) (hx : 0 < nx) (hy : 0 < ny) (h : rint (1 / 2 * (ny : ℝ)) < nx) :
    (∀ c ∈ quarterPaths, 0 < (buildPath (nx, ny, nz) c).2.sum) ↔ 2 ≤ nx := by
  constructor
  · intro hp
    by_contra hlt
    have hx1 : nx = 1 := by omega
    subst hx1
    have hy1 : ny = 1 := by
      by_contra hne
      have h2 : (2 : ℝ) ≤ ny := by exact_mod_cast (by omega : 2 ≤ ny)
      have := le_rint (1 / 2 * (ny : ℝ)) 1 (by push_cast; linarith)
      push_cast at h
      omega
    subst hy1
    have := hp [(0, 0, 0), (1 / 2, 0, 0), (1 / 4, 1 / 4, 0), (0, 0, 0)] (by simp [quarterPaths])
    simp only [buildPath, List.sum_cons, List.sum_nil] at this
    rw [seg_zero (1, 1, nz) (0, 0, 0) (1 / 2, 0, 0) (by norm_num), seg_zero (1, 1, nz) (1 / 2, 0, 0) (1 / 4, 1 / 4, 0) (by norm_num),
      seg_zero (1, 1, nz) (1 / 4, 1 / 4, 0) (0, 0, 0) (by norm_num)] at this
    exact lt_irrefl _ this
  · intro h2 c hc
    have e1 : (2 : ℝ) ≤ nx := by exact_mod_cast h2
    have e2 : (1 : ℝ) ≤ ny := by exact_mod_cast hy
    have p1 := seg_pos (nx, ny, nz) (0, 0, 0) (1 / 2, 0, 0) (by norm_num; nlinarith)
    have p2 := seg_pos (nx, ny, nz) (0, 1 / 2, 0) (1 / 4, 1 / 4, 0) (by norm_num; nlinarith)
    have p3 := seg_pos (nx, ny, nz) (0, 1 / 2, 0) (1 / 2, 1 / 2, 0) (by norm_num; nlinarith)
    simp only [quarterPaths, List.mem_cons, List.not_mem_nil, or_false] at hc
    rcases hc with rfl | rfl | rfl | rfl | rfl <;> simp only [buildPath, List.sum_cons] <;> omega

/-! ### Concrete cases -/

example : (preparePaths (4, 4, 1)).isSome := (prepare_raises 4 4 1 (by norm_num) (by norm_num) (by norm_num)).2 le_rfl

example : preparePaths (2, 8, 1) = none := (prepare_raises 2 8 1 (by norm_num) (by norm_num) (by norm_num)).1 (by norm_num) (by norm_num)

/-- the path of the cases below -/
theorem example_path : (buildPath (4, 4, 1) [((0, 0, 0) : V3 ℝ), (0.5, 0, 0)]).2.sum = 2 := by
  have : segCount ((0, 0, 0) : V3 ℝ) (0.5, 0, 0) (4, 4, 1) = 2 := by
    have hn := segCount_near ((0, 0, 0) : V3 ℝ) (0.5, 0, 0) (4, 4, 1)
    have hd : gridDist (4, 4, 1) ((0, 0, 0) : V3 ℝ) (0.5, 0, 0) = 2 := by
      unfold gridDist
      rw [show (2 : ℝ) = Real.sqrt (2 ^ 2) by rw [Real.sqrt_sq (by norm_num)]]
      norm_num
    rw [hd, abs_le] at hn
    have h1 : (segCount ((0, 0, 0) : V3 ℝ) (0.5, 0, 0) (4, 4, 1) : ℝ) < 3 := by linarith [hn.2]
    have h2 : (1 : ℝ) < segCount ((0, 0, 0) : V3 ℝ) (0.5, 0, 0) (4, 4, 1) := by linarith [hn.1]
    have h3 : segCount ((0, 0, 0) : V3 ℝ) (0.5, 0, 0) (4, 4, 1) < 3 := by exact_mod_cast h1
    have h4 : 1 < segCount ((0, 0, 0) : V3 ℝ) (0.5, 0, 0) (4, 4, 1) := by exact_mod_cast h2
    omega
  simp [buildPath, this]

theorem example_zone : ∀ x ∈ [((0, 0, 0) : V3 ℝ), (0.5, 0, 0)], InZone x := by
  intro x hx
  simp only [List.mem_cons, List.not_mem_nil, or_false] at hx
  rcases hx with rfl | rfl <;> unfold InZone <;> norm_num

/-- a mesh around zero is drawn in (−2, 2), a mesh outside is not -/
example (F : ℕ → ℕ → ℕ → List ℂ) :
    (dispersionFigure [-1, 0, 1] (4, 4, 1) [((0, 0, 0) : V3 ℝ), (0.5, 0, 0)] (table 4 4 1 F) (some (-2)) (some 2)).isSome ∧
    ¬ (dispersionFigure [3, 4, 5] (4, 4, 1) [((0, 0, 0) : V3 ℝ), (0.5, 0, 0)] (table 4 4 1 F) (some (-2)) (some 2)).isSome := by
  rw [dispersion_iff 4 4 1 (by norm_num) (by norm_num) (by norm_num) _ F _ (by simp) example_zone, dispersion_iff 4 4 1 (by norm_num) (by norm_num) (by norm_num) _ F _ (by simp) example_zone,
    example_path]
  norm_num

example : ∃ fig, chiFigure [0, 1, 2] (4, 4, 1) [((0, 0, 0) : V3 ℝ), (0.5, 0, 0)] (chiTable 4 4 1 fun _ _ _ => [1, 2, 1 / 2]) = some fig :=
  Option.isSome_iff_exists.1 ((chi_iff 4 4 1 (by norm_num) (by norm_num) (by norm_num) _ (by norm_num) (by norm_num) _ (by simp) _ (by simp) example_zone).2
    (by rw [example_path]; norm_num))

example : PeakAt [0, 1, 2] [1, 2, 1 / 2] 1 := by
  refine ⟨1, 2, rfl, rfl, ?_⟩
  intro j y b hy hb
  rcases j with _ | _ | _ | j <;> simp at hy hb <;> subst hy <;> subst hb <;> norm_num

end

end DGA.KPath
