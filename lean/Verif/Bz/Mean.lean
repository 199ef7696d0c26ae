/-
  C10, C11: zone averages.  Model of `k_mean` and the properties of the averages.
-/
import Verif.Bz.Props2
import Mathlib.Algebra.BigOperators.Group.Finset.Basic
import Mathlib.Algebra.BigOperators.Ring.Finset
import Mathlib.Algebra.BigOperators.Field
import Mathlib.Algebra.BigOperators.Group.Finset.Sigma
import Mathlib.Algebra.Module.Defs
import Mathlib.Algebra.Field.Basic
import Mathlib.Tactic.FieldSimp
import Mathlib.Tactic.Ring

namespace DGA.Bz

variable {K : Type} [Field K]

/-- brillouin_zone.py:266-275 `k_mean(mat, shape='irrk')`: `1 / nk_tot * np.dot(moveaxis(mat, 0, -1), irrk_count)`,
    one entry of the trailing axes. -/
def kMeanIrrk (nkTot : Nat) (f : List Nat) (mat : List K) : K :=
  1 / (nkTot : K) * (List.zipWith (fun x (c : Nat) => x * (c : K)) mat (irrkCount f)).sum

/-- brillouin_zone.py:266-275 `k_mean(mat, shape='fbz-list')`: `np.mean(mat, axis=0)` -/
def kMeanList (l : List K) : K := l.sum / (l.length : K)

/-- brillouin_zone.py:266-275 `k_mean(mat, shape='fbz-mesh')`: `np.mean(mat, axis=(0, 1, 2))` -/
def kMeanMesh (m : Arr3 K) : K := (flat3 m).sum / ((flat3 m).length : K)

omit [Field K] in
theorem mat_eq_map (f : List Nat) (mat : List K) (h : mat.length = (irrkInd f).length) (hne : f ≠ []) :
    ∃ g : Nat → K, mat = (uniq f).map g ∧ irrk2fbzList f mat = some (f.map g) := by
  have hl : mat.length = (uniq f).length := by rw [h]; simp [irrkInd]
  obtain ⟨x, hx⟩ : ∃ x, x ∈ f := List.exists_mem_of_ne_nil f hne
  have h0 : 0 < mat.length := by
    rw [hl]; exact List.length_pos_of_mem ((mem_uniq x f).2 hx)
  let g : Nat → K := fun u => (mat[(uniq f).idxOf u]?).getD (mat[0])
  refine ⟨g, ?_, ?_⟩
  · apply List.ext_getElem?
    intro a
    rw [List.getElem?_map]
    by_cases ha : a < (uniq f).length
    · have hu : (uniq f)[a]? = some (uniq f)[a] := List.getElem?_eq_getElem ha
      rw [hu, Option.map_some]
      simp only [g]
      rw [idxOf_nodup _ (uniq_nodup f) a _ hu, List.getElem?_eq_getElem (by omega)]
      rfl
    · rw [List.getElem?_eq_none (by omega), List.getElem?_eq_none (by omega)]; rfl
  · obtain ⟨r, hr, h1, h2⟩ := irrk2fbzList_value f mat h
    rw [hr]
    congr 1
    apply List.ext_getElem?
    intro l
    rw [List.getElem?_map]
    by_cases hlf : l < f.length
    · have hx' : f[l]? = some f[l] := List.getElem?_eq_getElem hlf
      rw [h2 l _ hx', hx', Option.map_some]
      simp only [g]
      have := List.idxOf_lt_length_of_mem ((mem_uniq f[l] f).2 (List.getElem_mem hlf))
      rw [List.getElem?_eq_getElem (by omega)]
      rfl
    · rw [List.getElem?_eq_none (by omega), List.getElem?_eq_none (by omega)]; rfl

/-- sum over all points = sum over the distinct values weighted with the multiplicities -/
theorem sum_count (f : List Nat) (g : Nat → K) :
    (f.map g).sum = ((uniq f).map fun u => g u * ((f.count u : Nat) : K)).sum := by
  classical
  rw [Finset.sum_list_map_count]
  have hs : f.toFinset = (uniq f).toFinset := by
    ext x; rw [List.mem_toFinset, List.mem_toFinset, mem_uniq]
  rw [hs, List.sum_toFinset _ (uniq_nodup f)]
  congr 1
  apply List.map_congr_left
  intro u _
  rw [nsmul_eq_mul, mul_comm]

/-- C10.  `f` is the flattened index map of the grid.  The weighted irreducible mean of any function on the
    irreducible points is the plain mean of its expansion to the full zone. -/
theorem kMean_irrk_eq_list (f : List Nat) (mat : List K) (h : mat.length = (irrkInd f).length) (hne : f ≠ []) :
    ∃ full, irrk2fbzList f mat = some full ∧ kMeanIrrk f.length f mat = kMeanList full := by
  obtain ⟨g, hg, he⟩ := mat_eq_map f mat h hne
  refine ⟨_, he, ?_⟩
  unfold kMeanIrrk kMeanList
  rw [sum_count f g, List.length_map, hg]
  have : List.zipWith (fun x (c : Nat) => x * (c : K)) ((uniq f).map g) (irrkCount f) =
      (uniq f).map fun u => g u * ((f.count u : Nat) : K) := by
    unfold irrkCount
    rw [List.zipWith_map, List.zipWith_self]
  rw [this, one_div, div_eq_inv_mul]

/-- C10 (mesh shape). -/
theorem kMean_irrk_eq_mesh (nx ny nz : Nat) (f : List Nat) (hf : f.length = nx * ny * nz) (mat : List K)
    (h : mat.length = (irrkInd f).length) (hne : f ≠ []) :
    ∃ full, irrk2fbzMesh nx ny nz f mat = some full ∧ kMeanIrrk (nx * ny * nz) f mat = kMeanMesh full := by
  obtain ⟨ms, ls, h1, h2, h3, _⟩ := mesh_list_agree nx ny nz f hf mat h
  obtain ⟨full, e1, e2⟩ := kMean_irrk_eq_list f mat h hne
  rw [h2] at e1
  injection e1 with e1
  refine ⟨ms, h1, ?_⟩
  unfold kMeanMesh
  rw [h3, ← hf, e2, ← e1]
  rfl

/-- C10.  Multiplicities are positive, there is one per irreducible point, and they add up to the number of points. -/
theorem irrkCount_sum (f : List Nat) : (irrkCount f).sum = f.length ∧ (∀ c ∈ irrkCount f, 0 < c) ∧
    (irrkCount f).length = (irrkInd f).length := by
  refine ⟨?_, ?_, by simp [irrkCount, irrkInd]⟩
  · have := Finset.sum_list_map_count f (fun _ => 1)
    simp only [List.map_const', List.sum_replicate, smul_eq_mul, mul_one] at this
    rw [this]
    have hs : f.toFinset = (uniq f).toFinset := by
      ext x; rw [List.mem_toFinset, List.mem_toFinset, mem_uniq]
    rw [hs, List.sum_toFinset _ (uniq_nodup f)]
    rfl
  · intro c hc
    unfold irrkCount at hc
    rw [List.mem_map] at hc
    obtain ⟨u, hu, rfl⟩ := hc
    exact List.count_pos_iff.2 ((mem_uniq u f).1 hu)

/-- non-vacuity: multiplicities of the 4×4 square lattice -/
example : (fbz2irrk 4 4 1 square).map (fun m => irrkCount (flat3 m)) = some [1, 4, 2, 4, 4, 1] := by decide

/-! ### C11 — symmetrize_irrk -/

/-- C11, refutation: as written `symmetrize_irrk` raises on every non-empty grid and every input, because the boolean
    mask `fbz2irrk == irrk_ind[i]` has three axes while the reshaped array has two. -/
theorem symmetrizeIrrk_raises {α : Type} (mean : List α → α) (nx ny nz s : Nat) (f : List Nat)
    (hf : f.length = nx * ny * nz) (hpos : 0 < nx * ny * nz) (rows : List α) :
    symmetrizeIrrk mean nx ny nz s f rows = none := by
  unfold symmetrizeIrrk
  have hne : irrkInd f ≠ [] := by
    intro h
    have hx : f[0]'(by omega) ∈ uniq f := (mem_uniq _ f).2 (List.getElem_mem _)
    have : f.idxOf (f[0]'(by omega)) ∈ irrkInd f := List.mem_map.2 ⟨_, hx, rfl⟩
    rw [h] at this
    cases this
  obtain ⟨u, us, hu⟩ := List.exists_cons_of_ne_nil hne
  rw [hu]
  have : maskRows [nx * ny * nz, s] rows [nx, ny, nz] (f.map fun x => x == u) = none := by
    unfold maskRows; rw [if_neg]; simp
  simp [List.mapM_cons, this]

/-- non-vacuity: a 2×2×1 grid -/
example : symmetrizeIrrk (fun l : List Nat => l.sum) 2 2 1 1 [0, 1, 1, 3] [1, 2, 3, 4] = none := by decide

/-- the class average: mean of `rows` over the points with the same representative as point `l` -/
def classMean (f : List Nat) (rows : List K) (l : Nat) : K :=
  let cls := (List.range f.length).filter fun l' => f[l']? = f[l]?
  (cls.map fun l' => (rows[l']?).getD 0).sum / (cls.length : K)

/-- C11, what the repaired routine (mask flattened; see `symmetrizeFlat`) would compute, for every index map with
    `f[f[l]] = f[l]` and `f[l] ≤ l` (which C08 proves for the predefined sets): the class average at every point.
    Partial: the statement is about the repair, not about the code, which raises (`symmetrizeIrrk_raises`). -/
theorem symmetrizeFlat_partial (nx ny nz s : Nat) (f : List Nat) (hf : f.length = nx * ny * nz)
    (hidem : ∀ (l x : Nat), f[l]? = some x → f[x]? = some x) (hle : ∀ (l x : Nat), f[l]? = some x → x ≤ l)
    (rows : List K) (hr : rows.length = f.length) :
    ∃ r, symmetrizeFlat kMeanList nx ny nz s f rows = some r ∧ r.length = f.length ∧
      ∀ l, l < f.length → r[l]? = some (classMean f rows l) := by
  -- first occurrence
  have hfirst : ∀ u, u ∈ f → f.idxOf u = u := by
    intro u hu
    obtain ⟨l, hl, he⟩ := List.getElem_of_mem hu
    have h1 : f[l]? = some u := by rw [List.getElem?_eq_getElem hl, he]
    have h2 := hidem l u h1
    have h3 := hle _ _ (idxOf_get f u hu)
    have h4 : f.idxOf u ≤ u := by
      by_contra hc
      have h5 := List.not_of_lt_findIdx (show u < f.idxOf u by omega)
      have h6 : u < f.length := (List.getElem?_eq_some_iff.1 h2).1
      rw [List.getElem?_eq_getElem h6] at h2
      injection h2 with h2
      simp [h2] at h5
    omega
  have hind : irrkInd f = uniq f := by
    unfold irrkInd
    conv_rhs => rw [← List.map_id (uniq f)]
    apply List.map_congr_left
    intro u hu
    exact hfirst u ((mem_uniq u f).1 hu)
  let red : Nat → K := fun u => kMeanList ((List.zip rows (f.map fun x => x == u)).filterMap fun p =>
    if p.2 then some p.1 else none)
  have hred : (irrkInd f).mapM (fun u =>
      (maskRows [nx * ny * nz, s] rows [nx * ny * nz] (f.map fun x => x == u)).map kMeanList) =
      some ((uniq f).map red) := by
    rw [hind]
    apply DGA.Mf.mapM_some
    intro u _
    unfold maskRows
    rw [if_pos (by simp)]
    rfl
  unfold symmetrizeFlat
  rw [hred, Option.bind_some]
  obtain ⟨r, h1, h2, h3⟩ := irrk2fbzList_value f ((uniq f).map red) (by rw [hind]; simp)
  refine ⟨r, h1, h2, ?_⟩
  intro l hl
  have hx : f[l]? = some f[l] := List.getElem?_eq_getElem hl
  rw [h3 l _ hx, List.getElem?_map, idxOf_get (uniq f) _ ((mem_uniq _ f).2 (List.getElem_mem hl)), Option.map_some]
  congr 1
  simp only [red]
  unfold classMean
  have hcls : ((List.zip rows (f.map fun x => x == f[l])).filterMap fun p => if p.2 then some p.1 else none) =
      ((List.range f.length).filter fun l' => f[l']? = f[l]?).map fun l' => (rows[l']?).getD 0 := by
    have hz : List.zip rows (f.map fun x => x == f[l]) = (List.range f.length).map fun l' =>
        ((rows[l']?).getD 0, decide (f[l']? = f[l]?)) := by
      apply eq_range_map
      · simp [hr]
      · intro i hi
        rw [List.getElem?_zip_eq_some]
        refine ⟨?_, ?_⟩
        · rw [List.getElem?_eq_getElem (by omega)]; rfl
        · rw [List.getElem?_map, List.getElem?_eq_getElem hi, Option.map_some, hx]
          congr 1
          simp only [Option.some.injEq, beq_eq_decide]
    rw [hz, List.filterMap_map]
    generalize List.range f.length = R
    induction R with
    | nil => rfl
    | cons a R ih =>
      simp only [List.filterMap_cons, List.filter_cons, Function.comp]
      by_cases hd : f[a]? = f[l]?
      · simp only [hd, decide_true, if_true, List.map_cons]; rw [← ih]; rfl
      · simp only [hd, decide_false, Bool.false_eq_true, if_false]; exact ih
  rw [hcls]
  unfold kMeanList
  rw [List.length_map]

/-- C11 (repair): the class average is constant on classes. -/
theorem classMean_const (f : List Nat) (rows : List K) (l l' : Nat) (h : f[l]? = f[l']?) :
    classMean f rows l = classMean f rows l' := by
  unfold classMean; rw [h]

/-- C11 (repair): functions that are constant on classes are unchanged, so averaging twice is averaging once. -/
theorem classMean_of_symmetric [CharZero K] (f : List Nat) (rows : List K) (hr : rows.length = f.length)
    (hsym : ∀ a b : Nat, a < f.length → b < f.length → f[a]? = f[b]? → rows[a]? = rows[b]?) (l : Nat)
    (hl : l < f.length) : some (classMean f rows l) = rows[l]? := by
  unfold classMean
  have hmap : ((List.range f.length).filter fun l' => f[l']? = f[l]?).map (fun l' => (rows[l']?).getD 0) =
      List.replicate ((List.range f.length).filter fun l' => f[l']? = f[l]?).length ((rows[l]?).getD 0) := by
    rw [List.eq_replicate_iff]
    refine ⟨by simp, ?_⟩
    intro b hb
    rw [List.mem_map] at hb
    obtain ⟨a, ha, rfl⟩ := hb
    rw [List.mem_filter, List.mem_range] at ha
    rw [hsym a l ha.1 hl (by simpa using ha.2)]
  have hpos : 0 < ((List.range f.length).filter fun l' => f[l']? = f[l]?).length := by
    apply List.length_pos_of_mem (a := l)
    rw [List.mem_filter, List.mem_range]
    simp [hl]
  have hne : ((((List.range f.length).filter fun l' => f[l']? = f[l]?).length : Nat) : K) ≠ 0 := by
    rw [Nat.cast_ne_zero]; omega
  simp only [hmap, List.sum_replicate, nsmul_eq_mul]
  rw [mul_comm, mul_div_assoc, div_self hne, mul_one, List.getElem?_eq_getElem (by omega)]
  rfl

/-- C11 (repair): the zone mean is preserved. -/
theorem classMean_mean [CharZero K] (f : List Nat) (rows : List K) (hr : rows.length = f.length) :
    ((List.range f.length).map (classMean f rows)).sum = rows.sum := by
  classical
  have hrows : rows = (List.range f.length).map fun l => (rows[l]?).getD 0 := by
    apply eq_range_map _ _ _ hr
    intro i hi
    rw [List.getElem?_eq_getElem (by omega)]; rfl
  conv_rhs => rw [hrows]
  rw [← List.sum_toFinset _ List.nodup_range, ← List.sum_toFinset _ List.nodup_range]
  have hcm : ∀ l, classMean f rows l = ∑ l' ∈ (List.range f.length).toFinset,
      if f[l']? = f[l]? then (rows[l']?).getD 0 /
        ((((List.range f.length).toFinset.filter fun a => f[a]? = f[l']?).card : Nat) : K) else 0 := by
    intro l
    unfold classMean
    have hnd : ((List.range f.length).filter fun l' => f[l']? = f[l]?).Nodup := List.nodup_range.filter _
    simp only
    rw [← List.sum_toFinset _ hnd, ← List.toFinset_card_of_nodup hnd, List.toFinset_filter, Finset.sum_div,
      ← Finset.sum_filter]
    simp only [decide_eq_true_eq]
    apply Finset.sum_congr rfl
    intro a ha
    rw [Finset.mem_filter] at ha
    simp only [ha.2]
  simp only [hcm]
  rw [Finset.sum_comm]
  apply Finset.sum_congr rfl
  intro a ha
  rw [← Finset.sum_filter, Finset.sum_const, nsmul_eq_mul]
  have hsame : (List.range f.length).toFinset.filter (fun x => f[a]? = f[x]?) =
      (List.range f.length).toFinset.filter fun x => f[x]? = f[a]? := by
    ext x; simp only [Finset.mem_filter]; rw [eq_comm]
  rw [hsame]
  have hne : ((((List.range f.length).toFinset.filter fun x => f[x]? = f[a]?).card : Nat) : K) ≠ 0 := by
    rw [Nat.cast_ne_zero]
    apply Finset.card_ne_zero_of_mem (a := a)
    rw [Finset.mem_filter]
    exact ⟨ha, rfl⟩
  rw [mul_div_assoc', mul_comm, mul_div_assoc, div_self hne, mul_one]

end DGA.Bz
