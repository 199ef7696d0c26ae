/-
  C45  (pick_points) the mirrored input points are samples of the same function
  C65  the averaged Padé continuation is physical
-/
import Verif.Pade.Props
import Mathlib.Tactic.Linarith
import Mathlib.Algebra.Order.BigOperators.Group.List
import Mathlib.Tactic.FinCases

namespace DGA.Pade

theorem getD_of_lt {α : Type} (l : List α) (d : α) {k : Nat} (h : k < l.length) : l.getD k d = l[k] := by
  simp [List.getD_eq_getElem?_getD, h]
theorem getD_of_ge {α : Type} (l : List α) (d : α) {k : Nat} (h : l.length ≤ k) : l.getD k d = d := by
  simp [List.getD_eq_getElem?_getD, h]

section
variable {K : Type} [Field K]

omit [Field K] in
/-- C45. `pick_points` with a non-negative start takes `M` consecutive points. -/
theorem pickPoints_pos (cj : K → K) (nu F : Int → K) (n : Nat) (nmin M : Nat) (h : nmin + M ≤ n) :
    pickPoints cj ((List.range n).map fun (k : Nat) => nu k) ((List.range n).map fun (k : Nat) => F k) nmin M
      = ((List.range M).map fun (k : Nat) => nu ((nmin : Int) + k), (List.range M).map fun (k : Nat) => F ((nmin : Int) + k)) := by
  have : ∀ g : Int → K, ((((List.range n).map fun (k : Nat) => g k).drop nmin).take M) = (List.range M).map fun (k : Nat) => g ((nmin : Int) + k) := by
    intro g
    apply List.ext_getElem
    · simp; omega
    · intro i h1 h2; simp
  simp only [pickPoints, if_pos (Int.natCast_nonneg nmin), Int.toNat_natCast, this]

omit [Field K] in
/-- C45. `pick_points` with a negative start: for nodes `ν(0), ν(1), …` with `ν(-1-k) = conj ν(k)` and data with the same mirror
    symmetry, the `M` picked points and values are those of the indices `nmin, …, nmin+M-1`. -/
theorem pickPoints_mirror (cj : K → K) (nu F : Int → K) (n : Nat) (nadd M : Nat) (h0 : 0 < nadd) (h1 : nadd ≤ M) (h2 : M ≤ n + nadd)
    (h3 : nadd ≤ n) (hnu : ∀ k : Int, nu (-1 - k) = cj (nu k)) (hF : ∀ k : Int, F (-1 - k) = cj (F k)) :
    pickPoints cj ((List.range n).map fun (k : Nat) => nu k) ((List.range n).map fun (k : Nat) => F k) (-(nadd : Int)) M
      = ((List.range M).map fun (k : Nat) => nu (-(nadd : Int) + k), (List.range M).map fun (k : Nat) => F (-(nadd : Int) + k)) := by
  have key : ∀ g : Int → K, (∀ k : Int, g (-1 - k) = cj (g k)) →
      (revFrom ((List.range n).map fun (k : Nat) => g k) (nadd - 1)).map cj ++ ((List.range n).map fun (k : Nat) => g k).take (M - nadd)
        = (List.range M).map fun (k : Nat) => g (-(nadd : Int) + k) := by
    intro g hg
    apply List.ext_getElem
    · simp [revFrom]; omega
    · intro i hi1 hi2
      simp only [List.length_map, List.length_range] at hi2
      by_cases hi : i < nadd
      · rw [List.getElem_append_left (by simp [revFrom]; omega)]
        simp only [revFrom, List.getElem_map, List.getElem_reverse, List.getElem_take, List.getElem_range, List.length_take,
          List.length_map, List.length_range]
        rw [← hg]
        congr 1
        omega
      · rw [List.getElem_append_right (by simp [revFrom]; omega)]
        simp only [revFrom, List.getElem_map, List.getElem_take, List.getElem_range, List.length_reverse, List.length_map, List.length_take,
          List.length_range]
        congr 1
        omega
  have e1 : ((-(-(nadd : Int)) - 1).toNat) = nadd - 1 := by omega
  simp only [pickPoints, if_neg (show ¬ (0 : Int) ≤ -(nadd : Int) by omega), e1, if_neg (show ¬ (M : Int) - -(-(nadd : Int)) < 0 by omega)]
  rw [show ((M : Int) - -(-(nadd : Int))).toNat = M - nadd by omega, key nu hnu, key F hF]

example : pickPoints (fun x : Rat => -x) [1, 3, 5, 7] [10, 30, 50, 70] (-2) 5 = ([-3, -1, 1, 3, 5], [-30, -10, 10, 30, 50]) := by
  decide +kernel
end

/-! ### C65 -/

theorem pickMask_subset {α : Type} (l : List α) (m : List Bool) (x : α) (h : x ∈ pickMask l m) : x ∈ l := by
  simp only [pickMask, List.mem_map, List.mem_filter] at h
  obtain ⟨⟨a, b⟩, ⟨h1, _⟩, rfl⟩ := h
  exact (List.of_mem_zip h1).1

theorem meanRows_im (rows : List (List ℂ)) (out : List ℂ) (h : meanRows rows = some out) (lo hi : ℝ) (k : Nat) (hk : k < out.length)
    (hb : ∀ f ∈ rows, lo ≤ (f.getD k 0).im ∧ (f.getD k 0).im ≤ hi) : lo ≤ (out.getD k 0).im ∧ (out.getD k 0).im ≤ hi := by
  match rows, h with
  | r :: rs, h =>
    simp only [meanRows, Option.some.injEq] at h
    subst h
    simp only [List.length_map, List.length_range] at hk
    have hsum : ∀ l : List (List ℂ), (l.map fun (x : List ℂ) => x.getD k 0).sum.im = (l.map fun (x : List ℂ) => (x.getD k 0).im).sum := by
      intro l; induction l with
      | nil => simp
      | cons a l ih => rw [List.map_cons, List.sum_cons, Complex.add_im, ih, List.map_cons, List.sum_cons]
    have hval : (((List.range r.length).map fun k => ((r :: rs).map fun x => x.getD k 0).sum / ((r :: rs).length : ℂ)).getD k 0).im
        = ((r :: rs).map fun (x : List ℂ) => (x.getD k 0).im).sum / ((r :: rs).length : ℝ) := by
      rw [getD_of_lt _ _ (by simpa using hk), List.getElem_map, List.getElem_range, ← hsum]
      rw [show (((r :: rs).length : ℕ) : ℂ) = (((r :: rs).length : ℝ) : ℂ) by push_cast; rfl, Complex.div_ofReal_im]
    rw [hval]
    have hpos : (0 : ℝ) < ((r :: rs).length : ℝ) := by
      exact Nat.cast_pos.2 (by simp)
    have hbound : ∀ l : List (List ℂ), (∀ f ∈ l, lo ≤ (f.getD k 0).im ∧ (f.getD k 0).im ≤ hi) →
        l.length * lo ≤ (l.map fun (x : List ℂ) => (x.getD k 0).im).sum ∧ (l.map fun (x : List ℂ) => (x.getD k 0).im).sum ≤ l.length * hi := by
      intro l; induction l with
      | nil => simp
      | cons a l ih =>
        intro hl
        obtain ⟨i1, i2⟩ := ih fun f hf => hl f (List.mem_cons_of_mem _ hf)
        obtain ⟨a1, a2⟩ := hl a List.mem_cons_self
        simp only [List.map_cons, List.sum_cons, List.length_cons, Nat.cast_add, Nat.cast_one]
        constructor <;> nlinarith
    obtain ⟨b1, b2⟩ := hbound _ hb
    rw [le_div_iff₀ hpos, div_le_iff₀ hpos]
    exact ⟨by rw [mul_comm]; exact b1, by rw [mul_comm]; exact b2⟩

/-- C65. At every output point the imaginary part of the averaged continuation lies between the bounds obeyed by the physical
    continuations at that point, whatever selection the two criteria and the order of ties lead to. -/
theorem average_between (c1v : ℝ) (m : Nat → Nat) (p : List ℝ → List Nat) (all : List (List ℂ)) (out : List ℂ)
    (h : average c1v m p all = some out) (lo hi : ℝ) (k : Nat) (hk : k < out.length)
    (hb : ∀ f ∈ all, physical f = true → lo ≤ (f.getD k 0).im ∧ (f.getD k 0).im ≤ hi) :
    lo ≤ (out.getD k 0).im ∧ (out.getD k 0).im ≤ hi := by
  have hb' : ∀ f ∈ all.filter physical, lo ≤ (f.getD k 0).im ∧ (f.getD k 0).im ≤ hi := fun f hf => by
    rw [List.mem_filter] at hf; exact hb f hf.1 hf.2
  simp only [average] at h
  generalize all.filter physical = fs at h hb'
  match fs, h with
  | [f], h => simp only [Option.some.injEq] at h; subst h; exact hb' f (by simp)
  | f :: g :: fs, h =>
    exact meanRows_im _ _ h lo hi k hk fun x hx => hb' x (pickMask_subset _ _ _ hx)

/-- C65. The averaged continuation is physical: its imaginary part is nowhere positive. -/
theorem average_physical (c1v : ℝ) (m : Nat → Nat) (p : List ℝ → List Nat) (all : List (List ℂ)) (out : List ℂ)
    (h : average c1v m p all = some out) : ∀ x ∈ out, x.im ≤ 0 := by
  intro x hx
  obtain ⟨k, hk, rfl⟩ := List.getElem_of_mem hx
  have key : ∀ f ∈ all, physical f = true → (f.getD k 0).im ≤ 0 := by
    intro f _ hp
    by_cases hkf : k < f.length
    · rw [getD_of_lt _ _ hkf]
      simp only [physical, List.all_eq_true, decide_eq_true_eq] at hp
      exact hp _ (List.getElem_mem hkf)
    · rw [getD_of_ge _ _ (by omega)]; simp
  obtain ⟨lo, hlo⟩ : ∃ lo : ℝ, ∀ f ∈ all, lo ≤ (f.getD k 0).im := by
    clear h hx key
    induction all with
    | nil => exact ⟨0, by simp⟩
    | cons a l ih =>
      obtain ⟨lo, hlo⟩ := ih
      refine ⟨min lo (a.getD k 0).im, fun f hf => ?_⟩
      rcases List.mem_cons.1 hf with rfl | hf
      · exact min_le_right _ _
      · exact (min_le_left _ _).trans (hlo f hf)
  have := (average_between c1v m p all out h lo 0 k hk fun f hf hp => ⟨hlo f hf, key f hf hp⟩).2
  rwa [getD_of_lt _ _ hk] at this

/-- C65 (defect). With exactly two physical continuations whose imaginary parts differ, the selection is empty and the result is
    nan: both accumulated distances equal their mean, so none is below `0.99` of it. -/
theorem average_two_fails (c1v : ℝ) (hc : c1v < 1) (m : Nat → Nat) (p : List ℝ → List Nat) (f g : List ℂ) (hf : physical f = true)
    (hg : physical g = true) (hd : 0 < dist1 f g) : average c1v m p [f, g] = none := by
  have hfs : [f, g].filter physical = [f, g] := by simp [hf, hg]
  have ha : accum [f, g] = [dist1 f g, dist1 f g] := by
    simp [accum, delta, List.range_succ, List.range'_succ]
  have hmean : ¬ dist1 f g ≤ c1v * ((dist1 f g + dist1 f g) / 2) := by
    rw [add_self_div_two, not_le]; nlinarith
  simp only [average, hfs, ha, mask, pickMask, meanRows]
  norm_num at hmean ⊢
  simp only [List.range_succ, List.range_zero]
  simp
  simp [not_le.2 hmean]

/-- C65. If the physical continuations (at least two) coincide, the average is that continuation. -/
theorem average_const (c1v : ℝ) (m : Nat → Nat) (p : List ℝ → List Nat) (all : List (List ℂ)) (f : List ℂ)
    (n : Nat) (hn : 1 < n) (hall : all.filter physical = List.replicate n f) (hm : 0 < m n)
    (hp : isArgsort (accum (List.replicate n f)) (p (accum (List.replicate n f)))) : average c1v m p all = some f := by
  have hself : dist1 f f = 0 := by
    simp only [dist1]
    clear hall hp
    induction f with
    | nil => simp
    | cons a l ih => simp [ih]
  have hdel : ∀ i j, delta (List.replicate n f) i j = 0 := by
    intro i j
    simp only [delta]
    split
    · by_cases hi : i < n <;> by_cases hj : j < n
      · simp [List.getD_eq_getElem?_getD, hi, hj, hself]
      · simp [List.getD_eq_getElem?_getD, List.getElem?_replicate, hj, dist1]
      · simp [List.getD_eq_getElem?_getD, List.getElem?_replicate, hi, dist1]
      · simp [List.getD_eq_getElem?_getD, List.getElem?_replicate, hi, dist1]
    · rfl
  have hacc : accum (List.replicate n f) = List.replicate n 0 := by
    apply List.ext_getElem
    · simp [accum]
    · intro i h1 h2; simp [accum, hdel]
  have hperm := hp.1
  rw [hacc] at hperm
  have hpl : (p (accum (List.replicate n f))).length = n := by rw [hacc, hperm.length_eq]; simp
  -- some index is selected
  have hsel : pickMask (List.replicate n f) (mask c1v (m n) (accum (List.replicate n f)) (p (accum (List.replicate n f)))) ≠ [] := by
    rw [hacc] at hpl ⊢
    obtain ⟨i, hi⟩ : ∃ i, i ∈ (p (List.replicate n 0)).take (m n) := by
      match hq : p (List.replicate n 0) with
      | [] => rw [hq] at hpl; simp at hpl; omega
      | a :: l =>
        obtain ⟨k, hk⟩ := Nat.exists_eq_add_of_lt hm
        exact ⟨a, by rw [hk]; simp [List.take_succ_cons]⟩
    have hin : i < n := by
      have := hperm.mem_iff.1 (List.mem_of_mem_take hi)
      simpa using this
    intro hnil
    have hmem : f ∈ pickMask (List.replicate n f) (mask c1v (m n) (List.replicate n 0) (p (List.replicate n 0))) := by
      simp only [pickMask, List.mem_map, List.mem_filter]
      refine ⟨(f, true), ⟨?_, rfl⟩, rfl⟩
      rw [List.mem_iff_getElem?]
      refine ⟨i, ?_⟩
      rw [List.getElem?_zip_eq_some]
      refine ⟨by simp [hin], ?_⟩
      simp only [mask, List.length_replicate, List.getElem?_map, List.getElem?_range hin, Option.map_some, Option.some.injEq,
        Bool.and_eq_true, decide_eq_true_eq, List.contains_iff_mem]
      refine ⟨?_, hi⟩
      simp [List.getD_eq_getElem?_getD, hin]
    rw [hnil] at hmem; simp at hmem
  simp only [average, hall]
  obtain ⟨n', rfl⟩ : ∃ n', n = n' + 2 := ⟨n - 2, by omega⟩
  simp only [List.replicate_succ, List.length_cons, List.length_replicate] at hsel ⊢
  generalize hr : pickMask _ _ = rows at hsel ⊢
  have hrows : ∀ r ∈ rows, r = f := by
    intro r hr'
    rw [← hr] at hr'
    have := pickMask_subset _ _ _ hr'
    simp only [List.mem_cons] at this
    rcases this with h | h | h
    · exact h
    · exact h
    · exact List.eq_of_mem_replicate h
  match rows, hsel, hrows with
  | r :: rs, _, hrows =>
    have hrs : r :: rs = List.replicate (rs.length + 1) f := by
      rw [List.eq_replicate_iff]; exact ⟨by simp, hrows⟩
    have hrf : r = f := hrows r (by simp)
    simp only [meanRows, Option.some.injEq]
    rw [hrf] at hrs ⊢
    apply List.ext_getElem
    · simp
    · intro k h1 h2
      simp only [List.getElem_map, List.getElem_range]
      rw [hrs]
      simp only [List.map_replicate, List.sum_replicate, List.length_replicate, nsmul_eq_mul]
      have : ((rs.length + 1 : ℕ) : ℂ) ≠ 0 := Nat.cast_ne_zero.2 (by omega)
      rw [mul_comm, mul_div_assoc, div_self this, mul_one, getD_of_lt _ _ h2]

/-- C65: the distance of two continuations is a pseudometric on their imaginary parts: non-negative, symmetric, zero exactly for equal
    imaginary parts -/
theorem dist1_metric (f g : List ℂ) (hl : f.length = g.length) :
    0 ≤ dist1 f g ∧ dist1 f g = dist1 g f ∧ (dist1 f g = 0 ↔ f.map Complex.im = g.map Complex.im) := by
  refine ⟨List.sum_nonneg (by simp only [List.mem_map]; rintro _ ⟨p, _, rfl⟩; exact abs_nonneg _), ?_, ?_⟩
  · induction f generalizing g with
    | nil => cases g <;> simp [dist1]
    | cons a f ih =>
      cases g with
      | nil => simp at hl
      | cons b g =>
        have := ih g (by simpa using hl)
        simp only [dist1, List.zip_cons_cons, List.map_cons, List.sum_cons] at this ⊢
        rw [this, abs_sub_comm]
  · induction f generalizing g with
    | nil => cases g with
      | nil => simp [dist1]
      | cons b g => simp at hl
    | cons a f ih =>
      cases g with
      | nil => simp at hl
      | cons b g =>
        have h1 := ih g (by simpa using hl)
        simp only [dist1, List.zip_cons_cons, List.map_cons, List.sum_cons, List.cons.injEq] at h1 ⊢
        rw [add_eq_zero_iff_of_nonneg (abs_nonneg _) (List.sum_nonneg (by simp only [List.mem_map]; rintro _ ⟨p, _, rfl⟩; exact abs_nonneg _)), h1,
          abs_eq_zero, sub_eq_zero]

/-- C65: the number attached to a continuation is its total distance to all continuations (for continuations on one frequency grid) -/
theorem accum_value (fs : List (List ℂ)) (L : ℕ) (hL : ∀ f ∈ fs, f.length = L) (i : ℕ) (hi : i < fs.length) :
    (accum fs).getD i 0 = ((List.range fs.length).map fun j => dist1 (fs.getD i []) (fs.getD j [])).sum := by
  have hlen : ∀ j < fs.length, (fs.getD j []).length = L := by
    intro j hj
    rw [getD_of_lt _ _ hj]
    exact hL _ (List.getElem_mem hj)
  have hself : dist1 (fs.getD i []) (fs.getD i []) = 0 := ((dist1_metric _ _ rfl).2.2).2 rfl
  have hsplit : List.range fs.length = List.range i ++ (i :: List.range' (i + 1) (fs.length - (i + 1))) := by
    have : i :: List.range' (i + 1) (fs.length - (i + 1)) = List.range' i (fs.length - i) := by
      obtain ⟨c, hc⟩ : ∃ c, fs.length - i = c + 1 := ⟨fs.length - i - 1, by omega⟩
      rw [hc, List.range'_succ, show fs.length - (i + 1) = c by omega]
    have h2 := List.range'_append (s := 0) (m := i) (n := fs.length - i) (step := 1)
    rw [show i + (fs.length - i) = fs.length by omega, one_mul, zero_add] at h2
    rw [this, List.range_eq_range', List.range_eq_range', h2]
  conv_rhs => rw [hsplit]
  rw [List.map_append, List.sum_append, List.map_cons, List.sum_cons, hself, zero_add]
  simp only [accum, List.getD_eq_getElem?_getD, List.getElem?_map, List.getElem?_range hi, Option.map_some, Option.getD_some]
  congr 1
  · congr 1
    refine List.map_congr_left fun j hj => ?_
    rw [List.mem_range] at hj
    rw [delta, if_pos hj]
    have := (dist1_metric (fs.getD j []) (fs.getD i []) ((hlen j (by omega)).trans (hlen i hi).symm)).2.1
    simpa only [List.getD_eq_getElem?_getD] using this
  · congr 1
    refine List.map_congr_left fun j hj => ?_
    rw [List.mem_range'] at hj
    obtain ⟨k, _, rfl⟩ := hj
    rw [delta, if_pos (by omega)]
    simp only [List.getD_eq_getElem?_getD]

/-- C65: which continuations enter the average: those whose total distance is at most `c1v` times the mean and which are among the first `m` in
    the order of increasing total distance; in particular fewer than `m` continuations are strictly closer to all others -/
theorem mask_spec (c1v : ℝ) (m : ℕ) (d : List ℝ) (p : List ℕ) (hp : isArgsort d p) (i : ℕ) (hi : i < d.length)
    (hsel : (mask c1v m d p).getD i false = true) :
    d.getD i 0 ≤ c1v * (d.sum / d.length) ∧ ((List.range d.length).filter fun j => decide (d.getD j 0 < d.getD i 0)).length < m := by
  simp only [mask, List.getD_eq_getElem?_getD, List.getElem?_map, List.getElem?_range hi, Option.map_some, Option.getD_some,
    Bool.and_eq_true, decide_eq_true_eq, List.contains_iff_mem] at hsel
  simp only [List.getD_eq_getElem?_getD]
  refine ⟨hsel.1, ?_⟩
  obtain ⟨k, hk⟩ := List.mem_iff_getElem?.1 hsel.2
  rw [List.getElem?_take] at hk
  split at hk
  swap
  · simp at hk
  rename_i hkm
  obtain ⟨hkl, hki⟩ := List.getElem?_eq_some_iff.1 hk
  have hc : ((List.range d.length).filter fun j => decide ((d[j]?).getD 0 < (d[i]?).getD 0)).length =
      (p.filter fun j => decide ((d[j]?).getD 0 < (d[i]?).getD 0)).length := (hp.1.symm.filter _).length_eq
  rw [hc]
  have hsplit : p = p.take k ++ p.drop k := (List.take_append_drop k p).symm
  rw [hsplit, List.filter_append]
  have h0 : (p.drop k).filter (fun j => decide ((d[j]?).getD 0 < (d[i]?).getD 0)) = [] := by
    rw [List.filter_eq_nil_iff]
    intro j hj
    rw [decide_eq_true_eq, not_lt]
    rw [List.drop_eq_getElem_cons hkl, hki, List.mem_cons] at hj
    rcases hj with rfl | hj
    · exact le_rfl
    · obtain ⟨l, hl⟩ := List.mem_iff_getElem.1 hj
      obtain ⟨hll, hlj⟩ := hl
      rw [List.getElem_drop] at hlj
      have := List.pairwise_iff_getElem.1 hp.2 k (k + 1 + l) hkl (by rw [List.length_drop] at hll; omega) (by omega)
      rw [hki, hlj] at this
      simpa only [List.getD_eq_getElem?_getD] using this
  rw [h0, List.append_nil]
  have := List.length_filter_le (fun j => decide ((d[j]?).getD 0 < (d[i]?).getD 0)) (p.take k)
  rw [List.length_take] at this
  omega

example : isArgsort [3, 1, 2] [1, 2, 0] ∧ (mask 1 2 [3, 1, 2] [1, 2, 0]).getD 1 false = true := by
  refine ⟨⟨by decide, by norm_num [List.getD]⟩, by norm_num [mask, List.getD]⟩

/-- non-vacuity: two equal physical continuations are averaged, two different ones are not -/
example : physical [⟨1, -1⟩, ⟨2, 0⟩] = true := by simp [physical]
example : 0 < dist1 [⟨1, -1⟩] [⟨1, -2⟩] := by norm_num [dist1]

end DGA.Pade
