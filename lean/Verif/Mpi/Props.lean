/-
  Properties of the MPI distributor (C01 – C04).
-/
import Verif.Mpi.Lemmas

namespace DGA.Mpi

/-! ### C01 — the slices of the ranks partition the task range -/

/-- C01.  For every number of tasks and ranks there are block boundaries `0 = b 0 ≤ b 1 ≤ … ≤ b R = n` such that
    rank `r` owns exactly the half-open block `[b r, b (r+1))`: contiguous, in rank order, no gap, no overlap. -/
theorem slices_contiguous (n R : Nat) (hR : 0 < R) :
    ∃ b : Nat → Nat, b 0 = 0 ∧ b R = n ∧ (∀ r, r < R → b r ≤ b (r + 1)) ∧
      (∀ r, r < R → mySlice n R r = some (b r, b (r + 1))) := by
  refine ⟨lo n R, lo_zero n R, lo_R n R hR, ?_, ?_⟩
  · intro r _; exact lo_mono (Nat.le_succ r)
  · intro r hr; unfold mySlice; rw [slices_get? n R r hR, if_pos hr]

/-- C01.  The task lists of the ranks, concatenated in rank order, are exactly `0, 1, …, n-1`. -/
theorem tasks_concat (n R : Nat) (hR : 0 < R) :
    ∃ parts : List (List Nat), parts.length = R ∧ (∀ r, r < R → myTasks n R r = parts[r]?) ∧
      parts.flatten = List.range n := by
  refine ⟨(List.range R).map fun r => (List.range (szc n R r)).map (lo n R r + ·), by simp, ?_, ?_⟩
  · intro r hr; rw [myTasks_eq n R r hR hr]; simp [hr]
  · rw [range_add_flatten, lo_R n R hR]

/-- C01.  Every task is owned by exactly one rank. -/
theorem task_unique_owner (n R : Nat) (hR : 0 < R) (i : Nat) (hi : i < n) :
    ∃ r, (r < R ∧ ∃ ts, myTasks n R r = some ts ∧ i ∈ ts) ∧
      ∀ r', (r' < R ∧ ∃ ts, myTasks n R r' = some ts ∧ i ∈ ts) → r' = r := by
  have key : ∀ r, r < R → ((∃ ts, myTasks n R r = some ts ∧ i ∈ ts) ↔ lo n R r ≤ i ∧ i < lo n R (r + 1)) := by
    intro r hr
    rw [myTasks_eq n R r hR hr, lo_succ]
    constructor
    · rintro ⟨ts, h, hm⟩
      cases h
      simp only [List.mem_map, List.mem_range] at hm
      obtain ⟨a, ha, rfl⟩ := hm
      omega
    · rintro ⟨h1, h2⟩
      refine ⟨_, rfl, ?_⟩
      simp only [List.mem_map, List.mem_range]
      exact ⟨i - lo n R r, by omega, by omega⟩
  -- existence: by induction on the number of blocks
  have ex : ∀ k, k ≤ R → i < lo n R k → ∃ r, r < k ∧ lo n R r ≤ i ∧ i < lo n R (r + 1) := by
    intro k
    induction k with
    | zero => intro _ h; rw [lo_zero] at h; omega
    | succ k ih =>
      intro hk h
      by_cases hlt : i < lo n R k
      · obtain ⟨r, h1, h2⟩ := ih (by omega) hlt
        exact ⟨r, by omega, h2⟩
      · exact ⟨k, by omega, by omega, h⟩
  obtain ⟨r, hr, h1, h2⟩ := ex R (Nat.le_refl _) (by rw [lo_R n R hR]; exact hi)
  refine ⟨r, ⟨hr, (key r hr).mpr ⟨h1, h2⟩⟩, ?_⟩
  rintro r' ⟨hr', h'⟩
  have ⟨h3, h4⟩ := (key r' hr').mp h'
  rcases Nat.lt_trichotomy r r' with h | h | h
  · have := lo_mono (n := n) (R := R) (show r + 1 ≤ r' from h); omega
  · exact h.symm
  · have := lo_mono (n := n) (R := R) (show r' + 1 ≤ r from h); omega

/-- C01.  `my_size` is the number of tasks of the rank. -/
theorem mySize_eq_length (n R r : Nat) (hR : 0 < R) (hr : r < R) :
    mySize n R r = (myTasks n R r).map List.length := by
  rw [myTasks_eq n R r hR hr]
  unfold mySize
  rw [sizes_eq n R hR]
  simp [hr]

/-- test: 5 tasks on 3 ranks -/
example : (List.range 3).map (myTasks 5 3) = [some [0], some [1, 2], some [3, 4]] := by decide
/-- test: fewer tasks than ranks -/
example : (List.range 4).map (myTasks 2 4) = [some [], some [], some [0], some [1]] := by decide

/-! ### C02 — balance -/

/-- C02.  Sizes sum to the number of tasks. -/
theorem sizes_sum (n R : Nat) (hR : 0 < R) : (sizes n R).sum = n := by
  have h := sum_take_sizes n R R hR (Nat.le_refl _)
  rwa [List.take_of_length_le (by rw [length_sizes n R hR]; omega), lo_R n R hR] at h

/-- C02.  Exactly the last `n mod R` ranks get `⌊n/R⌋+1` tasks, the others `⌊n/R⌋`. -/
theorem mySize_value (n R r : Nat) (hR : 0 < R) (hr : r < R) :
    mySize n R r = some (if r + n % R < R then n / R else n / R + 1) := by
  unfold mySize
  rw [sizes_eq n R hR]
  simp only [List.getElem?_map, List.getElem?_range hr, Option.map_some, szc]
  have := Nat.mod_lt n hR
  congr 1
  split <;> split <;> omega

/-- C02.  Two ranks differ by at most one task. -/
theorem sizes_balanced (n R r r' a b : Nat) (hR : 0 < R) (ha : mySize n R r = some a) (hb : mySize n R r' = some b) :
    a ≤ b + 1 := by
  have len : ∀ k c, mySize n R k = some c → k < R := by
    intro k c h
    have := (List.getElem?_eq_some_iff.mp h).1
    rwa [length_sizes n R hR] at this
  rw [mySize_value n R r hR (len _ _ ha)] at ha
  rw [mySize_value n R r' hR (len _ _ hb)] at hb
  injection ha with ha; injection hb with hb
  subst ha; subst hb
  split <;> split <;> omega

/-- C02.  No rank is idle iff there are at least as many tasks as ranks. -/
theorem no_idle_rank_iff (n R : Nat) (hR : 0 < R) :
    (∀ r, r < R → ∃ a, mySize n R r = some a ∧ 0 < a) ↔ R ≤ n := by
  constructor
  · intro h
    obtain ⟨a, h1, h2⟩ := h 0 hR
    rw [mySize_value n R 0 hR hR] at h1
    injection h1 with h1
    by_cases hc : n < R
    · rw [Nat.div_eq_of_lt hc, Nat.mod_eq_of_lt hc] at h1
      simp [hc] at h1; omega
    · omega
  · intro h r hr
    refine ⟨_, mySize_value n R r hR hr, ?_⟩
    have : 0 < n / R := Nat.div_pos h hR
    split <;> omega

example : (List.range 4).map (mySize 10 4) = [some 2, some 2, some 3, some 3] := by decide

/-! ### C03 — scatter / gather -/

/-- specification: entry (row i, flattened trailing index j) of an array -/
def NdArray.entry? {α : Type} (a : NdArray α) (i j : Nat) : Option α :=
  if i < a.first ∧ j < a.other then a.buf[i * a.other + j]? else none

/-- C03.  Every rank receives exactly the rows of its slice: local row `i` is global row `start + i`. -/
theorem scatter_rows {α : Type} (n R : Nat) (hR : 0 < R) (full : NdArray α) (hwf : full.WF) (hfirst : full.first = n)
    (r a b : Nat) (hs : mySlice n R r = some (a, b)) :
    ∃ loc, scatter n R full r = some loc ∧ loc.WF ∧ loc.first = b - a ∧ loc.other = full.other ∧
      ∀ i j, i < b - a → loc.entry? i j = full.entry? (a + i) j := by
  have hr : r < R := by
    unfold mySlice at hs; rw [slices_get? n R r hR] at hs
    by_cases h : r < R
    · exact h
    · simp [h] at hs
  have hab : a = lo n R r ∧ b = lo n R (r + 1) := by
    unfold mySlice at hs; rw [slices_get? n R r hR, if_pos hr] at hs
    injection hs with hs; injection hs with h1 h2; exact ⟨h1.symm, h2.symm⟩
  obtain ⟨rfl, rfl⟩ := hab
  have hle : lo n R (r + 1) ≤ n := by
    have := lo_mono (n := n) (R := R) (show r + 1 ≤ R by omega)
    rwa [lo_R n R hR] at this
  have hsz : lo n R (r + 1) - lo n R r = szc n R r := by rw [lo_succ]; omega
  have hlen : full.buf.length = n * full.other := by rw [← hfirst]; exact hwf
  have hmul : lo n R r * full.other + szc n R r * full.other ≤ n * full.other := by
    rw [← Nat.add_mul, ← lo_succ]; exact Nat.mul_le_mul_right _ hle
  refine ⟨_, scatter_eq n R hR full hwf hfirst r hr, ?_, ?_, rfl, ?_⟩
  · simp only [NdArray.WF, List.length_take, List.length_drop]; omega
  · exact hsz.symm
  · intro i j hi
    rw [hsz] at hi
    simp only [NdArray.entry?, hfirst]
    by_cases hj : j < full.other
    · have h1 : i * full.other + j < szc n R r * full.other := by
        have : (i + 1) * full.other ≤ szc n R r * full.other := Nat.mul_le_mul_right _ hi
        rw [Nat.succ_mul] at this; omega
      have h2 : lo n R r + i < n := by rw [lo_succ] at hle; omega
      simp only [hi, hj, h2, and_self, if_true, List.getElem?_take, h1, List.getElem?_drop]
      rw [Nat.add_mul, Nat.add_assoc]
    · simp [hj]

/-- C03.  Gathering the scattered pieces restores the array, for every trailing shape and every number of ranks. -/
theorem gather_scatter {α : Type} (n R : Nat) (hR : 0 < R) (full : NdArray α) (hwf : full.WF)
    (hfirst : full.first = n) :
    ∃ locs : List (NdArray α), locs.length = R ∧ (∀ r, r < R → scatter n R full r = locs[r]?) ∧
      gather n R full.other locs = some full := by
  have hlen : full.buf.length = n * full.other := by rw [← hfirst]; exact hwf
  let seg : Nat → NdArray α := fun r => ⟨szc n R r, full.other,
      (full.buf.drop (lo n R r * full.other)).take (szc n R r * full.other)⟩
  refine ⟨(List.range R).map seg, by simp, ?_, ?_⟩
  · intro r hr; rw [scatter_eq n R hR full hwf hfirst r hr]; simp [hr, seg]
  · unfold gather
    rw [if_pos (by simp [seg]), gatherv, if_pos]
    · have h := flatten_segments full.buf (fun r => szc n R r * full.other) R
      simp only [sum_range_mul, lo_R n R hR] at h
      have h2 : (List.map (fun x => x.buf) (List.map seg (List.range R))) =
        (List.range R).map fun r => (full.buf.drop (lo n R r * full.other)).take (szc n R r * full.other) := by
        rw [List.map_map]; rfl
      rw [h2, h, Option.map_some, List.take_of_length_le (by omega)]
      cases full; simp_all
    · rw [sizes_mul_eq n R _ hR, List.map_map, List.map_map]
      apply List.map_congr_left
      intro r hr
      have hr' : r < R := List.mem_range.mp hr
      have hle : lo n R (r + 1) ≤ n := by
        have := lo_mono (n := n) (R := R) (show r + 1 ≤ R by omega)
        rwa [lo_R n R hR] at this
      have hmul : lo n R r * full.other + szc n R r * full.other ≤ n * full.other := by
        rw [← Nat.add_mul, ← lo_succ]; exact Nat.mul_le_mul_right _ hle
      simp only [Function.comp, seg, List.length_take, List.length_drop]
      omega

/-- C03.  In the other direction: gathering arbitrary rank results of the declared sizes succeeds, and scattering the
    gathered array returns to every rank what it sent. -/
theorem scatter_gather {α : Type} (n R s : Nat) (hR : 0 < R) (locs : List (NdArray α)) (hl : locs.length = R)
    (hok : ∀ r (h : r < locs.length), locs[r].WF ∧ locs[r].other = s ∧ mySize n R r = some locs[r].first) :
    ∃ full, gather n R s locs = some full ∧ full.WF ∧ full.first = n ∧ full.other = s ∧
      ∀ r, r < R → scatter n R full r = locs[r]? := by
  have hsz : ∀ r (h : r < locs.length), locs[r].first = szc n R r := by
    intro r h
    have := (hok r h).2.2
    unfold mySize at this
    rw [sizes_eq n R hR] at this
    simp [show r < R by omega] at this
    exact this.symm
  have hall : locs.all (fun a => a.other == s) = true := by
    rw [List.all_eq_true]
    intro x hx
    obtain ⟨i, hi, rfl⟩ := List.getElem_of_mem hx
    simp [(hok i hi).2.1]
  have hcnt : (locs.map (·.buf)).map List.length = (sizes n R).map (· * s) := by
    rw [sizes_mul_eq n R _ hR]
    apply List.ext_getElem
    · simp [hl]
    · intro i h1 h2
      have hi : i < locs.length := by simpa using h1
      simp only [List.getElem_map, List.getElem_range]
      rw [(hok i hi).1, hsz i hi, (hok i hi).2.1]
  refine ⟨{ first := n, other := s, buf := (locs.map (·.buf)).flatten }, ?_, ?_, rfl, rfl, ?_⟩
  · unfold gather gatherv
    rw [if_pos hall, if_pos hcnt]; rfl
  · simp only [NdArray.WF]
    rw [List.length_flatten, hcnt, sum_map_mul, sizes_sum n R hR]
  · intro r hr
    rw [scatter_eq n R hR _ ?_ rfl r hr]
    · have hr' : r < locs.length := by omega
      rw [List.getElem?_eq_getElem hr']
      congr 1
      have hdrop : ∀ k (ls : List (List α)), k ≤ ls.length →
          ls.flatten.drop (((ls.map List.length).take k).sum) = (ls.drop k).flatten := by
        intro k
        induction k with
        | zero => intro ls _; simp
        | succ k ih =>
          intro ls hk
          cases ls with
          | nil => simp at hk
          | cons x xs =>
            simp only [List.map_cons, List.take_succ_cons, List.sum_cons, List.flatten_cons, List.drop_succ_cons]
            rw [← ih xs (by simpa using hk)]
            simp [← List.drop_drop]
      have hsum : (((locs.map (·.buf)).map List.length).take r).sum = lo n R r * s := by
        rw [hcnt, ← List.map_take, sum_map_mul, sum_take_sizes n R r hR (by omega)]
      have hbuf : (locs.map (·.buf)).flatten.drop (lo n R r * s) = ((locs.map (·.buf)).drop r).flatten := by
        rw [← hsum, hdrop r _ (by simp; omega)]
      simp only []
      rw [hbuf, List.drop_eq_getElem_cons (by simpa using hr'), List.flatten_cons]
      simp only [List.getElem_map]
      have hl2 : locs[r].buf.length = szc n R r * s := by
        rw [(hok r hr').1, hsz r hr', (hok r hr').2.1]
      rw [← hl2, List.take_left]
      have e1 := hsz r hr'
      have e2 := (hok r hr').2.1
      rw [← e1, ← e2]
    · simp only [NdArray.WF]
      rw [List.length_flatten, hcnt, sum_map_mul, sizes_sum n R hR]

/-- test / non-vacuity: a 3×2 array on 2 ranks -/
example : let a : NdArray Nat := ⟨3, 2, [1, 2, 3, 4, 5, 6]⟩
    a.WF ∧ (scatter 3 2 a 1).map (·.buf) = some [3, 4, 5, 6] := by
  constructor
  · rfl
  · decide

/-! ### C04 — distributed sums -/

/-- C04.  `M` is any additive commutative monoid (arrays with entrywise addition).  Rank-local sums over `my_tasks`
    combined by `allreduce` give the serial sum over all tasks, whatever the number of ranks. -/
theorem allreduce_task_sums {M : Type} [Add M] [Zero M] (hassoc : ∀ a b c : M, a + b + c = a + (b + c))
    (hzero : ∀ a : M, 0 + a = a) (n R : Nat) (hR : 0 < R) (f : Nat → M) :
    ∃ locals : List M, locals.length = R ∧
      (∀ r, r < R → locals[r]? = (myTasks n R r).map fun ts => (ts.map f).foldr (· + ·) 0) ∧
      allreduce locals = ((List.range n).map f).foldr (· + ·) 0 := by
  obtain ⟨parts, hlen, hparts, hflat⟩ := tasks_concat n R hR
  refine ⟨parts.map fun ts => (ts.map f).foldr (· + ·) 0, by simp [hlen], ?_, ?_⟩
  · intro r hr; rw [hparts r hr]; simp
  · rw [← hflat]
    clear hparts hflat hlen
    unfold allreduce
    induction parts with
    | nil => rfl
    | cons p ps ih =>
      simp only [List.map_cons, List.foldr_cons, List.flatten_cons, List.map_append, List.foldr_append]
      rw [ih]
      induction p with
      | nil => simp [hzero]
      | cons x xs ihx => simp only [List.map_cons, List.foldr_cons]; rw [hassoc, ihx]

/-- test: 7 tasks on 3 ranks -/
example : allreduce ((List.range 3).map fun r => ((myTasks 7 3 r).getD []).foldr (· + ·) 0) = 21 := by decide

end DGA.Mpi
