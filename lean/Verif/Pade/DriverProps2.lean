/-
  C139 (continued)  what `pade` returns; exactness for rational Green's functions
-/
import Verif.Pade.DriverProps

namespace DGA.Pade.Driver
open Complex Polynomial

theorem accum_length (fs : List (List ℂ)) : (accum fs).length = fs.length := by simp [accum]

theorem select_average (argsort : List ℝ → List ℕ) (all : List (List ℂ)) (h : all.filter physical ≠ []) :
    (select argsort (all.filter physical)).1 = average c1v keep argsort all := by
  unfold select average
  generalize all.filter physical = fs at h
  match fs, h with
  | [f], _ => rfl
  | f :: g :: fs, _ => simp only [accum_length]

theorem pickMask_length {α : Type} (l : List α) (m : List Bool) : (pickMask l m).length ≤ (m.filter id).length := by
  induction l generalizing m with
  | nil => simp [pickMask]
  | cons a l ih =>
    cases m with
    | nil => simp [pickMask]
    | cons b m =>
      have := ih m
      simp only [pickMask, List.length_map] at this ⊢
      cases b <;> simp <;> simpa using this

theorem mask_count (c : ℝ) (m : ℕ) (d : List ℝ) (p : List ℕ) : ((mask c m d p).filter id).length ≤ m := by
  have h1 : ((mask c m d p).filter id).length ≤ ((List.range d.length).filter fun i => (p.take m).contains i).length := by
    rw [mask, List.filter_map, List.length_map]
    refine List.Sublist.length_le (List.monotone_filter_right _ ?_)
    intro i hi
    simp only [Function.comp, id, Bool.and_eq_true] at hi
    exact hi.2
  refine h1.trans ?_
  have h2 : ((List.range d.length).filter fun i => (p.take m).contains i).Subperm (p.take m) := by
    refine (List.nodup_range.filter _).subperm ?_
    intro i hi
    simpa using (List.mem_filter.1 hi).2
  exact h2.length_le.trans (List.length_take_le _ _)

/-- **C139.** What a call that does not exit returns: the counter 321 is printed, `fs` are the physical continuations, `masks` has one entry
    for each of them, `fmeans` is the mean of the marked ones; if there are several, at most 51 % are marked; the mean has nowhere positive
    imaginary part. -/
theorem pade_returns (matrix : List ℂ → List ℂ → ℕ → List ℂ) (opt : (ℕ → ℝ) → ℕ → ℝ) (argsort : List ℝ → List ℕ)
    (zin fin zout : List ℂ) (c : ℕ) (mean : Option (List ℂ)) (fs : List (List ℂ)) (masks : List Bool)
    (h : pade matrix opt argsort zin fin zout = .done c mean fs masks) :
    c = 321 ∧ fs = (jobs.map (cont matrix zin fin zout)).filter physical ∧ fs ≠ [] ∧ masks.length = fs.length ∧
      mean = meanRows (pickMask fs masks) ∧ (fs.length = 1 → masks = [true]) ∧
      (2 ≤ fs.length → 100 * (pickMask fs masks).length ≤ 51 * fs.length) ∧
      (∀ out, mean = some out → out.length = zout.length ∧ ∀ x ∈ out, x.im ≤ 0) := by
  unfold pade at h
  rw [loop_value] at h
  simp only at h
  split at h
  · cases h
  rename_i hne
  cases h
  have hlen : ∀ f ∈ (jobs.map (cont matrix zin fin zout)).filter physical, f.length = zout.length := by
    intro f hf
    obtain ⟨j, _, rfl⟩ := List.mem_map.1 (List.mem_filter.1 hf).1
    simp [cont]
  have hav := select_average argsort _ hne
  refine ⟨rfl, rfl, hne, ?_, ?_, ?_, ?_, ?_⟩
  · generalize (jobs.map (cont matrix zin fin zout)).filter physical = fs at hne
    match fs, hne with
    | [f], _ => rfl
    | f :: g :: fs, _ => simp [select, mask, accum_length]
  · generalize (jobs.map (cont matrix zin fin zout)).filter physical = fs at hne
    match fs, hne with
    | [f], _ =>
      simp only [select, pickMask, List.zip_cons_cons, List.zip_nil_right, List.filter_cons, if_true, List.filter_nil, List.map_cons, List.map_nil, meanRows]
      congr 1
      apply List.ext_getElem
      · simp
      · intro i h1 h2
        simp [List.getD_eq_getElem?_getD, h1]
    | f :: g :: fs, _ => rfl
  · generalize (jobs.map (cont matrix zin fin zout)).filter physical = fs at hne
    intro hl
    match fs, hl with
    | [f], _ => rfl
  · generalize (jobs.map (cont matrix zin fin zout)).filter physical = fs at hne
    intro hl
    match fs, hl with
    | f :: g :: fs, _ =>
      have h1 := (pickMask_length (f :: g :: fs) _).trans (mask_count c1v (keep (accum (f :: g :: fs)).length) (accum (f :: g :: fs)) (argsort (accum (f :: g :: fs))))
      rw [accum_length] at h1
      simp only [select, accum_length]
      unfold keep at h1 ⊢
      omega
  · intro out hout
    rw [hout] at hav
    refine ⟨?_, average_physical c1v keep argsort _ out hav.symm⟩
    generalize (jobs.map (cont matrix zin fin zout)).filter physical = fs at hne hlen hout
    match fs, hne with
    | [f], _ => simp only [select, Option.some.injEq] at hout; subst hout; exact hlen f (by simp)
    | f :: g :: fs, _ =>
      simp only [select] at hout
      match hr : pickMask (f :: g :: fs) (mask c1v (keep (accum (f :: g :: fs)).length) (accum (f :: g :: fs)) (argsort (accum (f :: g :: fs)))), hout with
      | [], hout => simp [meanRows] at hout
      | r :: rs, hout =>
        simp only [meanRows, Option.some.injEq] at hout
        subst hout
        have : r ∈ f :: g :: fs := pickMask_subset _ _ _ (by rw [hr]; simp)
        simpa using hlen r this

theorem pickMask_ne_nil {α : Type} (l : List α) (m : List Bool) (hl : m.length = l.length) :
    pickMask l m ≠ [] ↔ ∃ i, i < l.length ∧ m.getD i false = true := by
  constructor
  · intro h
    obtain ⟨x, hx⟩ := List.exists_mem_of_ne_nil _ h
    simp only [pickMask, List.mem_map, List.mem_filter] at hx
    obtain ⟨⟨a, b⟩, ⟨h1, h2⟩, rfl⟩ := hx
    obtain ⟨i, hi⟩ := List.mem_iff_getElem?.1 h1
    rw [List.getElem?_zip_eq_some] at hi
    obtain ⟨h3, h4⟩ := hi
    refine ⟨i, (List.getElem?_eq_some_iff.1 h3).1, ?_⟩
    rw [List.getD_eq_getElem?_getD, h4]; exact h2
  · rintro ⟨i, hi, hm⟩ h
    have : l[i] ∈ pickMask l m := by
      simp only [pickMask, List.mem_map, List.mem_filter]
      refine ⟨(l[i], true), ⟨?_, rfl⟩, rfl⟩
      rw [List.mem_iff_getElem?]
      refine ⟨i, ?_⟩
      rw [List.getElem?_zip_eq_some]
      refine ⟨by simp [hi], ?_⟩
      rw [List.getD_eq_getElem?_getD] at hm
      rw [List.getElem?_eq_getElem (by omega)] at hm ⊢
      simpa using hm
    rw [h] at this; simp at this

/-- **C139.** With at least two physical continuations the returned mean is defined exactly if some continuation's total distance to the others
    is at most 0.99 of the average total distance; otherwise the result is nan at every point. -/
theorem pade_mean_defined_iff (argsort : List ℝ → List ℕ) (fs : List (List ℂ)) (h2 : 2 ≤ fs.length) (hs : isArgsort (accum fs) (argsort (accum fs))) :
    (select argsort fs).1 ≠ none ↔ ∃ i, i < fs.length ∧ (accum fs).getD i 0 ≤ 99 / 100 * ((accum fs).sum / fs.length) := by
  have hsel : (select argsort fs).1 = meanRows (pickMask fs (mask c1v (keep (accum fs).length) (accum fs) (argsort (accum fs)))) := by
    match fs, h2 with
    | f :: g :: fs, _ => rfl
  have hmr : ∀ rows : List (List ℂ), meanRows rows ≠ none ↔ rows ≠ [] := by
    intro rows; cases rows <;> simp [meanRows]
  rw [hsel, hmr, pickMask_ne_nil _ _ (by simp [mask, accum_length])]
  have hmk : ∀ i, i < fs.length → ((mask c1v (keep (accum fs).length) (accum fs) (argsort (accum fs))).getD i false = true ↔
      ((accum fs).getD i 0 ≤ 99 / 100 * ((accum fs).sum / fs.length) ∧ i ∈ (argsort (accum fs)).take (keep fs.length))) := by
    intro i hi
    have hi' : i < (accum fs).length := by rw [accum_length]; exact hi
    rw [mask, List.getD_eq_getElem?_getD, List.getElem?_map, List.getElem?_range hi', Option.map_some, Option.getD_some]
    simp only [Bool.and_eq_true, decide_eq_true_eq, List.contains_iff_mem, accum_length, c1v]
  constructor
  · rintro ⟨i, hi, hm⟩
    exact ⟨i, hi, ((hmk i hi).1 hm).1⟩
  · rintro ⟨i, hi, hd⟩
    obtain ⟨hperm, hpw⟩ := hs
    rw [accum_length] at hperm
    have hk : 0 < keep fs.length := by unfold keep; omega
    match hp : argsort (accum fs) with
    | [] => rw [hp] at hperm; have := hperm.length_eq; simp at this; omega
    | a :: l =>
      have ha : a < fs.length := by
        have : a ∈ List.range fs.length := hperm.mem_iff.1 (by rw [hp]; simp)
        simpa using this
      refine ⟨a, ha, ?_⟩
      rw [← hp]
      refine (hmk a ha).2 ⟨?_, ?_⟩
      · refine le_trans ?_ hd
        have hi2 : i ∈ a :: l := by rw [← hp]; exact hperm.mem_iff.2 (by simpa using hi)
        rcases List.mem_cons.1 hi2 with rfl | hil
        · exact le_rfl
        · rw [hp] at hpw
          exact (List.pairwise_cons.1 hpw).1 i hil
      · rw [hp]
        obtain ⟨k, hk'⟩ := Nat.exists_eq_add_of_lt hk
        rw [hk']; simp [List.take_succ_cons]

theorem jobs_bounds : ∀ j ∈ jobs, ∃ nadd r : ℕ, j.1 = -(nadd : ℤ) ∧ 1 ≤ nadd ∧ nadd ≤ 3 ∧ 50 ≤ j.2.1 ∧ j.2.2 = 2 * r ∧ 20 ≤ r ∧ r ≤ 40 ∧ 2 * r ≤ j.2.1 := by
  intro j hj
  have h : ∀ j ∈ jobs, (j.1 < 0 ∧ -3 ≤ j.1) ∧ 50 ≤ j.2.1 ∧ j.2.2 % 2 = 0 ∧ 40 ≤ j.2.2 ∧ j.2.2 ≤ 80 ∧ j.2.2 ≤ j.2.1 := by decide +kernel
  obtain ⟨⟨h1, h2⟩, h3, h4, h5, h6, h7⟩ := h j hj
  exact ⟨(-j.1).toNat, j.2.2 / 2, by omega, by omega, by omega, h3, by omega, by omega, by omega, by omega⟩

theorem conj_value (P Q : ℝ[X]) (z f : ℂ) (h : aeval z P = f * aeval z Q) :
    aeval (starRingEnd ℂ z) P = starRingEnd ℂ f * aeval (starRingEnd ℂ z) Q := by
  rw [aeval_conj, aeval_conj, h, map_mul]

/-- **C139.** Every continuation is exact for a rational function with real coefficients that decays at infinity and has at most 20 poles,
    sampled at enough distinct points of the upper half plane. -/
theorem cont_exact (matrix : List ℂ → List ℂ → ℕ → List ℂ) (hmat : SolvesExact matrix) (P Q : ℝ[X]) (hdeg : P.natDegree < Q.natDegree)
    (h20 : Q.natDegree ≤ 20) (zin zout : List ℂ) (hn : 39 + Q.natDegree ≤ zin.length) (hnd : zin.Nodup) (him : ∀ z ∈ zin, 0 < z.im)
    (hQ : ∀ z ∈ zin, aeval z Q ≠ 0) (hQo : ∀ w ∈ zout, aeval w Q ≠ 0) (j : ℤ × ℕ × ℕ) (hj : j ∈ jobs)
    (hden : ∀ w ∈ zout, denom w (matrix (pickPoints (starRingEnd ℂ) zin (zin.map fun z => aeval z P / aeval z Q) j.1 j.2.1).1
      (pickPoints (starRingEnd ℂ) zin (zin.map fun z => aeval z P / aeval z Q) j.1 j.2.1).2 j.2.2) ≠ 0) :
    cont matrix zin (zin.map fun z => aeval z P / aeval z Q) zout j = zout.map fun w => aeval w P / aeval w Q := by
  obtain ⟨nmin, M, N⟩ := j
  obtain ⟨nadd, r, h1, h2, h3, h4, h5, h6, h7, h8⟩ := jobs_bounds _ hj
  simp only at h1 h4 h5 h8 hden
  subst h1 h5
  let ps : List (ℂ × ℂ) := zin.map fun z => (z, aeval z P / aeval z Q)
  have e1 : ps.map Prod.fst = zin := by simp [ps, Function.comp_def]
  have e2 : ps.map Prod.snd = zin.map fun z => aeval z P / aeval z Q := by simp [ps, Function.comp_def]
  have hl : ps.length = zin.length := by simp [ps]
  have hpk := pick_eq ps nadd M (by omega) (by omega)
  rw [e1, e2] at hpk
  rw [hpk] at hden
  have hPd : (P.map (algebraMap ℝ ℂ)).natDegree = P.natDegree := natDegree_map _
  have hQd : (Q.map (algebraMap ℝ ℂ)).natDegree = Q.natDegree := natDegree_map _
  have hev : ∀ (R : ℝ[X]) (w : ℂ), (R.map (algebraMap ℝ ℂ)).eval w = aeval w R := fun R w => by rw [eval_map_algebraMap]
  have hps : ∀ p ∈ ps, aeval p.1 P = p.2 * aeval p.1 Q := by
    intro p hp
    obtain ⟨z, hz, rfl⟩ := List.mem_map.1 hp
    exact (div_mul_cancel₀ _ (hQ z hz)).symm
  have hv : ∀ p ∈ pairs ps nadd M, (P.map (algebraMap ℝ ℂ)).eval p.1 = p.2 * (Q.map (algebraMap ℝ ℂ)).eval p.1 := by
    intro p hp
    rw [hev, hev]
    rcases mem_pairs ps nadd M p hp with hp | ⟨q, hq, rfl⟩
    · exact hps p hp
    · exact conj_value P Q q.1 q.2 (hps q hq)
  have hx := hmat _ _ r (solution_exists (pairs ps nadd M) r _ _ (by rw [hPd, hQd]; exact hdeg) (by rw [hQd]; omega) hv)
  simp only [cont, hpk]
  refine List.map_congr_left fun w hw => ?_
  rw [← hev P w, ← hev Q w]
  refine solution_unique (pairs ps nadd M) r (by omega) _ _ _ (by rw [hPd, hQd]; exact hdeg) hx
    (pairs_nodup ps nadd M (by rw [e1]; exact hnd) (by
      intro p hp
      obtain ⟨z, hz, rfl⟩ := List.mem_map.1 hp
      exact him z hz)) ?_ hv w (by rw [hev]; exact hQo w hw) (hden w hw)
  rw [hQd, pairs_length ps nadd M (by omega) (by omega), hl]
  omega

/-- **C139.** The averaged continuation is exact: data of a rational function `P/Q` with real coefficients, decaying at infinity, at most 20 poles,
    nowhere positive imaginary part at the output points, sampled at at least 39 + (number of poles) distinct points of the upper half plane, are
    continued to `P/Q` itself, all 321 continuations are physical and 163 at most enter the average. -/
theorem pade_exact (matrix : List ℂ → List ℂ → ℕ → List ℂ) (hmat : SolvesExact matrix) (opt : (ℕ → ℝ) → ℕ → ℝ) (argsort : List ℝ → List ℕ)
    (hsort : ∀ d, isArgsort d (argsort d)) (P Q : ℝ[X]) (hdeg : P.natDegree < Q.natDegree)
    (h20 : Q.natDegree ≤ 20) (zin zout : List ℂ) (hn : 39 + Q.natDegree ≤ zin.length) (hnd : zin.Nodup) (him : ∀ z ∈ zin, 0 < z.im)
    (hQ : ∀ z ∈ zin, aeval z Q ≠ 0) (hQo : ∀ w ∈ zout, aeval w Q ≠ 0) (hphys : ∀ w ∈ zout, (aeval w P / aeval w Q : ℂ).im ≤ 0)
    (hden : ∀ j ∈ jobs, ∀ w ∈ zout, denom w (matrix (pickPoints (starRingEnd ℂ) zin (zin.map fun z => aeval z P / aeval z Q) j.1 j.2.1).1
      (pickPoints (starRingEnd ℂ) zin (zin.map fun z => aeval z P / aeval z Q) j.1 j.2.1).2 j.2.2) ≠ 0) :
    ∃ masks, pade matrix opt argsort zin (zin.map fun z => aeval z P / aeval z Q) zout
      = .done 321 (some (zout.map fun w => aeval w P / aeval w Q)) (List.replicate 321 (zout.map fun w => aeval w P / aeval w Q)) masks := by
  set F := zout.map fun w => (aeval w P / aeval w Q : ℂ) with hF
  have hall : jobs.map (cont matrix zin (zin.map fun z => aeval z P / aeval z Q) zout) = List.replicate 321 F := by
    rw [List.eq_replicate_iff]
    refine ⟨by rw [List.length_map, jobs_length], ?_⟩
    intro b hb
    obtain ⟨j, hj, rfl⟩ := List.mem_map.1 hb
    exact cont_exact matrix hmat P Q hdeg h20 zin zout hn hnd him hQ hQo j hj (hden j hj)
  have hp : physical F = true := by
    simp only [physical, List.all_eq_true, decide_eq_true_eq, hF, List.mem_map]
    rintro x ⟨w, hw, rfl⟩
    exact hphys w hw
  have hfil : (List.replicate 321 F).filter physical = List.replicate 321 F := by
    rw [List.filter_eq_self]
    intro a ha
    rw [List.eq_of_mem_replicate ha]; exact hp
  have hav := average_const c1v keep argsort (List.replicate 321 F) F 321 (by norm_num) hfil (by decide) (hsort _)
  rw [← select_average argsort _ (by rw [hfil, List.replicate_succ]; exact List.cons_ne_nil _ _), hfil] at hav
  unfold pade
  rw [loop_value, hall, hfil]
  simp only
  rw [if_neg (by rw [List.replicate_succ]; exact List.cons_ne_nil _ _), hav]
  exact ⟨_, rfl⟩

/-- **C139.** With few data the continuations are not independent: all numbers of points larger than the number of data plus mirrored ones pick
    the same points, so that they yield the same continuation for the same number of coefficients. -/
theorem cont_saturates (matrix : List ℂ → List ℂ → ℕ → List ℂ) (zin fin zout : List ℂ) (hl : zin.length = fin.length) (nadd M M' N : ℕ) (h0 : 0 < nadd)
    (h1 : zin.length + nadd ≤ M) (h2 : zin.length + nadd ≤ M') :
    cont matrix zin fin zout (-(nadd : ℤ), M, N) = cont matrix zin fin zout (-(nadd : ℤ), M', N) := by
  have e1 : (zin.zip fin).map Prod.fst = zin := List.map_fst_zip (by omega)
  have e2 : (zin.zip fin).map Prod.snd = fin := List.map_snd_zip (by omega)
  have key : ∀ M, zin.length + nadd ≤ M → pairs (zin.zip fin) nadd M = ((zin.zip fin).take nadd).reverse.map (fun p => (starRingEnd ℂ p.1, starRingEnd ℂ p.2)) ++ zin.zip fin := by
    intro M hM
    rw [pairs, List.take_of_length_le (i := M - nadd) (by rw [List.length_zip]; omega)]
  have p1 := pick_eq (zin.zip fin) nadd M h0 (by omega)
  have p2 := pick_eq (zin.zip fin) nadd M' h0 (by omega)
  rw [e1, e2] at p1 p2
  simp only [cont, p1, p2, key M h1, key M' h2]

/-! ### non-vacuity: the function `1/z` -/

/-- coefficients of `z^(r-1) / z^r` -/
noncomputable def inv (N : ℕ) : List ℂ := (List.range (N / 2 * 2)).map fun i => if i + 1 = N / 2 then 1 else 0

open Classical in
/-- a solver that returns exact solutions, and the shortest one for the data `1/z` -/
noncomputable def solver (zs fs : List ℂ) (N : ℕ) : List ℂ :=
  if isMatrixSolution zs fs (N / 2) (inv N) then inv N
  else if h : ∃ x, isMatrixSolution zs fs (N / 2) x then h.choose else []

theorem solver_exact : SolvesExact solver := by
  intro zs fs r h
  unfold solver
  rw [Nat.mul_div_cancel_left _ (by omega : 0 < 2)]
  split
  · assumption
  · exact h.choose_spec

theorem inv_solves (qs : List (ℂ × ℂ)) (r : ℕ) (hr : 0 < r) (h : ∀ p ∈ qs, p.2 * p.1 = 1) :
    isMatrixSolution (qs.map Prod.fst) (qs.map Prod.snd) r (inv (2 * r)) := by
  rw [solution_iff]
  refine ⟨by simp [inv, mul_comm], ?_⟩
  rw [zip_pairs]
  intro p hp
  have e1 : (numP r (inv (2 * r))).eval p.1 = p.1 ^ (r - 1) := by
    rw [numP_eval, list_range_sum, Finset.sum_eq_single (r - 1)]
    · simp only [inv, Nat.mul_div_cancel_left _ (by omega : 0 < 2), List.getD_eq_getElem?_getD, List.getElem?_map]
      rw [List.getElem?_range (by omega)]
      simp [show r - 1 + 1 = r by omega]
    · intro b hb hne
      rw [Finset.mem_range] at hb
      simp only [inv, Nat.mul_div_cancel_left _ (by omega : 0 < 2), List.getD_eq_getElem?_getD, List.getElem?_map]
      rw [List.getElem?_range (by omega)]
      simp [show b + 1 ≠ r by omega]
    · intro hh; exact absurd (Finset.mem_range.2 (by omega)) hh
  have e2 : (denP r (inv (2 * r))).eval p.1 = p.1 ^ r := by
    rw [denP_eval, list_range_sum, Finset.sum_eq_zero, zero_add]
    intro b hb
    rw [Finset.mem_range] at hb
    simp only [inv, Nat.mul_div_cancel_left _ (by omega : 0 < 2), List.getD_eq_getElem?_getD, List.getElem?_map]
    rw [List.getElem?_range (by omega)]
    simp [show r + b + 1 ≠ r by omega]
  rw [e1, e2]
  obtain ⟨r', rfl⟩ : ∃ r', r = r' + 1 := ⟨r - 1, by omega⟩
  rw [Nat.add_sub_cancel, pow_succ]
  linear_combination (-p.1 ^ r') * h p hp

theorem inv_denom (r : ℕ) (w : ℂ) : denom w (inv (2 * r)) = w ^ r := by
  have hl : (inv (2 * r)).length / 2 = r := by simp [inv]
  rw [denom, hl, list_range_sum, Finset.sum_eq_zero, zero_add]
  intro b hb
  rw [Finset.mem_range] at hb
  simp only [inv, Nat.mul_div_cancel_left _ (by omega : 0 < 2), List.getD_eq_getElem?_getD, List.getElem?_map]
  rw [List.getElem?_range (by omega)]
  simp [show r + b + 1 ≠ r by omega]

/-- the hypotheses of `pade_exact` hold for forty Matsubara points of `1/z`, evaluated slightly above the real axis: the result is `1/w` -/
example (opt : (ℕ → ℝ) → ℕ → ℝ) (argsort : List ℝ → List ℕ) (hsort : ∀ d, isArgsort d (argsort d)) :
    let zin := (List.range 40).map fun (k : ℕ) => ((2 * k + 1 : ℝ) : ℂ) * I
    let zout : List ℂ := [1 + I, -2 + I]
    ∃ masks, pade solver opt argsort zin (zin.map fun z => aeval z (1 : ℝ[X]) / aeval z (X : ℝ[X])) zout
      = .done 321 (some (zout.map fun w => aeval w (1 : ℝ[X]) / aeval w (X : ℝ[X])))
          (List.replicate 321 (zout.map fun w => aeval w (1 : ℝ[X]) / aeval w (X : ℝ[X]))) masks := by
  intro zin zout
  have himz : ∀ z ∈ zin, 0 < z.im := by
    intro z hz
    obtain ⟨k, _, rfl⟩ := List.mem_map.1 hz
    rw [Complex.im_ofReal_mul, I_im, mul_one]
    positivity
  have hz0 : ∀ z ∈ zin, z ≠ 0 := fun z hz h0 => by have := himz z hz; rw [h0] at this; simp at this
  have hw0 : ∀ w ∈ zout, w.im = 1 := by
    intro w hw
    simp only [zout, List.mem_cons, List.not_mem_nil, or_false] at hw
    rcases hw with rfl | rfl <;> simp
  have hw1 : ∀ w ∈ zout, w ≠ 0 := fun w hw h0 => by have := hw0 w hw; rw [h0] at this; simp at this
  refine pade_exact solver solver_exact opt argsort hsort 1 X (by simp) (by simp) zin zout (by simp [zin]) ?_ himz ?_ ?_ ?_ ?_
  · refine List.Nodup.map ?_ List.nodup_range
    intro a b hab
    have := congrArg Complex.im hab
    rw [Complex.im_ofReal_mul, Complex.im_ofReal_mul, I_im, mul_one, mul_one] at this
    exact_mod_cast (by linarith : (a : ℝ) = b)
  · intro z hz; rw [aeval_X]; exact hz0 z hz
  · intro z hz; rw [aeval_X]; exact hw1 z hz
  · intro w hw
    rw [aeval_X, map_one, one_div, Complex.inv_im, hw0 w hw]
    exact div_nonpos_of_nonpos_of_nonneg (by norm_num) (Complex.normSq_nonneg w)
  · intro j hj w hw
    obtain ⟨nmin, M, N⟩ := j
    obtain ⟨nadd, r, h1, h2, h3, h4, h5, h6, h7, h8⟩ := jobs_bounds _ hj
    simp only at h1 h4 h5 h8 ⊢
    subst h1 h5
    let ps : List (ℂ × ℂ) := zin.map fun z => (z, aeval z (1 : ℝ[X]) / aeval z (X : ℝ[X]))
    have hpk := pick_eq ps nadd M (by omega) (by omega)
    rw [show ps.map Prod.fst = zin by simp [ps, Function.comp_def],
      show ps.map Prod.snd = zin.map fun z => aeval z (1 : ℝ[X]) / aeval z (X : ℝ[X]) by simp only [ps, List.map_map]; rfl] at hpk
    rw [hpk]
    have hps : ∀ p ∈ ps, p.2 * p.1 = 1 := by
      intro p hp
      obtain ⟨z, hz, rfl⟩ := List.mem_map.1 hp
      simp only [aeval_X, map_one]
      exact div_mul_cancel₀ _ (hz0 z hz)
    have hsol := inv_solves (pairs ps nadd M) r (by omega) (by
      intro p hp
      rcases mem_pairs ps nadd M p hp with hp | ⟨q, hq, rfl⟩
      · exact hps p hp
      · simp only
        rw [← map_mul, hps q hq, map_one])
    have : solver ((pairs ps nadd M).map Prod.fst) ((pairs ps nadd M).map Prod.snd) (2 * r) = inv (2 * r) := by
      unfold solver
      rw [Nat.mul_div_cancel_left _ (by omega : 0 < 2), if_pos hsol]
    rw [this, inv_denom]
    exact pow_ne_zero _ (hw1 w hw)

/-- a sorting function exists -/
example : ∃ argsort : List ℝ → List ℕ, ∀ d, isArgsort d (argsort d) := by
  refine ⟨fun d => (List.range d.length).mergeSort fun i j => decide (d.getD i 0 ≤ d.getD j 0), fun d => ⟨List.mergeSort_perm _ _, ?_⟩⟩
  refine (List.pairwise_mergeSort (le := fun i j => decide (d.getD i 0 ≤ d.getD j 0)) ?_ ?_ _).imp fun h => by simpa using h
  · intro a b c h1 h2; simp only [decide_eq_true_eq] at *; exact h1.trans h2
  · intro a b; simp only [Bool.or_eq_true, decide_eq_true_eq]; exact le_total _ _

end DGA.Pade.Driver
