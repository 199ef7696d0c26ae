/-
  C93: determination of α — schedules, termination, what is returned; Bryan's average is a convex combination.
-/
import Verif.MaxEnt.Sched
import Verif.MaxEnt.Quad
import Mathlib.Analysis.SpecificLimits.Basic

noncomputable section

namespace DGA.Mx

open Finset

variable {nw ns : ℕ}

/-! ### chi2kink -/

/-- state after k values of α of the schedule start, start/div, start/div², … -/
def kinkState (opt : Opt nw ns) (start div : ℝ) : ℕ → (Fin ns → ℝ) × List (ℝ × Res nw ns)
  | 0 => (0, [])
  | k + 1 => kinkStep opt (start / div ^ k) (kinkState opt start div k)

theorem kinkLoop_eq (opt : Opt nw ns) (start aEnd div : ℝ) (K : ℕ) (h1 : start / div ^ (K + 1) < aEnd)
    (h2 : ∀ k, 1 ≤ k → k ≤ K → aEnd ≤ start / div ^ k) :
    ∀ (d k fuel : ℕ), k + d = K → d < fuel →
      kinkLoop opt aEnd div fuel (start / div ^ k) (kinkState opt start div k) = some (kinkState opt start div (K + 1)).2 := by
  intro d
  induction d with
  | zero =>
    intro k fuel hk hf
    obtain ⟨f, rfl⟩ : ∃ f, fuel = f + 1 := ⟨fuel - 1, by omega⟩
    have : k = K := by omega
    subst this
    rw [kinkLoop, div_div, ← pow_succ, if_pos h1]
    rfl
  | succ d ih =>
    intro k fuel hk hf
    obtain ⟨f, rfl⟩ : ∃ f, fuel = f + 1 := ⟨fuel - 1, by omega⟩
    rw [kinkLoop, div_div, ← pow_succ, if_neg (not_lt.mpr (h2 (k + 1) (by omega) (by omega)))]
    exact ih (k + 1) f (by omega) (by omega)

/-- C93 (a): the scan visits start, start/div, … down to the last value not below the end (the first value always), and ends -/
theorem kink_scan (opt : Opt nw ns) (start aEnd div : ℝ) (he : 0 < aEnd) (hd : 1 < div) :
    ∃ K, start / div ^ (K + 1) < aEnd ∧ (∀ k, 1 ≤ k → k ≤ K → aEnd ≤ start / div ^ k) ∧
      ∀ fuel, K < fuel → kinkLoop opt aEnd div fuel start (0, []) = some (kinkState opt start div (K + 1)).2 := by
  classical
  have hex : ∃ K, start / div ^ (K + 1) < aEnd := by
    obtain ⟨n, hn⟩ := pow_unbounded_of_one_lt (start / aEnd) hd
    refine ⟨n, ?_⟩
    have hp : (0 : ℝ) < div ^ (n + 1) := by positivity
    rw [div_lt_iff₀ hp]
    rw [div_lt_iff₀ he] at hn
    have : div ^ n ≤ div ^ (n + 1) := pow_le_pow_right₀ hd.le (by omega)
    nlinarith
  refine ⟨Nat.find hex, Nat.find_spec hex, ?_, ?_⟩
  · intro k hk1 hk2
    have := Nat.find_min hex (m := k - 1) (by omega)
    rw [Nat.sub_add_cancel hk1] at this
    exact not_lt.mp this
  · intro fuel hf
    have := kinkLoop_eq opt start aEnd div (Nat.find hex) (Nat.find_spec hex) (by
      intro k hk1 hk2
      have := Nat.find_min hex (m := k - 1) (by omega)
      rw [Nat.sub_add_cancel hk1] at this
      exact not_lt.mp this) (Nat.find hex) 0 fuel (by omega) hf
    rw [pow_zero, div_one] at this
    exact this

/-- C93 (b): with a divisor of at most one the loop never ends -/
theorem kink_forever (opt : Opt nw ns) (aEnd div : ℝ) (he : 0 < aEnd) (hd0 : 0 < div) (hd : div ≤ 1) :
    ∀ (fuel : ℕ) (alpha : ℝ) (st : (Fin ns → ℝ) × List (ℝ × Res nw ns)), aEnd ≤ alpha → kinkLoop opt aEnd div fuel alpha st = none := by
  intro fuel
  induction fuel with
  | zero => intros; rfl
  | succ f ih =>
    intro alpha st h
    have h' : aEnd ≤ alpha / div := by
      rw [le_div_iff₀ hd0]; nlinarith
    rw [kinkLoop, if_neg (not_lt.mpr h')]
    exact ih _ _ h'

/-- C93 (c): what the list of runs contains: optimisations at values of the schedule in decreasing order, each started at the result of the
    previous one (the first at zero); nothing that succeeded is missing -/
theorem kinkState_spec (opt : Opt nw ns) (start div : ℝ) (hs : 0 < start) (hd : 1 < div) (K : ℕ) :
    let st := kinkState opt start div K
    (st.1 = match st.2.getLast? with | some p => p.2.u | none => 0) ∧
    (∀ i p, st.2[i]? = some p → ∃ k, k < K ∧ p.1 = start / div ^ k ∧
      opt p.1 (if 0 < i then (match st.2[i - 1]? with | some q => q.2.u | none => 0) else 0) = .ok p.2) ∧
    (st.2.map Prod.fst).Pairwise (· > ·) ∧
    (∀ k, k < K → (∀ u, ∃ o, opt (start / div ^ k) u = .ok o) → start / div ^ k ∈ st.2.map Prod.fst) := by
  induction K with
  | zero => simp [kinkState]
  | succ K ih =>
    obtain ⟨h1, h2, h3, h4⟩ := ih
    have hdec : ∀ j k : ℕ, j < k → start / div ^ k < start / div ^ j := by
      intro j k hjk
      have : div ^ j < div ^ k := pow_lt_pow_right₀ hd hjk
      have hp : (0 : ℝ) < div ^ j := by positivity
      exact div_lt_div_of_pos_left hs hp this
    generalize hst : kinkState opt start div K = st at *
    simp only [kinkState, hst, kinkStep]
    cases ho : opt (start / div ^ K) st.1 with
    | error e =>
      refine ⟨h1, fun i p hp => ?_, h3, fun k hk hu => ?_⟩
      · obtain ⟨k, a, b, c⟩ := h2 i p hp
        exact ⟨k, by omega, b, c⟩
      · rcases Nat.lt_succ_iff_lt_or_eq.mp hk with h | h
        · exact h4 k h hu
        · subst h
          obtain ⟨o, ho'⟩ := hu st.1
          rw [ho] at ho'; cases ho'
    | ok o =>
      dsimp only
      refine ⟨by simp, fun i p hp => ?_, ?_, fun k hk hu => ?_⟩
      · rcases Nat.lt_trichotomy i st.2.length with hi | hi | hi
        · rw [List.getElem?_append_left hi] at hp
          obtain ⟨k, a, b, c⟩ := h2 i p hp
          refine ⟨k, by omega, b, ?_⟩
          rw [List.getElem?_append_left (by omega)]
          exact c
        · subst hi
          simp only [List.getElem?_append_right le_rfl, Nat.sub_self, List.getElem?_cons_zero, Option.some.injEq] at hp
          subst hp
          refine ⟨K, by omega, rfl, ?_⟩
          dsimp only
          by_cases h0 : 0 < st.2.length
          · rw [if_pos h0, List.getElem?_append_left (by omega), ← List.getLast?_eq_getElem?, ← h1, ho]
          · rw [if_neg h0]
            have : st.2 = [] := List.length_eq_zero_iff.mp (by omega)
            rw [this] at h1
            simp only [List.getLast?_nil] at h1
            rw [← h1, ho]
        · rw [List.getElem?_eq_none (by simp; omega)] at hp; cases hp
      · rw [List.map_append, List.pairwise_append]
        refine ⟨h3, by simp, ?_⟩
        intro a ha b hb
        simp only [List.map_cons, List.map_nil, List.mem_singleton] at hb
        subst hb
        obtain ⟨p, hp, rfl⟩ := List.mem_map.mp ha
        obtain ⟨i, hi⟩ := List.mem_iff_getElem?.mp hp
        obtain ⟨k, hk, e, -⟩ := h2 i p hi
        rw [e]; exact hdec k K hk
      · rw [List.map_append, List.mem_append]
        rcases Nat.lt_succ_iff_lt_or_eq.mp hk with h | h
        · exact .inl (h4 k h hu)
        · subst h; right; simp

theorem argmin_spec (f : ℕ → ℝ) : ∀ n, 0 < n → argmin f n < n ∧ ∀ i, i < n → f (argmin f n) ≤ f i := by
  intro n
  induction n with
  | zero => intro h; omega
  | succ n ih =>
    intro _
    rcases Nat.eq_zero_or_pos n with h0 | h0
    · subst h0
      refine ⟨by simp [argmin], fun i hi => ?_⟩
      have : i = 0 := by omega
      subst this; simp [argmin]
    · obtain ⟨a, b⟩ := ih h0
      rw [argmin, if_neg h0.ne']
      split
      · rename_i h
        refine ⟨by omega, fun i hi => ?_⟩
        rcases Nat.lt_succ_iff_lt_or_eq.mp hi with hh | hh
        · exact h.le.trans (b i hh)
        · subst hh; exact le_rfl
      · rename_i h
        refine ⟨by omega, fun i hi => ?_⟩
        rcases Nat.lt_succ_iff_lt_or_eq.mp hi with hh | hh
        · exact b i hh
        · subst hh; exact not_lt.mp h

/-- C93 (d): the final optimisation is done at 10^(c - fit_position/d), started at the result with the closest log α; if the fit raises a
    ValueError the last successful run is returned -/
theorem kink_result (opt : Opt nw ns) (fit : List (ℝ × ℝ) → Fit) (fp : ℝ) (runs : List (ℝ × Res nw ns)) (sol : Res nw ns) (arr : List (Res nw ns))
    (h : kinkFinish opt fit fp runs = .ok (sol, arr)) :
    arr = runs.map Prod.snd ∧
    ((∃ a, runs.getLast? = some (a, sol)) ∨
     ∃ a b c d p, fit (runs.map fun q => (Real.logb 10 q.1, Real.logb 10 q.2.chi2)) = .ok a b c d ∧ 0 < d ∧ p ∈ runs ∧
      (∀ q ∈ runs, |Real.logb 10 p.1 - (c - fp / d)| ≤ |Real.logb 10 q.1 - (c - fp / d)|) ∧ opt ((10 : ℝ) ^ (c - fp / d)) p.2.u = .ok sol) := by
  unfold kinkFinish at h
  dsimp only at h
  split at h
  · cases h
  · split at h
    · rename_i p hp
      simp only [Except.ok.injEq, Prod.mk.injEq] at h
      exact ⟨h.2.symm, .inl ⟨p.1, by rw [hp, ← h.1]⟩⟩
    · cases h
  · rename_i a b c d hfit
    split at h
    · cases h
    rename_i hd
    split at h
    · cases h
    rename_i hd0
    split at h
    · cases h
    rename_i p hp
    have hpos : 0 < runs.length := by
      by_contra hh
      have : runs = [] := List.length_eq_zero_iff.mp (by omega)
      subst this; simp at hp
    have hsp := argmin_spec (fun i => |((runs.map fun q => (Real.logb 10 q.1, Real.logb 10 q.2.chi2)).map Prod.fst).getD i 0 - (c - fp / d)|)
      runs.length hpos
    generalize hidx : argmin (fun i => |((runs.map fun q => (Real.logb 10 q.1, Real.logb 10 q.2.chi2)).map Prod.fst).getD i 0 - (c - fp / d)|)
      runs.length = idx at *
    have hget : ∀ i q, runs[i]? = some q →
        ((runs.map fun q => (Real.logb 10 q.1, Real.logb 10 q.2.chi2)).map Prod.fst).getD i 0 = Real.logb 10 q.1 := by
      intro i q hq
      simp [List.getD_eq_getElem?_getD, hq]
    cases ho : opt ((10 : ℝ) ^ (c - fp / d)) p.2.u with
    | error e => rw [ho] at h; cases h
    | ok o =>
      rw [ho] at h
      simp only [Except.map, Except.ok.injEq, Prod.mk.injEq] at h
      obtain ⟨rfl, rfl⟩ := h
      refine ⟨rfl, .inr ⟨a, b, c, d, p, hfit, lt_of_le_of_ne (not_lt.mp hd) (Ne.symm hd0), List.mem_of_getElem? hp, ?_, ho⟩⟩
      intro q hq
      obtain ⟨i, hi⟩ := List.mem_iff_getElem?.mp hq
      have hil : i < runs.length := by
        by_contra hh; rw [List.getElem?_eq_none (by omega)] at hi; cases hi
      have := hsp.2 i hil
      rw [hget i q hi, hget idx p hp] at this
      exact this

/-! ### historic and classic -/

/-- C93 (e): the scan stops at the first α = 10^6/10^k whose criterion is not below one; every optimisation starts from zero -/
theorem scan_result (opt : Opt nw ns) (crit : Res nw ns → ℝ) :
    ∀ (fuel : ℕ) (alpha : ℝ) (acc arr : List (Res nw ns)), scanLoop opt crit fuel alpha acc = some (.ok arr) →
      ∃ K o, (∀ k, k ≤ K → ∃ r, arr[acc.length + k]? = some r ∧ opt (alpha / 10 ^ k) 0 = .ok r ∧ (k < K → crit r < 1)) ∧
        arr.length = acc.length + K + 1 ∧ arr[acc.length + K]? = some o ∧ 1 ≤ crit o ∧ arr.take acc.length = acc := by
  intro fuel
  induction fuel with
  | zero => intro alpha acc arr h; cases h
  | succ f ih =>
    intro alpha acc arr h
    rw [scanLoop] at h
    cases ho : opt alpha 0 with
    | error e => rw [ho] at h; cases h
    | ok o =>
      rw [ho] at h
      dsimp only at h
      by_cases hc : crit o < 1
      · rw [if_pos hc] at h
        obtain ⟨K, o', h1, h2, h3, h4, h5⟩ := ih _ _ _ h
        have hlen : (acc ++ [o]).length = acc.length + 1 := by simp
        rw [hlen] at h1 h2 h3 h5
        refine ⟨K + 1, o', ?_, by omega, by rw [← h3]; congr 1; omega, h4, ?_⟩
        · intro k hk
          rcases k with _ | k
          · refine ⟨o, ?_, by simpa using ho, fun _ => hc⟩
            have : arr[acc.length]? = (arr.take (acc.length + 1))[acc.length]? := by rw [List.getElem?_take_of_lt (by omega)]
            rw [Nat.add_zero, this, h5]; simp
          · obtain ⟨r, a, b, c⟩ := h1 k (by omega)
            refine ⟨r, by rw [← a]; congr 1; omega, ?_, fun h => c (by omega)⟩
            rw [div_div, ← pow_succ'] at b; exact b
        · have : arr.take acc.length = (arr.take (acc.length + 1)).take acc.length := by rw [List.take_take]; congr 1; omega
          rw [this, h5]; simp
      · rw [if_neg hc] at h
        simp only [Option.some.injEq, Except.ok.injEq] at h
        subst h
        refine ⟨0, o, ?_, by simp, by simp, not_lt.mp hc, by simp⟩
        intro k hk
        have : k = 0 := by omega
        subst this
        exact ⟨o, by simp, by simpa using ho, fun h => absurd h (lt_irrefl _)⟩

theorem rootCalls_last (opt : Opt nw ns) : ∀ (vs : List ℝ) (u u' : Fin ns → ℝ) (more : List (Res nw ns)),
    rootCalls opt vs u = .ok (u', more) → more.length = vs.length ∧ u' = match more.getLast? with | some r => r.u | none => u := by
  intro vs
  induction vs with
  | nil => intro u u' more h; simp only [rootCalls, Except.ok.injEq, Prod.mk.injEq] at h; obtain ⟨rfl, rfl⟩ := h; simp
  | cons a vs ih =>
    intro u u' more h
    rw [rootCalls] at h
    cases ho : opt a u with
    | error e => rw [ho] at h; cases h
    | ok r =>
      rw [ho] at h
      dsimp only at h
      cases hr : rootCalls opt vs r.u with
      | error e => rw [hr] at h; cases h
      | ok p =>
        rw [hr] at h
        simp only [Except.map, Except.ok.injEq, Prod.mk.injEq] at h
        obtain ⟨rfl, rfl⟩ := h
        have := ih r.u p.1 p.2 hr
        refine ⟨by simp [this.1], ?_⟩
        rw [this.2, List.getLast?_cons]
        cases p.2.getLast? <;> simp

/-- C93 (f): a successful call of `solve_historic` or `solve_classic` returns a list whose second to last scanned entry carries the vector of
    the last root-finding step instead of its own, together with its own spectrum -/
theorem finishRoot_overwrites (opt : Opt nw ns) (visited : List ℝ) (hv : visited ≠ []) (aOpt : ℝ) (optarr arr : List (Res nw ns)) (sol : Res nw ns)
    (h : finishRoot opt visited aOpt optarr = .ok (sol, arr)) :
    ∃ o last r, optarr[optarr.length - 2]? = some o ∧ arr.getLast? = some last ∧ arr[optarr.length - 2]? = some r ∧ 2 ≤ optarr.length ∧
      arr.length = optarr.length + visited.length ∧ r.A = o.A ∧ r.alpha = o.alpha ∧ r.u = last.u ∧ opt aOpt last.u = .ok sol := by
  unfold finishRoot at h
  split at h
  · cases h
  rename_i hl
  split at h
  · cases h
  rename_i o ho
  split at h
  · cases h
  rename_i u more hr
  split at h
  · cases h
  rename_i s hs
  simp only [Except.ok.injEq, Prod.mk.injEq] at h
  obtain ⟨rfl, rfl⟩ := h
  obtain ⟨h1, h2⟩ := rootCalls_last opt visited o.u u more hr
  have hne : more ≠ [] := by
    rintro rfl
    exact hv (List.length_eq_zero_iff.mp (by simpa using h1.symm))
  obtain ⟨last, hlast⟩ : ∃ last, more.getLast? = some last := by
    cases hm : more.getLast? with
    | none => exact absurd (List.getLast?_eq_none_iff.mp hm) hne
    | some x => exact ⟨x, rfl⟩
  rw [hlast] at h2
  dsimp only at h2
  refine ⟨o, last, { o with u := u }, ho, ?_, ?_, by omega, ?_, rfl, rfl, h2, ?_⟩
  · rw [List.getLast?_append, hlast]; rfl
  · rw [List.getElem?_append_left (by simp; omega)]
    rw [List.getElem?_set_self (by omega)]
  · simp [h1]
  · rw [← h2]; exact hs

/-! ### Bryan -/

/-- C93 (g): for decreasing α and non-negative probabilities, not all zero, the average is a convex combination of the spectra -/
theorem bryan_convex {K : ℕ} (alpha prob : Fin K → ℝ) (ha : StrictAnti alpha) (hK : 2 ≤ K) (hp : ∀ k, 0 ≤ prob k) (hne : ∃ k, 0 < prob k)
    (spec : Fin K → Fin nw → ℝ) :
    ∃ c : Fin K → ℝ, (∀ k, 0 ≤ c k) ∧ ∑ k, c k = 1 ∧ ∀ l, bryanAverage alpha prob spec l = ∑ k, c k * spec k l := by
  have hneg : ∀ k, dw (fun k => -alpha k) k = -dw alpha k := by
    intro k
    have hx : ∀ i, ext (fun k => -alpha k) i = -ext alpha i := by intro i; unfold ext; split <;> simp
    have he : ∀ i, edge (fun k => -alpha k) i = -edge alpha i := by
      intro i
      unfold edge
      simp only [hx]
      split
      · rfl
      · split
        · ring
        · rfl
    rw [dw, dw, he, he]; ring
  have hw : ∀ k, 0 < -dw alpha k := by
    intro k
    rw [← hneg k]
    exact dw_pos hK _ (fun i j hij => neg_lt_neg (ha hij)) k
  set N := -trapz prob alpha with hN
  have hNs : N = ∑ k, -dw alpha k * prob k := by
    rw [hN, trapz_eq, ← Finset.sum_neg_distrib]; exact Finset.sum_congr rfl fun k _ => by ring
  have hNp : 0 < N := by
    rw [hNs]
    obtain ⟨k, hk⟩ := hne
    exact Finset.sum_pos' (fun k _ => mul_nonneg (hw k).le (hp k)) ⟨k, Finset.mem_univ k, mul_pos (hw k) hk⟩
  refine ⟨fun k => -dw alpha k * prob k / N, fun k => div_nonneg (mul_nonneg (hw k).le (hp k)) hNp.le, ?_, fun l => ?_⟩
  · rw [← Finset.sum_div, ← hNs, div_self hNp.ne']
  · rw [bryanAverage, ← hN, trapz_eq, ← Finset.sum_neg_distrib]
    exact Finset.sum_congr rfl fun k _ => by ring

/-- the loop ends only with two runs or more, the α of the schedule, all started from zero, and a positive probability -/
theorem bryanLoop_result (opt : Opt nw ns) (div : ℝ) (halpha : ∀ a u o, opt a u = .ok o → o.alpha = a ∧ 0 ≤ o.prob) :
    ∀ (fuel : ℕ) (alpha mp : ℝ) (acc arr : List (Res nw ns)), 0 ≤ mp → (0 < mp → ∃ o ∈ acc, 0 < o.prob) → (∀ o ∈ acc, 0 ≤ o.prob) →
      bryanLoop opt div fuel alpha mp acc = some (.ok arr) →
      (∃ o ∈ arr, 0 < o.prob) ∧ (∀ o ∈ arr, 0 ≤ o.prob) ∧ acc.length < arr.length ∧ (acc = [] → 2 ≤ arr.length) ∧ arr.take acc.length = acc ∧
      ∀ k, acc.length + k < arr.length → ∃ r, arr[acc.length + k]? = some r ∧ opt (alpha / div ^ k) 0 = .ok r := by
  intro fuel
  induction fuel with
  | zero => intro alpha mp acc arr _ _ _ h; cases h
  | succ f ih =>
    intro alpha mp acc arr hmp hpos hnn h
    rw [bryanLoop] at h
    cases ho : opt alpha 0 with
    | error e => rw [ho] at h; cases h
    | ok o =>
      rw [ho] at h
      dsimp only at h
      have ⟨hoa, hop⟩ := halpha _ _ _ ho
      have hnn' : ∀ x ∈ acc ++ [o], 0 ≤ x.prob := by
        intro x hx
        rcases List.mem_append.mp hx with hh | hh
        · exact hnn x hh
        · rw [List.mem_singleton.mp hh]; exact hop
      have rec_case : ∀ mp', 0 ≤ mp' → (0 < mp' → ∃ x ∈ acc ++ [o], 0 < x.prob) →
          bryanLoop opt div f (alpha / div) mp' (acc ++ [o]) = some (.ok arr) →
          (∃ o ∈ arr, 0 < o.prob) ∧ (∀ o ∈ arr, 0 ≤ o.prob) ∧ acc.length < arr.length ∧ (acc = [] → 2 ≤ arr.length) ∧ arr.take acc.length = acc ∧
          ∀ k, acc.length + k < arr.length → ∃ r, arr[acc.length + k]? = some r ∧ opt (alpha / div ^ k) 0 = .ok r := by
        intro mp' hmp' hpos' h'
        obtain ⟨a, b, c, -, e, g⟩ := ih _ _ _ _ hmp' hpos' hnn' h'
        have hlen : (acc ++ [o]).length = acc.length + 1 := by simp
        rw [hlen] at c e g
        refine ⟨a, b, by omega, fun h0 => by subst h0; simp at c; omega, ?_, ?_⟩
        · have : arr.take acc.length = (arr.take (acc.length + 1)).take acc.length := by rw [List.take_take]; congr 1; omega
          rw [this, e]; simp
        · intro k hk
          rcases k with _ | k
          · refine ⟨o, ?_, by simpa using ho⟩
            have : arr[acc.length]? = (arr.take (acc.length + 1))[acc.length]? := by rw [List.getElem?_take_of_lt (by omega)]
            rw [Nat.add_zero, this, e]; simp
          · obtain ⟨r, a, b⟩ := g k (by omega)
            refine ⟨r, by rw [← a]; congr 1; omega, ?_⟩
            rw [div_div, ← pow_succ'] at b; exact b
      by_cases h1 : mp < o.prob
      · rw [if_pos h1] at h
        exact rec_case _ hop (fun hh => ⟨o, by simp, hh⟩) h
      · rw [if_neg h1] at h
        by_cases h2 : o.prob < 0.01 * mp
        · rw [if_pos h2] at h
          simp only [Option.some.injEq, Except.ok.injEq] at h
          subst h
          have hmp0 : 0 < mp := by linarith
          obtain ⟨x, hx, hxp⟩ := hpos hmp0
          refine ⟨⟨x, by simp [hx], hxp⟩, hnn', by simp, fun h0 => by subst h0; simp at hx, by simp, ?_⟩
          intro k hk
          have : k = 0 := by simp at hk; omega
          subst this
          exact ⟨o, by simp, by simpa using ho⟩
        · rw [if_neg h2] at h
          exact rec_case _ hmp (fun hh => by obtain ⟨x, hx, hxp⟩ := hpos hh; exact ⟨x, by simp [hx], hxp⟩) h

/-- C93 (h): the spectrum returned by Bryan's method is a convex combination of the optimised spectra: it lies between any bounds common to
    them, in particular it is not negative when they are not -/
theorem bryan_result (opt : Opt nw ns) (start div : ℝ) (hs : 0 < start) (hd : 1 < div)
    (halpha : ∀ a u o, opt a u = .ok o → o.alpha = a ∧ 0 ≤ o.prob) (fuel : ℕ) (A : Fin nw → ℝ) (arr : List (Res nw ns))
    (h : solveBryan opt start div fuel = some (.ok (A, arr))) :
    ∃ c : Fin arr.length → ℝ, (∀ k, 0 ≤ c k) ∧ ∑ k, c k = 1 ∧ (∀ l, A l = ∑ k, c k * arr[k].A l) ∧
      ∀ l lo hi, (∀ r ∈ arr, lo ≤ r.A l ∧ r.A l ≤ hi) → lo ≤ A l ∧ A l ≤ hi := by
  unfold solveBryan at h
  cases hb : bryanLoop opt div fuel start 0 [] with
  | none => rw [hb] at h; cases h
  | some r =>
    rw [hb] at h
    cases r with
    | error e => cases h
    | ok arr' =>
      simp only [Option.map_some, Except.map, Option.some.injEq, Except.ok.injEq, Prod.mk.injEq] at h
      obtain ⟨hA, rfl⟩ := h
      obtain ⟨h1, h2, -, h4, -, h6⟩ := bryanLoop_result opt div halpha fuel start 0 [] arr' le_rfl (by simp) (by simp) hb
      have hal : ∀ k : Fin arr'.length, arr'[k].alpha = start / div ^ (k : ℕ) := by
        intro k
        obtain ⟨r, hr, hr2⟩ := h6 k (by have := k.isLt; simp)
        simp only [List.length_nil, Nat.zero_add] at hr
        have := (halpha _ _ _ hr2).1
        rw [List.getElem?_eq_getElem k.isLt] at hr
        simp only [Option.some.injEq] at hr
        rw [← this, ← hr]; rfl
      have hanti : StrictAnti fun k : Fin arr'.length => arr'[k].alpha := by
        intro i j hij
        simp only [hal]
        exact div_lt_div_of_pos_left hs (by positivity) (pow_lt_pow_right₀ hd hij)
      have hp : ∀ k : Fin arr'.length, 0 ≤ arr'[k].prob := fun k => h2 _ (List.getElem_mem k.isLt)
      have hne : ∃ k : Fin arr'.length, 0 < arr'[k].prob := by
        obtain ⟨o, ho, hpo⟩ := h1
        obtain ⟨i, hi, rfl⟩ := List.getElem_of_mem ho
        exact ⟨⟨i, hi⟩, hpo⟩
      obtain ⟨c, c1, c2, c3⟩ := bryan_convex _ _ hanti (h4 rfl) hp hne fun k => arr'[k].A
      have hAl : ∀ l, A l = ∑ k, c k * arr'[k].A l := fun l => by rw [← hA]; exact c3 l
      refine ⟨c, c1, c2, hAl, fun l lo hi hb => ?_⟩
      have hm : ∀ k : Fin arr'.length, lo ≤ arr'[k].A l ∧ arr'[k].A l ≤ hi := fun k => hb _ (List.getElem_mem k.isLt)
      rw [hAl l]
      constructor
      · calc lo = ∑ k, c k * lo := by rw [← Finset.sum_mul, c2, one_mul]
          _ ≤ _ := Finset.sum_le_sum fun k _ => mul_le_mul_of_nonneg_left (hm k).1 (c1 k)
      · calc _ ≤ ∑ k, c k * hi := Finset.sum_le_sum fun k _ => mul_le_mul_of_nonneg_left (hm k).2 (c1 k)
          _ = hi := by rw [← Finset.sum_mul, c2, one_mul]

/-! ### dispatch -/

/-- C93 (i): four modes; anything else raises -/
theorem dispatch_spec (mode : Option String) :
    (mode = none ∧ dispatch mode = .error .keyError) ∨
    (∃ m, mode = some m ∧ m ∈ ["historic", "classic", "bryan", "chi2kink"] ∧ dispatch mode = .ok m) ∨
    (∃ m, mode = some m ∧ m ∉ ["historic", "classic", "bryan", "chi2kink"] ∧ dispatch mode = .error .valueError) := by
  cases mode with
  | none => exact .inl ⟨rfl, rfl⟩
  | some m =>
    right
    unfold dispatch
    dsimp only
    split
    · left; exact ⟨m, rfl, by simp_all, by simp_all⟩
    · split
      · left; exact ⟨m, rfl, by simp_all, by simp_all⟩
      · split
        · left; exact ⟨m, rfl, by simp_all, by simp_all⟩
        · split
          · left; exact ⟨m, rfl, by simp_all, by simp_all⟩
          · right; exact ⟨m, rfl, by simp_all, rfl⟩

end DGA.Mx
