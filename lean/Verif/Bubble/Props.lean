/-
  C22, C23: properties of the bubble.
-/
import Verif.Bubble.Lemmas
import Mathlib.Algebra.Star.BigOperators
import Mathlib.Tactic.NormNum
import Mathlib.Algebra.Star.Rat
import Mathlib.Algebra.Field.Rat

namespace DGA.Bubble

open DGA.Mf DGA.Bz

variable {K : Type} [Field K] [StarRing K]

omit [Field K] [StarRing K] in
theorem wnPos_length (n : Nat) : (wn n 0 true).length = n + 1 := by
  unfold wn; simp only [if_true]; rw [Py.length_arange]; omega

omit [Field K] [StarRing K] in
theorem wnPos_get? (n k : Nat) (h : k ≤ n) : (wn n 0 true)[k]? = some (k : Int) := by
  unfold wn; simp only [if_true]; rw [Py.arange_get? _ _ _ (by omega)]; congr 1; omega

omit [Field K] [StarRing K] in
theorem mem_wnPos (n : Nat) (x : Int) : x ∈ wn n 0 true ↔ 0 ≤ x ∧ x ≤ n := by
  unfold wn; simp only [if_true]; rw [Py.mem_arange]; omega

omit [Field K] [StarRing K] in
/-- the full range built from the non-negative bosonic frequencies -/
theorem bosonicFull_samples {α : Type} (c : α → α) (f : Int → α) (n : Nat) :
    bosonicFull c ((wn n 0 true).map f) = samplesB (fun w => if w < 0 then c (f (-w)) else f w) n := by
  have hl : ((wn n 0 true).map f).length = n + 1 := by rw [List.length_map, wnPos_length]
  obtain ⟨h1, h2⟩ := DGA.Mf.bosonicFull_value c _ n hl
  apply List.ext_getElem?
  intro k
  by_cases hk : k < 2 * n + 1
  · have e : ((bosonicFull c ((wn n 0 true).map f))[k]?) = atB (bosonicFull c ((wn n 0 true).map f)) ((k : Int) - n) := by
      rw [atB_eq _ n h1, if_pos (by omega)]; congr 1; omega
    rw [e]
    unfold samplesB
    rw [List.getElem?_map, wn_get? n k hk, Option.map_some]
    by_cases hneg : (k : Int) - n < 0
    · have := (h2 (n - k) (by omega)).2 (by omega)
      rw [if_pos hneg]
      rw [show -((n - k : Nat) : Int) = (k : Int) - n by omega] at this
      rw [this, List.getElem?_map, wnPos_get? _ _ (by omega), Option.map_some, Option.map_some]
      congr 3; omega
    · have := (h2 (k - n) (by omega)).1
      rw [if_neg hneg]
      rw [show ((k - n : Nat) : Int) = (k : Int) - n by omega] at this
      rw [this, List.getElem?_map, wnPos_get? _ _ (by omega), Option.map_some]
      congr 2; omega
  · rw [List.getElem?_eq_none (by omega), List.getElem?_eq_none (by unfold samplesB; rw [List.length_map, wn_length]; omega)]

/-- the two conventions G(v)G(v+w) and G(v)G(v-w) -/
def isPM (nt : String) : Prop := nt = "plus" ∨ nt = "minus"

theorem shift_pm (w : Int) (nt : String) (h : isPM nt) :
    ∃ e : Int, getFreqShift w nt = some (0, e * w) ∧ (e = 1 ∨ e = -1) ∧ ∀ w', getFreqShift w' nt = some (0, e * w') := by
  rcases h with rfl | rfl
  · exact ⟨1, by simp [getFreqShift], .inl rfl, by simp [getFreqShift]⟩
  · exact ⟨-1, by simp [getFreqShift], .inr rfl, by simp [getFreqShift]⟩

/-! ### C22 — using the w → -w symmetry -/

/-- C22 (local, generalized bubble).  For a Green's function with `G(-n-1) = conj G(n)` stored on `-N..N-1`, a window
    `niv` and bosonic range `-niw..niw` that fit, evaluating only `w ≥ 0` and reflecting gives the direct evaluation at
    every `w` and `v`. -/
theorem gchi0_full_eq_direct (G : Int → K) (N niv niw : Nat) (beta : K) (hb : star beta = beta) (nt : String)
    (hnt : isPM nt) (hG : ∀ n : Int, -(N : Int) ≤ n → n < N → G (-n - 1) = star (G n)) (hfit : niw + niv ≤ N) :
    (vecGetGchi0 (samplesF G N) beta niv (wn niw) nt true).isSome ∧
    vecGetGchi0 (samplesF G N) beta niv (wn niw) nt true = vecGetGchi0 (samplesF G N) beta niv (wn niw) nt false := by
  obtain ⟨e, _, he, hs⟩ := shift_pm 0 nt hnt
  have hdir : ∀ w : Int, w.natAbs ≤ niw → getGchi0 (samplesF G N) beta niv w nt =
      some (samplesF (fun v => -beta * (G v * G (v + e * w))) niv) := by
    intro w hw
    rw [getGchi0_value G N beta niv w nt _ (hs w) (by omega)]
    congr 2; funext v; simp
  have hw : nFromMat (wn niw) = niw := nFromMat_eq' _ _ (wn_length niw)
  unfold vecGetGchi0
  simp only [if_true, hw, Bool.false_eq_true, if_false]
  rw [mapM_some (wn niw 0 true) _ (fun w => samplesF (fun v => -beta * (G v * G (v + e * w))) niv)
      (by intro w h; rw [mem_wnPos] at h; exact hdir w (by omega)),
    mapM_some (wn niw) _ (fun w => samplesF (fun v => -beta * (G v * G (v + e * w))) niv)
      (by intro w h; rw [mem_wn] at h; exact hdir w (by omega)), Option.map_some, bosonicFull_samples]
  refine ⟨rfl, ?_⟩
  congr 1
  unfold samplesB
  apply List.map_congr_left
  intro w h
  rw [mem_wn] at h
  split
  · rename_i hneg
    rw [samplesF_reverse, samplesF_map]
    apply samplesF_congr
    intro v h1 h2
    have b1 := hG v (by omega) (by omega)
    have hew : (e * w).natAbs ≤ niw := by
      rcases he with rfl | rfl <;> omega
    have b2 := hG (v + e * w) (by omega) (by omega)
    rw [star_mul, star_neg, hb, star_mul, b1, show (-v - 1 + e * -w : Int) = -(v + e * w) - 1 by
      rw [Int.mul_neg]; omega, b2, star_star, star_star]
    ring
  · rfl

/-- C22 (local, summed bubble). -/
theorem chi0_full_eq_direct (G : Int → K) (N niv niw : Nat) (beta : K) (hb : star beta = beta) (nt : String)
    (hnt : isPM nt) (hG : ∀ n : Int, -(N : Int) ≤ n → n < N → G (-n - 1) = star (G n)) (hfit : niw + niv ≤ N) :
    (vecGetChi0Sum (samplesF G N) beta niv (wn niw) nt true).isSome ∧
    vecGetChi0Sum (samplesF G N) beta niv (wn niw) nt true = vecGetChi0Sum (samplesF G N) beta niv (wn niw) nt false := by
  obtain ⟨e, _, he, hs⟩ := shift_pm 0 nt hnt
  have hdir : ∀ w : Int, w.natAbs ≤ niw → getChi0Sum (samplesF G N) beta niv w nt =
      some (-1 / beta * (samplesF (fun v => G v * G (v + e * w)) niv).sum) := by
    intro w hw
    rw [getChi0Sum_value G N beta niv w nt _ (hs w) (by omega)]
    congr 3
    apply samplesF_congr
    intro v _ _
    simp
  have hw : nFromMat (wn niw) = niw := nFromMat_eq' _ _ (wn_length niw)
  unfold vecGetChi0Sum
  simp only [if_true, hw, Bool.false_eq_true, if_false]
  rw [mapM_some (wn niw 0 true) _ (fun w => -1 / beta * (samplesF (fun v => G v * G (v + e * w)) niv).sum)
      (by intro w h; rw [mem_wnPos] at h; exact hdir w (by omega)),
    mapM_some (wn niw) _ (fun w => -1 / beta * (samplesF (fun v => G v * G (v + e * w)) niv).sum)
      (by intro w h; rw [mem_wn] at h; exact hdir w (by omega)), Option.map_some, bosonicFull_samples]
  refine ⟨rfl, ?_⟩
  congr 1
  unfold samplesB
  apply List.map_congr_left
  intro w h
  rw [mem_wn] at h
  split
  · rename_i hneg
    rw [star_mul, star_div₀, star_neg, star_one, hb, mul_comm]
    congr 1
    -- star of the sum = sum over reversed samples
    have hstar : ∀ l : List K, star l.sum = (l.map star).sum := by
      intro l
      induction l with
      | nil => simp
      | cons a l ih => simp [star_add, ih]
    rw [hstar, ← List.sum_reverse, ← List.map_reverse, samplesF_reverse, samplesF_map]
    congr 1
    apply samplesF_congr
    intro v h1 h2
    have b1 := hG v (by omega) (by omega)
    have hew : (e * w).natAbs ≤ niw := by
      rcases he with rfl | rfl <;> omega
    have b2 := hG (v + e * w) (by omega) (by omega)
    rw [star_mul, b1, show (-v - 1 + e * -w : Int) = -(v + e * w) - 1 by
      rw [Int.mul_neg]; omega, b2, star_star, star_star]
    ring
  · rfl

/-- C22 (why 'center' is excluded).  With the 'center' notation and an odd negative `w` the reflected array holds the
    direct value of the neighbouring fermionic frequency `v+1`; for even `w` it is the direct value. -/
theorem gchi0_center_reflected (G : Int → K) (N niv niw : Nat) (beta : K) (hb : star beta = beta)
    (hG : ∀ n : Int, -(N : Int) ≤ n → n < N → G (-n - 1) = star (G n)) (hfit : niw + niv ≤ N) :
    ∃ full, vecGetGchi0 (samplesF G N) beta niv (wn niw) "center" true = some full ∧
      ∀ w : Int, -(niw : Int) ≤ w → w < 0 → ∃ row, atB full w = some row ∧
        ∀ v : Int, -(niv : Int) ≤ v → v < niv →
          atF row v = some (-beta * (G (v + w % 2 + w / 2) * G (v + w % 2 - (w / 2 + w % 2)))) := by
  have hs : ∀ w, getFreqShift w "center" = some (w / 2, -(w / 2 + w % 2)) := by intro w; simp [getFreqShift]
  have hdir : ∀ w : Int, w.natAbs ≤ niw → getGchi0 (samplesF G N) beta niv w "center" =
      some (samplesF (fun v => -beta * (G (v + w / 2) * G (v - (w / 2 + w % 2)))) niv) := by
    intro w hw
    rw [getGchi0_value G N beta niv w "center" _ (hs w) (by omega)]
    congr 1
  have hw : nFromMat (wn niw) = niw := nFromMat_eq' _ _ (wn_length niw)
  unfold vecGetGchi0
  simp only [if_true, hw]
  rw [mapM_some (wn niw 0 true) _ (fun w => samplesF (fun v => -beta * (G (v + w / 2) * G (v - (w / 2 + w % 2)))) niv)
      (by intro w h; rw [mem_wnPos] at h; exact hdir w (by omega)), Option.map_some, bosonicFull_samples]
  refine ⟨_, rfl, ?_⟩
  intro w h1 h2
  have hBl : (samplesB (fun w => if w < 0 then ((samplesF (fun v => -beta * (G (v + (-w) / 2) *
      G (v - ((-w) / 2 + (-w) % 2)))) niv).reverse.map star)
      else samplesF (fun v => -beta * (G (v + w / 2) * G (v - (w / 2 + w % 2)))) niv) niw).length = 2 * niw + 1 := by
    unfold samplesB; rw [List.length_map, wn_length]
  rw [atB_eq _ niw hBl, if_pos (by omega)]
  unfold samplesB
  rw [List.getElem?_map, wn_get? _ _ (by omega), Option.map_some]
  refine ⟨_, rfl, ?_⟩
  intro v h3 h4
  simp only [show (((w + (niw : Int)).toNat : Nat) : Int) - niw = w by omega, if_pos h2]
  rw [samplesF_reverse, samplesF_map, samplesF_atF _ _ _ h3 h4]
  congr 1
  have e1 : (-v - 1 + -w / 2 : Int) = -(v + w % 2 + w / 2) - 1 := by omega
  have e2 : (-v - 1 - (-w / 2 + -w % 2) : Int) = -(v + w % 2 - (w / 2 + w % 2)) - 1 := by omega
  rw [e1, e2, hG _ (by omega) (by omega), hG _ (by omega) (by omega), star_mul, star_neg, hb, star_mul, star_star,
    star_star]
  ring

/-- C22 (lattice, generalized bubble).  `G i j k` is the Green's function at the grid point `(i, j, k)`; the q list is
    arbitrary. -/
theorem gchi0q_full_eq_direct (nx ny nz : Nat) (G : Nat → Nat → Nat → Int → K) (N niv niw : Nat) (beta : K)
    (hb : star beta = beta) (nt : String) (hnt : isPM nt)
    (hG : ∀ i j k, ∀ n : Int, -(N : Int) ≤ n → n < N → G i j k (-n - 1) = star (G i j k n)) (hfit : niw + niv ≤ N)
    (qs : List (Int × Int × Int)) :
    let g := table nx ny nz fun i j k => samplesF (G i j k) N
    (vecGetGchi0Q g (2 * N) beta niv (wn niw) qs nt true).isSome ∧
    vecGetGchi0Q g (2 * N) beta niv (wn niw) qs nt true = vecGetGchi0Q g (2 * N) beta niv (wn niw) qs nt false := by
  intro g
  obtain ⟨e, _, he, hs⟩ := shift_pm 0 nt hnt
  have hw : nFromMat (wn niw) = niw := nFromMat_eq' _ _ (wn_length niw)
  have hmax1 : maxAbs (wn niw 0 true) = niw := maxAbs_eq _ _ (by intro x hx; rw [mem_wnPos] at hx; omega)
    ⟨niw, (mem_wnPos _ _).2 (by omega), by omega⟩
  have hmax2 : maxAbs (wn niw) = niw := maxAbs_eq _ _ (by intro x hx; rw [mem_wn] at hx; omega)
    ⟨niw, (mem_wn _ _).2 (by omega), by omega⟩
  have hcut : (g.map fun p => p.map fun r => r.map fun x => cutV x ((niv + niw : Nat) : Int)) =
      table nx ny nz fun i j k => samplesF (G i j k) (niv + niw) := by
    simp only [g, table, List.map_map]
    apply List.map_congr_left; intro i _
    simp only [Function.comp, List.map_map]
    apply List.map_congr_left; intro j _
    simp only [Function.comp, List.map_map]
    apply List.map_congr_left; intro k _
    simp only [Function.comp]
    exact cutV_samplesF _ _ _ (by omega)
  have hnvc : (cutV (List.replicate (2 * N) (0 : K)) ((niv + niw : Nat) : Int)).length = 2 * (niv + niw) :=
    (DGA.Mf.cutV_value _ N (by simp) (niv + niw) (by omega)).1
  let val : (Int × Int × Int) → Int → Int → K := fun q w v =>
    -beta * ((flat3 (table nx ny nz fun i j k : Nat => G i j k v *
      G (((i : Int) + q.1) % nx).toNat (((j : Int) + q.2.1) % ny).toNat (((k : Int) + q.2.2) % nz).toNat
        (v + e * w))).sum / ((nx * ny * nz : Nat) : K))
  have hdir : ∀ q : Int × Int × Int, ∀ w : Int, w.natAbs ≤ niw →
      getGchi0Q (table nx ny nz fun i j k => samplesF (G i j k) (niv + niw)) (2 * (niv + niw)) beta niv w q nt =
        some (samplesF (val q w) niv) := by
    intro q w hw
    unfold getGchi0Q
    have hew : (e * w).natAbs ≤ niw := by
      rcases he with rfl | rfl <;> omega
    rw [hs w, Option.bind_some, prodQ_value nx ny nz G (niv + niw) niv (0, e * w) q (by simp) (by simp only; omega),
      Option.map_some, kMeanRows_samples, samplesF_map]
    simp only [Int.add_zero]
    rfl
  unfold vecGetGchi0Q
  simp only [if_true, hw, Bool.false_eq_true, if_false, hmax1, hmax2, hcut, hnvc]
  rw [mapM_some qs _ (fun q => (wn niw 0 true).map fun w => samplesF (val q w) niv) (by
      intro q _
      exact mapM_some (wn niw 0 true) _ _ (by intro w h; rw [mem_wnPos] at h; exact hdir q w (by omega))),
    mapM_some qs _ (fun q => (wn niw).map fun w => samplesF (val q w) niv) (by
      intro q _
      exact mapM_some (wn niw) _ _ (by intro w h; rw [mem_wn] at h; exact hdir q w (by omega))),
    Option.map_some, Option.map_some]
  refine ⟨rfl, ?_⟩
  congr 1
  rw [List.map_map]
  apply List.map_congr_left
  intro q _
  simp only [Function.comp]
  rw [bosonicFull_samples]
  unfold samplesB
  apply List.map_congr_left
  intro w h
  rw [mem_wn] at h
  split
  · rename_i hneg
    rw [samplesF_reverse, samplesF_map]
    apply samplesF_congr
    intro v h1 h2
    have hew : (e * w).natAbs ≤ niw := by
      rcases he with rfl | rfl <;> omega
    have hstar : ∀ l : List K, star l.sum = (l.map star).sum := by
      intro l
      induction l with
      | nil => simp
      | cons a l ih => simp [star_add, ih]
    simp only [val]
    rw [star_mul, star_neg, hb, star_div₀, star_natCast, hstar, mul_comm]
    congr 3
    rw [flat3_table, flat3_table, List.map_map]
    apply List.map_congr_left
    intro l _
    simp only [Function.comp]
    rw [star_mul, show (-v - 1 + e * -w : Int) = -(v + e * w) - 1 by rw [Int.mul_neg]; omega,
      hG _ _ _ v (by omega) (by omega), hG _ _ _ (v + e * w) (by omega) (by omega), star_star, star_star]
    ring
  · rfl

omit [StarRing K] in
theorem contract_gchi0q' (giwk : Arr3 (List K)) (nv : Nat) (beta : K) (hb : beta ≠ 0) (niv : Nat) (w : Int)
    (q : Int × Int × Int) (nt : String) :
    getChi0Q giwk nv beta niv w q nt = (getGchi0Q giwk nv beta niv w q nt).map (contractLegs beta) := by
  unfold getGchi0Q getChi0Q
  cases getFreqShift w nt with
  | none => rfl
  | some s =>
    simp only [Option.bind_some, Option.map_map]
    congr 1
    funext r
    simp only [Function.comp, contractLegs]
    rw [List.sum_map_mul_left, List.map_id']
    field_simp

omit [Field K] [StarRing K] in
theorem mapM_map_option {α β γ : Type} (l : List α) (f : α → Option β) (g : β → γ) :
    (l.mapM fun x => (f x).map g) = (l.mapM f).map fun r => r.map g := by
  induction l with
  | nil => rfl
  | cons a l ih =>
    rw [List.mapM_cons, List.mapM_cons, ih]
    cases f a with
    | none => rfl
    | some b => cases l.mapM f <;> rfl

/-- the summed lattice bubble is the contraction of the generalized one, with and without the symmetry -/
theorem vecChi0Q_contract (giwk : Arr3 (List K)) (nv : Nat) (beta : K) (hb : beta ≠ 0) (hs : star beta = beta)
    (niv : Nat) (w : List Int) (qs : List (Int × Int × Int)) (nt : String) (full : Bool) :
    vecGetChi0Q giwk nv beta niv w qs nt full = (vecGetGchi0Q giwk nv beta niv w qs nt full).map
      fun r => r.map fun m => m.map (contractLegs beta) := by
  have hstar : ∀ l : List K, star l.sum = (l.map star).sum := by
    intro l
    induction l with
    | nil => simp
    | cons a l ih => simp [star_add, ih]
  have hc : ∀ row : List K, contractLegs beta (row.reverse.map star) = star (contractLegs beta row) := by
    intro row
    unfold contractLegs
    rw [star_mul, star_div₀, star_one, star_pow, hs, hstar, List.map_reverse, List.sum_reverse, mul_comm]
  have hbf : ∀ m : List (List K), bosonicFull star (m.map (contractLegs beta)) =
      (bosonicFull (fun row => row.reverse.map star) m).map (contractLegs beta) := by
    intro m
    unfold bosonicFull
    rw [List.map_append, List.map_map, ← List.map_drop, ← List.map_reverse, List.map_map]
    congr 1
    apply List.map_congr_left
    intro row _
    simp only [Function.comp, hc]
  unfold vecGetChi0Q vecGetGchi0Q
  simp only [contract_gchi0q' _ _ _ hb, mapM_map_option, Option.map_map]
  congr 1
  funext res
  simp only [Function.comp]
  cases full
  · simp
  · simp only [if_true, List.map_map]
    apply List.map_congr_left
    intro m _
    simp only [Function.comp, hbf]

/-- C22 (lattice, summed bubble). -/
theorem chi0q_full_eq_direct (nx ny nz : Nat) (G : Nat → Nat → Nat → Int → K) (N niv niw : Nat) (beta : K)
    (h0 : beta ≠ 0) (hb : star beta = beta) (nt : String) (hnt : isPM nt)
    (hG : ∀ i j k, ∀ n : Int, -(N : Int) ≤ n → n < N → G i j k (-n - 1) = star (G i j k n)) (hfit : niw + niv ≤ N)
    (qs : List (Int × Int × Int)) :
    let g := table nx ny nz fun i j k => samplesF (G i j k) N
    (vecGetChi0Q g (2 * N) beta niv (wn niw) qs nt true).isSome ∧
    vecGetChi0Q g (2 * N) beta niv (wn niw) qs nt true = vecGetChi0Q g (2 * N) beta niv (wn niw) qs nt false := by
  intro g
  obtain ⟨h1, h2⟩ := gchi0q_full_eq_direct nx ny nz G N niv niw beta hb nt hnt hG hfit qs
  rw [vecChi0Q_contract _ _ _ h0 hb, vecChi0Q_contract _ _ _ h0 hb, h2]
  refine ⟨?_, rfl⟩
  rw [h2] at h1
  rw [Option.isSome_map]
  exact h1

/-- C22 (the restriction to 'plus' and 'minus' is needed): in 'center' notation reflecting and direct evaluation
    differ already for `w = -1`. -/
theorem center_full_ne_direct :
    vecGetGchi0 (samplesF (fun n : Int => (((2 * n + 1).natAbs : ℕ) : ℚ)) 2) 1 1 (wn 1) "center" true ≠
      vecGetGchi0 (samplesF (fun n : Int => (((2 * n + 1).natAbs : ℕ) : ℚ)) 2) 1 1 (wn 1) "center" false := by
  intro h
  have h2 := congrArg (fun o => o.bind fun m => m[0]?.bind fun r => r[1]?) h
  have e1 : ∀ a b c d : ℚ, ((vecGetGchi0 [a, b, c, d] 1 1 (wn 1) "center" true).bind
      fun m => m[0]?.bind fun r => r[1]?) = some (-(b * a)) := by
    intro a b c d
    simp [vecGetGchi0, show wn (nFromMat (wn 1)) 0 true = [0, 1] from rfl, getGchi0, bosonicFull,
      show getFreqShift 1 "center" = some (0, -1) by decide, show getFreqShift 0 "center" = some (0, 0) by decide,
      mulRows, Py.slice, Py.clip]
  have e2 : ∀ a b c d : ℚ, ((vecGetGchi0 [a, b, c, d] 1 1 (wn 1) "center" false).bind
      fun m => m[0]?.bind fun r => r[1]?) = some (-(b * c)) := by
    intro a b c d
    simp [vecGetGchi0, show wn 1 = [-1, 0, 1] from rfl, getGchi0,
      show getFreqShift 1 "center" = some (0, -1) by decide, show getFreqShift 0 "center" = some (0, 0) by decide,
      show getFreqShift (-1) "center" = some (-1, 0) by decide, mulRows, Py.slice, Py.clip]
  have hG : samplesF (fun n : Int => (((2 * n + 1).natAbs : ℕ) : ℚ)) 2 = [3, 1, 1, 3] := rfl
  rw [hG] at h2
  simp only [e1, e2] at h2
  norm_num at h2

/-! ### C23 — contraction and q average -/

omit [StarRing K] in
/-- C23.  Contracting the generalized local bubble over `v` gives the physical bubble. -/
theorem contract_gchi0 (giw : List K) (beta : K) (hb : beta ≠ 0) (niv : Nat) (w : Int) (nt : String) :
    (getGchi0 giw beta niv w nt).map (contractLegs beta) = getChi0Sum giw beta niv w nt := by
  unfold getGchi0 getChi0Sum
  cases getFreqShift w nt with
  | none => rfl
  | some s =>
    simp only [Option.bind_some, Option.map_map]
    congr 1
    funext r
    simp only [Function.comp, contractLegs]
    rw [List.sum_map_mul_left, List.map_id']
    field_simp

omit [StarRing K] in
/-- C23.  The same for the lattice bubble at every q. -/
theorem contract_gchi0q (giwk : Arr3 (List K)) (nv : Nat) (beta : K) (hb : beta ≠ 0) (niv : Nat) (w : Int)
    (q : Int × Int × Int) (nt : String) :
    (getGchi0Q giwk nv beta niv w q nt).map (contractLegs beta) = getChi0Q giwk nv beta niv w q nt := by
  unfold getGchi0Q getChi0Q
  cases getFreqShift w nt with
  | none => rfl
  | some s =>
    simp only [Option.bind_some, Option.map_map]
    congr 1
    funext r
    simp only [Function.comp, contractLegs]
    rw [List.sum_map_mul_left, List.map_id']
    field_simp

omit [StarRing K] in
/-- C23.  Evaluating on a box and cutting it to a smaller box is evaluating on the smaller box. -/
theorem gchi0_cut (G : Int → K) (N niv niv' : Nat) (beta : K) (w : Int) (nt : String) (hnt : getFreqShift w nt ≠ none)
    (hfit : w.natAbs + niv ≤ N) (hle : niv' ≤ niv) :
    (getGchi0 (samplesF G N) beta niv w nt).map (fun r => cutV r niv') = getGchi0 (samplesF G N) beta niv' w nt := by
  cases hs : getFreqShift w nt with
  | none => exact absurd hs hnt
  | some s =>
    rw [getGchi0_value G N beta niv w nt s hs hfit, getGchi0_value G N beta niv' w nt s hs (by omega), Option.map_some,
      cutV_samplesF _ _ _ hle]

omit [StarRing K] in
/-- C23.  The mean over all q points of the lattice bubble is the bubble of the local Green's function. -/
theorem gchi0q_mean_eq_local (nx ny nz : Nat) (G : Nat → Nat → Nat → Int → K) (N niv : Nat) (beta : K) (w : Int)
    (nt : String) (s : Int × Int) (hs : getFreqShift w nt = some s) (hfit : w.natAbs + niv ≤ N) :
    let g := table nx ny nz fun i j k => samplesF (G i j k) N
    ∃ rows, ((qList nx ny nz).mapM fun q => getGchi0Q g (2 * N) beta niv w
        ((q.1 : Int), (q.2.1 : Int), (q.2.2 : Int)) nt) = some rows ∧
      getGchi0 (gLoc g (2 * N)) beta niv w nt = some (kMeanRows (2 * niv) rows) := by
  intro g
  obtain ⟨b1, b2⟩ := shift_bound w nt s hs
  have hval : ∀ q : Nat × Nat × Nat, getGchi0Q g (2 * N) beta niv w ((q.1 : Int), (q.2.1 : Int), (q.2.2 : Int)) nt =
      some (samplesF (fun v => -beta * ((flat3 (table nx ny nz fun i j k : Nat => G i j k (v + s.1) *
        G (((i : Int) + q.1) % nx).toNat (((j : Int) + q.2.1) % ny).toNat (((k : Int) + q.2.2) % nz).toNat
          (v + s.2))).sum / ((nx * ny * nz : Nat) : K))) niv) := by
    intro q
    unfold getGchi0Q
    rw [hs, Option.bind_some, prodQ_value nx ny nz G N niv s _ (by omega) (by omega), Option.map_some,
      kMeanRows_samples, samplesF_map]
  refine ⟨_, mapM_some _ _ _ (fun q _ => hval q), ?_⟩
  have hloc : gLoc g (2 * N) = samplesF (fun v => (flat3 (table nx ny nz fun i j k => G i j k v)).sum /
      ((nx * ny * nz : Nat) : K)) N := kMeanRows_samples nx ny nz N G
  rw [hloc, getGchi0_value _ N beta niv w nt s hs hfit]
  congr 1
  have hq : qList nx ny nz = flat3 (table nx ny nz fun i j k => (i, j, k)) := rfl
  have hrows : ((qList nx ny nz).map fun q : Nat × Nat × Nat => samplesF (fun v => -beta *
      ((flat3 (table nx ny nz fun i j k : Nat => G i j k (v + s.1) *
        G (((i : Int) + q.1) % nx).toNat (((j : Int) + q.2.1) % ny).toNat (((k : Int) + q.2.2) % nz).toNat
          (v + s.2))).sum / ((nx * ny * nz : Nat) : K))) niv) =
      flat3 (table nx ny nz fun a b d : Nat => samplesF (fun v => -beta *
      ((flat3 (table nx ny nz fun i j k : Nat => G i j k (v + s.1) *
        G (((i : Int) + a) % nx).toNat (((j : Int) + b) % ny).toNat (((k : Int) + d) % nz).toNat
          (v + s.2))).sum / ((nx * ny * nz : Nat) : K))) niv) := by
    rw [hq, flat3_table nx ny nz (fun i j k => (i, j, k)), List.map_map, flat3_table nx ny nz (fun a b d => samplesF _ niv)]
    rfl
  rw [hrows, kMeanRows_samples]
  apply samplesF_congr
  intro v _ _
  -- the double sum factorises
  have hsumF : ∀ F : Nat → Nat → Nat → K, (flat3 (table nx ny nz F)).sum =
      ∑ l ∈ Finset.range (nx * ny * nz), F (l / nz / ny) (l / nz % ny) (l % nz) := by
    intro F
    rw [flat3_table]
    simp only [Finset.sum, Finset.range, Multiset.range, Multiset.map_coe, Multiset.sum_coe]
  have hinner : ∀ i j k : Nat, (flat3 (table nx ny nz fun a b d : Nat =>
      G (((i : Int) + a) % nx).toNat (((j : Int) + b) % ny).toNat (((k : Int) + d) % nz).toNat (v + s.2))).sum =
      (flat3 (table nx ny nz fun a b d => G a b d (v + s.2))).sum := by
    intro i j k
    have := sum_shift nx ny nz (fun a b d => G a b d (v + s.2)) (-(i : Int)) (-(j : Int)) (-(k : Int))
    rw [← this]
    congr 3
    funext a b d
    rw [Int.sub_neg, Int.sub_neg, Int.sub_neg, Int.add_comm (a : Int), Int.add_comm (b : Int), Int.add_comm (d : Int)]
  simp only [hsumF] at hinner ⊢
  rw [← Finset.mul_sum, ← Finset.sum_div, Finset.sum_comm]
  simp only [← Finset.mul_sum, hinner]
  rw [← Finset.sum_mul]
  ring

/-- non-vacuity: the shifted windows fit and the two conventions are covered -/
example : isPM "minus" ∧ getFreqShift 1 "minus" = some (0, -1) ∧ (1 : Int).natAbs + 2 ≤ 3 :=
  ⟨.inr rfl, by decide, by decide⟩

/-- non-vacuity: a conjugation symmetric function -/
example (h : ℤ → K) : ∃ G : Int → K, ∀ n : Int, G (-n - 1) = star (G n) :=
  ⟨fun n => if 0 ≤ n then h n else star (h (-n - 1)), by
    intro n
    beta_reduce
    by_cases hn : 0 ≤ n
    · rw [if_neg (by omega), if_pos hn, show -(-n - 1) - 1 = n by omega]
    · rw [if_pos (by omega), if_neg hn, star_star]⟩

end DGA.Bubble
