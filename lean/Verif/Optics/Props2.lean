/-
  C57 (conductivity bubble), C58 (vertex correction of the conductivity), C59 (vertex combination).
-/
import Verif.Optics.Props
import Mathlib.Tactic.Ring

namespace DGA.Opt

open DGA.Mf DGA.Bz DGA.Bubble

variable {K : Type} [Field K]

/-- sum over all points of an `nx × ny × nz` grid -/
def kSum (nx ny nz : Nat) (F : Nat → Nat → Nat → K) : K :=
  ((List.range nx).map fun i => ((List.range ny).map fun j => ((List.range nz).map fun k => F i j k).sum).sum).sum

/-- sum over the fermionic Matsubara indices `-n ≤ v < n` -/
def vSum (n : Nat) (F : Int → K) : K := ((vn n).map F).sum

/-- the index of `i + q` on a periodic axis of `n` points -/
def per (n i : Nat) (q : Int) : Nat := (((i : Int) + q) % n).toNat

theorem flat3_sum (nx ny nz : Nat) (F : Nat → Nat → Nat → K) : (flat3 (table nx ny nz F)).sum = kSum nx ny nz F := by
  unfold flat3 table kSum
  simp [List.sum_flatten, List.map_map, Function.comp_def]

theorem flat3_length {α : Type} (nx ny nz : Nat) (F : Nat → Nat → Nat → α) : (flat3 (table nx ny nz F)).length = nx * ny * nz := by
  rw [flat3_table]; simp

theorem mapM_flat3 {α β : Type} (nx ny nz : Nat) (F : Nat → Nat → Nat → α) (f : α → Option β) (H : Nat → Nat → Nat → β)
    (h : ∀ i j k, f (F i j k) = some (H i j k)) :
    (flat3 (table nx ny nz F)).mapM f = some (flat3 (table nx ny nz H)) := by
  rw [flat3_table, flat3_table, List.mapM_map]
  apply mapM_some
  intro i _
  exact h _ _ _

/-! ### C57 -/

/-- C57. The current-current bubble is `-2/beta` times the k average of `lv_a lv_b` times the sum of `G(k,v) G(k,v-w)` over
    `-niv_sum ≤ v < niv_sum` ('minus' notation; 'plus' has `v + w`), whenever `niv_sum + |w|` frequencies are stored. -/
theorem chijjBubble_value (nx ny nz : Nat) (G : Nat → Nat → Nat → Int → K) (N : Nat) (A B : Nat → Nat → Nat → K) (beta : K)
    (w : Int) (niv : Nat) (nt : String) (s : Int × Int) (hs : getFreqShift w nt = some s) (hfit : w.natAbs + niv ≤ N) :
    getChijjBubble (table nx ny nz fun i j k => samplesF (G i j k) N) (2 * N) (table nx ny nz A) (table nx ny nz B) beta w niv nt =
      some (-2 / beta * (kSum nx ny nz (fun i j k => A i j k * B i j k * vSum niv fun v => G i j k (v + s.1) * G i j k (v + s.2)) /
        ((nx * ny * nz : Nat) : K))) := by
  obtain ⟨b1, b2⟩ := shift_bound w nt s hs
  unfold getChijjBubble
  simp only [hs, Option.bind_some, show 2 * N / 2 = N by omega, flat3_zip]
  rw [mapM_flat3 nx ny nz _ _ (fun i j k => A i j k * B i j k * vSum niv fun v => G i j k (v + s.1) * G i j k (v + s.2))]
  · rw [Option.map_some, flat3_sum, flat3_length]
  · intro i j k
    rw [slice_samplesF _ N niv s.1 (by omega), slice_samplesF _ N niv s.2 (by omega), mulRows_samplesF, Option.map_some]
    rfl

/-- the bubble as a function of the frequency -/
def chijjBubbleSpec (nx ny nz : Nat) (G : Nat → Nat → Nat → Int → K) (A B : Nat → Nat → Nat → K) (beta : K) (niv : Nat) (w : Int) : K :=
  -2 / beta * (kSum nx ny nz (fun i j k => A i j k * B i j k * vSum niv fun v => G i j k v * G i j k (v - w)) /
    ((nx * ny * nz : Nat) : K))

theorem chijjBubble_minus (nx ny nz : Nat) (G : Nat → Nat → Nat → Int → K) (N : Nat) (A B : Nat → Nat → Nat → K) (beta : K)
    (w : Int) (niv : Nat) (hfit : w.natAbs + niv ≤ N) :
    getChijjBubble (table nx ny nz fun i j k => samplesF (G i j k) N) (2 * N) (table nx ny nz A) (table nx ny nz B) beta w niv "minus" =
      some (chijjBubbleSpec nx ny nz G A B beta niv w) := by
  rw [chijjBubble_value nx ny nz G N A B beta w niv "minus" (0, -w) rfl hfit]
  simp [chijjBubbleSpec, sub_eq_add_neg]

theorem vSum_reflect (n : Nat) (F : Int → K) : vSum n (fun v => F (-v - 1)) = vSum n F := by
  have h := samplesF_reverse F n
  unfold vSum
  have e : (vn n).map (fun v => F (-v - 1)) = samplesF (fun v => F (-v - 1)) n := rfl
  rw [e, ← h, List.sum_reverse]
  rfl

theorem kSum_congr (nx ny nz : Nat) (F H : Nat → Nat → Nat → K)
    (h : ∀ i j k, i < nx → j < ny → k < nz → F i j k = H i j k) : kSum nx ny nz F = kSum nx ny nz H := by
  unfold kSum
  congr 1
  apply List.map_congr_left
  intro i hi
  congr 1
  apply List.map_congr_left
  intro j hj
  congr 1
  apply List.map_congr_left
  intro k hk
  exact h i j k (by simpa using hi) (by simpa using hj) (by simpa using hk)

theorem kSum_star [StarRing K] (nx ny nz : Nat) (F : Nat → Nat → Nat → K) : star (kSum nx ny nz F) = kSum nx ny nz fun i j k => star (F i j k) := by
  have h : ∀ l : List K, star l.sum = (l.map star).sum := by
    intro l
    induction l with
    | nil => simp
    | cons a l ih => simp [ih]
  unfold kSum
  simp only [h, List.map_map, Function.comp_def]

theorem vSum_star [StarRing K] (n : Nat) (F : Int → K) : star (vSum n F) = vSum n fun v => star (F v) := by
  unfold vSum
  induction vn n with
  | nil => simp
  | cons a l ih => simp [ih]

/-- C57. The array stored by the main program (computed for `w ≥ 0`, extended by conjugation) holds for every
    `|w| ≤ niw_bubble` the bubble at `w`, provided the Green's function satisfies `G(k,-v-1) = conj G(k,v)`, `beta` and the
    light vertices are real and the ranges fit. -/
theorem chijjBubbleMain_value [StarRing K] (nx ny nz : Nat) (G : Nat → Nat → Nat → Int → K) (N : Nat) (A B : Nat → Nat → Nat → K)
    (beta : K) (niw niv : Nat) (hfit : niw + niv ≤ N)
    (hG : ∀ i j k v, star (G i j k v) = G i j k (-v - 1)) (hA : ∀ i j k, star (A i j k) = A i j k)
    (hB : ∀ i j k, star (B i j k) = B i j k) (hb : star beta = beta) :
    ∃ res, chijjBubbleMain (table nx ny nz fun i j k => samplesF (G i j k) N) (2 * N) (table nx ny nz A) (table nx ny nz B) beta niw niv =
      some res ∧ res.length = 2 * niw + 1 ∧
      ∀ w : Int, -(niw : Int) ≤ w → w ≤ niw → atB res w = some (chijjBubbleSpec nx ny nz G A B beta niv w) := by
  have h1 : vecGetChijjBubble (table nx ny nz fun i j k => samplesF (G i j k) N) (2 * N) (table nx ny nz A) (table nx ny nz B) beta
      (wn niw 0 true) niv "minus" = some ((wn niw 0 true).map (chijjBubbleSpec nx ny nz G A B beta niv)) := by
    unfold vecGetChijjBubble
    apply mapM_some
    intro w hw
    rw [mem_wnPos] at hw
    exact chijjBubble_minus nx ny nz G N A B beta w niv (by omega)
  unfold chijjBubbleMain
  rw [h1, Option.map_some]
  refine ⟨_, rfl, ?_, ?_⟩
  · rw [bosonicFull_samples]; unfold samplesB; rw [List.length_map, wn_length]
  · intro w hw1 hw2
    rw [bosonicFull_samples]
    have hl : (samplesB (fun w => if w < 0 then star (chijjBubbleSpec nx ny nz G A B beta niv (-w)) else
      chijjBubbleSpec nx ny nz G A B beta niv w) niw).length = 2 * niw + 1 := by
      unfold samplesB; rw [List.length_map, wn_length]
    rw [atB_eq _ niw hl, if_pos ⟨hw1, hw2⟩]
    unfold samplesB
    rw [List.getElem?_map, wn_get? niw _ (by omega), Option.map_some, show (((w + niw).toNat : Nat) : Int) - niw = w by omega]
    congr 1
    split
    · unfold chijjBubbleSpec
      have h2 : star (2 : K) = 2 := star_ofNat 2
      simp only [star_mul', star_div₀, star_neg, h2, hb, kSum_star, star_natCast, vSum_star, hA, hB, hG]
      congr 3
      funext i j k
      rw [← vSum_reflect niv (fun v => G i j k v * G i j k (v - w))]
      have e : ∀ v : Int, -(v - -w) - 1 = -v - 1 - w := fun v => by omega
      simp only [e]
    · rfl

/-- The bubble of the conductivity is the k average of `2 lv_a lv_b` times the local-type bubble sum of that k point. -/
theorem chijjBubble_from_chi0 (nx ny nz : Nat) (G : Nat → Nat → Nat → Int → K) (N : Nat) (A B : Nat → Nat → Nat → K) (beta : K)
    (w : Int) (niv : Nat) (hfit : w.natAbs + niv ≤ N) (chi0 : Nat → Nat → Nat → K)
    (hc : ∀ i j k, getChi0Sum (samplesF (G i j k) N) beta niv w "minus" = some (chi0 i j k)) :
    getChijjBubble (table nx ny nz fun i j k => samplesF (G i j k) N) (2 * N) (table nx ny nz A) (table nx ny nz B) beta w niv "minus" =
      some (kSum nx ny nz (fun i j k => 2 * (A i j k * B i j k) * chi0 i j k) / ((nx * ny * nz : Nat) : K)) := by
  rw [chijjBubble_minus nx ny nz G N A B beta w niv hfit]
  have hc' : ∀ i j k, chi0 i j k = -1 / beta * vSum niv fun v => G i j k v * G i j k (v - w) := by
    intro i j k
    have := hc i j k
    rw [getChi0Sum_value (G i j k) N beta niv w "minus" (0, -w) rfl hfit] at this
    injection this with this
    rw [← this]
    simp [samplesF, vSum, sub_eq_add_neg]
  unfold chijjBubbleSpec
  congr 1
  have hk : ∀ (c : K) (F : Nat → Nat → Nat → K), kSum nx ny nz (fun i j k => c * F i j k) = c * kSum nx ny nz F := by
    intro c F
    unfold kSum
    simp only [List.sum_map_mul_left]
  rw [← mul_div_assoc, ← hk]
  congr 1
  apply kSum_congr
  intro i j k _ _ _
  rw [hc']
  ring

/-! ### C58 -/

theorem take_succ_sum {α : Type} (l : List α) (f : α → K) (m : Nat) (x : α) (h : l[m]? = some x) :
    ((l.take (m + 1)).map f).sum = ((l.take m).map f).sum + f x := by
  rw [List.take_add_one, h]
  simp

theorem addRows_samplesF (G H : Int → K) (n : Nat) : addRows (samplesF G n) (samplesF H n) = some (samplesF (fun v => G v + H v) n) := by
  unfold addRows
  rw [if_pos (by rw [samplesF_length, samplesF_length])]
  congr 1
  unfold samplesF
  rw [List.zipWith_map, List.zipWith_self]

theorem ggFcond_value (G : Int → K) (N niv : Nat) (w : Int) (wpn : List Int) (F : Int → Int → K)
    (hfit : ∀ wp ∈ wpn, niv + wp.natAbs + w.natAbs ≤ N) :
    ggFcond niv ((N : Int) - niv) ((N : Int) + niv) (samplesF G N) w wpn (wpn.map fun wp => samplesF (F wp) niv) =
      some (samplesF (fun v => (wpn.map fun wp => G (v - wp) * G (v - wp - w) * F wp v).sum) niv) := by
  unfold ggFcond
  have h0 : (List.replicate (2 * niv) (0 : K)) = samplesF (fun _ => 0) niv := by
    apply eq_samplesF
    · simp
    · intro k hk; rw [List.getElem?_replicate]; simp [hk]
  have key : ∀ m, m ≤ wpn.length → (List.range m).foldlM (fun acc j =>
      (wpn[j]?).bind fun iwpn => ((wpn.map fun wp => samplesF (F wp) niv)[j]?).bind fun fr =>
        (mulRows (Py.slice (samplesF G N) ((N : Int) - niv - iwpn) ((N : Int) + niv - iwpn))
          (Py.slice (samplesF G N) ((N : Int) - niv - iwpn - w) ((N : Int) + niv - iwpn - w))).bind fun gg =>
          (mulRows gg fr).bind fun t => addRows acc t) (List.replicate (2 * niv) 0) =
      some (samplesF (fun v => ((wpn.take m).map fun wp => G (v - wp) * G (v - wp - w) * F wp v).sum) niv) := by
    intro m hm
    induction m with
    | zero => simp [h0]
    | succ m ih =>
      have hx : m < wpn.length := by omega
      have hmem : wpn[m] ∈ wpn := List.getElem_mem hx
      have hf := hfit _ hmem
      rw [List.range_succ, List.foldlM_append, ih (by omega)]
      simp only [Option.bind_eq_bind, Option.bind_some, List.foldlM_cons, List.foldlM_nil]
      rw [List.getElem?_map, List.getElem?_eq_getElem hx, Option.bind_some, Option.map_some, Option.bind_some]
      rw [show (N : Int) - niv - wpn[m] - w = (N : Int) - niv + (-wpn[m] - w) by omega,
        show (N : Int) + niv - wpn[m] - w = (N : Int) + niv + (-wpn[m] - w) by omega,
        show (N : Int) - niv - wpn[m] = (N : Int) - niv + (-wpn[m]) by omega,
        show (N : Int) + niv - wpn[m] = (N : Int) + niv + (-wpn[m]) by omega,
        slice_samplesF G N niv _ (by omega), slice_samplesF G N niv _ (by omega), mulRows_samplesF, Option.bind_some,
        mulRows_samplesF, Option.bind_some, addRows_samplesF]
      simp only [Option.pure_def, Option.bind_some, Option.some.injEq]
      congr 1
      funext v
      rw [take_succ_sum wpn _ m _ (List.getElem?_eq_getElem hx)]
      congr 3
      congr 1
      omega
  have := key wpn.length (le_refl _)
  rwa [List.take_length] at this

/-- contribution of one q point to the vertex correction -/
def vertexTerm (nx ny nz niv : Nat) (G : Nat → Nat → Nat → Int → K) (A B : Nat → Nat → Nat → K) (w : Int) (wpn : List Int)
    (F : Int → Int → K) (q : Int × Int × Int) : K :=
  vSum niv fun v => kSum nx ny nz (fun i j k =>
    A i j k * B (per nx i q.1) (per ny j q.2.1) (per nz k q.2.2) * (G i j k (v - w) * G i j k v) *
      (wpn.map fun wp => G (per nx i q.1) (per ny j q.2.1) (per nz k q.2.2) (v - wp) *
        G (per nx i q.1) (per ny j q.2.1) (per nz k q.2.2) (v - wp - w) * F wp v).sum) / ((nx * ny * nz : Nat) : K)

theorem vertexQ_value (nx ny nz : Nat) (G : Nat → Nat → Nat → Int → K) (N niv : Nat) (A B : Nat → Nat → Nat → K) (w : Int)
    (wpn : List Int) (F : Int → Int → K) (q : Int × Int × Int) (h0 : niv + w.natAbs ≤ N)
    (hfit : ∀ wp ∈ wpn, niv + wp.natAbs + w.natAbs ≤ N) :
    chijjVertexQ (table nx ny nz fun i j k => samplesF (G i j k) N) (2 * N) (table nx ny nz A) (table nx ny nz B) w wpn niv q
      (wpn.map fun wp => samplesF (F wp) niv) = some (vertexTerm nx ny nz niv G A B w wpn F q) := by
  unfold chijjVertexQ
  simp only [show 2 * N / 2 = N by omega, shift_table, flat3_zip, sub_neg_eq_add]
  rw [mapM_flat3 nx ny nz _ _ (fun i j k => samplesF (fun v => A i j k * B (per nx i q.1) (per ny j q.2.1) (per nz k q.2.2) * (G i j k (v - w) * G i j k v) *
      (wpn.map fun wp => G (per nx i q.1) (per ny j q.2.1) (per nz k q.2.2) (v - wp) *
        G (per nx i q.1) (per ny j q.2.1) (per nz k q.2.2) (v - wp - w) * F wp v).sum) niv)]
  · rw [Option.map_some, kMeanRows_samples]
    unfold vertexTerm vSum
    simp only [flat3_sum]
    rfl
  · intro i j k
    have e1 : Py.slice (samplesF (G i j k) N) ((N : Int) - niv) ((N : Int) + niv) = samplesF (G i j k) niv := by
      have := slice_samplesF (G i j k) N niv 0 (by simp; omega)
      simpa using this
    rw [e1, show (N : Int) - niv - w = (N : Int) - niv + (-w) by omega, show (N : Int) + niv - w = (N : Int) + niv + (-w) by omega,
      slice_samplesF _ N niv (-w) (by omega), mulRows_samplesF, Option.bind_some, ggFcond_value _ N niv w wpn F hfit, Option.bind_some,
      samplesF_map, mulRows_samplesF]
    rfl

/-- C58. The vertex part of the current-current correlation function for a list of q points is
    `-2/(beta^2 nk)` times the sum over q, v of the k average of
    `lv_a(k) lv_b(k+q) G(k,v-w) G(k,v) sum_w' G(k+q,v-w') G(k+q,v-w'-w) F(q,w',v)`, momenta being periodic. -/
theorem chijjVertex_value (nx ny nz : Nat) (G : Nat → Nat → Nat → Int → K) (N niv : Nat) (A B : Nat → Nat → Nat → K) (beta : K) (w : Int)
    (wpn : List Int) (F : Int × Int × Int → Int → Int → K) (qs : List (Int × Int × Int)) (nkTot : Nat) (h0 : niv + w.natAbs ≤ N)
    (hfit : ∀ wp ∈ wpn, niv + wp.natAbs + w.natAbs ≤ N) :
    getChijjVertex (qs.map fun q => wpn.map fun wp => samplesF (F q wp) niv) niv (table nx ny nz A) (table nx ny nz B)
        (table nx ny nz fun i j k => samplesF (G i j k) N) (2 * N) beta w wpn qs nkTot =
      some (-2 / (beta ^ 2 * (nkTot : K)) * (qs.map fun q => vertexTerm nx ny nz niv G A B w wpn (F q) q).sum) := by
  unfold getChijjVertex
  have key : ∀ m, m ≤ qs.length → (List.range m).foldlM (fun (acc : K) i =>
      (qs[i]?).bind fun q => ((qs.map fun q => wpn.map fun wp => samplesF (F q wp) niv)[i]?).bind fun f =>
        (chijjVertexQ (table nx ny nz fun i j k => samplesF (G i j k) N) (2 * N) (table nx ny nz A) (table nx ny nz B) w wpn niv q f).map
          fun x => acc + x) (0 : K) = some (((qs.take m).map fun q => vertexTerm nx ny nz niv G A B w wpn (F q) q).sum) := by
    intro m hm
    induction m with
    | zero => simp
    | succ m ih =>
      have hx : m < qs.length := by omega
      rw [List.range_succ, List.foldlM_append, ih (by omega)]
      simp only [Option.bind_eq_bind, Option.bind_some, List.foldlM_cons, List.foldlM_nil]
      rw [List.getElem?_map, List.getElem?_eq_getElem hx, Option.bind_some, Option.map_some, Option.bind_some,
        vertexQ_value nx ny nz G N niv A B w wpn (F qs[m]) qs[m] h0 hfit]
      simp only [Option.map_some, Option.pure_def, Option.bind_some, Option.some.injEq]
      rw [take_succ_sum qs _ m _ (List.getElem?_eq_getElem hx)]
  have := key qs.length (le_refl _)
  rw [List.take_length] at this
  rw [this, Option.map_some]

omit [Field K] in
theorem table_map_cut (nx ny nz : Nat) (G : Nat → Nat → Nat → Int → K) (N c : Nat) (h : c ≤ N) :
    ((table nx ny nz fun i j k => samplesF (G i j k) N).map fun p => p.map fun r => r.map fun x => cutV x (c : Int)) =
      table nx ny nz fun i j k => samplesF (G i j k) c := by
  unfold table
  simp only [List.map_map, Function.comp_def, cutV_samplesF _ N c h]

/-- C58 for the vectorised routine: cutting the Green's function to `niv + niw_vert + niw_cond` frequencies keeps everything
    that is read, so each entry is the formula with the uncut Green's function. -/
theorem vecChijjVert_value (nx ny nz : Nat) (G : Nat → Nat → Nat → Int → K) (N niv : Nat) (A B : Nat → Nat → Nat → K) (beta : K)
    (niwV niwC : Nat) (F : Int × Int × Int → Int → Int → Int → K) (qs : List (Int × Int × Int)) (nkTot : Nat)
    (hN : niv + niwV + niwC ≤ N) :
    vecGetChijjVert (qs.map fun q => (wn niwV).map fun wp => (wn niwC 0 true).map fun w => samplesF (F q wp w) niv)
        (2 * niwV + 1) (niwC + 1) niv (table nx ny nz fun i j k => samplesF (G i j k) N) (2 * N) (table nx ny nz A) (table nx ny nz B)
        beta (wn niwV) (wn niwC 0 true) qs nkTot =
      some ((wn niwC 0 true).map fun w => -2 / (beta ^ 2 * (nkTot : K)) *
        (qs.map fun q => vertexTerm nx ny nz niv G A B w (wn niwV) (fun wp v => F q wp w v) q).sum) := by
  unfold vecGetChijjVert
  have hn : nFromMat (wn niwV) = niwV := by unfold nFromMat; rw [wn_length]; omega
  rw [if_pos ⟨wn_length _, wnPos_length _⟩]
  simp only [hn, wnPos_length, Nat.add_sub_cancel]
  rw [table_map_cut nx ny nz G N (niv + niwV + niwC) hN]
  have hc : (cutV (List.replicate (2 * N) (0 : K)) ((niv + niwV + niwC : Nat) : Int)).length = 2 * (niv + niwV + niwC) := by
    have e : List.replicate (2 * N) (0 : K) = samplesF (fun _ => 0) N := by
      apply eq_samplesF
      · simp
      · intro k hk; rw [List.getElem?_replicate]; simp [hk]
    rw [e, cutV_samplesF _ N _ hN, samplesF_length]
  rw [hc]
  have hmap : (wn niwC 0 true) = (List.range (niwC + 1)).map fun i : Nat => (i : Int) := by
    apply eq_range_map _ _ _ (wnPos_length _)
    intro i hi
    exact wnPos_get? _ _ (by omega)
  rw [show ((wn niwC 0 true).map fun w => -2 / (beta ^ 2 * (nkTot : K)) *
        (qs.map fun q => vertexTerm nx ny nz niv G A B w (wn niwV) (fun wp v => F q wp w v) q).sum) =
      (List.range (niwC + 1)).map fun i : Nat => -2 / (beta ^ 2 * (nkTot : K)) *
        (qs.map fun q => vertexTerm nx ny nz niv G A B (i : Int) (wn niwV) (fun wp v => F q wp (i : Int) v) q).sum by
    rw [hmap, List.map_map]; rfl]
  apply mapM_some
  intro i hi
  rw [List.mem_range] at hi
  rw [wnPos_get? _ _ (by omega), Option.bind_some]
  have hfc : (List.mapM (fun (fq : List (List (List K))) => fq.mapM fun (fw : List (List K)) => fw[i]?)
      (qs.map fun q => (wn niwV).map fun wp => (wn niwC 0 true).map fun w => samplesF (F q wp w) niv) : Option _) =
      some (qs.map fun q => (wn niwV).map fun wp => samplesF (F q wp (i : Int)) niv) := by
    rw [List.mapM_map]
    apply mapM_some
    intro q _
    rw [Function.comp, List.mapM_map]
    apply mapM_some
    intro wp _
    rw [Function.comp, List.getElem?_map, wnPos_get? _ _ (by omega)]
    rfl
  rw [hfc, Option.bind_some, chijjVertex_value nx ny nz G (niv + niwV + niwC) niv A B beta (i : Int) (wn niwV)
    (fun q wp v => F q wp (i : Int) v) qs nkTot (by omega) (by
      intro wp hwp
      rw [mem_wn] at hwp
      omega)]

/-- C58, parallelisation: splitting the q list among the ranks and adding the results gives the result of the whole list. -/
theorem chijjVertex_split (nx ny nz : Nat) (G : Nat → Nat → Nat → Int → K) (N niv : Nat) (A B : Nat → Nat → Nat → K) (beta : K) (w : Int)
    (wpn : List Int) (F : Int × Int × Int → Int → Int → K) (parts : List (List (Int × Int × Int))) (nkTot : Nat) (h0 : niv + w.natAbs ≤ N)
    (hfit : ∀ wp ∈ wpn, niv + wp.natAbs + w.natAbs ≤ N) :
    ∃ xs, (parts.mapM fun qs => getChijjVertex (qs.map fun q => wpn.map fun wp => samplesF (F q wp) niv) niv (table nx ny nz A)
        (table nx ny nz B) (table nx ny nz fun i j k => samplesF (G i j k) N) (2 * N) beta w wpn qs nkTot) = some xs ∧
      getChijjVertex (parts.flatten.map fun q => wpn.map fun wp => samplesF (F q wp) niv) niv (table nx ny nz A) (table nx ny nz B)
        (table nx ny nz fun i j k => samplesF (G i j k) N) (2 * N) beta w wpn parts.flatten nkTot = some xs.sum := by
  refine ⟨_, mapM_some _ _ _ fun qs _ => chijjVertex_value nx ny nz G N niv A B beta w wpn F qs nkTot h0 hfit, ?_⟩
  rw [chijjVertex_value nx ny nz G N niv A B beta w wpn F parts.flatten nkTot h0 hfit]
  congr 1
  rw [List.map_flatten, List.sum_flatten, List.map_map, List.sum_map_mul_left]
  rfl

/-- Non-vacuity: two k points, one q point. -/
example : getChijjVertex [[[(1 : ℚ), 2]]] 1 [[[1]], [[2]]] [[[3]], [[4]]] [[[[1, 2, 3, 4]]], [[[5, 6, 7, 8]]]] 4 1 1 [0] [(1, 0, 0)] 2 =
    some (-1 * ((1 * 4 * (1 * 2) * (6 * 5 * 1) + 2 * 3 * (5 * 6) * (2 * 1 * 1)) / 2 + (1 * 4 * (2 * 3) * (7 * 6 * 2) + 2 * 3 * (6 * 7) * (3 * 2 * 2)) / 2)) := by
  decide +kernel

/-! ### C59 -/

open DGA.Fp in
/-- C59. Entry by entry the conductivity vertex assembled from the stored components is `-1/2 F_d - 3/2 F_m`, where `F_d`,
    `F_m` are `beta^2` times the core blocks of the full vertices that solve the Bethe-Salpeter equations with the local
    irreducible vertices (when the susceptibilities are the ladder ones). -/
theorem fCond_value {c s : Nat} (gamD gamM XD XM : Mat (2 * c) K) (hD : ∀ i j, XD i j = XD j i) (hM : ∀ i j, XM i j = XM j i)
    (g0 : Vec (2 * (c + s)) K) (h0 : ∀ i, g0 i ≠ 0) (beta u : K) (hb : beta ≠ 0)
    (hXD : auxGamW gamD (cut1 (c := c) (s := s) g0) beta u = some XD)
    (hXM : auxGamW gamM (cut1 (c := c) (s := s) g0) beta (-u) = some XM)
    (hdD : 1 + u * (physical beta XD + physicalBubble beta g0 - physicalBubble beta (cut1 (c := c) (s := s) g0)) ≠ 0)
    (hdM : 1 + -u * (physical beta XM + physicalBubble beta g0 - physicalBubble beta (cut1 (c := c) (s := s) g0)) ≠ 0) :
    ∃ chiD chiM, gchirGamW (shell2 s gamD (u / beta ^ 2)) g0 = some chiD ∧ gchirGamW (shell2 s gamM (-u / beta ^ 2)) g0 = some chiM ∧
      ∀ i j,
        fCond ((ladderComponents XM (vrgSlice true XM (cut1 (c := c) (s := s) g0)) (cut1 (c := c) (s := s) g0) beta (-u)).1 i j)
          ((ladderComponents XM (vrgSlice true XM (cut1 (c := c) (s := s) g0)) (cut1 (c := c) (s := s) g0) beta (-u)).2 i j)
          ((ladderComponents XD (vrgSlice true XD (cut1 (c := c) (s := s) g0)) (cut1 (c := c) (s := s) g0) beta u).1 i j)
          ((ladderComponents XD (vrgSlice true XD (cut1 (c := c) (s := s) g0)) (cut1 (c := c) (s := s) g0) beta u).2 i j)
          u (physical beta chiM) (physical beta chiD) =
        -1 / 2 * (beta ^ 2 * cut2 (fob2Slice g0 chiD) i j) - 3 / 2 * (beta ^ 2 * cut2 (fob2Slice g0 chiM) i j) := by
  obtain ⟨chiD, d1, d2⟩ := ladder_vertex (s := s) false gamD XD hD g0 h0 beta u u hb (by simp [getUr]) hXD hdD
  obtain ⟨chiM, m1, m2⟩ := ladder_vertex (s := s) true gamM XM hM g0 h0 beta u (-u) hb (by simp [getUr]) hXM hdM
  refine ⟨chiD, chiM, d1, m1, ?_⟩
  intro i j
  have e1 := congrFun (congrFun d2 i) j
  have e2 := congrFun (congrFun m2 i) j
  simp only [Matrix.smul_apply, smul_eq_mul] at e1 e2
  rw [← e1, ← e2]
  simp [fCond, buildF]

open DGA.Fp in
/-- The hypotheses of C59 are met by the random-phase vertices `Gamma_d = u`, `Gamma_m = -u` (`u = beta = 1`, bubble 2). -/
example : auxGamW (Matrix.of fun _ _ => (1 / 1 ^ 2 : ℚ)) (cut1 (c := 1) (s := 1) fun _ => 2) 1 1 = some (diag fun _ => 2) ∧
    auxGamW (Matrix.of fun _ _ => (-1 / 1 ^ 2 : ℚ)) (cut1 (c := 1) (s := 1) fun _ => 2) 1 (-1) = some (diag fun _ => 2) ∧
    1 + 1 * (physical 1 (diag fun _ : Fin (2 * 1) => (2 : ℚ)) + physicalBubble 1 (fun _ : Fin (2 * (1 + 1)) => (2 : ℚ)) -
      physicalBubble 1 (cut1 (c := 1) (s := 1) fun _ => (2 : ℚ))) ≠ 0 ∧
    1 + -1 * (physical 1 (diag fun _ : Fin (2 * 1) => (2 : ℚ)) + physicalBubble 1 (fun _ : Fin (2 * (1 + 1)) => (2 : ℚ)) -
      physicalBubble 1 (cut1 (c := 1) (s := 1) fun _ => (2 : ℚ))) ≠ 0 := by
  refine ⟨?_, ?_, ?_, ?_⟩
  · unfold auxGamW
    have : addC (diag (fun i => 1 / cut1 (c := 1) (s := 1) (fun _ => (2 : ℚ)) i) + Matrix.of fun _ _ => (1 / 1 ^ 2 : ℚ))
        (-(1 / 1 ^ 2)) = diag fun _ => 1 / 2 := by
      ext i j
      simp [addC, cut1, diag]
    rw [inv?_iff, this, diag_eq, diag_eq, Matrix.diagonal_mul_diagonal]
    norm_num
  · unfold auxGamW
    have : addC (diag (fun i => 1 / cut1 (c := 1) (s := 1) (fun _ => (2 : ℚ)) i) + Matrix.of fun _ _ => (-1 / 1 ^ 2 : ℚ))
        (-(-1 / 1 ^ 2)) = diag fun _ => 1 / 2 := by
      ext i j
      simp [addC, cut1, diag]
    rw [inv?_iff, this, diag_eq, diag_eq, Matrix.diagonal_mul_diagonal]
    norm_num
  · norm_num [physical, physicalBubble, diag, cut1]
  · norm_num [physical, physicalBubble, diag, cut1]

end DGA.Opt
