/-
  Properties of the Matsubara-frequency boxes (C13 – C17).
-/
import Verif.Matsubara.Lemmas

namespace DGA.Mf

variable {α : Type}

/-! ### C13 — cutting a fermionic box -/

/-- C13.  Cutting to `0 ≤ c ≤ niv` keeps exactly the values at Matsubara indices `-c … c-1`. -/
theorem cutV_value (l : List α) (niv : Nat) (h : l.length = 2 * niv) (c : Nat) (hc : c ≤ niv) :
    (cutV l c).length = 2 * c ∧ ∀ n : Int, -(c : Int) ≤ n → n < c → atF (cutV l c) n = atF l n := by
  have hlen : (cutV l c).length = 2 * c := by
    unfold cutV
    simp only [nFromMat_eq l niv h]
    rw [if_neg (by omega), Py.length_slice_in _ _ _ (by omega) (by omega) (by omega)]
    omega
  refine ⟨hlen, ?_⟩
  intro n h1 h2
  rw [atF_eq _ c hlen, atF_eq l niv h, if_pos ⟨h1, h2⟩, if_pos (by omega)]
  unfold cutV
  simp only [nFromMat_eq l niv h]
  rw [if_neg (by omega), Py.slice_get?_in _ _ _ (by omega) (by omega) _ (by omega)]
  congr 1; omega

/-- C13.  `niv_cut = -1` keeps everything. -/
theorem cutV_minus_one (l : List α) (niv : Nat) (h : l.length = 2 * niv) : cutV l (-1) = l := by
  unfold cutV
  simp only [nFromMat_eq l niv h, if_true]
  have : ((niv : Int) + niv) = l.length := by omega
  rw [show ((niv : Int) - niv) = 0 by omega, this, Py.slice_all]

/-- C13.  Cuts compose: cutting to `a` and then to `b ≤ a` is cutting to `b`. -/
theorem cutV_cutV (l : List α) (niv : Nat) (h : l.length = 2 * niv) (a b : Nat) (hb : b ≤ a) (ha : a ≤ niv) :
    cutV (cutV l a) b = cutV l b := by
  obtain ⟨la, va⟩ := cutV_value l niv h a ha
  obtain ⟨lb, vb⟩ := cutV_value l niv h b (by omega)
  obtain ⟨lab, vab⟩ := cutV_value (cutV l a) a la b hb
  refine ext_atF _ _ b lab lb ?_
  intro n h1 h2
  rw [vab n h1 h2, vb n h1 h2, va n (by omega) (by omega)]

/-- C13.  Cutting both axes of a square two-dimensional array keeps the values at the same pair of indices. -/
theorem cutV2_value (m : List (List α)) (niv : Nat) (h : m.length = 2 * niv) (hr : ∀ r ∈ m, r.length = 2 * niv)
    (c : Nat) (hc : c ≤ niv) :
    (cutV2 m c).length = 2 * c ∧ (∀ r ∈ cutV2 m c, r.length = 2 * c) ∧
      ∀ v v' : Int, -(c : Int) ≤ v → v < c → -(c : Int) ≤ v' → v' < c → at2 (cutV2 m c) v v' = at2 m v v' := by
  have hm : (m.map fun row => cutV row (c : Int)).length = 2 * niv := by simpa using h
  obtain ⟨l1, v1⟩ := cutV_value (m.map fun row => cutV row (c : Int)) niv hm c hc
  refine ⟨l1, ?_, ?_⟩
  · intro r hr'
    have hmem : r ∈ m.map fun row => cutV row (c : Int) := by
      unfold cutV2 cutV Py.slice at hr'
      exact List.mem_of_mem_drop (List.mem_of_mem_take hr')
    rw [List.mem_map] at hmem
    obtain ⟨x, hx, rfl⟩ := hmem
    exact (cutV_value x niv (hr x hx) c hc).1
  · intro v v' h1 h2 h3 h4
    unfold at2 cutV2
    rw [v1 v h1 h2, atF_eq _ niv hm, atF_eq _ niv h, if_pos (by omega), if_pos (by omega), List.getElem?_map]
    cases hx : m[(v + niv).toNat]? with
    | none => rfl
    | some x =>
      simp only [Option.map_some, Option.bind_some]
      exact (cutV_value x niv (hr x (List.mem_of_getElem? hx)) c hc).2 v' h3 h4

/-- C13.  Out of range: a cut larger than the box does not raise; it silently returns only the last `cut - niv`
    entries (all of them once `cut ≥ 3 niv`). -/
theorem cutV_too_large (l : List α) (niv : Nat) (h : l.length = 2 * niv) (c : Nat) (hc : niv < c) :
    cutV l c = l.drop (2 * niv - min (c - niv) (2 * niv)) := by
  unfold cutV
  simp only [nFromMat_eq l niv h]
  rw [if_neg (by omega)]
  unfold Py.slice
  have e1 : Py.clip l.length ((niv : Int) - c) = 2 * niv - min (c - niv) (2 * niv) := by
    rw [Py.clip_of_neg _ _ (by omega)]; omega
  have e2 : Py.clip l.length ((niv : Int) + c) = 2 * niv := by unfold Py.clip; split <;> omega
  rw [e1, e2, List.take_of_length_le]
  rw [List.length_drop]; omega

example : cutV [10, 11, 12, 13, 14, 15] 2 = [11, 12, 13, 14] := by decide
/-- test: the cut 4 of a box with niv = 3 silently returns one entry -/
example : cutV [10, 11, 12, 13, 14, 15] 4 = [15] := by decide

/-! ### C14 — core and shell -/

/-- C14.  `inv_cut_v` returns exactly the frequencies outside the core: the positive half is `core … core+shell-1`, the
    negative half its mirror image. -/
theorem invCutV_value (l : List α) (niv : Nat) (h : l.length = 2 * niv) (core shell : Nat) (hc : core + shell ≤ niv) :
    (invCutV l core shell).length = 2 * shell ∧ ∀ n : Int,
      (0 ≤ n → n < shell → atF (invCutV l core shell) n = atF l (n + core)) ∧
      (-(shell : Int) ≤ n → n < 0 → atF (invCutV l core shell) n = atF l (n - core)) := by
  have e : invCutV l core shell =
      Py.slice l ((niv : Int) - shell - core) ((niv : Int) - core) ++
      Py.slice l ((niv : Int) + core) ((niv : Int) + core + shell) := by
    unfold invCutV
    simp only [nFromMat_eq l niv h]
    rw [if_neg (by omega)]
  have l1 : (Py.slice l ((niv : Int) - shell - core) ((niv : Int) - core)).length = shell := by
    rw [Py.length_slice_in _ _ _ (by omega) (by omega) (by omega)]; omega
  have l2 : (Py.slice l ((niv : Int) + core) ((niv : Int) + core + shell)).length = shell := by
    rw [Py.length_slice_in _ _ _ (by omega) (by omega) (by omega)]; omega
  have hlen : (invCutV l core shell).length = 2 * shell := by rw [e, List.length_append, l1, l2]; omega
  refine ⟨hlen, ?_⟩
  intro n
  constructor
  · intro h1 h2
    rw [atF_eq _ shell hlen, if_pos (by omega), atF_eq l niv h, if_pos (by omega), e,
      List.getElem?_append_right (by omega), l1, Py.slice_get?_in _ _ _ (by omega) (by omega) _ (by omega)]
    congr 1; omega
  · intro h1 h2
    rw [atF_eq _ shell hlen, if_pos (by omega), atF_eq l niv h, if_pos (by omega), e,
      List.getElem?_append_left (by omega), Py.slice_get?_in _ _ _ (by omega) (by omega) _ (by omega)]
    congr 1; omega

/-- C14.  Concatenation puts the core in the middle: position by Matsubara index. -/
theorem concatCoreAsympt_value (core asympt : List α) (nc na : Nat) (hcl : core.length = 2 * nc)
    (hal : asympt.length = 2 * na) :
    (concatCoreAsympt core asympt).length = 2 * (nc + na) ∧ ∀ n : Int,
      (-(nc : Int) ≤ n → n < nc → atF (concatCoreAsympt core asympt) n = atF core n) ∧
      (nc ≤ n → n < nc + na → atF (concatCoreAsympt core asympt) n = atF asympt (n - nc)) ∧
      (-((nc : Int) + na) ≤ n → n < -(nc : Int) → atF (concatCoreAsympt core asympt) n = atF asympt (n + nc)) := by
  have e : concatCoreAsympt core asympt = asympt.take na ++ core ++ asympt.drop na := by
    unfold concatCoreAsympt
    simp only [nFromMat_eq asympt na hal]
    unfold Py.sliceTo Py.sliceFrom
    rw [Py.clip_of_nonneg _ _ (by omega) (by omega)]
    simp
  have l1 : (asympt.take na).length = na := by rw [List.length_take]; omega
  have hlen : (concatCoreAsympt core asympt).length = 2 * (nc + na) := by
    rw [e]; simp only [List.length_append, l1, List.length_drop]; omega
  refine ⟨hlen, ?_⟩
  intro n
  refine ⟨?_, ?_, ?_⟩
  · intro h1 h2
    rw [atF_eq _ _ hlen, if_pos (by omega), atF_eq core nc hcl, if_pos (by omega), e,
      List.getElem?_append_left (by simp only [List.length_append, l1]; omega),
      List.getElem?_append_right (by omega), l1]
    congr 1; omega
  · intro h1 h2
    rw [atF_eq _ _ hlen, if_pos (by omega), atF_eq asympt na hal, if_pos (by omega), e,
      List.getElem?_append_right (by simp only [List.length_append, l1]; omega), List.getElem?_drop]
    simp only [List.length_append, l1]
    congr 1; omega
  · intro h1 h2
    rw [atF_eq _ _ hlen, if_pos (by omega), atF_eq asympt na hal, if_pos (by omega), e, List.append_assoc,
      List.getElem?_append_left (by omega), List.getElem?_take, if_pos (by omega)]
    congr 1; omega

/-- C14.  Inner box + outer part = the original array, for every core size. -/
theorem core_shell_lossless (l : List α) (niv : Nat) (h : l.length = 2 * niv) (core : Nat) (hc : core ≤ niv) :
    concatCoreAsympt (cutV l core) (invCutV l core ((niv - core : Nat) : Int)) = l := by
  obtain ⟨l1, v1⟩ := cutV_value l niv h core hc
  obtain ⟨l2, v2⟩ := invCutV_value l niv h core (niv - core) (by omega)
  obtain ⟨l3, v3⟩ := concatCoreAsympt_value _ _ core (niv - core) l1 l2
  have hs : core + (niv - core) = niv := by omega
  rw [hs] at l3
  refine ext_atF _ _ niv l3 h ?_
  intro n h1 h2
  by_cases hin : -(core : Int) ≤ n ∧ n < core
  · rw [(v3 n).1 hin.1 hin.2, v1 n hin.1 hin.2]
  · by_cases hp : (core : Int) ≤ n
    · rw [(v3 n).2.1 hp (by omega), (v2 _).1 (by omega) (by omega)]; congr 1; omega
    · rw [(v3 n).2.2 (by omega) (by omega), (v2 _).2 (by omega) (by omega)]; congr 1; omega

/-- C14, limit of the default: with `niv_shell = -1` and a non-empty core the negative-frequency half is lost, because
    the lower bound `-core` wraps around. -/
theorem invCutV_default_drops_negative (l : List α) (niv : Nat) (h : l.length = 2 * niv) (core : Nat) (h0 : 0 < core)
    (hc : core ≤ niv) : invCutV l core (-1) = l.drop (niv + core) := by
  unfold invCutV
  simp only [nFromMat_eq l niv h, if_true]
  rw [Py.slice_eq_nil_of_le, List.nil_append]
  · unfold Py.slice
    rw [Py.clip_of_nonneg _ ((niv : Int) + core) (by omega) (by omega)]
    have : Py.clip l.length ((niv : Int) + core + niv) = 2 * niv := by unfold Py.clip; split <;> omega
    rw [this, List.take_of_length_le]
    · congr 1
    · rw [List.length_drop]; omega
  · unfold Py.clip; split <;> split <;> omega

example : concatCoreAsympt (cutV [0, 1, 2, 3, 4, 5] 1) (invCutV [0, 1, 2, 3, 4, 5] 1 2) = [0, 1, 2, 3, 4, 5] := by decide
example : invCutV [0, 1, 2, 3, 4, 5] 1 (-1) = [4, 5] := by decide

/-! ### C15 — full range from positive frequencies -/

/-- C15.  Fermionic: `f(n) = mat(n)` for `n ≥ 0` and `f(-n-1) = conj mat(n)`. -/
theorem fermionicFull_value (conj : α → α) (l : List α) :
    (fermionicFull conj l).length = 2 * l.length ∧ ∀ n : Nat, n < l.length →
      atF (fermionicFull conj l) n = l[n]? ∧ atF (fermionicFull conj l) (-(n : Int) - 1) = l[n]?.map conj := by
  have hlen : (fermionicFull conj l).length = 2 * l.length := by
    simp only [fermionicFull, List.length_append, List.length_map, List.length_reverse]; omega
  refine ⟨hlen, ?_⟩
  intro n hn
  rw [atF_eq _ _ hlen, atF_eq _ _ hlen, if_pos (by omega), if_pos (by omega)]
  unfold fermionicFull
  constructor
  · rw [List.getElem?_append_right (by simp only [List.length_map, List.length_reverse]; omega), List.length_map,
      List.length_reverse]
    congr 1; omega
  · rw [List.getElem?_append_left (by simp; omega), List.getElem?_map, List.getElem?_reverse (by omega)]
    congr 2; omega

/-- C15.  Bosonic: `f(n) = mat(n)` for `n ≥ 0` and `f(-n) = conj mat(n)` for `n > 0`. -/
theorem bosonicFull_value (conj : α → α) (l : List α) (N : Nat) (h : l.length = N + 1) :
    (bosonicFull conj l).length = 2 * N + 1 ∧ ∀ n : Nat, n ≤ N →
      atB (bosonicFull conj l) n = l[n]? ∧ (0 < n → atB (bosonicFull conj l) (-(n : Int)) = l[n]?.map conj) := by
  have hlen : (bosonicFull conj l).length = 2 * N + 1 := by
    simp only [bosonicFull, List.length_append, List.length_map, List.length_reverse, List.length_drop]; omega
  have hl1 : ((l.drop 1).reverse.map conj).length = N := by simp; omega
  refine ⟨hlen, ?_⟩
  intro n hn
  rw [atB_eq _ _ hlen, atB_eq _ _ hlen, if_pos (by omega), if_pos (by omega)]
  unfold bosonicFull
  constructor
  · rw [List.getElem?_append_right (by omega), hl1]
    congr 1; omega
  · intro h0
    rw [List.getElem?_append_left (by omega), List.getElem?_map,
      List.getElem?_reverse (by simp; omega), List.getElem?_drop]
    simp only [List.length_drop]
    congr 2; omega

/-- C15.  The conjugation symmetry of the result, for an involutive conjugation: `f(-n-1) = conj f(n)` at every index. -/
theorem fermionicFull_symmetric (conj : α → α) (hc : ∀ x, conj (conj x) = x) (l : List α) (n : Int)
    (h1 : -(l.length : Int) ≤ n) (h2 : n < l.length) :
    atF (fermionicFull conj l) (-n - 1) = (atF (fermionicFull conj l) n).map conj := by
  obtain ⟨_, hv⟩ := fermionicFull_value conj l
  by_cases h0 : 0 ≤ n
  · obtain ⟨a, b⟩ := hv n.toNat (by omega)
    rw [show ((n.toNat : Nat) : Int) = n by omega] at a b
    rw [a, b]
  · obtain ⟨a, b⟩ := hv (-n - 1).toNat (by omega)
    rw [show (((-n - 1).toNat : Nat) : Int) = -n - 1 by omega] at a b
    rw [show -(-n - 1) - 1 = n by omega] at b
    rw [a, b, Option.map_map]
    cases l[(-n - 1).toNat]? <;> simp [hc]

/-- C15.  Bosonic: `f(-n) = conj f(n)` for every index if the static value is real. -/
theorem bosonicFull_symmetric (conj : α → α) (hc : ∀ x, conj (conj x) = x) (l : List α) (N : Nat) (h : l.length = N + 1)
    (h0 : l[0]?.map conj = l[0]?) (n : Int) (h1 : -(N : Int) ≤ n) (h2 : n ≤ N) :
    atB (bosonicFull conj l) (-n) = (atB (bosonicFull conj l) n).map conj := by
  obtain ⟨_, hv⟩ := bosonicFull_value conj l N h
  rcases Int.lt_trichotomy n 0 with hn | hn | hn
  · obtain ⟨a, b⟩ := hv (-n).toNat (by omega)
    have b := b (by omega)
    rw [show (((-n).toNat : Nat) : Int) = -n by omega] at a b
    rw [show -(-n) = n by omega] at b
    rw [a, b, Option.map_map]
    cases l[(-n).toNat]? <;> simp [hc]
  · subst hn
    obtain ⟨a, _⟩ := hv 0 (by omega)
    have a' : atB (bosonicFull conj l) 0 = l[0]? := a
    rw [show (-(0 : Int)) = 0 by omega, a', h0]
  · obtain ⟨a, b⟩ := hv n.toNat (by omega)
    have b := b (by omega)
    rw [show ((n.toNat : Nat) : Int) = n by omega] at a b
    rw [a, b]

/-- C13 (positive window): `cut_v_1d_pos` returns the `cut` values at the Matsubara indices `min, ..., min+cut-1`; the default
    `-1` with `min = 0` returns the whole positive half. -/
theorem cutVPos_value (l : List α) (niv : Nat) (h : l.length = 2 * niv) (cut mn : Nat) (hfit : mn + cut ≤ niv) :
    (cutVPos l cut mn).length = cut ∧ (∀ k : Nat, k < cut → (cutVPos l cut mn)[k]? = atF l ((mn : Int) + k)) ∧
    cutVPos l (-1) 0 = cutVPos l niv 0 := by
  unfold cutVPos
  simp only [nFromMat_eq l niv h]
  rw [if_neg (by omega)]
  refine ⟨?_, ?_, ?_⟩
  · rw [Py.length_slice_in _ _ _ (by omega) (by omega) (by omega)]; omega
  · intro k hk
    rw [Py.slice_get?_in _ _ _ (by omega) (by omega) _ (by omega), atF_eq l niv h, if_pos (by omega)]
    congr 1; omega
  · simp

example : cutVPos [10, 11, 12, 13, 14, 15, 16, 17] 2 1 = [15, 16] := by decide +kernel

/-- C15.  Restricting the full range to the positive frequencies returns the input. -/
theorem cutPos_fermionicFull (conj : α → α) (l : List α) : cutVPos (fermionicFull conj l) (-1) 0 = l := by
  have hlen := (fermionicFull_value conj l).1
  unfold cutVPos
  simp only [nFromMat_eq _ _ hlen, if_true]
  unfold Py.slice
  rw [Py.clip_of_nonneg _ _ (by omega) (by omega), Py.clip_of_nonneg _ _ (by omega) (by omega)]
  unfold fermionicFull
  rw [List.drop_append_of_le_length (by simp), List.drop_of_length_le (by simp), List.nil_append,
    List.take_of_length_le (by omega)]

example : fermionicFull (fun x : Int => -x) [1, 2, 3] = [-3, -2, -1, 1, 2, 3] := by decide
example : bosonicFull (fun x : Int => -x) [0, 2, 3] = [-3, -2, 0, 2, 3] := by decide

/-! ### C16 — shifted windows -/

/-- C16.  `wn_slices_gen`: if the window fits (`|w| ≤ niv - cut`) the row for `w` has `2 cut` entries and holds at `v` the
    value at Matsubara index `v - w`. -/
theorem window_value (l : List α) (niv : Nat) (h : l.length = 2 * niv) (cut : Nat) (w : Int)
    (hfit : w.natAbs + cut ≤ niv) :
    ∃ row, wnSlicesGen l cut [w] = [row] ∧ row.length = 2 * cut ∧
      ∀ v : Int, -(cut : Int) ≤ v → v < cut → atF row v = atF l (v - w) := by
  refine ⟨_, rfl, ?_⟩
  simp only [nFromMat_eq l niv h]
  have hlen : (Py.slice l ((niv : Int) - cut - w) ((niv : Int) + cut - w)).length = 2 * cut := by
    rw [Py.length_slice_in _ _ _ (by omega) (by omega) (by omega)]; omega
  refine ⟨hlen, ?_⟩
  intro v h1 h2
  rw [atF_eq _ cut hlen, atF_eq l niv h, if_pos ⟨h1, h2⟩, if_pos (by omega),
    Py.slice_get?_in _ _ _ (by omega) (by omega) _ (by omega)]
  congr 1; omega

/-- C16.  Rows for several bosonic indices are independent of each other. -/
theorem window_rows (l : List α) (cut : Nat) (w : List Int) :
    wnSlicesGen l cut w = w.flatMap fun x => wnSlicesGen l cut [x] := by
  unfold wnSlicesGen
  induction w with
  | nil => rfl
  | cons x w ih => simp only [List.map_cons, List.flatMap_cons]; rw [ih]; rfl

/-- C16.  What happens when the window does not fit: no error; for `w` too negative the row is shorter; for
    `niv - cut < w ≤ niv + cut` it is empty; beyond that it is full but reads the wrapped index `v - w + 2 niv`;
    from `w > 3 niv - cut` on it is shorter again. -/
theorem window_misfit (l : List α) (niv : Nat) (h : l.length = 2 * niv) (cut : Nat) (hcut : 0 < cut) (hc : cut ≤ niv)
    (w : Int) : ∃ row, wnSlicesGen l cut [w] = [row] ∧
      (w < -((niv : Int) - cut) → row.length < 2 * cut) ∧
      ((niv : Int) - cut < w → w ≤ niv + cut → row = []) ∧
      ((niv : Int) + cut < w → w ≤ 3 * niv - cut → row.length = 2 * cut ∧
        ∀ v : Int, -(cut : Int) ≤ v → v < cut → atF row v = atF l (v - w + 2 * niv)) ∧
      ((3 * niv - cut : Int) < w → row.length < 2 * cut) := by
  refine ⟨_, rfl, ?_⟩
  simp only [nFromMat_eq l niv h]
  refine ⟨?_, ?_, ?_, ?_⟩
  · intro hw
    rw [Py.length_slice]
    unfold Py.clip
    split <;> split <;> omega
  · intro h1 h2
    apply Py.slice_eq_nil_of_le
    unfold Py.clip
    split <;> split <;> omega
  · intro h1 h2
    have ea : Py.clip l.length ((niv : Int) - cut - w) = (3 * niv - cut - w : Int).toNat := by
      rw [Py.clip_of_neg _ _ (by omega)]; omega
    have eb : Py.clip l.length ((niv : Int) + cut - w) = (3 * niv + cut - w : Int).toNat := by
      rw [Py.clip_of_neg _ _ (by omega)]; omega
    have hlen : (Py.slice l ((niv : Int) - cut - w) ((niv : Int) + cut - w)).length = 2 * cut := by
      rw [Py.length_slice, ea, eb]; omega
    refine ⟨hlen, ?_⟩
    intro v h3 h4
    rw [atF_eq _ cut hlen, atF_eq l niv h, if_pos ⟨h3, h4⟩, if_pos (by omega), Py.slice_get?, ea, eb,
      if_pos (by omega)]
    congr 1; omega
  · intro h1
    rw [Py.length_slice]
    unfold Py.clip
    split <;> split <;> omega

/-- C16.  Together: the row is right for every array of the given size iff the window fits. -/
theorem window_right_iff (niv cut : Nat) (hcut : 0 < cut) (w : Int) :
    (∀ l : List Int, l.length = 2 * niv → ∃ row, wnSlicesGen l cut [w] = [row] ∧ row.length = 2 * cut ∧
      ∀ v : Int, -(cut : Int) ≤ v → v < cut → atF row v = atF l (v - w)) ↔ w.natAbs + cut ≤ niv := by
  constructor
  · intro hall
    apply Classical.byContradiction
    intro hfit
    obtain ⟨row, h1, h2, h3⟩ := hall (List.replicate (2 * niv) 0) (by simp)
    have hrow : ∀ v : Int, -(cut : Int) ≤ v → v < cut → atF row v ≠ none := by
      intro v a b
      rw [atF_eq row cut h2, if_pos ⟨a, b⟩]
      rw [List.getElem?_eq_getElem (by omega)]; simp
    by_cases hw : 0 ≤ w
    · have := h3 (-(cut : Int)) (by omega) (by omega)
      rw [atF_eq (List.replicate (2 * niv) 0) niv (by simp), if_neg (by omega)] at this
      exact hrow _ (by omega) (by omega) this
    · have := h3 ((cut : Int) - 1) (by omega) (by omega)
      rw [atF_eq (List.replicate (2 * niv) 0) niv (by simp), if_neg (by omega)] at this
      exact hrow _ (by omega) (by omega) this
  · intro hfit l hl
    exact window_value l niv hl cut w hfit

/-- C16.  `cut_iv_with_iw_shift` with an explicit cut is the same window; with the default `-1` it takes the largest
    window that fits, `niv - |w|`. -/
theorem cutIvShift_value (l : List α) (niv : Nat) (h : l.length = 2 * niv) (w : Int) (cut : Nat)
    (hfit : w.natAbs + cut ≤ niv) :
    (cutIvShift l cut w).length = 2 * cut ∧ (∀ v : Int, -(cut : Int) ≤ v → v < cut →
      atF (cutIvShift l cut w) v = atF l (v - w)) ∧
    cutIvShift l (-1) w = cutIvShift l ((niv - w.natAbs : Nat) : Int) w := by
  obtain ⟨row, e, hl, hv⟩ := window_value l niv h cut w hfit
  have : cutIvShift l cut w = row := by
    have e' : [cutIvShift l cut w] = [row] := by
      rw [← e]; unfold cutIvShift wnSlicesGen
      simp only [List.map_cons, List.map_nil]
      rw [if_neg (by omega)]
    simpa using e'
  rw [this]
  refine ⟨hl, hv, ?_⟩
  unfold cutIvShift
  simp only [nFromMat_eq l niv h, if_true]
  rw [if_neg (by omega)]
  rw [show ((niv - w.natAbs : Nat) : Int) = (niv : Int) - w.natAbs by omega]

/-- C16.  `wn_slices_shell`: shell position `n ≥ 0` is Matsubara index `n + core - w`, `n < 0` is `n - core - w`. -/
theorem shell_window_value (l : List α) (niv : Nat) (h : l.length = 2 * niv) (core shell : Nat) (w : Int)
    (hfit : w.natAbs + core + shell ≤ niv) :
    ∃ row, wnSlicesShell l shell core [w] = [row] ∧ row.length = 2 * shell ∧ ∀ n : Int,
      (0 ≤ n → n < shell → atF row n = atF l (n + core - w)) ∧
      (-(shell : Int) ≤ n → n < 0 → atF row n = atF l (n - core - w)) := by
  refine ⟨_, rfl, ?_⟩
  simp only [nFromMat_eq l niv h]
  have l1 : (Py.slice l ((niv : Int) - core - shell - w) ((niv : Int) - core - w)).length = shell := by
    rw [Py.length_slice_in _ _ _ (by omega) (by omega) (by omega)]; omega
  have l2 : (Py.slice l ((niv : Int) + core - w) ((niv : Int) + core + shell - w)).length = shell := by
    rw [Py.length_slice_in _ _ _ (by omega) (by omega) (by omega)]; omega
  have hlen : (Py.slice l ((niv : Int) - core - shell - w) ((niv : Int) - core - w) ++
      Py.slice l ((niv : Int) + core - w) ((niv : Int) + core + shell - w)).length = 2 * shell := by
    rw [List.length_append, l1, l2]; omega
  refine ⟨hlen, ?_⟩
  intro n
  constructor
  · intro h1 h2
    rw [atF_eq _ shell hlen, if_pos (by omega), atF_eq l niv h, if_pos (by omega),
      List.getElem?_append_right (by omega), l1, Py.slice_get?_in _ _ _ (by omega) (by omega) _ (by omega)]
    congr 1; omega
  · intro h1 h2
    rw [atF_eq _ shell hlen, if_pos (by omega), atF_eq l niv h, if_pos (by omega),
      List.getElem?_append_left (by omega), Py.slice_get?_in _ _ _ (by omega) (by omega) _ (by omega)]
    congr 1; omega

example : wnSlicesGen [0, 1, 2, 3, 4, 5] 1 [-2, 0, 1, 3] = [[4, 5], [2, 3], [1, 2], []] := by decide

/-! ### C17 — frequency shifts -/

/-- C17.  The two shifts always differ by exactly the transferred frequency; an unknown notation raises. -/
theorem freqShift_difference (w : Int) (nt : String) :
    (nt = "plus" → getFreqShift w nt = some (0, w)) ∧
    (nt = "minus" → ∃ s1 s2, getFreqShift w nt = some (s1, s2) ∧ s1 = 0 ∧ s1 - s2 = w) ∧
    (nt = "center" → ∃ s1 s2, getFreqShift w nt = some (s1, s2) ∧ s1 - s2 = w ∧ 0 ≤ -s2 - s1 ∧ -s2 - s1 ≤ 1) ∧
    (nt ≠ "plus" → nt ≠ "minus" → nt ≠ "center" → getFreqShift w nt = none) := by
  refine ⟨?_, ?_, ?_, ?_⟩
  · rintro rfl; rfl
  · rintro rfl; exact ⟨0, -w, rfl, rfl, by omega⟩
  · rintro rfl; exact ⟨w / 2, -(w / 2 + w % 2), rfl, by omega, by omega, by omega⟩
  · intro h1 h2 h3; simp [getFreqShift, h1, h2, h3]

example : getFreqShift (-3) "center" = some (-2, 1) := by decide

end DGA.Mf
