import Verif.TwoPoint.Props2
import Verif.Matsubara.Sums

/-
  The object `GreensFunction` (two_point.py:318-449) as a state machine: broadcasting of a local self-energy over the
  momenta of the band, the cached attributes `asympt`, `niv_asympt`, `full`, `g_loc`, and the method `set_g_asympt`, which
  users call again and again with other tail lengths.
-/

noncomputable section

namespace DGA.Two

open DGA.Mf DGA.Bubble

/-- numpy broadcasting of the momentum axes of `ek[..., None]` with those of `sigma`: equal shapes, or one of the two is
    local (shape `(1,1,1)`); everything else raises.  (Momentum axes flattened; broadcasting of single momentum axes is not
    modelled.)  Language construct used by two_point.py:313-315. -/
def bcast2 {α β : Type} (a : List α) (b : List β) : Option (List (α × β)) :=
  if a.length = b.length then some (a.zip b)
  else if b.length = 1 ∨ a.length = 1 then some (a.flatMap fun x => b.map fun y => (x, y))
  else none

/-- two_point.py:313-315 `build_g` on momentum rows; a frequency axis of different length raises. -/
def buildGArr (ivs : List ℂ) (ek : List ℝ) (mu : ℝ) (sig : List (List ℂ)) : Option (List (List ℂ)) :=
  if sig.all (fun r => r.length == ivs.length) then (bcast2 ek sig).map fun ps => ps.map fun p => buildG ivs p.1 mu p.2
  else none

/-- attributes of `GreensFunction` (two_point.py:325-354); `mu` is the given or the found chemical potential -/
structure Gf where
  sigma : SelfEnergy
  ek : List ℝ
  mu : ℝ
  core : List (List ℂ)
  asympt : Option (List (List ℂ))
  nivAsympt : Int
  full : List (List ℂ)
  gLoc : List ℂ

/-- two_point.py:412-417 `g_full()` -/
def gFullArr (core : List (List ℂ)) : Option (List (List ℂ)) → List (List ℂ)
  | none => core
  | some a => List.zipWith concatCoreAsympt core a

/-- two_point.py:422-430 `k_mean` of one of the two arrays -/
def kMeanArr (rows : List (List ℂ)) : List ℂ := (List.range ((rows.head?.map List.length).getD 0)).map (kMean rows)

/-- two_point.py:441-444 `build_asympt` -/
def buildAsymptArr (s : SelfEnergy) (ek : List ℝ) (mu : ℝ) (n : Int) : Option (List (List ℂ)) :=
  let idx := vnI n s.nivCore true
  (buildGArr (idx.map (iv s.beta)) ek mu (s.sigma.map fun _ => idx.map fun m => asymptVal s.beta s.smom0 s.smom1 m)).map
    fun rows => rows.map (fermionicFull (starRingEnd ℂ))

/-- two_point.py:435-439 `set_g_asympt`; when `build_asympt` raises nothing has been assigned. -/
def Gf.setGAsympt (g : Gf) (n : Int) : Option Gf :=
  (buildAsymptArr g.sigma g.ek g.mu n).map fun a =>
    let full := gFullArr g.core (some a)
    { g with asympt := some a, nivAsympt := n, full := full, gLoc := kMeanArr full }

/-- two_point.py:325-354 `__init__` after the chemical potential is known -/
def newGf (s : SelfEnergy) (ek : List ℝ) (mu : ℝ) (n : Int) : Option Gf :=
  (buildGArr ((vn s.nivCore).map (iv s.beta)) ek mu s.sigmaCore).bind fun core =>
    (Gf.setGAsympt ⟨s, ek, mu, core, none, 0, [], []⟩ n)

/-- a history of `set_g_asympt` calls -/
def Gf.run (g : Gf) (ns : List Int) : Option Gf := ns.foldlM Gf.setGAsympt g

/-- two_point.py:398-399 `niv_full` -/
def Gf.nivFull (g : Gf) : Int := g.sigma.nivCore + g.nivAsympt

/-- two_point.py:382-383 `v`, the frequency axis belonging to `full` (β is a float, two_point.py:101) -/
def Gf.v (g : Gf) : List ℝ := vnBeta g.sigma.beta g.nivFull 0 false

/-- two_point.py:409-410 `fs()`: the entry `niv_full` of every momentum (a negative index counts from the end) -/
def Gf.fs (g : Gf) : List (Option ℝ) := (gFullArr g.core g.asympt).map fun r => (Py.get? r g.nivFull).map fun z => -z.im / Real.pi

/-- two_point.py:402-407 `mem` in bytes (`size * itemsize`, complex128) -/
def Gf.bytes (g : Gf) : Nat := (g.full.map List.length).sum * 16

/-! ### Specification -/

/-- the self-energy row that belongs to momentum `k`: its own, or the only one there is -/
def rowOf (s : SelfEnergy) (k : Nat) : List ℂ := if s.sigma.length = 1 then s.sigma.getD 0 [] else s.sigma.getD k []

/-- the band energy of momentum `k` -/
def ekOf (ek : List ℝ) (k : Nat) : ℝ := if ek.length = 1 then ek.getD 0 0 else ek.getD k 0

/-- the momenta of the Green's function -/
def nK (s : SelfEnergy) (ek : List ℝ) : Nat := if ek.length = 1 then s.sigma.length else ek.length

/-- Dyson's equation at momentum `k` and Matsubara index `n` -/
def gVal (s : SelfEnergy) (ek : List ℝ) (mu : ℝ) (k : Nat) (n : Int) : ℂ :=
  1 / (iv s.beta n + (mu : ℂ) - (ekOf ek k : ℂ) - sigmaSpec s (rowOf s k) n)

theorem bcast2_value {α β : Type} [Inhabited α] [Inhabited β] (a : List α) (b : List β)
    (h : a.length = b.length ∨ b.length = 1 ∨ a.length = 1) :
    bcast2 a b = some ((List.range (if a.length = 1 then b.length else a.length)).map fun k =>
      (a.getD (if a.length = 1 then 0 else k) default, b.getD (if b.length = 1 then 0 else k) default)) := by
  unfold bcast2
  by_cases h1 : a.length = b.length
  · rw [if_pos h1]
    congr 1
    apply List.ext_getElem?
    intro i
    rw [List.getElem?_map, show (if a.length = 1 then b.length else a.length) = a.length by split_ifs <;> omega]
    by_cases hi : i < a.length
    · have hj : i < b.length := by omega
      rw [List.getElem?_range hi]
      simp only [Option.map_some]
      rw [show (if a.length = 1 then 0 else i) = i by split_ifs <;> omega, show (if b.length = 1 then 0 else i) = i by split_ifs <;> omega]
      simp [List.getElem?_zip_eq_some, List.getD, List.getElem?_eq_getElem hi, List.getElem?_eq_getElem hj]
    · rw [List.getElem?_eq_none (by simp; omega), List.getElem?_eq_none (by simp; omega)]; rfl
  · rw [if_neg h1]
    by_cases hb : b.length = 1
    · obtain ⟨y, rfl⟩ := List.length_eq_one_iff.mp hb
      have ha : a.length ≠ 1 := h1
      rw [if_pos (Or.inl hb)]
      simp only [if_neg ha]
      congr 1
      simp only [List.map_cons, List.map_nil]
      rw [← List.map_eq_flatMap]
      apply List.ext_getElem?
      intro i
      rw [List.getElem?_map, List.getElem?_map]
      by_cases hi : i < a.length
      · rw [List.getElem?_range hi, List.getElem?_eq_getElem hi]
        simp [List.getD, List.getElem?_eq_getElem hi]
      · rw [List.getElem?_eq_none (by omega), List.getElem?_eq_none (by simp; omega)]; rfl
    · have ha : a.length = 1 := by tauto
      obtain ⟨x, rfl⟩ := List.length_eq_one_iff.mp ha
      rw [if_pos (Or.inr ha)]
      congr 1
      simp only [List.flatMap_cons, List.flatMap_nil, List.append_nil]
      apply List.ext_getElem?
      intro i
      rw [List.getElem?_map, List.getElem?_map]
      by_cases hi : i < b.length
      · rw [if_pos ha, List.getElem?_range hi, List.getElem?_eq_getElem hi]
        simp only [Option.map_some]
        simp [if_neg hb, List.getD, List.getElem?_eq_getElem hi]
      · rw [if_pos ha, List.getElem?_eq_none (by omega), List.getElem?_eq_none (by simp; omega)]; rfl

theorem bcast2_none {α β : Type} (a : List α) (b : List β) (h : ¬ (a.length = b.length ∨ b.length = 1 ∨ a.length = 1)) :
    bcast2 a b = none := by
  unfold bcast2
  rw [if_neg (by tauto), if_neg (by tauto)]

theorem vnI_pos_eq (n : Int) (c : Nat) : vnI n c true = (List.range n.toNat).map fun k : Nat => (c : Int) + k := by
  unfold vnI Py.arange
  rw [if_pos rfl, show (n + (c : Int) - c) = n by ring]

/-- core row and full row for one momentum -/
theorem row_value (s : SelfEnergy) (r : List ℂ) (hc : s.nivCore ≤ r.length) (n : Nat) (e mu : ℝ) :
    concatCoreAsympt (buildG ((vn s.nivCore).map (iv s.beta)) e mu (fermionicFull (starRingEnd ℂ) (Py.sliceTo r s.nivCore)))
      (gAsymptRow s n e mu) = samplesF (fun m => 1 / (iv s.beta m + (mu : ℂ) - (e : ℂ) - sigmaSpec s r m)) (s.nivCore + n) := by
  have := gFull_value ⟨[r], s.beta, s.smom0, s.smom1, s.nivCore⟩ (by simpa using hc) n e mu 0
  exact Option.some.inj this

theorem concat_nil (c : List ℂ) : concatCoreAsympt c [] = c := by
  simp [concatCoreAsympt, Py.sliceTo, Py.sliceFrom]

/-- the shapes fit: as many band energies as self-energy rows, or one of them is local -/
def Fits (s : SelfEnergy) (ek : List ℝ) : Prop := ek.length = s.sigma.length ∨ s.sigma.length = 1 ∨ ek.length = 1

theorem getD_map_row {α β : Type} (f : α → β) (l : List α) (k : Nat) (d : α) (e : β) (h : k < l.length) :
    (l.map f).getD k e = f (l.getD k d) := by
  simp [List.getD, List.getElem?_eq_getElem h]

theorem buildGArr_value (s : SelfEnergy) (ivs : List ℂ) (ek : List ℝ) (mu : ℝ) (f : List ℂ → List ℂ) (hs : Fits s ek)
    (hl : ∀ r ∈ s.sigma, (f r).length = ivs.length) :
    buildGArr ivs ek mu (s.sigma.map f) = some ((List.range (nK s ek)).map fun k => buildG ivs (ekOf ek k) mu (f (rowOf s k))) := by
  unfold buildGArr
  rw [if_pos (by simpa using hl), bcast2_value _ _ (by simpa [Fits] using hs), Option.map_some, List.map_map, List.length_map]
  congr 1
  apply List.map_congr_left
  intro k hk
  rw [List.mem_range] at hk
  simp only [Function.comp]
  have e1 : ek.getD (if ek.length = 1 then 0 else k) default = ekOf ek k := by
    unfold ekOf; split_ifs <;> rfl
  have e2 : (s.sigma.map f).getD (if s.sigma.length = 1 then 0 else k) default = f (rowOf s k) := by
    unfold rowOf Fits at *
    split_ifs with h
    · exact getD_map_row _ _ _ _ _ (by omega)
    · refine getD_map_row _ _ _ _ _ ?_
      split_ifs at hk with h' <;> omega
  rw [e1, e2]

/-- momentum mean at Matsubara index `m` -/
def gLocVal (s : SelfEnergy) (ek : List ℝ) (mu : ℝ) (m : Int) : ℂ :=
  (∑ k ∈ Finset.range (nK s ek), gVal s ek mu k m) / (nK s ek : ℂ)

theorem kMeanArr_samples (G : Nat → Int → ℂ) (K N : Nat) (hK : 0 < K) :
    kMeanArr ((List.range K).map fun k => samplesF (G k) N) = samplesF (fun m => (∑ k ∈ Finset.range K, G k m) / (K : ℂ)) N := by
  have hh : ((List.range K).map fun k => samplesF (G k) N).head? = some (samplesF (G 0) N) := by
    obtain ⟨K', rfl⟩ : ∃ K', K = K' + 1 := ⟨K - 1, by omega⟩
    rw [List.range_succ_eq_map]; rfl
  apply eq_samplesF
  · simp [kMeanArr, hh, samplesF_length]
  · intro k hk
    unfold kMeanArr kMean
    rw [hh, Option.map_some, Option.getD_some, samplesF_length, List.getElem?_map, List.getElem?_range hk, Option.map_some,
      List.map_map, List.length_map, List.length_range]
    congr 2
    rw [Finset.sum_range]
    rw [← List.sum_ofFn]
    congr 1
    apply List.ext_getElem?
    intro i
    rw [List.getElem?_map, List.getElem?_ofFn]
    by_cases hi : i < K
    · rw [List.getElem?_range hi, dif_pos hi]
      simp [List.getD, samplesF_get? _ _ _ hk]
    · rw [List.getElem?_eq_none (by simpa using hi), dif_neg hi]; rfl

/-- Everything the object holds after construction with the tail length `n` (also a negative one). -/
theorem newGf_state (s : SelfEnergy) (ek : List ℝ) (mu : ℝ) (n : Int) (hs : Fits s ek) (hcore : ∀ r ∈ s.sigma, s.nivCore ≤ r.length)
    (hK : 0 < nK s ek) :
    ∃ a, newGf s ek mu n = some ⟨s, ek, mu, (List.range (nK s ek)).map fun k => samplesF (gVal s ek mu k) s.nivCore, some a, n,
      (List.range (nK s ek)).map fun k => samplesF (gVal s ek mu k) (s.nivCore + n.toNat),
      samplesF (gLocVal s ek mu) (s.nivCore + n.toNat)⟩ ∧
      gFullArr ((List.range (nK s ek)).map fun k => samplesF (gVal s ek mu k) s.nivCore) (some a) =
        (List.range (nK s ek)).map fun k => samplesF (gVal s ek mu k) (s.nivCore + n.toNat) := by
  have hrow : ∀ k, k < nK s ek → rowOf s k ∈ s.sigma := by
    intro k hk
    unfold nK at hk; unfold rowOf; unfold Fits at hs
    split_ifs with h
    · simp [List.getD, List.getElem?_eq_getElem (show 0 < s.sigma.length by omega)]
    · have hk' : k < s.sigma.length := by split_ifs at hk <;> omega
      simp [List.getD, List.getElem?_eq_getElem hk']
  have hcoreval : buildGArr ((vn s.nivCore).map (iv s.beta)) ek mu s.sigmaCore =
      some ((List.range (nK s ek)).map fun k => samplesF (gVal s ek mu k) s.nivCore) := by
    unfold SelfEnergy.sigmaCore
    rw [buildGArr_value s _ ek mu _ hs]
    · congr 1
      apply List.map_congr_left
      intro k hk
      have h := row_value s (rowOf s k) (hcore _ (hrow k (List.mem_range.mp hk))) 0 (ekOf ek k) mu
      have e : gAsymptRow s 0 (ekOf ek k) mu = [] := by
        simp [gAsymptRow, vn, Py.arange, buildG, fermionicFull]
      rw [e, concat_nil] at h
      exact h
    · intro r hr
      rw [(fermionicFull_value _ _).1, sliceTo_eq_take r _ (hcore r hr), List.length_map, vn_length, List.length_take,
        Nat.min_eq_left (hcore r hr)]
  have hasy : buildAsymptArr s ek mu n = some ((List.range (nK s ek)).map fun k => gAsymptRow s n.toNat (ekOf ek k) mu) := by
    unfold buildAsymptArr
    simp only
    rw [buildGArr_value s _ ek mu (fun _ => _) hs (by intro r _; simp), Option.map_some, List.map_map]
    congr 1
    apply List.map_congr_left
    intro k _
    unfold gAsymptRow SelfEnergy.asymptRow
    simp only [Function.comp]
    have e : vnI n s.nivCore true = vn n.toNat s.nivCore true := by
      rw [vnI_pos_eq]
      unfold vn Py.arange
      rw [if_pos rfl, show ((n.toNat : Int) + (s.nivCore : Int) - s.nivCore).toNat = n.toNat by omega]
    rw [e]
  have hfull : gFullArr ((List.range (nK s ek)).map fun k => samplesF (gVal s ek mu k) s.nivCore)
      (some ((List.range (nK s ek)).map fun k => gAsymptRow s n.toNat (ekOf ek k) mu)) =
        (List.range (nK s ek)).map fun k => samplesF (gVal s ek mu k) (s.nivCore + n.toNat) := by
    unfold gFullArr
    simp only
    rw [List.zipWith_map, List.zipWith_self]
    apply List.map_congr_left
    intro k hk
    have hc := hcore _ (hrow k (List.mem_range.mp hk))
    have h0 := row_value s (rowOf s k) hc 0 (ekOf ek k) mu
    have e : gAsymptRow s 0 (ekOf ek k) mu = [] := by
      simp [gAsymptRow, vn, Py.arange, buildG, fermionicFull]
    rw [e, concat_nil] at h0
    have h := row_value s (rowOf s k) hc n.toNat (ekOf ek k) mu
    rw [show samplesF (gVal s ek mu k) s.nivCore = buildG ((vn s.nivCore).map (iv s.beta)) (ekOf ek k) mu
      (fermionicFull (starRingEnd ℂ) (Py.sliceTo (rowOf s k) s.nivCore)) from h0.symm]
    exact h
  refine ⟨_, ?_, hfull⟩
  unfold newGf Gf.setGAsympt
  rw [hcoreval, Option.bind_some]
  simp only
  rw [hasy, Option.map_some, hfull, kMeanArr_samples _ _ _ hK]
  rfl

theorem get?_samplesF (G : Int → ℂ) (N : Nat) (i : Int) (h0 : 0 ≤ i) (h1 : i < 2 * N) : Py.get? (samplesF G N) i = some (G (i - N)) := by
  unfold Py.get?
  rw [if_neg (by omega), samplesF_get? _ _ _ (by omega)]
  congr 2; omega

/-! ### C114 -/

/-- **C114 (a).** Histories of `set_g_asympt` do not matter: after any sequence of calls the object is the one that the
    constructor would have built with the last tail length. -/
theorem history_irrelevant (s : SelfEnergy) (ek : List ℝ) (mu : ℝ) (hs : Fits s ek) (hcore : ∀ r ∈ s.sigma, s.nivCore ≤ r.length)
    (hK : 0 < nK s ek) (n0 : Int) (ns : List Int) (g0 : Gf) (h0 : newGf s ek mu n0 = some g0) :
    g0.run ns = newGf s ek mu ((n0 :: ns).getLast (List.cons_ne_nil _ _)) := by
  induction ns generalizing n0 g0 with
  | nil => exact h0.symm
  | cons n t ih =>
    obtain ⟨a, ha, _⟩ := newGf_state s ek mu n0 hs hcore hK
    obtain ⟨b, hb, _⟩ := newGf_state s ek mu n hs hcore hK
    have hstep : g0.setGAsympt n = newGf s ek mu n := by
      rw [h0] at ha
      have := Option.some.inj ha
      subst this
      unfold newGf at hb ⊢
      cases hc : buildGArr ((vn s.nivCore).map (iv s.beta)) ek mu s.sigmaCore with
      | none => rw [hc] at hb; simp at hb
      | some c =>
        rw [hc] at hb
        rw [Option.bind_some] at hb ⊢
        have hcc : c = (List.range (nK s ek)).map fun k => samplesF (gVal s ek mu k) s.nivCore := by
          unfold Gf.setGAsympt at hb
          simp only [Option.map_eq_some_iff] at hb
          obtain ⟨x, _, hx⟩ := hb
          exact congrArg Gf.core hx
        subst hcc
        rfl
    have : g0.run (n :: t) = (g0.setGAsympt n).bind fun g => g.run t := by
      simp [Gf.run, List.foldlM_cons]
    rw [this, hstep, hb, Option.bind_some, ih n _ hb]
    rfl

/-- **C114 (b).** With a tail length `n ≥ 0`: `full` has, for every momentum, one entry for each frequency of the axis `v`, at
    the position of the frequency `iv_m` it is Dyson's equation with the self-energy of that momentum (or the local one),
    `g_loc` is the momentum mean, `core` the central part, and `mem` counts all entries. -/
theorem gf_value (s : SelfEnergy) (ek : List ℝ) (mu : ℝ) (hs : Fits s ek) (hcore : ∀ r ∈ s.sigma, s.nivCore ≤ r.length)
    (hK : 0 < nK s ek) (n : Nat) :
    ∃ g, newGf s ek mu n = some g ∧ g.full.length = nK s ek ∧ g.bytes = 16 * (nK s ek * (2 * (s.nivCore + n))) ∧
      g.v.length = 2 * (s.nivCore + n) ∧ g.gLoc.length = 2 * (s.nivCore + n) ∧
      (∀ k < nK s ek, ∃ row, g.full[k]? = some row ∧ row.length = g.v.length ∧
        ∃ c, g.core[k]? = some c ∧ cutV row s.nivCore = c) ∧
      ∀ m : Int, -(s.nivCore + n : Int) ≤ m → m < s.nivCore + n →
        g.v[(m + s.nivCore + n).toNat]? = some ((2 * m + 1) * Real.pi / s.beta) ∧
        (∀ k < nK s ek, (g.full[k]?).bind (fun row => row[(m + s.nivCore + n).toNat]?) = some (gVal s ek mu k m)) ∧
        g.gLoc[(m + s.nivCore + n).toNat]? = some (gLocVal s ek mu m) := by
  obtain ⟨a, ha, hf⟩ := newGf_state s ek mu n hs hcore hK
  rw [Int.toNat_natCast] at ha hf
  have hv : (vnBeta s.beta ((s.nivCore : Int) + n) 0 false).length = 2 * (s.nivCore + n) := by
    simp [vnBeta, vnI, Py.length_arange]; omega
  refine ⟨_, ha, by simp, ?_, hv, samplesF_length _ _, ?_, ?_⟩
  · simp [Gf.bytes, List.map_map, Function.comp_def, samplesF_length]; ring
  · intro k hk
    refine ⟨samplesF (gVal s ek mu k) (s.nivCore + n), by simp [hk], ?_, samplesF (gVal s ek mu k) s.nivCore, by simp [hk], ?_⟩
    · rw [samplesF_length]; exact hv.symm
    · obtain ⟨h1, h2⟩ := cutV_value (samplesF (gVal s ek mu k) (s.nivCore + n)) (s.nivCore + n) (samplesF_length _ _) s.nivCore (by omega)
      apply ext_atF _ _ s.nivCore h1 (samplesF_length _ _)
      intro m h3 h4
      rw [h2 m h3 h4, samplesF_atF _ _ _ (by push_cast; omega) (by push_cast; omega), samplesF_atF _ _ _ h3 h4]
  · intro m h1 h2
    have hi : (m + s.nivCore + n).toNat < 2 * (s.nivCore + n) := by omega
    have hb : (((m + s.nivCore + n).toNat : Nat) : Int) - ((s.nivCore + n : Nat) : Int) = m := by push_cast; omega
    refine ⟨?_, ?_, ?_⟩
    · unfold Gf.v Gf.nivFull vnBeta vnI
      rw [if_neg (by decide), List.getElem?_map, Py.arange_get? _ _ _ (by push_cast; omega), Option.map_some]
      have e : -((s.nivCore : Int) + n) + 0 + (((m + s.nivCore + n).toNat : Nat) : Int) = m := by omega
      simp only [e]
      congr 1; ring
    · intro k hk
      simp only [List.getElem?_map, List.getElem?_range hk, Option.map_some, Option.bind_some]
      rw [samplesF_get? _ _ _ hi, hb]
    · simp only
      rw [samplesF_get? _ _ _ hi, hb]

/-- **C114 (c).** `fs()` is the spectral weight at the lowest positive Matsubara frequency, and it is positive wherever the
    self-energy at that frequency is causal. -/
theorem fs_value (s : SelfEnergy) (hb : 0 < s.beta) (ek : List ℝ) (mu : ℝ) (hs : Fits s ek) (hcore : ∀ r ∈ s.sigma, s.nivCore ≤ r.length)
    (hK : 0 < nK s ek) (n : Nat) (hn : 0 < s.nivCore + n) :
    ∃ g, newGf s ek mu n = some g ∧ g.fs = (List.range (nK s ek)).map (fun k => some (-(gVal s ek mu k 0).im / Real.pi)) ∧
      ∀ k < nK s ek, (sigmaSpec s (rowOf s k) 0).im ≤ 0 → 0 < -(gVal s ek mu k 0).im / Real.pi := by
  obtain ⟨a, ha, hf⟩ := newGf_state s ek mu n hs hcore hK
  rw [Int.toNat_natCast] at ha hf
  refine ⟨_, ha, ?_, ?_⟩
  · unfold Gf.fs
    simp only
    rw [hf, List.map_map]
    apply List.map_congr_left
    intro k _
    simp only [Function.comp]
    rw [get?_samplesF _ _ _ (by simp only [Gf.nivFull]; omega) (by simp only [Gf.nivFull]; push_cast; omega), Option.map_some]
    have e : Gf.nivFull ⟨s, ek, mu, (List.range (nK s ek)).map fun k => samplesF (gVal s ek mu k) s.nivCore, some a, n,
      (List.range (nK s ek)).map fun k => samplesF (gVal s ek mu k) (s.nivCore + n), samplesF (gLocVal s ek mu) (s.nivCore + n)⟩ -
        ((s.nivCore + n : Nat) : Int) = 0 := by simp only [Gf.nivFull]; push_cast; omega
    rw [e]
  · intro k _ hc
    have him : (iv s.beta 0 + (mu : ℂ) - (ekOf ek k : ℂ) - sigmaSpec s (rowOf s k) 0).im = Real.pi / s.beta - (sigmaSpec s (rowOf s k) 0).im := by
      simp [iv, Complex.add_im, Complex.sub_im, Complex.mul_im]
    have hp : 0 < (iv s.beta 0 + (mu : ℂ) - (ekOf ek k : ℂ) - sigmaSpec s (rowOf s k) 0).im := by
      rw [him]
      have : 0 < Real.pi / s.beta := div_pos Real.pi_pos hb
      linarith
    unfold gVal
    set z := iv s.beta 0 + (mu : ℂ) - (ekOf ek k : ℂ) - sigmaSpec s (rowOf s k) 0 with hz
    have hz0 : z ≠ 0 := fun h => by rw [h] at hp; simp at hp
    have hN : 0 < Complex.normSq z := Complex.normSq_pos.mpr hz0
    rw [one_div, Complex.inv_im]
    apply div_pos _ Real.pi_pos
    rw [neg_div, neg_neg]
    exact div_pos hp hN

/-- **C114 (d, finding).** A negative tail length is accepted: the arrays are those of length zero, but the positions computed
    from it are off by it, and `fs()` returns the spectral weight with the wrong sign. -/
theorem negative_tail (s : SelfEnergy) (ek : List ℝ) (mu : ℝ) (hs : Fits s ek) (hcore : ∀ r ∈ s.sigma, s.nivCore ≤ r.length)
    (hK : 0 < nK s ek) (j : Nat) (hj : j < s.nivCore) :
    ∃ g g', newGf s ek mu (-(j : Int) - 1) = some g ∧ newGf s ek mu 0 = some g' ∧ g.full = g'.full ∧ g.gLoc = g'.gLoc ∧
      g.v.length + 2 * (j + 1) = g'.v.length ∧
      g.fs = (List.range (nK s ek)).map (fun k => some (-(gVal s ek mu k (-(j : Int) - 1)).im / Real.pi)) ∧
      ∀ k, -(gVal s ek mu k (-(j : Int) - 1)).im = -(-(gVal s ek mu k j).im) := by
  obtain ⟨a, ha, hf⟩ := newGf_state s ek mu (-(j : Int) - 1) hs hcore hK
  obtain ⟨a', ha', hf'⟩ := newGf_state s ek mu 0 hs hcore hK
  have e : (-(j : Int) - 1).toNat = 0 := by omega
  rw [e] at ha hf
  refine ⟨_, _, ha, ha', rfl, rfl, ?_, ?_, ?_⟩
  · simp [Gf.v, Gf.nivFull, vnBeta, vnI, Py.length_arange]; omega
  · unfold Gf.fs
    simp only
    rw [hf, List.map_map]
    apply List.map_congr_left
    intro k _
    simp only [Function.comp]
    rw [get?_samplesF _ _ _ (by simp only [Gf.nivFull]; omega) (by simp only [Gf.nivFull]; push_cast; omega), Option.map_some]
    have e : Gf.nivFull ⟨s, ek, mu, (List.range (nK s ek)).map fun k => samplesF (gVal s ek mu k) s.nivCore, some a, -(j : Int) - 1,
      (List.range (nK s ek)).map fun k => samplesF (gVal s ek mu k) (s.nivCore + 0), samplesF (gLocVal s ek mu) (s.nivCore + 0)⟩ -
        ((s.nivCore + 0 : Nat) : Int) = -(j : Int) - 1 := by simp only [Gf.nivFull]; push_cast; omega
    rw [e]
  · intro k
    unfold gVal
    rw [gFull_symm, Complex.conj_im]

/-- **C114 (e).** A local self-energy gives the same Green's function as the array that repeats it for every momentum; arrays
    of other shapes, and core sizes beyond the stored frequencies, raise. -/
theorem broadcast_local (s : SelfEnergy) (r : List ℂ) (hr : s.sigma = [r]) (hcore : s.nivCore ≤ r.length) (ek : List ℝ) (hek : 0 < ek.length)
    (mu : ℝ) (n : Int) :
    ∃ g g', newGf s ek mu n = some g ∧ newGf { s with sigma := List.replicate ek.length r } ek mu n = some g' ∧
      g.core = g'.core ∧ g.full = g'.full ∧ g.gLoc = g'.gLoc ∧ g.full.length = ek.length := by
  have hf1 : Fits s ek := by unfold Fits; rw [hr]; simp
  have hf2 : Fits { s with sigma := List.replicate ek.length r } ek := by unfold Fits; simp
  have hn1 : nK s ek = ek.length := by unfold nK; rw [hr]; split_ifs with h <;> simp [h]
  have hn2 : nK { s with sigma := List.replicate ek.length r } ek = ek.length := by unfold nK; split_ifs with h <;> simp
  have hval : ∀ k < ek.length, gVal { s with sigma := List.replicate ek.length r } ek mu k = gVal s ek mu k := by
    intro k hk
    funext m
    unfold gVal
    have e1 : rowOf { s with sigma := List.replicate ek.length r } k = r := by
      unfold rowOf
      split_ifs with h
      · simp [List.getD, hek]
      · simp [List.getD, hk]
    have e2 : rowOf s k = r := by
      unfold rowOf; rw [hr]; simp
    rw [e1, e2]; rfl
  obtain ⟨a, ha, _⟩ := newGf_state s ek mu n hf1 (by rw [hr]; simpa using hcore) (by omega)
  obtain ⟨a', ha', _⟩ := newGf_state { s with sigma := List.replicate ek.length r } ek mu n hf2
    (by intro x hx; rw [List.eq_of_mem_replicate hx]; exact hcore) (by omega)
  refine ⟨_, _, ha, ha', ?_, ?_, ?_, by simp [hn1]⟩
  · simp only [hn1, hn2]
    apply List.map_congr_left
    intro k hk
    rw [hval k (List.mem_range.mp hk)]
  · simp only [hn1, hn2]
    apply List.map_congr_left
    intro k hk
    rw [hval k (List.mem_range.mp hk)]
  · simp only
    apply samplesF_congr
    intro m _ _
    unfold gLocVal
    rw [hn1, hn2]
    congr 1
    apply Finset.sum_congr rfl
    intro k hk
    rw [hval k (Finset.mem_range.mp hk)]

/-- **C114 (f).** The constructor raises when the shapes do not fit, or when a stored row is shorter than the core (the
    estimate of the core size never returns less than 20, see `estimate_bounds`). -/
theorem newGf_raises (s : SelfEnergy) (ek : List ℝ) (mu : ℝ) (n : Int) (h : ¬ Fits s ek ∨ ∃ r ∈ s.sigma, r.length < s.nivCore) :
    newGf s ek mu n = none := by
  unfold newGf
  have : buildGArr ((vn s.nivCore).map (iv s.beta)) ek mu s.sigmaCore = none := by
    unfold buildGArr
    rcases h with h | ⟨r, hr, hl⟩
    · split_ifs
      · rw [bcast2_none _ _ (by simpa [Fits, SelfEnergy.sigmaCore] using h)]; rfl
      · rfl
    · rw [if_neg]
      intro hall
      rw [List.all_eq_true] at hall
      have := hall _ (List.mem_map_of_mem (f := fun r => fermionicFull (starRingEnd ℂ) (Py.sliceTo r s.nivCore)) hr)
      rw [beq_iff_eq, (fermionicFull_value _ _).1, List.length_map, vn_length] at this
      have hle : (Py.sliceTo r (s.nivCore : Int)).length ≤ r.length := by
        unfold Py.sliceTo; exact List.length_take_le' _ _
      omega
  rw [this]; rfl

/-- **C114 (g).** A tail of length zero is the same as none: `full` is `core`, and that is also what `g_full()` returns for an object without
    asymptotic part. -/
theorem no_tail (s : SelfEnergy) (ek : List ℝ) (mu : ℝ) (hs : Fits s ek) (hcore : ∀ r ∈ s.sigma, s.nivCore ≤ r.length) (hK : 0 < nK s ek) :
    ∃ g, newGf s ek mu 0 = some g ∧ g.full = g.core ∧ gFullArr g.core none = g.full ∧ g.fs = Gf.fs { g with asympt := none } := by
  obtain ⟨a, ha, h2⟩ := newGf_state s ek mu 0 hs hcore hK
  refine ⟨_, ha, by simp, by simp [gFullArr], ?_⟩
  unfold Gf.fs
  simp only
  rw [h2]
  simp [gFullArr, Gf.nivFull]

/-- non-trivial case: two momenta, local self-energy with three stored frequencies, core of two -/
example : Fits ⟨[[1, 2, 3]], 1, 1, 2, 2⟩ [0, 1] ∧ (∀ r ∈ (⟨[[1, 2, 3]], 1, 1, 2, 2⟩ : SelfEnergy).sigma, 2 ≤ r.length) ∧
    0 < nK ⟨[[1, 2, 3]], 1, 1, 2, 2⟩ [0, 1] := by
  refine ⟨Or.inr (Or.inl rfl), by simp, by simp [nK]⟩

end DGA.Two
