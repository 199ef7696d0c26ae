/-
  Properties of the pairing vertex assembly (C07).
-/
import Verif.Pairing.Lemmas

namespace DGA.Pairing
open DGA.RankFiles DGA.Mpi

/-- The array slice `[v, v']` of a vertex component `F` given in Matsubara indices, on a box of `niv` positive
    frequencies: array position `a` is Matsubara index `a - niv`. -/
def onBox (niv : Nat) (F : Int → Int → ℂ) : Mat2 := fun a b => F ((a : Int) - niv) ((b : Int) - niv)

/-- A distributed write of the vertex component `F q w v v'` (Matsubara indices) by `R` ranks for `n` irreducible q
    points in a box with `niw` bosonic and `niv` fermionic frequencies; `files` are the rank files afterwards.
    The rank files may hold other groups before. -/
structure PvWritten (n R niw niv : Nat) (F : Nat → Int → Int → Int → ℂ) (files : List (File PvGroup)) : Prop where
  count : files.length = R
  write : ∀ r f, files[r]? = some f → ∃ (ts : List Nat) (loc : Nat → Nat → Mat2) (f0 : File PvGroup),
    myTasks n R r = some ts ∧
    (∀ i q, ts[i]? = some q → ∀ j w, (wnRange niw)[j]? = some w → loc i j = onBox niv (F q w)) ∧
    (f0.map (·.1)).Nodup ∧ (∀ e ∈ f0, "pv_".toList.isPrefixOf e.1 = false) ∧
    writePairing niv (nivPP niw niv) ts (wnRange niw) loc f0 = some f

/-- pairing-channel value `P(v, v') = -F(w = v - v'; v, -v')`, where the fermionic frequency `-v'` has index
    `-v' - 1` -/
def P (F : Nat → Int → Int → Int → ℂ) (q : Nat) (v v' : Int) : ℂ := - F q (v - v') v (-v' - 1)

/-- C07.  For every number of ranks, every box and every vertex: loading the pairing vertex succeeds and at each
    `(v, v')` of the pairing box the entry is the average of `P(v, v')` and `conj P(v', v)`. -/
theorem pairing_entry (n R niw niv : Nat) (hR : 0 < R) (F : Nat → Int → Int → Int → ℂ) (files : List (File PvGroup))
    (hw : PvWritten n R niw niv F files) :
    ∃ arr, loadPairing n (nivPP niw niv) files = some arr ∧
      ∀ q, q < n → ∀ v v' : Int, -(nivPP niw niv : Int) ≤ v → v < nivPP niw niv →
        -(nivPP niw niv : Int) ≤ v' → v' < nivPP niw niv →
        arr q (v + nivPP niw niv).toNat (v' + nivPP niw niv).toNat =
          (P F q v v' + (starRingEnd ℂ) (P F q v' v)) / 2 := by
  obtain ⟨parts, hlen, hparts, hflat⟩ := tasks_concat n R hR
  have hpp : nivPP niw niv ≤ niw / 2 ∧ nivPP niw niv ≤ niv / 2 := by unfold nivPP; omega
  obtain ⟨arr, h1, h2⟩ := loadPvFiles_eq n niv (nivPP niw niv) (fun q w => onBox niv (F q w))
    (wnPP (nivPP niw niv) (wnRange niw)) files parts (by rw [hw.count, hlen]) (by
    intro r f ts hf hts
    have hmem : ∀ q ∈ ts, q < n := by
      intro q hq
      have : q ∈ parts.flatten := List.mem_flatten.mpr ⟨ts, List.mem_of_getElem? hts, hq⟩
      rw [hflat] at this; exact List.mem_range.mp this
    refine ⟨hmem, ?_⟩
    obtain ⟨ts', loc, f0, ht', hloc, hnd, hf0, hwr⟩ := hw.write r f hf
    have hr : r < R := by
      have := (List.getElem?_eq_some_iff.mp hf).1; rw [hw.count] at this; exact this
    rw [hparts r hr, hts] at ht'
    injection ht' with ht'; subst ht'
    have htnd : ts.Nodup := by
      have := myTasks_eq n R r hR hr
      rw [hparts r hr, hts] at this
      injection this with this; subst this
      rw [List.Nodup, List.pairwise_map]
      exact List.nodup_range.imp (by intro x y h; omega)
    refine ⟨f0, hf0, ?_⟩
    rw [writePairing_eq niv _ ts (wnRange niw) loc (fun q w => onBox niv (F q w)) f0 htnd (Py.nodup_arange _ _) hf0 hnd
      hloc] at hwr
    injection hwr with hwr; exact hwr.symm) (fun _ _ _ => 0)
  refine ⟨arr, h1, ?_⟩
  intro q hq v v' hv1 hv2 hv1' hv2'
  have hmw : ∀ w : Int, w.natAbs < 2 * nivPP niw niv → w ∈ wnPP (nivPP niw niv) (wnRange niw) := by
    intro w h
    unfold wnPP
    rw [List.mem_filter]
    refine ⟨?_, by simpa using h⟩
    rw [wnRange, Py.mem_arange]; omega
  have hnd : (wnPP (nivPP niw niv) (wnRange niw)).Nodup := (Py.nodup_arange _ _).filter _
  rw [h2 q _ _ (by omega) (by omega), zero_add, hflat, sum_contrib _ _ _ _ _ hnd
    List.nodup_range q _ _ (hmw _ (by omega)) (hmw _ (by omega)) (List.mem_range.mpr hq)]
  have e1 : (((v + nivPP niw niv).toNat : Int) - ((v' + nivPP niw niv).toNat : Int)) = v - v' := by omega
  have e2 : (((v' + nivPP niw niv).toNat : Int) - ((v + nivPP niw niv).toNat : Int)) = v' - v := by omega
  have hp : ∀ x y : Int, -(nivPP niw niv : Int) ≤ x → x < nivPP niw niv → -(nivPP niw niv : Int) ≤ y →
      y < nivPP niw niv →
      pval niv (nivPP niw niv) (onBox niv (F q (x - y))) (x + nivPP niw niv).toNat (y + nivPP niw niv).toNat =
        P F q x y := by
    intro x y a1 a2 a3 a4
    unfold pval onBox P
    congr 2 <;> omega
  rw [e1, e2, hp v v' hv1 hv2 hv1' hv2', hp v' v hv1' hv2' hv1 hv2]
  ring

/-- C07.  In particular the assembled component is Hermitian in `(v, v')`. -/
theorem pairing_hermitian (n R niw niv : Nat) (hR : 0 < R) (F : Nat → Int → Int → Int → ℂ)
    (files : List (File PvGroup)) (hw : PvWritten n R niw niv F files) :
    ∃ arr, loadPairing n (nivPP niw niv) files = some arr ∧
      ∀ q, q < n → ∀ i j, i < 2 * nivPP niw niv → j < 2 * nivPP niw niv →
        arr q i j = (starRingEnd ℂ) (arr q j i) := by
  obtain ⟨arr, h1, h2⟩ := pairing_entry n R niw niv hR F files hw
  refine ⟨arr, h1, ?_⟩
  intro q hq i j hi hj
  have a := h2 q hq ((i : Int) - nivPP niw niv) ((j : Int) - nivPP niw niv) (by omega) (by omega) (by omega) (by omega)
  have b := h2 q hq ((j : Int) - nivPP niw niv) ((i : Int) - nivPP niw niv) (by omega) (by omega) (by omega) (by omega)
  rw [Int.sub_add_cancel, Int.sub_add_cancel, Int.toNat_natCast, Int.toNat_natCast] at a b
  rw [a, b, map_div₀, map_add, Complex.conj_conj, map_ofNat]
  ring

/-- C07.  If the vertex has the symmetry `P(v', v) = conj P(v, v')` the average changes nothing. -/
theorem pairing_symmetric_input (n R niw niv : Nat) (hR : 0 < R) (F : Nat → Int → Int → Int → ℂ)
    (files : List (File PvGroup)) (hw : PvWritten n R niw niv F files)
    (hs : ∀ q v v', P F q v' v = (starRingEnd ℂ) (P F q v v')) :
    ∃ arr, loadPairing n (nivPP niw niv) files = some arr ∧
      ∀ q, q < n → ∀ v v' : Int, -(nivPP niw niv : Int) ≤ v → v < nivPP niw niv →
        -(nivPP niw niv : Int) ≤ v' → v' < nivPP niw niv →
        arr q (v + nivPP niw niv).toNat (v' + nivPP niw niv).toNat = - F q (v - v') v (-v' - 1) := by
  obtain ⟨arr, h1, h2⟩ := pairing_entry n R niw niv hR F files hw
  refine ⟨arr, h1, ?_⟩
  intro q hq v v' a b c d
  rw [h2 q hq v v' a b c d, hs q v v', Complex.conj_conj]
  unfold P; ring

/-- non-vacuity: every vertex can be written by one rank (so `PvWritten` is met); here with `niw = niv = 2`. -/
example (F : Nat → Int → Int → Int → ℂ) : ∃ files, PvWritten 1 1 2 2 F files ∧ nivPP 2 2 = 1 := by
  have h := writePairing_eq 2 (nivPP 2 2) [0] (wnRange 2) (fun _ j => onBox 2 (F 0 ((wnRange 2).getD j 0)))
    (fun q w => onBox 2 (F q w)) [] (by simp) (Py.nodup_arange _ _) (by simp) (by simp) (by
      intro i q hq j w hw
      have : q = 0 := by
        have := List.mem_of_getElem? hq; simpa using this
      subst this
      simp [List.getD_eq_getElem?_getD, hw])
  generalize [] ++ entries "pv_".toList [0] (wnPP (nivPP 2 2) (wnRange 2)) (pvGroup 2 (nivPP 2 2) fun q w => onBox 2 (F q w))
    = f1 at h
  refine ⟨[f1], ⟨rfl, ?_⟩, by decide⟩
  · intro r f hr
    have hr0 : r = 0 := by
      have := (List.getElem?_eq_some_iff.mp hr).1; simpa using this
    subst hr0
    simp only [List.getElem?_cons_zero, Option.some.injEq] at hr
    subst hr
    refine ⟨[0], _, [], by decide, ?_, by simp, by simp, h⟩
    intro i q hq j w hw
    have : q = 0 := by
      have := List.mem_of_getElem? hq; simpa using this
    subst this
    simp [List.getD_eq_getElem?_getD, hw]

/-- C07.  Combination of the channels: singlet = 3/2 magn − 1/2 dens, triplet = 1/2 magn + 1/2 dens of the full ladder
    vertices `f1 + (1 ± u χ) f2`; singlet + triplet = 2 magn and magn, dens are recovered. -/
theorem sing_trip_recover (u f1m f2m f1d f2d chiM chiD : ℂ) :
    let st := singTrip u f1m f2m f1d f2d chiM chiD
    (st.1 + st.2) / 2 = f1m + (1 + u * chiM) * f2m ∧
      (3 * st.2 - st.1) / 2 = f1d + (1 - u * chiD) * f2d := by
  constructor <;> · simp only [singTrip]; ring

end DGA.Pairing
