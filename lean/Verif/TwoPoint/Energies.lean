import Verif.TwoPoint.GfState

/-
  Kinetic and potential energy of the object `GreensFunction` (two_point.py:451-464) with the broadcasting of a local self-energy, for
  every history of the object, and with their assertions and the static part.
-/

noncomputable section

namespace DGA.Two

open DGA.Mf DGA.Bubble

/-- two_point.py:451-455 `e_kin`: momentum axes broadcast, the assertion on the imaginary part may fail -/
def Gf.eKin (g : Gf) : Option ℝ :=
  (bcast2 g.ek (gFullArr g.core g.asympt)).bind fun ps =>
    let e := eKinSum g.sigma.beta ps
    if |e.im| < 1e-8 then some e.re else none

/-- two_point.py:446-449 `get_sigma_full(niv_asympt)` (the tail is the same for every momentum) -/
def Gf.sigmaFull (g : Gf) : List (List ℂ) :=
  g.sigma.sigmaCore.map fun c => concatCoreAsympt c (fermionicFull (starRingEnd ℂ) (g.sigma.asymptRow g.nivAsympt.toNat g.sigma.nivCore))

/-- two_point.py:457-464 `e_pot`; `n` is the filling attribute of the object -/
def Gf.ePot (g : Gf) (n : ℝ) : Option ℝ :=
  (bcast2 g.sigmaFull (gFullArr g.core g.asympt)).bind fun ps =>
    let e := ePotSum g.sigma.beta g.sigma.smom0 ps
    if |e.im| < 1e-8 then some (e.re + g.sigma.smom0 * n / 2) else none

/-! ### Specification -/

/-- mean over the momenta and `1/beta` times the sum over the `2 N` Matsubara frequencies around zero -/
def ksum (beta : ℝ) (K N : Nat) (f : Nat → Int → ℂ) : ℂ :=
  1 / (beta : ℂ) * ((∑ k ∈ Finset.range K, ∑ m ∈ Finset.Ico (-(N : Int)) N, f k m) / (K : ℂ))

theorem samplesF_sum (f : Int → ℂ) (N : Nat) : (samplesF f N).sum = ∑ m ∈ Finset.Ico (-(N : Int)) N, f m := by
  have hnd : (vn N).Nodup := Py.nodup_arange _ _
  have : (vn N).toFinset = Finset.Ico (-(N : Int)) N := by
    ext m
    rw [List.mem_toFinset, Finset.mem_Ico]
    unfold vn
    rw [if_neg (by simp), Py.mem_arange]
    simp
  rw [samplesF, ← this, List.sum_toFinset _ hnd]

/-- a function with values conjugate at opposite frequencies has a real sum -/
theorem ksum_real (beta : ℝ) (K N : Nat) (f : Nat → Int → ℂ) (h : ∀ k m, f k (-m - 1) = (starRingEnd ℂ) (f k m)) : (ksum beta K N f).im = 0 := by
  rw [← Complex.conj_eq_iff_im]
  unfold ksum
  simp only [map_mul, map_div₀, map_sum, map_one, Complex.conj_ofReal, map_natCast]
  congr 2
  apply Finset.sum_congr rfl
  intro k _
  refine Finset.sum_bij (fun m _ => -m - 1) ?_ ?_ ?_ ?_
  · intro m hm; rw [Finset.mem_Ico] at hm ⊢; omega
  · intro a _ b _ hab; omega
  · intro m hm
    refine ⟨-m - 1, ?_, by omega⟩
    rw [Finset.mem_Ico] at hm ⊢; omega
  · intro m _
    exact (h k m).symm

theorem gVal_conj (s : SelfEnergy) (ek : List ℝ) (mu : ℝ) (k : Nat) (m : Int) : gVal s ek mu k (-m - 1) = (starRingEnd ℂ) (gVal s ek mu k m) := by
  unfold gVal
  rw [sigmaSpec_symm]
  simp only [map_div₀, map_one, map_sub, map_add, Complex.conj_ofReal, iv_conj]

/-- **C132 (energies).** For every Green's function object with any history of tail changes: both energies are returned (the assertions on
    the imaginary part cannot fail), the kinetic energy is `1/(beta Nk) sum_{k,v} e(k) G(k,v)`, the potential energy is
    `1/(beta Nk) sum_{k,v} (Sigma(k,v) - Sigma_static) G(k,v) + Sigma_static n/2`, over all frequencies of the object and with the self-energy
    of that momentum (or the local one). -/
theorem gf_energies (s : SelfEnergy) (ek : List ℝ) (mu : ℝ) (hs : Fits s ek) (hcore : ∀ r ∈ s.sigma, s.nivCore ≤ r.length)
    (hK : 0 < nK s ek) (n0 : Int) (ns : List Int) (g0 g : Gf) (h0 : newGf s ek mu n0 = some g0) (hg : g0.run ns = some g) (n : ℝ) :
    ∃ N : Nat, N = s.nivCore + ((n0 :: ns).getLast (List.cons_ne_nil _ _)).toNat ∧
      g.eKin = some (ksum s.beta (nK s ek) N fun k m => (ekOf ek k : ℂ) * gVal s ek mu k m).re ∧
      (ksum s.beta (nK s ek) N fun k m => (ekOf ek k : ℂ) * gVal s ek mu k m).im = 0 ∧
      g.ePot n = some ((ksum s.beta (nK s ek) N fun k m => (sigmaSpec s (rowOf s k) m - (s.smom0 : ℂ)) * gVal s ek mu k m).re + s.smom0 * n / 2) ∧
      (ksum s.beta (nK s ek) N fun k m => (sigmaSpec s (rowOf s k) m - (s.smom0 : ℂ)) * gVal s ek mu k m).im = 0 := by
  rw [history_irrelevant s ek mu hs hcore hK n0 ns g0 h0] at hg
  set nl := (n0 :: ns).getLast (List.cons_ne_nil _ _) with hnl
  obtain ⟨a, ha, hfull⟩ := newGf_state s ek mu nl hs hcore hK
  rw [ha] at hg
  have hg' := Option.some.inj hg
  subst hg'
  refine ⟨_, rfl, ?_⟩
  have r1 : (ksum s.beta (nK s ek) (s.nivCore + nl.toNat) fun k m => (ekOf ek k : ℂ) * gVal s ek mu k m).im = 0 := by
    apply ksum_real
    intro k m
    rw [gVal_conj, map_mul, Complex.conj_ofReal]
  have r2 : (ksum s.beta (nK s ek) (s.nivCore + nl.toNat) fun k m => (sigmaSpec s (rowOf s k) m - (s.smom0 : ℂ)) * gVal s ek mu k m).im = 0 := by
    apply ksum_real
    intro k m
    rw [gVal_conj, sigmaSpec_symm, map_mul, map_sub, Complex.conj_ofReal]
  have hpos : (0 : ℝ) < 1e-8 := by norm_num
  have hKl : ((List.range (nK s ek)).map fun k => samplesF (gVal s ek mu k) (s.nivCore + nl.toNat)).length = nK s ek := by simp
  have hsigma : s.sigmaCore.map (fun c => concatCoreAsympt c (fermionicFull (starRingEnd ℂ) (s.asymptRow nl.toNat s.nivCore))) =
      s.sigma.map fun r => samplesF (sigmaSpec s r) (s.nivCore + nl.toNat) := by
    apply List.ext_getElem?
    intro k
    have h1 := sigmaFull_eq_getSiw s hcore nl.toNat k
    unfold sigmaFullRow at h1
    rw [List.getElem?_map, h1, getSiw_value s hcore]
  refine ⟨?_, r1, ?_, r2⟩
  · unfold Gf.eKin
    simp only [hfull]
    rw [bcast2_value ek _ (by rw [hKl]; unfold nK; split_ifs <;> omega), Option.bind_some, hKl]
    have hn : (if ek.length = 1 then nK s ek else ek.length) = nK s ek := by unfold nK; split_ifs <;> rfl
    have e : eKinSum s.beta ((List.range (if ek.length = 1 then nK s ek else ek.length)).map fun k =>
        (ek.getD (if ek.length = 1 then 0 else k) default,
          ((List.range (nK s ek)).map fun k => samplesF (gVal s ek mu k) (s.nivCore + nl.toNat)).getD (if nK s ek = 1 then 0 else k) default)) =
        ksum s.beta (nK s ek) (s.nivCore + nl.toNat) fun k m => (ekOf ek k : ℂ) * gVal s ek mu k m := by
      rw [hn]
      unfold eKinSum ksum
      rw [List.map_map, List.length_map, List.length_range]
      congr 2
      rw [Finset.sum_range, ← List.sum_ofFn]
      congr 1
      apply List.ext_getElem
      · simp
      · intro i h1 h2
        simp only [List.length_map, List.length_range] at h1
        simp only [List.getElem_map, List.getElem_range, Function.comp, List.getElem_ofFn]
        have hi : (if nK s ek = 1 then 0 else i) = i := by split_ifs <;> omega
        rw [hi, show ((List.range (nK s ek)).map fun k => samplesF (gVal s ek mu k) (s.nivCore + nl.toNat)).getD i default =
          samplesF (gVal s ek mu i) (s.nivCore + nl.toNat) by simp [List.getD, h1], ← samplesF_sum]
        unfold samplesF
        rw [List.map_map]
        congr 1
        apply List.map_congr_left
        intro m _
        simp only [Function.comp]
        congr 2
        unfold ekOf
        split_ifs <;> rfl
    rw [e]
    rw [if_pos (by rw [r1]; simpa using hpos)]
  · unfold Gf.ePot Gf.sigmaFull
    simp only [hfull, hsigma]
    rw [bcast2_value _ _ (by rw [hKl, List.length_map]; unfold nK; unfold Fits at hs; split_ifs <;> omega), Option.bind_some, hKl, List.length_map]
    have hn : (if s.sigma.length = 1 then nK s ek else s.sigma.length) = nK s ek := by
      unfold nK; unfold Fits at hs
      split_ifs <;> omega
    have e : ePotSum s.beta s.smom0 ((List.range (if s.sigma.length = 1 then nK s ek else s.sigma.length)).map fun k =>
        ((s.sigma.map fun r => samplesF (sigmaSpec s r) (s.nivCore + nl.toNat)).getD (if s.sigma.length = 1 then 0 else k) default,
          ((List.range (nK s ek)).map fun k => samplesF (gVal s ek mu k) (s.nivCore + nl.toNat)).getD (if nK s ek = 1 then 0 else k) default)) =
        ksum s.beta (nK s ek) (s.nivCore + nl.toNat) fun k m => (sigmaSpec s (rowOf s k) m - (s.smom0 : ℂ)) * gVal s ek mu k m := by
      rw [hn]
      unfold ePotSum ksum
      rw [List.map_map, List.length_map, List.length_range]
      congr 2
      rw [Finset.sum_range, ← List.sum_ofFn]
      congr 1
      apply List.ext_getElem
      · simp
      · intro i h1 h2
        simp only [List.length_map, List.length_range] at h1
        simp only [List.getElem_map, List.getElem_range, Function.comp, List.getElem_ofFn]
        have hi : (if nK s ek = 1 then 0 else i) = i := by split_ifs <;> omega
        have hl : (if s.sigma.length = 1 then 0 else i) < s.sigma.length := by
          unfold nK at h1; unfold Fits at hs
          split_ifs at h1 ⊢ <;> omega
        have hr : s.sigma[if s.sigma.length = 1 then 0 else i] = rowOf s i := by
          unfold rowOf
          split_ifs with h
          · simp [List.getD, h]
          · rw [if_neg h] at hl
            simp [List.getD, List.getElem?_eq_getElem hl]
        rw [hi, List.getD_eq_getElem?_getD, List.getD_eq_getElem?_getD, List.getElem?_map, List.getElem?_map, List.getElem?_range h1,
          List.getElem?_eq_getElem hl, Option.map_some, Option.map_some, Option.getD_some, Option.getD_some, hr, zipWith_samplesF, samplesF_sum]
    rw [e]
    rw [if_pos (by rw [r2]; simpa using hpos)]

end DGA.Two
