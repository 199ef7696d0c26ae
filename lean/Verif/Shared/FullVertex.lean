/-
  C138: the full ladder vertices `F_dens`, `F_magn` that a run saves (`save_fq`), from the files on disk on.

  The run of Pipeline/FromFiles.lean (C129) is continued: the ranks write the components of the full vertex into the shared rank files (C137), the master
  rank combines them with the corrected susceptibilities.
-/
import Verif.Shared.Run
import Verif.Optics.FromFilesProps

noncomputable section

namespace DGA.Shared

open DGA.RankFiles DGA.Mpi DGA.Pipe DGA.Fp DGA.Mf DGA.Bz DGA.Bubble DGA.Pairing DGA.Two DGA.Inp
open DGA.Eli (Grid)

/-! ### Model -/

/-- four_point.py:349-350, 353-354 `map_irrk2fbz` of one loaded array, momentum index flattened -/
def toFbz {β : Type} (f : List Nat) (niw : Nat) (arr : Arr2 β) : Option (List (List β)) :=
  irrk2fbzList f ((List.range (uniq f).length).map fun q => (List.range (2 * niw + 1)).map fun w => arr q w)

/-- four_point.py:351, 355: `f1 + (1 ± u chi[..., None, None]) f2`, momentum index flattened; `g` the factor as a function of the susceptibility -/
def chanArr (nk niw c : Nat) (g : ℂ → ℂ) (f1 f2 : List (List (List (List ℂ)))) (chi : List (List ℂ)) : List (List (List (List ℂ))) :=
  (List.range nk).map fun q => (List.range (2 * niw + 1)).map fun j => (List.range (2 * c)).map fun a => (List.range (2 * c)).map fun b =>
    e4 f1 q j a b + g ((chi.getD q []).getD j 0) * e4 f2 q j a b

/-- four_point.py:338-370 `build_vertex_fq`: the arrays saved as `F_dens` and `F_magn` -/
def buildFq (nk niw c : Nat) (f : List Nat) (files : List (H5 (List (List ℂ)))) (chiM chiD : List (List ℂ)) (u : ℂ) :
    Option (List (List (List (List ℂ))) × List (List (List (List ℂ)))) :=
  (load4 "fq_".toList (List.replicate (2 * c) (List.replicate (2 * c) 0)) (uniq f).length niw files).bind fun a =>
    (toFbz f niw a.f1m).bind fun f1m => (toFbz f niw a.f2m).bind fun f2m => (toFbz f niw a.f1d).bind fun f1d => (toFbz f niw a.f2d).map fun f2d =>
      (chanArr nk niw c (fun x => 1 - u * x) f1d f2d chiD, chanArr nk niw c (fun x => 1 + u * x) f1m f2m chiM)

/-- what is left behind: the results of C129, `F_dens` and `F_magn` -/
structure FqOut where
  main : MainOut
  dens : List (List (List (List ℂ)))
  magn : List (List (List (List ℂ)))

/-- dga_main.py:99-136, 195-197 with `save_fq` set: the part of a run that has arrived at the result `out`; the other flags, and the ranges of the optics slices
    after `set_frequency_ranges`, only matter for what else is in the rank files.  The local quantities and the ladder are those of the run. -/
def fqFrom (S : Settings) (fl : Flags) (niwV niwC nivV : Nat) (d : Dict) (b : Cfg.Box) (gd gm : G2) (out : MainOut) : Except String FqOut :=
  let c := b.nivCore.toNat
  let niw := b.niwCore.toNat
  match arrOf d.siw, numOf d.n, numOf d.beta, numOf d.u, numOf d.mu with
  | some siw, some n, some beta, some u, some mu =>
    match toFour (2 * c) gd, toFour (2 * c) gm, fbz2irrk S.nx S.ny S.nz S.syms with
    | some g2D, some g2M, some mp =>
      let gen := genDmft S.nx S.ny S.nz S.hr mu (siwObj siw beta) b.nivAsympt.toNat niw
      match localSde b.nivShell.toNat g2D g2M gen (n : ℂ) with
      | none => .error "failed"
      | some loc =>
        match runFiles fl b.nivShell.toNat S.ranks S.nx S.ny S.nz (flat3 mp) niw niwV niwC nivV loc.1.gam loc.2.1.gam gen (beta : ℂ) (u : ℂ) with
        | none => .error "failed"
        | some files =>
          match buildFq (S.nx * S.ny * S.nz) niw c (flat3 mp) files out.run.chi.magn out.run.chi.dens (u : ℂ) with
          | none => .error "failed"
          | some (fd, fm) => .ok ⟨out, fd, fm⟩
    | _, _, _ => .error "failed"
  | _, _, _, _, _ => .error "failed"

/-- dga_main.py:41-197 with `save_fq` set, for the box after `set_frequency_ranges` (S.box) -/
def mainFq (fs : Fs) (ty path f1 : String) (f2 : Option String) (S : Settings) (fl : Flags) (niwV niwC nivV : Nat) : Except String FqOut :=
  match load1p fs ty path f1 f2 with
  | none => .error "failed"
  | some d =>
    match buildG2 S.box S.symVVp d with
    | none => .error "failed"
    | some (b, gd, gm) =>
      match calcFrom S d b gd gm with
      | .error e => .error e
      | .ok out => fqFrom S fl niwV niwC nivV d b gd gm out

/-! ### The files -/

/-- a function of two fermionic frequencies as a two-dimensional array -/
def boxOf (c : Nat) (F : Int → Int → ℂ) : List (List ℂ) := (List.range (2 * c)).map fun a : Nat => (List.range (2 * c)).map fun b : Nat => F ((a : Int) - c) ((b : Int) - c)

theorem rowsOf_box {c : Nat} (M : Mat (2 * c) ℂ) : Pairing.rowsOf M = boxOf c (atMx M) := by
  unfold Pairing.rowsOf boxOf
  apply List.ext_getElem
  · simp
  · intro a h1 h2
    simp only [List.length_ofFn] at h1
    simp only [List.getElem_ofFn, List.getElem_map, List.getElem_range]
    apply List.ext_getElem
    · simp
    · intro b h3 h4
      simp only [List.length_ofFn] at h3
      simp only [List.getElem_ofFn, List.getElem_map, List.getElem_range]
      rw [atMx_eq]
      unfold atFreq
      rw [dif_pos (by omega)]
      congr 1 <;> (apply Fin.ext; simp)

/-- The rank files hold the components of the calculation. -/
theorem fqFiles_written {c : Nat} (s nx ny nz N niw : Nat) (beta u : ℂ) (hb : star beta = beta)
    (G : Nat → Nat → Nat → Int → ℂ) (g : Int → ℂ)
    (hG : ∀ i j k, ∀ n : Int, -(N : Int) ≤ n → n < N → G i j k (-n - 1) = star (G i j k n))
    (hfit : niw + (c + s) ≤ N) (dens : Bool) (Γ : Int → Mat (2 * c) ℂ) (f : List Nat) (irr : List (Nat × Nat × Nat))
    (hirr : irrqList nx ny nz f = some irr)
    (hok : ∀ q ∈ irr.map momOf, OkQ (wn niw) beta (urOf dens u) Γ (bubQ nx ny nz beta G) q) (R : Nat) (hR : 0 < R) (second : Bool) :
    ∃ files, fqFiles second s R nx ny nz f niw (objOf dens niw beta u Γ) (genOf nx ny nz N niw beta G g) beta u = some files ∧
      Written "fq_".toList (uniq f).length R niw (fun iq w => boxOf c (comp second niw beta (urOf dens u) Γ (bubQ nx ny nz beta G) (repOf irr) iq w)) files := by
  have hlen := irr_length nx ny nz f irr hirr
  set B := bubQ nx ny nz beta G with hB
  set ur := urOf dens u with hur
  set F : Nat → Int → List (List ℂ) := fun iq w => boxOf c (comp second niw beta ur Γ B (repOf irr) iq w) with hF
  obtain ⟨parts, hpl, hparts, hflat⟩ := tasks_concat irr.length R hR
  have hnd : ∀ ts ∈ parts, ts.Nodup := by
    have h : parts.flatten.Nodup := by rw [hflat]; exact List.nodup_range
    exact (List.nodup_flatten.mp h).1
  have hrank : ∀ r, r < R → ∃ (p : Nat × Nat) (ts : List Nat) (comps : List (List (Mat (2 * c) ℂ × Mat (2 * c) ℂ))),
      mySlice irr.length R r = some p ∧ myTasks irr.length R r = some ts ∧ ts.Nodup ∧
      rankComp s (objOf dens niw beta u Γ) (genOf nx ny nz N niw beta G g) beta u (Py.slice (irr.map momOf) p.1 p.2) = some comps ∧
      ∀ i q, ts[i]? = some q → ∀ j w, (wnRange niw)[j]? = some w → Pairing.rowsOf (part second ((comps.getD i []).getD j (0, 0))) = F q w := by
    intro r hr
    have hts := hparts r hr
    rw [List.getElem?_eq_getElem (by omega)] at hts
    have hts' := hts
    unfold myTasks at hts
    rw [Option.map_eq_some_iff] at hts
    obtain ⟨p, hp, hpt⟩ := hts
    have hqs : Py.slice (irr.map momOf) p.1 p.2 = (parts[r]'(by omega)).map (repOf irr) := by
      rw [← map_repOf, slice_map, ← hpt]
    refine ⟨p, _, _, hp, hts', hnd _ (List.getElem_mem _), rankComp_eq s nx ny nz N niw beta u hb G g hG hfit dens Γ _ ?_, ?_⟩
    · intro q hq
      apply hok q
      unfold Py.slice at hq
      exact List.mem_of_mem_drop (List.mem_of_mem_take hq)
    · intro i q hq j w hw
      rw [hqs]
      have hw' : (wn niw)[j]? = some w := by
        rw [← hw]; unfold wn wnRange; simp
      have hmem : w ∈ wn niw := List.mem_of_getElem? hw'
      rw [mem_wn] at hmem
      have e1 : (((parts[r]'(by omega)).map (repOf irr)).map fun (q : Mom) => (wn niw).map fun (x : Int) =>
          ladderComponents (XQ beta ur Γ B q x) (vrgSlice true (XQ beta ur Γ B q x) (Pipe.onBox c (B q x))) (Pipe.onBox c (B q x)) beta ur).getD i [] =
          (wn niw).map fun (x : Int) => ladderComponents (XQ beta ur Γ B (repOf irr q) x)
            (vrgSlice true (XQ beta ur Γ B (repOf irr q) x) (Pipe.onBox c (B (repOf irr q) x))) (Pipe.onBox c (B (repOf irr q) x)) beta ur := by
        rw [List.getD_eq_getElem?_getD, List.getElem?_map, List.getElem?_map, hq]
        rfl
      rw [e1, List.getD_eq_getElem?_getD, List.getElem?_map, hw', Option.map_some, Option.getD_some, rowsOf_box, hF]
      congr 1
      funext v v'
      unfold comp part
      rw [if_pos (show -(niw : Int) ≤ w ∧ w ≤ niw by omega)]
  choose! p ts comps k1 k2 k3 k4 k5 using hrank
  refine ⟨(List.range R).map fun r => [] ++ entries "fq_".toList (ts r) (wnRange niw) F, ?_, by simp, ?_⟩
  · unfold fqFiles
    rw [hirr, Option.bind_some]
    simp only [List.length_map]
    apply mapM_some
    intro r hr
    rw [List.mem_range] at hr
    rw [k1 r hr, Option.bind_some, k2 r hr, Option.bind_some, k4 r hr, Option.bind_some]
    exact writeVertex_eq "fq_".toList hfq (ts r) (wnRange niw) _ F [] (k3 r hr) (Py.nodup_arange _ _) (by simp) (by simp) (k5 r hr)
  · intro r fl hfl
    rw [List.getElem?_map, Option.map_eq_some_iff] at hfl
    obtain ⟨r', hr', rfl⟩ := hfl
    rw [List.getElem?_eq_some_iff] at hr'
    obtain ⟨hr, rfl⟩ := hr'
    simp only [List.length_range] at hr
    simp only [List.getElem_range]
    exact ⟨ts r, _, [], by rw [← hlen]; exact k2 r hr, k5 r hr, by simp, by simp,
      writeVertex_eq "fq_".toList hfq (ts r) (wnRange niw) _ F [] (k3 r hr) (Py.nodup_arange _ _) (by simp) (by simp) (k5 r hr)⟩

/-- one of the four arrays on the full zone -/
def fbzArr (inv : List Nat) (niw c : Nat) (D : Nat → Int → Int → Int → ℂ) : List (List (List (List ℂ))) :=
  inv.map fun iq => (List.range (2 * niw + 1)).map fun j : Nat => boxOf c (kept D iq ((j : Int) - niw))

/-- The loaded array on the full zone. -/
theorem toFbz_value (f : List Nat) (R niw c : Nat) (hR : 0 < R) (D : Nat → Int → Int → Int → ℂ) (files : List (File (List (List ℂ))))
    (h : Written "fq_".toList (uniq f).length R niw (fun iq w => boxOf c (D iq w)) files) :
    ∃ arr, loadVertex "fq_".toList (List.replicate (2 * c) (List.replicate (2 * c) 0)) (uniq f).length niw files = some arr ∧
      toFbz f niw arr = some (fbzArr (irrkInv f) niw c D) := by
  obtain ⟨arr, h1, h2, h3⟩ := load_core "fq_".toList hfq _ R niw hR _ (List.replicate (2 * c) (List.replicate (2 * c) 0)) files h
  refine ⟨arr, h1, ?_⟩
  unfold toFbz
  have harr : ((List.range (uniq f).length).map fun q => (List.range (2 * niw + 1)).map fun w => arr q w) =
      (List.range (uniq f).length).map fun iq => (List.range (2 * niw + 1)).map fun j : Nat => boxOf c (kept D iq ((j : Int) - niw)) := by
    apply List.map_congr_left
    intro q hq
    rw [List.mem_range] at hq
    have hz : List.replicate (2 * c) (List.replicate (2 * c) (0 : ℂ)) = boxOf c (fun _ _ => 0) := by
      unfold boxOf
      simp only [List.map_const', List.length_range]
    apply List.map_congr_left
    intro w hw
    rw [List.mem_range] at hw
    simp only [kept]
    by_cases hn : niw ≤ w
    · rw [if_pos (by omega), show w = niw + (w - niw) by omega, h2 q hq _ (by omega)]
      congr 2
      push_cast [hn]
      omega
    · rw [if_neg (by omega), h3 q w (by omega), hz]
  rw [harr]
  unfold irrk2fbzList take? fbzArr
  rw [mapM_some _ _ (fun iq => (List.range (2 * niw + 1)).map fun j : Nat => boxOf c (kept D iq ((j : Int) - niw)))]
  intro iq hiq
  have := irrkInv_lt f iq hiq
  rw [List.getElem?_map, List.getElem?_range this]
  rfl

theorem e4_fbz (inv : List Nat) (niw c : Nat) (D : Nat → Int → Int → Int → ℂ) (q j a b : Nat) (hq : q < inv.length) (hj : j < 2 * niw + 1) (ha : a < 2 * c)
    (hb : b < 2 * c) : e4 (fbzArr inv niw c D) q j a b = kept D (inv.getD q 0) ((j : Int) - niw) ((a : Int) - c) ((b : Int) - c) := by
  unfold e4 fbzArr boxOf
  simp only [List.getD_eq_getElem?_getD, List.getElem?_map, List.getElem?_eq_getElem hq, List.getElem?_range hj, List.getElem?_range ha,
    List.getElem?_range hb, Option.map_some, Option.getD_some]

/-- what is left of the vertex of a channel -/
def storedChan (Ig : Ingr) (dens : Bool) (iq : Nat) (w v v' : Int) : ℂ := if 0 ≤ w then chanOf Ig dens iq w v v' else 0

/-- the saved array in closed form -/
def fqList (Ig : Ingr) (dens : Bool) (inv : List Nat) (nk niw c : Nat) : List (List (List (List ℂ))) :=
  (List.range nk).map fun l => (List.range (2 * niw + 1)).map fun j : Nat => boxOf c (storedChan Ig dens (inv.getD l 0) ((j : Int) - niw))

theorem chanArr_value (Ig : Ingr) (dens : Bool) (inv : List Nat) (nk niw c : Nat) (hinv : inv.length = nk) (chi : List (List ℂ))
    (hchi : ∀ l, l < nk → chi.getD l [] = samplesB ((if dens then Ig.chiD else Ig.chiM) (inv.getD l 0)) niw) :
    chanArr nk niw c (fun x => if dens then 1 - Ig.u * x else 1 + Ig.u * x) (fbzArr inv niw c (if dens then Ig.f1D else Ig.f1M))
      (fbzArr inv niw c (if dens then Ig.f2D else Ig.f2M)) chi = fqList Ig dens inv nk niw c := by
  unfold chanArr fqList
  apply List.map_congr_left
  intro l hl
  rw [List.mem_range] at hl
  apply List.map_congr_left
  intro j hj
  rw [List.mem_range] at hj
  unfold boxOf
  apply List.map_congr_left
  intro a ha
  rw [List.mem_range] at ha
  apply List.map_congr_left
  intro b hb
  rw [List.mem_range] at hb
  rw [hchi l hl, samplesB_getD _ _ _ hj, e4_fbz _ _ _ _ _ _ _ _ (by omega) hj ha hb, e4_fbz _ _ _ _ _ _ _ _ (by omega) hj ha hb]
  unfold storedChan chanOf kept
  by_cases hw : 0 ≤ (j : Int) - niw
  · simp only [if_pos hw]
    cases dens <;> simp
  · simp only [if_neg hw]
    cases dens <;> simp

end DGA.Shared
