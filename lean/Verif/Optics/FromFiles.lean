/-
  C133: the complete run of dga_main.py from the files on disk to the current-current correlation function of the optical
  conductivity.

  The run of Pipeline/FromFiles.lean (C129) is continued: the optics section may enlarge the asymptotic frequency range before anything is
  computed, the ranks write the frequency slices of the vertex components while they compute the ladder, the master rank assembles
  the vertex of the conductivity from the rank files and the corrected susceptibilities, and with the Green's function of the DGA
  self-energy bubble and vertex contribution are computed, the latter distributed over the ranks.
-/
import Verif.Pairing.FromFilesProps
import Verif.Optics.Props2
import Verif.RankFiles.Props
import Verif.Wannier.Props3
import Verif.Bz.Props2

noncomputable section

namespace DGA.Pairing

open DGA.RankFiles DGA.Mpi DGA.Pipe DGA.Fp DGA.Mf DGA.Bz DGA.Bubble DGA.Two DGA.Inp
open DGA.Eli (Grid)

/-! ### Model -/

/-- the rows of a matrix (language construct) -/
def rowsOf {n : Nat} (M : Mat n ℂ) : List (List ℂ) := List.ofFn fun i => List.ofFn fun j => M i j

/-- `a[i][j][k][l]` of a four-dimensional array inside its shape (language construct) -/
def e4 (a : List (List (List (List ℂ)))) (i j k l : Nat) : ℂ := (((a.getD i []).getD j []).getD k []).getD l 0

/-- optics.py:205-233 with high_level_routines.py:98-108 and dga_main.py:118-121: the rank files with the slices of one vertex component
    of one channel after all ranks have worked on their irreducible momenta; the files hold no optics group before.  The slices of a
    rank are computed before the first is written (an exception ends the program in either order). -/
def optFiles {c : Nat} (second : Bool) (s R nx ny nz : Nat) (f : List Nat) (niw niwV niwC nivV : Nat) (gam : FourP (2 * c) ℂ) (b : Bub ℂ) (beta u : ℂ) :
    Option (List (File (List (List ℂ)))) :=
  (irrqList nx ny nz f).bind fun irr =>
    let l : List Mom := irr.map momOf
    (List.range R).mapM fun r => (mySlice l.length R r).bind fun p => (myTasks l.length R r).bind fun ts =>
      (rankComp s gam b beta u (Py.slice l p.1 p.2)).bind fun comps =>
        (comps.mapM fun rows => (wnRange niwV).mapM fun iw => (Py.get? rows ((niw : Int) + iw)).bind fun fc =>
          Opt.getVmwVSlice (rowsOf (if second then fc.2 else fc.1)) (2 * c) (wn niwC 0 true) nivV).bind fun sl =>
          writeVertex "f_".toList ts (wnRange niwV) (fun i j => (sl.getD i []).getD j []) []

/-- optics.py:236-262 `load_optics_vertex_from_rank_files`, one of the four arrays, followed by `map_irrk2fbz` (173-174, 178-179) on the
    flattened grid -/
def loadOptics (f : List Nat) (niwV niwC nivV : Nat) (files : List (File (List (List ℂ)))) : Option (List (List (List (List ℂ)))) :=
  (loadVertex "f_".toList (List.replicate (niwC + 1) (List.replicate (2 * nivV) 0)) (uniq f).length niwV files).bind fun arr =>
    irrk2fbzList f ((List.range (uniq f).length).map fun q => (List.range (2 * niwV + 1)).map fun w => arr q w)

/-- optics.py:162-202 `build_vertex_for_optical_conductivity`: the array saved as `F_cond`, momentum index flattened
    (dga_main.py:338, `map_fbz_mesh2list`).  The arrays have the shapes the loader gave them. -/
def buildFcond (nk niwV niwC nivV : Nat) (f1M f2M f1D f2D : List (List (List (List ℂ)))) (chiM chiD : List (List ℂ)) (u : ℂ) :
    List (List (List (List ℂ))) :=
  (List.range nk).map fun q =>
    let cM := cutW (chiM.getD q []) niwV
    let cD := cutW (chiD.getD q []) niwV
    (List.range (2 * niwV + 1)).map fun j => (List.range (niwC + 1)).map fun i => (List.range (2 * nivV)).map fun v =>
      Opt.fCond (e4 f1M q j i v) (e4 f2M q j i v) (e4 f1D q j i v) (e4 f2D q j i v) u (cM.getD j 0) (cD.getD j 0)

/-- what the optics part of the run leaves behind: the results of C129, the frequency ranges used, the chemical potential of the DGA Green's
    function, `F_cond`, `chijj_bubble` and `chijj_vert` -/
structure OptOut where
  main : MainOut
  ranges : Cfg.Optics
  mu : ℝ
  fCond : List (List (List (List ℂ)))
  bubble : List ℂ
  vert : List ℂ

/-- dga_main.py:88, wannier.py:32-38: the light vertex `d e_k / d k_der` on the grid -/
def lightOf (S : Settings) (der : Fin 3) : Bz.Arr3 ℂ := table S.nx S.ny S.nz fun i j k => Wan.getLightVertex S.hr S.nx S.ny S.nz der i j k

/-- dga_main.py:342-350, optics.py:143-159: vertex contribution at the non-negative frequencies: every rank sums over its momenta of the
    full zone, the results are added (`allreduce`) -/
def vertRanks (R nx ny nz niwV niwC nivV : Nat) (fcond : List (List (List (List ℂ)))) (giwk : Bz.Arr3 (List ℂ)) (nv : Nat) (lvA lvB : Bz.Arr3 ℂ)
    (beta : ℂ) : Option (List ℂ) :=
  let qs : List Mom := (qList nx ny nz).map momOf
  ((List.range R).mapM fun r => (mySlice (nx * ny * nz) R r).bind fun p =>
    Opt.vecGetChijjVert (Py.slice fcond p.1 p.2) (2 * niwV + 1) (niwC + 1) nivV giwk nv lvA lvB beta (wn niwV) (wn niwC 0 true)
      (Py.slice qs p.1 p.2) (nx * ny * nz)).bind fun parts =>
    parts.foldlM Opt.addRows (List.replicate (niwC + 1) 0)

/-- dga_main.py:99-134, 187-191, 261, 323-353 with `do_bubble` and `do_vertex` set: the optics part of a run that has arrived at the
    result `out`.  The local quantities and the ladder are those of the run (the same deterministic calls).  `o` are the ranges after
    `set_frequency_ranges`: a negative number of bosonic frequencies of the vertex makes `np.zeros` raise (optics.py:245-248), a non-positive
    `niv_vert` the plot index (190).  Negative ranges of the bubble are not modelled (the model does not return). -/
def optFrom (S : Settings) (o : Cfg.Optics) (derA derB : Fin 3) (newton : (ℝ → ℝ) → ℝ → Option ℂ) (d : Dict) (b : Cfg.Box) (gd gm : G2) (out : MainOut) :
    Except String OptOut :=
  let c := b.nivCore.toNat
  let niw := b.niwCore.toNat
  if o.niwVert < 0 ∨ o.niwCond < 0 ∨ o.nivVert ≤ 0 ∨ o.niwBubble < 0 ∨ o.nivBubble < 0 then .error "failed" else
  let niwV := o.niwVert.toNat
  let niwC := o.niwCond.toNat
  let nivV := o.nivVert.toNat
  match arrOf d.siw, numOf d.n, numOf d.beta, numOf d.u, numOf d.mu with
  | some siw, some n, some beta, some u, some mu =>
    match toFour (2 * c) gd, toFour (2 * c) gm, fbz2irrk S.nx S.ny S.nz S.syms with
    | some g2D, some g2M, some mp =>
      let gen := genDmft S.nx S.ny S.nz S.hr mu (siwObj siw beta) b.nivAsympt.toNat niw
      match localSde b.nivShell.toNat g2D g2M gen (n : ℂ) with
      | none => .error "failed"
      | some loc =>
        let load := fun (second : Bool) (gam : FourP (2 * c) ℂ) =>
          (optFiles second b.nivShell.toNat S.ranks S.nx S.ny S.nz (flat3 mp) niw niwV niwC nivV gam gen (beta : ℂ) (u : ℂ)).bind
            (loadOptics (flat3 mp) niwV niwC nivV)
        match load false loc.2.1.gam, load true loc.2.1.gam, load false loc.1.gam, load true loc.1.gam with
        | some f1M, some f2M, some f1D, some f2D =>
          let fc := buildFcond (S.nx * S.ny * S.nz) niwV niwC nivV f1M f2M f1D f2D out.run.chi.magn out.run.chi.dens (u : ℂ)
          match gfMu newton out.sigma (bandOf S) n 0 with
          | none => .error "failed"
          | some muDga =>
            match newGf out.sigma (bandOf S) muDga b.nivAsympt with
            | none => .error "failed"
            | some g =>
              let full := gFullArr g.core g.asympt
              let giwk := reshape3 full S.nx S.ny S.nz
              let nv := (full.getD 0 []).length
              match Opt.chijjBubbleMain giwk nv (lightOf S derA) (lightOf S derB) (out.sigma.beta : ℂ) o.niwBubble.toNat o.nivBubble.toNat,
                  vertRanks S.ranks S.nx S.ny S.nz niwV niwC nivV fc giwk nv (lightOf S derA) (lightOf S derB) (out.sigma.beta : ℂ) with
              | some bub, some vert => .ok ⟨out, o, muDga, fc, bub, bosonicFull star vert⟩
              | _, _ => .error "failed"
        | _, _, _, _ => .error "failed"
    | _, _, _ => .error "failed"
  | _, _, _, _, _ => .error "failed"

/-- dga_main.py:41-353 with `do_bubble` and `do_vertex` set: the frequency ranges of the optics section are fixed (52) before the
    calculation starts and may enlarge the asymptotic range of the box -/
def mainOptics (fs : Fs) (ty path f1 : String) (f2 : Option String) (S : Settings) (o : Cfg.Optics) (derA derB : Fin 3)
    (newton : (ℝ → ℝ) → ℝ → Option ℂ) : Except String OptOut :=
  match load1p fs ty path f1 f2 with
  | none => .error "failed"
  | some d =>
    match buildG2 S.box S.symVVp d with
    | none => .error "failed"
    | some (b, gd, gm) =>
      match o.setRanges b with
      | none => .error "failed"
      | some (o', b') =>
        match calcFrom S d b' gd gm with
        | .error e => .error e
        | .ok out => optFrom S o' derA derB newton d b' gd gm out

/-! ### The slices in the rank files -/

/-- the slice `F(v, v - w)` of a vertex for `0 ≤ w ≤ niw_cond` and the `2 niv_vert` frequencies `v` -/
def sliceOf (nivV niwC : Nat) (F : Int → Int → ℂ) : List (List ℂ) := (wn niwC 0 true).map fun w => samplesF (fun v => F v (v - w)) nivV

theorem at2_rows {c : Nat} (M : Mat (2 * c) ℂ) (v v' : Int) (x : ℂ) (h : Mf.at2 (rowsOf M) v v' = some x) : x = atMx M v v' := by
  rw [atMx_eq]
  unfold Mf.at2 rowsOf at h
  rw [Option.bind_eq_some_iff] at h
  obtain ⟨row, h1, h2⟩ := h
  unfold atF at h1
  simp only [List.length_ofFn] at h1
  split at h1
  swap
  · cases h1
  rename_i hv
  rw [List.getElem?_eq_some_iff] at h1
  obtain ⟨hl, rfl⟩ := h1
  unfold atF at h2
  simp only [List.getElem_ofFn, List.length_ofFn] at h2
  split at h2
  swap
  · cases h2
  rename_i hv'
  rw [List.getElem?_eq_some_iff] at h2
  obtain ⟨hl', rfl⟩ := h2
  have e : 2 * c / 2 = c := by omega
  unfold atFreq
  rw [dif_pos (by rw [e] at hv hv'; exact ⟨hv, hv'⟩)]
  simp only [List.getElem_ofFn, e]

theorem slice_mat {c : Nat} (M : Mat (2 * c) ℂ) (nivV niwC : Nat) (h : nivV + niwC ≤ c) :
    Opt.getVmwVSlice (rowsOf M) (2 * c) (wn niwC 0 true) nivV = some (sliceOf nivV niwC (atMx M)) := by
  obtain ⟨res, e1, e2, e3⟩ := Opt.vmwVSlice_value (rowsOf M) c (by simp [rowsOf]) (by
    intro r hr
    simp only [rowsOf, List.mem_ofFn] at hr
    obtain ⟨i, rfl⟩ := hr
    simp) (wn niwC 0 true) nivV (by
    intro w hw
    rw [mem_wnPos] at hw
    omega)
  rw [e1]
  congr 1
  unfold sliceOf
  apply List.ext_getElem?
  intro k
  rw [List.getElem?_map]
  by_cases hk : k ≤ niwC
  · rw [wnPos_get? _ _ hk, Option.map_some]
    obtain ⟨row, r1, r2, r3⟩ := e3 k _ (wnPos_get? _ _ hk)
    rw [r1]
    congr 1
    apply eq_samplesF _ _ _ r2
    intro l hl
    obtain ⟨x, x1, x2⟩ := r3 ((l : Int) - nivV) (by omega) (by omega)
    rw [← at2_rows M _ _ x x1]
    unfold atF at x2
    rw [r2] at x2
    split at x2
    · rw [← x2]
      congr 1
      omega
    · cases x2
  · rw [List.getElem?_eq_none (by rw [e2, wnPos_length]; omega), List.getElem?_eq_none (by rw [wnPos_length]; omega)]
    rfl

theorem isDigit_f : ∀ c ∈ "f_".toList, isDigit c = false := by decide

/-- the slice of the component `comp` of one channel at an irreducible momentum -/
def compSlice {c : Nat} (second : Bool) (niw nivV niwC : Nat) (beta ur : ℂ) (Γ : Int → Mat (2 * c) ℂ) (B : Mom → Int → Int → ℂ) (rep : Nat → Mom)
    (iq : Nat) (w : Int) : List (List ℂ) := sliceOf nivV niwC (comp second niw beta ur Γ B rep iq w)

/-- The rank files hold the slices of the components of the calculation. -/
theorem optFiles_written {c : Nat} (s nx ny nz N niw niwV niwC nivV : Nat) (beta u : ℂ) (hb : star beta = beta)
    (G : Nat → Nat → Nat → Int → ℂ) (g : Int → ℂ)
    (hG : ∀ i j k, ∀ n : Int, -(N : Int) ≤ n → n < N → G i j k (-n - 1) = star (G i j k n))
    (hfit : niw + (c + s) ≤ N) (hV : niwV ≤ niw) (hC : nivV + niwC ≤ c) (dens : Bool) (Γ : Int → Mat (2 * c) ℂ) (f : List Nat) (irr : List (Nat × Nat × Nat))
    (hirr : irrqList nx ny nz f = some irr)
    (hok : ∀ q ∈ irr.map momOf, OkQ (wn niw) beta (urOf dens u) Γ (bubQ nx ny nz beta G) q) (R : Nat) (hR : 0 < R) (second : Bool) :
    ∃ files, optFiles second s R nx ny nz f niw niwV niwC nivV (objOf dens niw beta u Γ) (genOf nx ny nz N niw beta G g) beta u = some files ∧
      Written "f_".toList (uniq f).length R niwV (compSlice second niw nivV niwC beta (urOf dens u) Γ (bubQ nx ny nz beta G) (repOf irr)) files := by
  have hlen := irr_length nx ny nz f irr hirr
  set B := bubQ nx ny nz beta G with hB
  set ur := urOf dens u with hur
  set F := compSlice second niw nivV niwC beta ur Γ B (repOf irr) with hF
  obtain ⟨parts, hpl, hparts, hflat⟩ := tasks_concat irr.length R hR
  have hnd : ∀ ts ∈ parts, ts.Nodup := by
    have h : parts.flatten.Nodup := by rw [hflat]; exact List.nodup_range
    exact (List.nodup_flatten.mp h).1
  have hrank : ∀ r, r < R → ∃ (p : Nat × Nat) (ts : List Nat) (comps : List (List (Mat (2 * c) ℂ × Mat (2 * c) ℂ))),
      mySlice irr.length R r = some p ∧ myTasks irr.length R r = some ts ∧ ts.Nodup ∧
      rankComp s (objOf dens niw beta u Γ) (genOf nx ny nz N niw beta G g) beta u (Py.slice (irr.map momOf) p.1 p.2) = some comps ∧
      (comps.mapM fun rows => (wnRange niwV).mapM fun iw => (Py.get? rows ((niw : Int) + iw)).bind fun fc =>
          Opt.getVmwVSlice (rowsOf (if second then fc.2 else fc.1)) (2 * c) (wn niwC 0 true) nivV) =
        some (ts.map fun q => (wnRange niwV).map fun w => F q w) := by
    intro r hr
    have hts := hparts r hr
    rw [List.getElem?_eq_getElem (by omega)] at hts
    have hts' := hts
    unfold myTasks at hts
    rw [Option.map_eq_some_iff] at hts
    obtain ⟨p, hp, hpt⟩ := hts
    have hqs : Py.slice (irr.map momOf) p.1 p.2 = (parts[r]'(by omega)).map (repOf irr) := by
      rw [← map_repOf, slice_map, ← hpt]
    refine ⟨p, _, _, hp, hts', hnd _ (List.getElem_mem _), rankComp_eq s nx ny nz N niw beta u hb G g hG hfit dens Γ _ ?_, ?_⟩
    · intro q hq
      apply hok q
      unfold Py.slice at hq
      exact List.mem_of_mem_drop (List.mem_of_mem_take hq)
    · rw [hqs, List.map_map, List.mapM_map]
      apply mapM_some
      intro q _
      apply mapM_some
      intro w hw
      have hw' : -(niwV : Int) ≤ w ∧ w ≤ niwV := by
        unfold wnRange at hw
        rw [Py.mem_arange] at hw
        omega
      simp only [Function.comp]
      rw [Mf.get?_nonneg _ _ (by omega), List.getElem?_map, Mf.wn_get? _ _ (by omega), Option.map_some, Option.bind_some,
        show (((niw : Int) + w).toNat : Int) - niw = w by omega, slice_mat _ _ _ hC]
      rw [hF]
      unfold compSlice comp
      congr 2
      funext v v'
      rw [if_pos (show -(niw : Int) ≤ w ∧ w ≤ niw by omega)]
  choose! p ts comps k1 k2 k3 k4 k5 using hrank
  have hloc : ∀ r, r < R → ∀ i q, (ts r)[i]? = some q → ∀ j w, (wnRange niwV)[j]? = some w →
      ((((ts r).map fun q => (wnRange niwV).map fun w => F q w).getD i []).getD j []) = F q w := by
    intro r _ i q hq j w hw
    simp only [List.getD_eq_getElem?_getD, List.getElem?_map, hq, Option.map_some, Option.getD_some, hw]
  refine ⟨(List.range R).map fun r => [] ++ entries "f_".toList (ts r) (wnRange niwV) F, ?_, by simp, ?_⟩
  · unfold optFiles
    rw [hirr, Option.bind_some]
    simp only [List.length_map]
    apply mapM_some
    intro r hr
    rw [List.mem_range] at hr
    rw [k1 r hr, Option.bind_some, k2 r hr, Option.bind_some, k4 r hr, Option.bind_some, k5 r hr, Option.bind_some]
    exact writeVertex_eq "f_".toList isDigit_f (ts r) (wnRange niwV) _ F [] (k3 r hr) (Py.nodup_arange _ _) (by simp) (by simp) (hloc r hr)
  · intro r fl hfl
    rw [List.getElem?_map, Option.map_eq_some_iff] at hfl
    obtain ⟨r', hr', rfl⟩ := hfl
    rw [List.getElem?_eq_some_iff] at hr'
    obtain ⟨hr, rfl⟩ := hr'
    simp only [List.length_range] at hr
    simp only [List.getElem_range]
    exact ⟨ts r, _, [], by rw [← hlen]; exact k2 r hr, hloc r hr, by simp, by simp,
      writeVertex_eq "f_".toList isDigit_f (ts r) (wnRange niwV) _ F [] (k3 r hr) (Py.nodup_arange _ _) (by simp) (by simp) (hloc r hr)⟩

/-- what the loader makes of the slices at a momentum and bosonic frequency: nothing is left of the negative frequencies -/
def kept (D : Nat → Int → Int → Int → ℂ) (iq : Nat) (w' : Int) : Int → Int → ℂ := if 0 ≤ w' then D iq w' else fun _ _ => 0

/-- The loaded array on the full zone. -/
theorem loadOptics_value (f : List Nat) (R niwV niwC nivV : Nat) (hR : 0 < R) (D : Nat → Int → Int → Int → ℂ) (files : List (File (List (List ℂ))))
    (h : Written "f_".toList (uniq f).length R niwV (fun iq w => sliceOf nivV niwC (D iq w)) files) :
    loadOptics f niwV niwC nivV files = some ((irrkInv f).map fun iq => (wn niwV).map fun w' => sliceOf nivV niwC (kept D iq w')) := by
  obtain ⟨arr, h1, h2, h3⟩ := load_core "f_".toList isDigit_f _ R niwV hR _ (List.replicate (niwC + 1) (List.replicate (2 * nivV) 0)) files h
  unfold loadOptics
  rw [h1, Option.bind_some]
  have harr : ((List.range (uniq f).length).map fun q => (List.range (2 * niwV + 1)).map fun w => arr q w) =
      (List.range (uniq f).length).map fun iq => (wn niwV).map fun w' => sliceOf nivV niwC (kept D iq w') := by
    apply List.map_congr_left
    intro q hq
    rw [List.mem_range] at hq
    have hz : List.replicate (niwC + 1) (List.replicate (2 * nivV) (0 : ℂ)) = sliceOf nivV niwC (fun _ _ => 0) := by
      unfold sliceOf samplesF
      simp only [List.map_const', wnPos_length, vn_length]
    unfold wn Py.arange
    simp only [Bool.false_eq_true, if_false, List.map_map]
    rw [show ((niwV : Int) + 0 + 1 - (-(niwV : Int) + 0)).toNat = 2 * niwV + 1 by omega]
    apply List.map_congr_left
    intro w hw
    rw [List.mem_range] at hw
    simp only [Function.comp, kept]
    by_cases hn : niwV ≤ w
    · rw [if_pos (by omega), show w = niwV + (w - niwV) by omega, h2 q hq _ (by omega)]
      congr 2
      push_cast [hn]
      omega
    · rw [if_neg (by omega), h3 q w (by omega), hz]
  rw [harr]
  unfold irrk2fbzList take?
  rw [mapM_some _ _ (fun iq => (wn niwV).map fun w' => sliceOf nivV niwC (kept D iq w'))]
  intro iq hiq
  have := irrkInv_lt f iq hiq
  rw [List.getElem?_map, List.getElem?_range this]
  rfl

end DGA.Pairing
