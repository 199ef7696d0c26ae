/-
  C130: the complete run of dga_main.py from the files on disk to the eigenvalues of the Eliashberg equation.

  The run of Pipeline/FromFiles.lean (C129) is continued: the ranks write the vertex components while they compute the ladder, the master
  rank assembles the pairing vertex from the rank files and the corrected susceptibilities, builds the Green's function of the DGA
  self-energy at the given filling and solves the linearised Eliashberg equation in both channels.
-/
import Verif.Pairing.Leading
import Verif.Pairing.LadderLink
import Verif.Pipeline.FromFilesProps
import Verif.TwoPoint.GfState
import Verif.TwoPoint.FillModel

noncomputable section

namespace DGA.Pairing

open DGA.RankFiles DGA.Mpi DGA.Pipe DGA.Fp DGA.Mf DGA.Bz DGA.Bubble DGA.Two DGA.Inp
open DGA.Eli (Grid Run elCfg linearEliashberg)

/-! ### Model -/

/-- pairing_vertex.py:79-91 with high_level_routines.py:98-108 and dga_main.py:118-121: the two vertex components one rank computes at its
    momenta `qs`, for every bosonic frequency.  `beta`, `u` are those of the configuration, the auxiliary susceptibility uses the ones
    of the vertex object. -/
def rankComp {c : Nat} (s : Nat) (gam : FourP (2 * c) ℂ) (b : Bub ℂ) (beta u : ℂ) (qs : List Mom) :
    Option (List (List (Mat (2 * c) ℂ × Mat (2 * c) ℂ))) :=
  (b.gchi0Q (c + s) qs).bind fun gq =>
    let gcore := gq.map fun g => g.map fun row => cutV row (c : Int)
    gam.ur.bind fun ur => (getUr u gam.channel).bind fun ur' =>
      gcore.mapM fun g => (List.range g.length).mapM fun iw => (g[iw]?).bind fun row => (toVec (2 * c) row).bind fun g0 =>
        (gam.mat[iw]?).bind fun m => (auxGamW m g0 gam.beta ur).map fun X => ladderComponents X (vrgSlice true X g0) g0 beta ur'

/-- one of the two components as an array (language construct) -/
def compMat {n : Nat} (second : Bool) (f : Mat n ℂ × Mat n ℂ) : Mat2 := fun i j =>
  if h : i < n ∧ j < n then (if second then f.2 else f.1) ⟨i, h.1⟩ ⟨j, h.2⟩ else 0

/-- dga_main.py:111-134, pairing_vertex.py:75-97: the rank files with one vertex component of one channel after all ranks have worked on
    their irreducible momenta; the files are new -/
def pvFiles {c : Nat} (second : Bool) (s R nx ny nz : Nat) (f : List Nat) (niw : Nat) (gam : FourP (2 * c) ℂ) (b : Bub ℂ) (beta u : ℂ) :
    Option (List (File PvGroup)) :=
  (irrqList nx ny nz f).bind fun irr =>
    let l : List Mom := irr.map momOf
    (List.range R).mapM fun r => (mySlice l.length R r).bind fun p => (myTasks l.length R r).bind fun ts =>
      (rankComp s gam b beta u (Py.slice l p.1 p.2)).bind fun comps =>
        writePairing c (nivPP niw c) ts (wnRange niw) (fun i j => compMat second ((comps.getD i []).getD j (0, 0))) []

/-- options of the Eliashberg section of the config file (config.py:384-425), and whether the second run is shifted
    (eliashberg_equation.py:160, 293: default of `linear_eliashberg`) -/
structure EliSettings where
  kSym : String
  symSing : Bool
  symTrip : Bool
  eps : ℝ
  maxCount : Nat
  nEig : Nat
  shiftMat : Bool

/-- what the program does not determine itself: the root finder of scipy and the random numbers of the start vectors, per channel -/
structure Chance (nx ny nz : Nat) where
  newton : (ℝ → ℝ) → ℝ → Option ℂ
  rk : String → Nat → Nat → Nat → Nat → ℂ
  rv : String → Nat → Nat → Nat → Nat → ℂ
  gap0s : String → (n : Nat) → Grid nx ny nz × Fin (2 * n) → ℂ

/-- what the run leaves behind: the results of C129, the size of the pairing box, the saved pairing vertices, the chemical potential of the
    DGA Green's function and the eigenvalues with their gaps in both channels -/
structure EliOut (nx ny nz : Nat) where
  main : MainOut
  npp : Nat
  fSing : Grid nx ny nz → Fin (2 * npp) → Fin (2 * npp) → ℂ
  fTrip : Grid nx ny nz → Fin (2 * npp) → Fin (2 * npp) → ℂ
  mu : ℝ
  sing : List (ℂ × (Grid nx ny nz × Fin (2 * npp) → ℂ))
  trip : List (ℂ × (Grid nx ny nz × Fin (2 * npp) → ℂ))

/-- dga_main.py:88 `ek = hr.get_ek(k_grid)` on the flattened grid (real part; the imaginary part vanishes, C44) -/
def bandOf (S : Settings) : List ℝ :=
  flat3 (table S.nx S.ny S.nz fun i j k => (Wan.getEk S.hr S.nx S.ny S.nz i j k).re)

/-- a row of a momentum-first array on the flattened grid (language construct) -/
def rowQ {nx ny nz : Nat} (a : List (List ℂ)) : Grid nx ny nz → List ℂ := fun q => a.getD (flatQ q) []

open Classical in
/-- pairing_vertex.py:135-169: assembly of the pairing vertex at all momenta; it fails as a whole.  Returns the singlet and the triplet
    array as they are saved and loaded again. -/
def assemblePp {nx ny nz : Nat} (fb : List Nat) (nivpp : Nat) (f1M f2M f1D f2D : List (File PvGroup)) (chiM chiD : Grid nx ny nz → List ℂ)
    (u : ℂ) : Option ((Grid nx ny nz → Fin (2 * nivpp) → Fin (2 * nivpp) → ℂ) × (Grid nx ny nz → Fin (2 * nivpp) → Fin (2 * nivpp) → ℂ)) :=
  if ∀ q, (buildPairing fb nivpp f1M f2M f1D f2D chiM chiD u q).isSome then
    some (savedF true fb nivpp f1M f2M f1D f2D chiM chiD u, savedF false fb nivpp f1M f2M f1D f2D chiM chiD u)
  else none

/-- dga_main.py:99-134, 183-185, 261, 287-303: pairing vertex, DGA Green's function and Eliashberg equation of a run that has arrived at
    the result `out`.  The local quantities and the ladder are those of the run (the same deterministic calls). -/
def eliFrom (S : Settings) [NeZero S.nx] [NeZero S.ny] [NeZero S.nz] (E : EliSettings) (X : Chance S.nx S.ny S.nz) (d : Dict) (b : Cfg.Box) (gd gm : G2)
    (out : MainOut) : Except String (EliOut S.nx S.ny S.nz) :=
  let c := b.nivCore.toNat
  let niw := b.niwCore.toNat
  let npp := nivPP niw c
  match arrOf d.siw, numOf d.n, numOf d.beta, numOf d.u, numOf d.mu with
  | some siw, some n, some beta, some u, some mu =>
    match toFour (2 * c) gd, toFour (2 * c) gm, fbz2irrk S.nx S.ny S.nz S.syms with
    | some g2D, some g2M, some mp =>
      let gen := genDmft S.nx S.ny S.nz S.hr mu (siwObj siw beta) b.nivAsympt.toNat niw
      match localSde b.nivShell.toNat g2D g2M gen (n : ℂ) with
      | none => .error "failed"
      | some loc =>
        let files := fun (second : Bool) (gam : FourP (2 * c) ℂ) =>
          pvFiles second b.nivShell.toNat S.ranks S.nx S.ny S.nz (flat3 mp) niw gam gen (beta : ℂ) (u : ℂ)
        match files false loc.2.1.gam, files true loc.2.1.gam, files false loc.1.gam, files true loc.1.gam with
        | some f1M, some f2M, some f1D, some f2D =>
          match assemblePp (nx := S.nx) (ny := S.ny) (nz := S.nz) (flat3 mp) npp f1M f2M f1D f2D (rowQ out.run.chi.magn) (rowQ out.run.chi.dens) (u : ℂ) with
          | none => .error "failed"
          | some F =>
            match gfMu X.newton out.sigma (bandOf S) n 0 with
            | none => .error "failed"
            | some muDga =>
              match newGf out.sigma (bandOf S) muDga b.nivAsympt with
              | none => .error "failed"
              | some g =>
                let el := fun (ch : String) (F : Grid S.nx S.ny S.nz → Fin (2 * npp) → Fin (2 * npp) → ℂ) =>
                  linearEliashberg (elCfg E.kSym E.symSing E.symTrip E.eps E.maxCount E.nEig) npp beta F (rowQ g.core) ch E.shiftMat (X.rk ch) (X.rv ch)
                    (X.gap0s ch npp)
                match el "sing" F.1, el "trip" F.2 with
                | some ls, some lt => .ok ⟨out, npp, F.1, F.2, muDga, ls, lt⟩
                | _, _ => .error "failed"
        | _, _, _, _ => .error "failed"
    | _, _, _ => .error "failed"
  | _, _, _, _, _ => .error "failed"

/-- dga_main.py:41-312 with `do_pairing_vertex` and `do_eliash` set -/
def mainEli (fs : Fs) (ty path f1 : String) (f2 : Option String) (S : Settings) [NeZero S.nx] [NeZero S.ny] [NeZero S.nz] (E : EliSettings)
    (X : Chance S.nx S.ny S.nz) : Except String (EliOut S.nx S.ny S.nz) :=
  match load1p fs ty path f1 f2 with
  | none => .error "failed"
  | some d =>
    match buildG2 S.box S.symVVp d with
    | none => .error "failed"
    | some (b, gd, gm) =>
      match calcFrom S d b gd gm with
      | .error e => .error e
      | .ok out => eliFrom S E X d b gd gm out

/-! ### The rank files in closed form -/

theorem rankComp_eq {c : Nat} (s nx ny nz N niw : Nat) (beta u : ℂ) (hb : star beta = beta)
    (G : Nat → Nat → Nat → Int → ℂ) (g : Int → ℂ)
    (hG : ∀ i j k, ∀ n : Int, -(N : Int) ≤ n → n < N → G i j k (-n - 1) = star (G i j k n))
    (hfit : niw + (c + s) ≤ N) (dens : Bool) (Γ : Int → Mat (2 * c) ℂ) (qs : List Mom)
    (hok : ∀ q ∈ qs, OkQ (wn niw) beta (urOf dens u) Γ (bubQ nx ny nz beta G) q) :
    rankComp s (objOf dens niw beta u Γ) (genOf nx ny nz N niw beta G g) beta u qs =
      some (qs.map fun (q : Mom) => (wn niw).map fun (x : Int) =>
        ladderComponents (XQ beta (urOf dens u) Γ (bubQ nx ny nz beta G) q x)
          (vrgSlice true (XQ beta (urOf dens u) Γ (bubQ nx ny nz beta G) q x) (Pipe.onBox c (bubQ nx ny nz beta G q x)))
          (Pipe.onBox c (bubQ nx ny nz beta G q x)) beta (urOf dens u)) := by
  unfold rankComp
  rw [gchi0Q_gen nx ny nz N niw beta hb G g hG (c + s) hfit, Option.bind_some]
  have hur : getUr u (objOf dens niw beta u Γ).channel = some (urOf dens u) := by
    cases dens <;> simp [objOf, chName, urOf, getUr]
  simp only [show (objOf dens niw beta u Γ).ur = some (urOf dens u) from ur_obj .., hur, Option.bind_some, List.map_map, List.mapM_map]
  apply mapM_some
  intro q hq
  simp only [Function.comp, List.length_map]
  rw [mapM_range_congr (wn niw) _ (fun x => some (ladderComponents (XQ beta (urOf dens u) Γ (bubQ nx ny nz beta G) q x)
          (vrgSlice true (XQ beta (urOf dens u) Γ (bubQ nx ny nz beta G) q x) (Pipe.onBox c (bubQ nx ny nz beta G q x)))
          (Pipe.onBox c (bubQ nx ny nz beta G q x)) beta (urOf dens u)))]
  · apply mapM_some
    intro x _
    rfl
  · intro j x hx
    have hmem : x ∈ wn niw := List.mem_of_getElem? hx
    obtain ⟨X, hX⟩ := Option.isSome_iff_exists.1 (hok q hq x hmem)
    have hXQ : XQ beta (urOf dens u) Γ (bubQ nx ny nz beta G) q x = X := by unfold XQ; rw [hX]; rfl
    simp only [List.getElem?_map, hx, Option.map_some, Option.bind_some, objOf, cutV_samplesF _ _ _ (Nat.le_add_right c s), toVec_box, hX, hXQ]

theorem irr_length (nx ny nz : Nat) (f : List Nat) (irr : List (Nat × Nat × Nat)) (h : irrqList nx ny nz f = some irr) :
    irr.length = (uniq f).length := by
  unfold irrqList take? at h
  rw [mapM_if _ _ (0, 0, 0)] at h
  split at h
  · rw [← Option.some.inj h]
    simp [irrkInd]
  · cases h

theorem compMat_eq {c : Nat} (second : Bool) (f : Mat (2 * c) ℂ × Mat (2 * c) ℂ) :
    compMat second f = onBox c (atMx (if second then f.2 else f.1)) := by
  funext i j
  unfold compMat onBox
  rw [atMx_eq]
  unfold atFreq
  by_cases h : i < 2 * c ∧ j < 2 * c
  · rw [dif_pos h, dif_pos (by omega)]
    simp only [Int.sub_add_cancel, Int.toNat_natCast]
  · rw [dif_neg h, dif_neg (by omega)]

/-- the representative of an irreducible momentum by its number -/
def repOf (irr : List (Nat × Nat × Nat)) (iq : Nat) : Mom := (irr.map momOf).getD iq (0, 0, 0)

theorem map_repOf (irr : List (Nat × Nat × Nat)) : (List.range irr.length).map (repOf irr) = irr.map momOf := by
  apply List.ext_getElem
  · simp
  · intro i h1 h2
    simp only [List.length_map, List.length_range] at h1
    simp [repOf, List.getD_eq_getElem?_getD, h1]

/-- The rank files hold the components of the calculation. -/
theorem pvFiles_written {c : Nat} (s nx ny nz N niw : Nat) (beta u : ℂ) (hb : star beta = beta)
    (G : Nat → Nat → Nat → Int → ℂ) (g : Int → ℂ)
    (hG : ∀ i j k, ∀ n : Int, -(N : Int) ≤ n → n < N → G i j k (-n - 1) = star (G i j k n))
    (hfit : niw + (c + s) ≤ N) (dens : Bool) (Γ : Int → Mat (2 * c) ℂ) (f : List Nat) (irr : List (Nat × Nat × Nat))
    (hirr : irrqList nx ny nz f = some irr)
    (hok : ∀ q ∈ irr.map momOf, OkQ (wn niw) beta (urOf dens u) Γ (bubQ nx ny nz beta G) q) (R : Nat) (hR : 0 < R) (second : Bool) :
    ∃ files, pvFiles second s R nx ny nz f niw (objOf dens niw beta u Γ) (genOf nx ny nz N niw beta G g) beta u = some files ∧
      PvWritten (uniq f).length R niw c (comp second niw beta (urOf dens u) Γ (bubQ nx ny nz beta G) (repOf irr)) files := by
  have hlen := irr_length nx ny nz f irr hirr
  set B := bubQ nx ny nz beta G with hB
  set ur := urOf dens u with hur
  set F := comp second niw beta ur Γ B (repOf irr) with hF
  obtain ⟨parts, hpl, hparts, hflat⟩ := tasks_concat irr.length R hR
  have hnd : ∀ ts ∈ parts, ts.Nodup := by
    have h : parts.flatten.Nodup := by rw [hflat]; exact List.nodup_range
    exact (List.nodup_flatten.mp h).1
  -- one rank
  have hrank : ∀ r, r < R → ∃ (p : Nat × Nat) (ts : List Nat) (comps : List (List (Mat (2 * c) ℂ × Mat (2 * c) ℂ))),
      mySlice irr.length R r = some p ∧ myTasks irr.length R r = some ts ∧ ts.Nodup ∧
      rankComp s (objOf dens niw beta u Γ) (genOf nx ny nz N niw beta G g) beta u (Py.slice (irr.map momOf) p.1 p.2) = some comps ∧
      ∀ i q, ts[i]? = some q → ∀ j w, (wnRange niw)[j]? = some w → compMat second ((comps.getD i []).getD j (0, 0)) = onBox c (F q w) := by
    intro r hr
    have hts := hparts r hr
    rw [List.getElem?_eq_getElem (by omega)] at hts
    have hts' := hts
    unfold myTasks at hts
    rw [Option.map_eq_some_iff] at hts
    obtain ⟨p, hp, hpt⟩ := hts
    have hqs : Py.slice (irr.map momOf) p.1 p.2 = (parts[r]'(by omega)).map (repOf irr) := by
      rw [← map_repOf, slice_map, ← hpt]
    refine ⟨p, _, _, hp, hts', hnd _ (List.getElem_mem _), rankComp_eq s nx ny nz N niw beta u hb G g hG hfit dens Γ _ ?_, ?_⟩
    · intro q hq
      apply hok q
      unfold Py.slice at hq
      exact List.mem_of_mem_drop (List.mem_of_mem_take hq)
    · intro i q hq j w hw
      rw [hqs]
      have hw' : (wn niw)[j]? = some w := by
        rw [← hw]; unfold wn wnRange; simp
      have hmem : w ∈ wn niw := List.mem_of_getElem? hw'
      rw [mem_wn] at hmem
      have e1 : (((parts[r]'(by omega)).map (repOf irr)).map fun (q : Mom) => (wn niw).map fun (x : Int) =>
          ladderComponents (XQ beta ur Γ B q x) (vrgSlice true (XQ beta ur Γ B q x) (Pipe.onBox c (B q x))) (Pipe.onBox c (B q x)) beta ur).getD i [] =
          (wn niw).map fun (x : Int) => ladderComponents (XQ beta ur Γ B (repOf irr q) x)
            (vrgSlice true (XQ beta ur Γ B (repOf irr q) x) (Pipe.onBox c (B (repOf irr q) x))) (Pipe.onBox c (B (repOf irr q) x)) beta ur := by
        rw [List.getD_eq_getElem?_getD, List.getElem?_map, List.getElem?_map, hq]
        rfl
      rw [e1, List.getD_eq_getElem?_getD, List.getElem?_map, hw', Option.map_some, Option.getD_some, compMat_eq]
      congr 1
      rw [hF]
      funext v v'
      unfold comp
      rw [if_pos (show -(niw : Int) ≤ w ∧ w ≤ niw by omega)]
  choose! p ts comps k1 k2 k3 k4 k5 using hrank
  refine ⟨(List.range R).map fun r => [] ++ entries "pv_".toList (ts r) (wnPP (nivPP niw c) (wnRange niw)) (pvGroup c (nivPP niw c) fun q w => onBox c (F q w)),
    ?_, by simp, ?_⟩
  · unfold pvFiles
    rw [hirr, Option.bind_some]
    simp only [List.length_map]
    apply mapM_some
    intro r hr
    rw [List.mem_range] at hr
    rw [k1 r hr, Option.bind_some, k2 r hr, Option.bind_some, k4 r hr, Option.bind_some]
    exact writePairing_eq c _ (ts r) (wnRange niw) _ (fun q w => onBox c (F q w)) [] (k3 r hr) (Py.nodup_arange _ _) (by simp) (by simp) (k5 r hr)
  · intro r fl hfl
    rw [List.getElem?_map, Option.map_eq_some_iff] at hfl
    obtain ⟨r', hr', rfl⟩ := hfl
    rw [List.getElem?_eq_some_iff] at hr'
    obtain ⟨hr, rfl⟩ := hr'
    simp only [List.length_range] at hr
    simp only [List.getElem_range]
    exact ⟨ts r, _, [], by rw [← hlen]; exact k2 r hr, k5 r hr, by simp, by simp,
      writePairing_eq c _ (ts r) (wnRange niw) _ (fun q w => onBox c (F q w)) [] (k3 r hr) (Py.nodup_arange _ _) (by simp) (by simp) (k5 r hr)⟩

end DGA.Pairing
