/-
  The concurrent program of a run (Spmd/Main.lean) and its list of file accesses (Writes/Model.lean) describe the same run:
  they make the same folders, store and delete the same files that are read back, in the same order.
-/
import Verif.Writes.Model

namespace DGA.Wr

open DGA.RankFiles (Str decDigits rankFileName)
open DGA.Spmd

/-- What both models record. -/
inductive Ev where
  | mk (d : Dir)
  | save (o : Obj)
  | clean (o : Obj)
  | delRank
deriving DecidableEq

/-- Name below the folder `Spmd.dirOf o` under which the object is stored: dga_main.py:60, 167-168, config.py:57-58,
    pairing_vertex.py:166-167, optics.py:200, dga_io.py:221. -/
def relOf : Obj → Str
  | .dmftInput => "/dmft_input.npy".toList
  | .config => "/dga_config.yaml".toList
  | .chiDensLam => "/chi_dens_lam.npy".toList
  | .chiMagnLam => "/chi_magn_lam.npy".toList
  | .fSing => "/F_sing_pp.npy".toList
  | .fTrip => "/F_trip_pp.npy".toList
  | .fCond => "/F_cond.npy".toList
  | .siwkDga => "/siwk_dga.npy".toList

/-- the objects stored in a folder -/
def objsIn : Dir → List Obj
  | .out => [.dmftInput, .config, .chiDensLam, .chiMagnLam, .siwkDga]
  | .eliash => [.fSing, .fTrip]
  | .optics => [.fCond]
  | _ => []

theorem objsIn_spec (d : Dir) (o : Obj) : o ∈ objsIn d ↔ dirOf o = d := by cases o <;> cases d <;> decide

/-- the event of an action of the concurrent program -/
def evS : Act Loc → Option Ev
  | .loc (.mkdir d) => some (.mk d)
  | .loc (.save o) => some (.save o)
  | .loc (.clean o) => some (.clean o)
  | .loc .delFile => some .delRank
  | _ => none

/-- the event of a file access of rank `r` -/
def evW (r : Nat) : Cmd → Option Ev
  | .mkdir d => some (.mk d)
  | .put d rel _ => ((objsIn d).find? fun o => relOf o = rel).map .save
  | .del d rel => if d = .out ∧ rel = rankRel r then some .delRank else ((objsIn d).find? fun o => relOf o = rel).map .clean

theorem evW_put (r : Nat) (d : Dir) (rel : Str) (v : Option String) (h : ∀ o ∈ objsIn d, relOf o ≠ rel) : evW r (.put d rel v) = none := by
  simp only [evW, Option.map_eq_none_iff, List.find?_eq_none, decide_eq_true_eq]
  exact h

theorem evW_put_dir (r : Nat) (d : Dir) (rel : Str) (v : Option String) (h : objsIn d = []) : evW r (.put d rel v) = none :=
  evW_put r d rel v (by simp [h])

theorem onRoot_zero (l : List Loc) : onRoot 0 l = l.map .loc := rfl
theorem onRoot_succ {r : Nat} (h : r ≠ 0) (l : List Loc) : onRoot r l = [] := by simp [onRoot, h]

theorem evW_fig4 (r : Nat) (name wn : String) (niv : Str) (val : String) : evW r (fig4 .plots name wn niv val) = none := evW_put_dir _ _ _ _ rfl
theorem relOf_head (o : Obj) : (relOf o).head? = some '/' := by cases o <;> decide +kernel

theorem evW_head (r : Nat) (d : Dir) (rel : Str) (v : Option String) (h : rel.head? ≠ some '/') : evW r (.put d rel v) = none :=
  evW_put r d rel v fun o _ e => h (e ▸ relOf_head o)

theorem rankRel_head (r : Nat) : (rankRel r).head? = some 'Q' := by simp [rankRel, rankFileName]

theorem evW_rank (r : Nat) (v : Option String) : evW r (.put .out (rankRel r) v) = none := evW_head _ _ _ _ (by rw [rankRel_head]; decide)

theorem evW_delRank (r : Nat) : evW r (.del .out (rankRel r)) = some .delRank := by simp [evW]

theorem relOf_second (o : Obj) (h : o ∈ objsIn .eliash) : ((relOf o).drop 1).head? = some 'F' := by
  cases o <;> first | (exact absurd h (by decide)) | decide +kernel

theorem evW_gap (ch : String) (i : Nat) : evW 0 (gapC ch i) = none := by
  apply evW_put
  intro o ho e
  have h := relOf_second o ho
  rw [e] at h
  have h2 : "/GapFunction_".toList = '/' :: 'G' :: "apFunction_".toList := by decide +kernel
  rw [h2] at h
  simp at h

theorem nil_of {l : List Cmd} {r : Nat} (h : ∀ c ∈ l, evW r c = none) : l.filterMap (evW r) = [] := by
  rw [List.filterMap_eq_nil_iff]; exact h

theorem folders_eq (f : Flags) : (foldersC f).filterMap (evW 0) = (folders f 0).filterMap evS := by
  unfold foldersC folders
  cases f.polyFit <;> rfl

theorem start_eq : startC.filterMap (evW 0) = [.save .dmftInput, .save .config] := by decide +kernel

theorem poly_eq (f : Flags) : (dmftPolyC f).filterMap (evW 0) = [] := by
  unfold dmftPolyC
  cases f.polyFit <;> decide +kernel

theorem local_eq (p : Par) : (localC p).filterMap (evW 0) = [] := by
  unfold localC
  cases p.flags.verbose
  · simp only [Bool.false_eq_true, if_false]; decide +kernel
  · simp only [if_true, List.filterMap_append]
    have h1 : (gammaC p.nivG).filterMap (evW 0) = [] := by
      apply nil_of
      intro c hc
      simp only [gammaC, List.mem_cons, List.not_mem_nil, or_false] at hc
      rcases hc with rfl | rfl | rfl | rfl | rfl <;> exact evW_fig4 ..
    rw [h1]
    decide +kernel

theorem lambda_eq : lambdaC.filterMap (evW 0) = [.save .chiDensLam, .save .chiMagnLam] := by decide +kernel

theorem build_eq (f : Flags) : (buildC f).filterMap (evW 0) = (secBuild f 0).filterMap evS := by
  unfold buildC secBuild
  cases f.pairing <;> cases f.vertex <;> cases f.saveFq <;> decide +kernel

theorem eliash_eq (p : Par) : (eliashC p).filterMap (evW 0) = (secEliash p.flags 0).filterMap evS := by
  unfold eliashC secEliash
  have h1 : ((List.range p.nEig).flatMap fun i => [gapC "sing" i, gapC "trip" i]).filterMap (evW 0) = [] := by
    apply nil_of
    intro c hc
    simp only [List.mem_flatMap, List.mem_cons, List.not_mem_nil, or_false] at hc
    obtain ⟨i, -, rfl | rfl⟩ := hc <;> exact evW_gap ..
  cases p.flags.eliash
  · rfl
  · simp only [if_true, List.filterMap_append, h1]
    cases p.flags.verbose <;> cases p.flags.keepPairing <;> decide +kernel

theorem optics_eq (f : Flags) : (opticsC f).filterMap (evW 0) = (secOptics f 0).filterMap evS := by
  unfold opticsC secOptics
  cases f.opticsSec <;> cases f.bubble <;> cases f.vertex <;> cases f.opticsMe <;> cases f.keepFq <;> decide +kernel

theorem put_dirs_nil {l : List Cmd} (h : ∀ c ∈ l, ∃ d rel v, c = .put d rel v ∧ (objsIn d = [] ∨ rel.head? ≠ some '/')) : l.filterMap (evW 0) = [] := by
  apply nil_of
  intro c hc
  obtain ⟨d, rel, v, rfl, h | h⟩ := h c hc
  · exact evW_put_dir _ _ _ _ h
  · exact evW_head _ _ _ _ h

theorem loc_eq (name : String) (bws : List Str) (fit : Bool) : (locC name bws fit).filterMap (evW 0) = [] := by
  apply put_dirs_nil
  intro c hc
  unfold locC at hc
  rw [List.mem_append, List.mem_flatMap] at hc
  rcases hc with ⟨bw, -, hc⟩ | hc
  · simp only [List.mem_cons, List.not_mem_nil, or_false] at hc
    rcases hc with rfl | rfl | rfl <;> exact ⟨_, _, _, rfl, .inl rfl⟩
  · cases fit
    · simp at hc
    · simp only [if_true, List.mem_cons, List.not_mem_nil, or_false] at hc
      rcases hc with rfl | rfl <;> exact ⟨_, _, _, rfl, .inl rfl⟩

theorem me_log_eq : evW 0 meLogC = none := by decide +kernel

theorem cont_eq (s : Option Bool) (d : Dir) (body : List Cmd) (hb : body.filterMap (evW 0) = []) (pre post : List Loc)
    (hpre : (onRoot 0 pre).filterMap evS = []) (hpost : (onRoot 0 (post ++ [.needDir d])).filterMap evS = []) :
    (secC s d body).filterMap (evW 0) = (secCont s 0 d pre post).filterMap evS := by
  rcases s with _ | _ | _
  · rfl
  · rfl
  · show (Cmd.mkdir d :: body).filterMap (evW 0) = _
    rw [List.filterMap_cons, hb]
    show [Ev.mk d] = _
    simp only [secCont, List.filterMap_append, hpre, hpost]
    rfl

theorem maxEnt_eq (n : Nat) (p : Par) : (maxEntC p).filterMap (evW 0) = (secMaxEnt n p.flags 0).filterMap evS := by
  unfold maxEntC secMaxEnt
  cases p.flags.maxEnt with
  | none => rfl
  | some m =>
    have hc : ∀ (g : Bool), (onRoot 0 [.guard g]).filterMap evS = [] := fun _ => rfl
    simp only [List.filterMap_append]
    rw [cont_eq m.sDga .meSiwk _ (by decide +kernel) [.guard (decide (p.flags.nqIrr ≤ p.flags.nkIrr))] [.guard (decide (p.flags.nkIrr ≤ p.flags.nqIrr))] rfl rfl,
      cont_eq m.gDga .meGiwk _ (by decide +kernel) [.guard (decide (p.flags.nqIrr ≤ p.flags.nkIrr))] [.guard (decide (p.flags.nkIrr ≤ p.flags.nqIrr))] rfl rfl,
      cont_eq m.chiD .meDens _ (by decide +kernel) [.load .chiDensLam] [] rfl rfl,
      cont_eq m.chiM .meMagn _ (by decide +kernel) [.load .chiMagnLam] [] rfl rfl]
    have h0 : [meLogC].filterMap (evW 0) = [] := by rw [List.filterMap_cons, me_log_eq]; rfl
    have h1 : (if m.loc then Cmd.mkdir .meLoc :: locC "dmft" p.bws p.bwFitDmft else []).filterMap (evW 0) = if m.loc then [.mk .meLoc] else [] := by
      cases m.loc
      · rfl
      · simp only [if_true, List.filterMap_cons, loc_eq]; rfl
    have h2 : (if m.loc then locC "dga" p.bws p.bwFitDga else []).filterMap (evW 0) = [] := by
      cases m.loc
      · rfl
      · simp only [if_true, loc_eq]
    rw [h0, h1, h2]
    cases m.loc <;> rfl

theorem evS_coll (c : Coll) : evS (.coll c) = none := rfl
theorem evS_needDir (d : Dir) : evS (.loc (.needDir d)) = none := rfl
theorem evS_guard (b : Bool) : evS (.loc (.guard b)) = none := rfl
theorem evS_newFile : evS (.loc .newFile) = none := rfl
theorem evS_save (o : Obj) : evS (.loc (.save o)) = some (.save o) := rfl

theorem scatter_eq : scatter.filterMap evS = [] := rfl
theorem secScatter_eq : secScatter.filterMap evS = [] := rfl

theorem sde_eq (p : Par) (r : Nat) : (sdeC p r).filterMap (evW r) = (secSde p.flags r).filterMap evS := by
  unfold sdeC secSde
  by_cases hr : r = 0
  · subst hr
    simp only [if_true, List.filterMap_append]
    generalize decide (4 ≤ p.flags.nx ∧ 4 ≤ p.flags.ny) = b1
    generalize decide (p.flags.nz = 1) = b2
    cases b1 <;> cases b2 <;> cases p.flags.verbose <;> cases p.fsPlot <;> cases p.flags.keepRank <;> cases p.flags.polyFit <;> decide +kernel
  · simp only [hr, if_false, onRoot_succ hr, List.append_nil, List.nil_append]
    cases p.flags.keepRank
    · simp only [Bool.false_eq_true, if_false, List.filterMap_append, List.filterMap_cons, evW_delRank, List.filterMap_nil]
      cases p.flags.polyFit <;> rfl
    · cases p.flags.polyFit <;> rfl

theorem ladder_nil (f : Flags) (c : Ch) : (ladder f c).filterMap evS = [] := by
  unfold ladder
  cases f.pairing <;> cases f.vertex <;> cases f.saveFq <;> rfl

theorem ladder_eq (p : Par) (r : Nat) : (ladderC p r).filterMap (evW r) = [] := by
  apply nil_of
  intro c hc
  simp only [ladderC, List.mem_append] at hc
  rcases hc with ((hc | hc) | hc) | hc
  · simp only [List.mem_singleton] at hc; subst hc; exact evW_rank ..
  · split at hc
    · simp only [List.mem_singleton] at hc; subst hc; exact evW_put_dir _ _ _ _ rfl
    · simp at hc
  · split at hc
    · simp only [List.mem_cons, List.not_mem_nil, or_false] at hc
      rcases hc with rfl | rfl <;> exact evW_rank ..
    · simp at hc
  · split at hc
    · rename_i h
      obtain ⟨rfl, -⟩ := h
      simp only [List.mem_cons, List.not_mem_nil, or_false] at hc
      rcases hc with rfl | rfl <;> decide +kernel
    · simp at hc

/-- The concurrent program of every rank and its list of file accesses agree on the folders made and on the files that are read back: same
    events, same order, under the names `relOf`. -/
theorem models_agree (n : Nat) (p : Par) (r : Nat) : (cmds p r).filterMap (evW r) = (mainProg n p.flags r).filterMap evS := by
  unfold cmds mainProg beforeBuild middle afterSde secConf secLog secLocal secLadder secLambda
  simp only [List.filterMap_append, ladder_nil, ladder_eq, sde_eq, secScatter_eq]
  by_cases hr : r = 0
  · subst hr
    simp only [if_true, List.filterMap_append, folders_eq, start_eq, poly_eq, local_eq, lambda_eq, build_eq, eliash_eq, optics_eq, maxEnt_eq n]
    have hl : [logC].filterMap (evW 0) = [] := by decide +kernel
    rw [hl]
    generalize (folders p.flags 0).filterMap evS = a
    generalize (secBuild p.flags 0).filterMap evS = b
    generalize (secSde p.flags 0).filterMap evS = c
    generalize (secEliash p.flags 0).filterMap evS = d
    generalize (secOptics p.flags 0).filterMap evS = e
    generalize (secMaxEnt n p.flags 0).filterMap evS = g
    cases p.flags.polyFit <;> cases p.flags.verbose <;> cases p.flags.saveVrg <;>
      simp [onRoot, List.filterMap_cons, evS_coll, evS_needDir, evS_guard, evS_newFile, evS_save]
  · have hf : (folders p.flags r).filterMap evS = [] := by
      unfold folders setOut
      cases p.flags.polyFit <;> simp [onRoot, hr, evS]
    have hb : (secBuild p.flags r).filterMap evS = [] := by
      unfold secBuild
      cases p.flags.pairing <;> cases p.flags.vertex <;> cases p.flags.saveFq <;> simp [onRoot, hr]
    have he : (secEliash p.flags r).filterMap evS = [] := by
      unfold secEliash
      cases p.flags.eliash <;> cases p.flags.keepPairing <;> simp [onRoot, hr]
    have ho : (secOptics p.flags r).filterMap evS = [] := by
      unfold secOptics
      cases p.flags.opticsSec <;> cases p.flags.bubble <;> cases p.flags.vertex <;> cases p.flags.opticsMe <;> cases p.flags.keepFq <;>
        simp [onRoot, hr, scatter, evS]
    have hm : (secMaxEnt n p.flags r).filterMap evS = [] := by
      unfold secMaxEnt
      cases p.flags.maxEnt with
      | none => rfl
      | some m =>
        have hcont : ∀ s d pre post, (secCont s r d pre post).filterMap evS = [] := by
          intro s d pre post
          rcases s with _ | _ | _ <;> simp [secCont, onRoot, hr, scatter, evS]
        simp only [List.filterMap_append, hcont, onRoot_succ hr]
        cases m.loc <;> rfl
    simp only [hr, if_false, List.filterMap_nil, List.nil_append, hf, hb, he, ho, hm]
    generalize (secSde p.flags r).filterMap evS = c
    cases p.flags.polyFit <;> cases p.flags.verbose <;> cases p.flags.saveVrg <;> simp [onRoot, hr, List.filterMap_cons, evS_coll, evS_needDir, evS_guard, evS_newFile]

end DGA.Wr
