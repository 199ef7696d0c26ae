/- The analytic continuation section, the rank files, and the whole program of one rank run alone. -/
import Verif.Spmd.Seq

namespace DGA.Spmd

/-- Configurations with which the run works: at most as many processes as irreducible k-points; Eliashberg only together with
    the pairing vertex; an optics section only together with the bubble; continuation of k-dependent fermionic quantities only if
    both grids have the same number of irreducible points; at least ten bosonic frequencies in the core; at least four momenta
    along x and y; polynomial fits only on a plane of momenta. -/
structure Valid (n : Nat) (f : Flags) : Prop where
  pos : 0 < n
  size : n ≤ f.nkIrr
  eliash : f.eliash = true → f.pairing = true
  optics : f.opticsSec = true → f.bubble = true
  grid : ∀ m, f.maxEnt = some m → m.sDga = some true ∨ m.gDga = some true → f.nkIrr = f.nqIrr
  niw : 10 ≤ f.niw
  nx : 4 ≤ f.nx
  ny : 4 ≤ f.ny
  fits : f.polyFit = true → f.nz = 1

/-- one continuation section -/
theorem seqRoot_cont (s : RootSt) (o : Option Bool) (d : Dir) (pre post : List Loc) (hd : d ∉ s.dirs)
    (hp : o = some true → (∀ s' : RootSt, s'.npy = s.npy → seqRoot s' (pre.map .loc) = some s') ∧
      ∀ s' : RootSt, s'.npy = s.npy → seqRoot s' (post.map .loc) = some s') :
    ∃ s', seqRoot s (secCont o 0 d pre post) = some s' ∧ s'.npy = s.npy ∧ s.dirs ⊆ s'.dirs ∧
      ∀ e, e ≠ d → e ∉ s.dirs → e ∉ s'.dirs := by
  match o with
  | none => exact ⟨s, rfl, rfl, fun _ h => h, fun _ _ h => h⟩
  | some false =>
    refine ⟨{ s with dirs := s.dirs ++ [d] }, by simp [secCont, onRoot, seqRoot, rootEff, hd], rfl, ?_, ?_⟩
    · intro e he; simp [he]
    · intro e he h; simp [he, h]
  | some true =>
    obtain ⟨h1, h2⟩ := hp rfl
    refine ⟨{ s with dirs := s.dirs ++ [d] }, ?_, rfl, ?_, ?_⟩
    · simp only [secCont, onRoot, if_true, seqRoot_append, List.map_append]
      simp only [List.map_cons, List.map_nil, seqRoot, rootEff, hd, if_false, Option.bind_some]
      rw [h1 _ (by rfl)]
      simp only [scatter, seqRoot, Option.bind_some]
      rw [h2 _ (by rfl)]
      simp
    · intro e he; simp [he]
    · intro e he h; simp [he, h]

theorem seqRoot_maxEnt (n : Nat) (f : Flags) (hv : Valid n f) (s : RootSt) (hout : Dir.out ∈ s.dirs)
    (ho : ∀ o ∈ [Obj.dmftInput, .config, .siwkDga, .chiDensLam, .chiMagnLam], o ∈ s.npy)
    (hme : ∀ d ∈ [Dir.meLoc, .meSiwk, .meGiwk, .meDens, .meMagn], d ∉ s.dirs) :
    ∃ s', seqRoot s (secMaxEnt n f 0) = some s' := by
  cases hm : f.maxEnt with
  | none => exact ⟨s, by simp [secMaxEnt, hm, seqRoot]⟩
  | some m =>
    have hsz := hv.size
    simp only [List.mem_cons, List.not_mem_nil, or_false, forall_eq_or_imp, forall_eq] at ho hme
    -- everything before the first section
    obtain ⟨s1, e1, hn1, hd1⟩ : ∃ s1, seqRoot s (onRoot 0 [.load .config] ++
        [.coll (.bcast 0), .loc (.guard (decide (n ≤ f.nkIrr)))] ++ onRoot 0 [.needDir .out] ++
        [.loc (.load .dmftInput)] ++ (if m.loc then onRoot 0 [.mkdir .meLoc, .needDir .meLoc] else []) ++
        onRoot 0 [.load .siwkDga] ++ [.coll .barrier] ++ (if m.loc then onRoot 0 [.needDir .meLoc] else [])) = some s1 ∧
        s1.npy = s.npy ∧ ∀ d, d ≠ Dir.meLoc → d ∉ s.dirs → d ∉ s1.dirs := by
      cases hl : m.loc with
      | false =>
        refine ⟨s, ?_, rfl, fun _ _ h => h⟩
        simp [onRoot, seqRoot, rootEff, ho, hsz, hout]
      | true =>
        refine ⟨{ s with dirs := s.dirs ++ [.meLoc] }, ?_, rfl, fun d h1 h2 => by simp [h1, h2]⟩
        simp [onRoot, seqRoot, rootEff, ho, hsz, hout, hme]
    have hg : ∀ s' : RootSt, f.nkIrr = f.nqIrr → seqRoot s' ([Loc.guard (decide (f.nqIrr ≤ f.nkIrr))].map .loc) = some s' ∧
        seqRoot s' ([Loc.guard (decide (f.nkIrr ≤ f.nqIrr))].map .loc) = some s' := by
      intro s' h; simp [seqRoot, rootEff, h]
    obtain ⟨s2, e2, hn2, _, hd2⟩ := seqRoot_cont s1 m.sDga .meSiwk [.guard (decide (f.nqIrr ≤ f.nkIrr))]
      [.guard (decide (f.nkIrr ≤ f.nqIrr))] (hd1 _ (by simp) hme.2.1)
      (fun h => ⟨fun s' _ => (hg s' (hv.grid m hm (Or.inl h))).1, fun s' _ => (hg s' (hv.grid m hm (Or.inl h))).2⟩)
    obtain ⟨s3, e3, hn3, _, hd3⟩ := seqRoot_cont s2 m.gDga .meGiwk [.guard (decide (f.nqIrr ≤ f.nkIrr))]
      [.guard (decide (f.nkIrr ≤ f.nqIrr))] (hd2 _ (by simp) (hd1 _ (by simp) hme.2.2.1))
      (fun h => ⟨fun s' _ => (hg s' (hv.grid m hm (Or.inr h))).1, fun s' _ => (hg s' (hv.grid m hm (Or.inr h))).2⟩)
    obtain ⟨s4, e4, hn4, _, hd4⟩ := seqRoot_cont s3 m.chiD .meDens [.load .chiDensLam] []
      (hd3 _ (by simp) (hd2 _ (by simp) (hd1 _ (by simp) hme.2.2.2.1)))
      (fun _ => ⟨fun s' h => by simp [seqRoot, rootEff, h, hn3, hn2, hn1, ho], fun s' _ => rfl⟩)
    obtain ⟨s5, e5, _, _, _⟩ := seqRoot_cont s4 m.chiM .meMagn [.load .chiMagnLam] []
      (hd4 _ (by simp) (hd3 _ (by simp) (hd2 _ (by simp) (hd1 _ (by simp) hme.2.2.2.2))))
      (fun _ => ⟨fun s' h => by simp [seqRoot, rootEff, h, hn4, hn3, hn2, hn1, ho], fun s' _ => rfl⟩)
    refine ⟨s5, ?_⟩
    unfold secMaxEnt
    rw [hm]
    dsimp only
    rw [seqRoot_append, seqRoot_append, seqRoot_append, seqRoot_append, e1]
    simp [e2, e3, e4, e5]

/-- Rank 0's program, run alone, never raises. -/
theorem seqRoot_main (n : Nat) (f : Flags) (hv : Valid n f) : ∃ s, seqRoot root0 (mainProg n f 0) = some s := by
  let os1 : List Obj := [.dmftInput, .config, .chiDensLam, .chiMagnLam]
  have e1 := seqRoot_before n f hv.size hv.niw hv.fits
  have e2 := seqRoot_middle f os1 (by simp [os1])
  have e3 := seqRoot_sde f (os1 ++ vObjs f) hv.nx hv.ny hv.fits
  obtain ⟨os4, e4, h4⟩ := seqRoot_eliash f (os1 ++ vObjs f ++ [.siwkDga]) (fun h => by
    have := hv.eliash h; simp [vObjs, this])
  obtain ⟨os5, b, e5, h5⟩ := seqRoot_optics f os4 (fun h => by
    apply h4 <;> simp [vObjs, h]) hv.optics
  obtain ⟨s6, e6⟩ := seqRoot_maxEnt n f hv { rootN f os5 with bub := b } (mem_dirs f os5).1 (by
    intro o ho
    simp only [List.mem_cons, List.not_mem_nil, or_false] at ho
    rcases ho with rfl | rfl | rfl | rfl | rfl <;>
    · apply h5 _ (by simp)
      apply h4 _ (by simp) (by simp)
      simp [os1]) (by
    intro d hd
    simp only [List.mem_cons, List.not_mem_nil, or_false] at hd
    rcases hd with rfl | rfl | rfl | rfl | rfl <;> simp [rootN, rootA] )
  refine ⟨s6, ?_⟩
  unfold mainProg afterSde
  simp only [seqRoot_append, e1, Option.bind_some, e2, seqRoot, seqRoot_scatter, e3, e4, e5, e6, os1]

/-! ### the own rank file -/

section file
variable {β : Type} (data : Vtx → Ch → β)

/-- actions that do not touch the own rank file -/
def fileIdle : Loc → Bool
  | .newFile => false
  | .write _ _ => false
  | .delFile => false
  | _ => true

theorem fileEff_idle (a : Loc) (h : fileIdle a = true) (g : Option (RFile β)) : fileEff data a g = some g := by
  cases a <;> simp_all [fileIdle, fileEff]

/-- all local actions of a list satisfy `p` -/
def allLoc (p : Loc → Bool) : Prog → Bool
  | [] => true
  | .loc a :: l => p a && allLoc p l
  | .coll _ :: l => allLoc p l

theorem allLoc_append (p : Loc → Bool) (l m : Prog) : allLoc p (l ++ m) = (allLoc p l && allLoc p m) := by
  induction l with
  | nil => simp [allLoc]
  | cons a l ih => cases a <;> simp [allLoc, ih, Bool.and_assoc]

theorem allLoc_mem (p : Loc → Bool) (l : Prog) : allLoc p l = true ↔ ∀ a, Act.loc a ∈ l → p a = true := by
  induction l with
  | nil => simp [allLoc]
  | cons a l ih => cases a <;> simp [allLoc, ih]

theorem allLoc_onRoot (p : Loc → Bool) (r : Nat) (l : List Loc) (h : l.all p = true) : allLoc p (onRoot r l) = true := by
  unfold onRoot
  split
  · induction l with
    | nil => rfl
    | cons a l ih => simp only [List.all_cons, Bool.and_eq_true] at h; simp [allLoc, h.1, ih h.2]
  · rfl

theorem seqFile_idle (l : Prog) (h : allLoc fileIdle l = true) (g : Option (RFile β)) : seqFile data g l = some g := by
  induction l with
  | nil => rfl
  | cons a l ih =>
    cases a with
    | loc a =>
      simp only [allLoc, Bool.and_eq_true] at h
      simp [seqFile, fileEff_idle data a h.1, ih h.2]
    | coll c => simpa [seqFile] using ih (by simpa [allLoc] using h)

/-- the components written for one channel -/
def comps (f : Flags) (c : Ch) : RFile β :=
  (if f.pairing then [((Vtx.pv, c), data .pv c)] else []) ++ (if f.vertex then [((Vtx.opt, c), data .opt c)] else []) ++
    (if f.saveFq then [((Vtx.fq, c), data .fq c)] else [])

/-- the complete rank file -/
def full (f : Flags) : RFile β := comps data f .dens ++ comps data f .magn

theorem seqFile_ladders (f : Flags) :
    seqFile data (some []) (ladder f .dens ++ ladder f .magn) = some (some (full data f)) := by
  cases h1 : f.pairing <;> cases h2 : f.vertex <;> cases h3 : f.saveFq <;>
    simp [ladder, seqFile, fileEff, full, comps, h1, h2, h3]

theorem idle_conf (n : Nat) (f : Flags) (r : Nat) : allLoc fileIdle (secConf n f r) = true := by
  cases h : f.polyFit <;>
    simp [secConf, folders, setOut, allLoc_append, allLoc, allLoc_onRoot, fileIdle, h]

theorem seqFile_before (n : Nat) (f : Flags) (r : Nat) :
    seqFile data none (beforeBuild n f r) = some (some (full data f)) := by
  have i2 : allLoc fileIdle (secLog r) = true := by
    simp [secLog, allLoc_append, allLoc, allLoc_onRoot, fileIdle]
  have i3 : allLoc fileIdle (secLocal f r) = true := by
    cases h : f.polyFit <;> cases h2 : f.verbose <;>
      simp [secLocal, allLoc_append, allLoc, allLoc_onRoot, fileIdle, h, h2]
  have i5 : allLoc fileIdle (secLambda r) = true := by
    simp [secLambda, allLoc, allLoc_onRoot, fileIdle]
  have i4 : seqFile data none (secLadder f r) = some (some (full data f)) := by
    have a1 : allLoc fileIdle (onRoot r [.needDir .plots]) = true := allLoc_onRoot _ _ _ (by simp [fileIdle])
    have a2 : allLoc fileIdle (if f.saveVrg then onRoot r [.needDir .out] else []) = true := by
      cases f.saveVrg
      · rfl
      · simpa using allLoc_onRoot _ _ _ (by simp [fileIdle])
    unfold secLadder
    rw [seqFile_append, List.append_assoc, seqFile_append]
    have e : seqFile data none ([.coll .barrier, .loc .newFile, .coll .barrier] ++ onRoot r [.needDir .plots]) = some (some []) := by
      rw [seqFile_append]
      simp [seqFile, fileEff, seqFile_idle data _ a1]
    rw [e]
    simp only [Option.bind_some, seqFile_ladders]
    rw [seqFile_idle data _ a2]
  unfold beforeBuild
  simp only [seqFile_append, seqFile_idle data _ (idle_conf n f r), seqFile_idle data _ i2, seqFile_idle data _ i3, i4,
    Option.bind_some, seqFile_idle data _ i5]

theorem idle_middle (f : Flags) (r : Nat) : allLoc fileIdle ([.coll .barrier] ++ middle f r) = true := by
  cases h1 : f.pairing <;> cases h2 : f.vertex <;> cases h3 : f.saveFq <;>
    simp [middle, secBuild, allLoc_append, allLoc, allLoc_onRoot, fileIdle, h1, h2, h3]

theorem idle_scatter : allLoc fileIdle secScatter = true := by rfl

theorem idle_cont (o : Option Bool) (r : Nat) (d : Dir) (pre post : List Loc) (h1 : pre.all fileIdle = true)
    (h2 : post.all fileIdle = true) : allLoc fileIdle (secCont o r d pre post) = true := by
  match o with
  | none => rfl
  | some false => simpa [secCont] using allLoc_onRoot _ _ _ (by simp [fileIdle])
  | some true =>
    simp only [secCont, allLoc_append]
    rw [allLoc_onRoot _ _ _ (by simp [fileIdle]), allLoc_onRoot _ _ _ h1,
      allLoc_onRoot _ _ _ (by rw [List.all_append]; simp only [h2, Bool.true_and]; simp [fileIdle])]
    rfl

theorem idle_rest (n : Nat) (f : Flags) (r : Nat) :
    allLoc fileIdle (secEliash f r ++ secOptics f r ++ secMaxEnt n f r ++ [.coll .barrier]) = true := by
  have h1 : allLoc fileIdle (secEliash f r) = true := by
    cases h1 : f.eliash <;> cases h2 : f.keepPairing <;>
      simp [secEliash, allLoc_append, allLoc, allLoc_onRoot, fileIdle, h1, h2]
  have h2 : allLoc fileIdle (secOptics f r) = true := by
    cases h1 : f.opticsSec <;> cases h2 : f.bubble <;> cases h3 : f.vertex <;> cases h4 : f.opticsMe <;>
      cases h5 : f.keepFq <;>
      simp [secOptics, scatter, allLoc_append, allLoc, allLoc_onRoot, fileIdle, h1, h2, h3, h4, h5]
  have h3 : allLoc fileIdle (secMaxEnt n f r) = true := by
    cases hm : f.maxEnt with
    | none => simp [secMaxEnt, hm, allLoc]
    | some m =>
      have c1 := idle_cont m.chiD r .meDens [.load .chiDensLam] [] rfl rfl
      have c2 := idle_cont m.chiM r .meMagn [.load .chiMagnLam] [] rfl rfl
      cases hl : m.loc <;>
        simp [secMaxEnt, hm, allLoc_append, allLoc, allLoc_onRoot, fileIdle, idle_cont, hl, c1, c2]
  simp [allLoc_append, h1, h2, h3, allLoc]

theorem seqFile_sde (f : Flags) (r : Nat) (g : Option (RFile β)) :
    seqFile data g (secSde f r) = some (if f.keepRank then g else none) := by
  have a1 : allLoc fileIdle (onRoot r [.needDir .plots, .save .siwkDga, .guard (decide (4 ≤ f.nx ∧ 4 ≤ f.ny)), .needDir .out]) = true :=
    allLoc_onRoot _ _ _ (by simp [fileIdle])
  have a2 : allLoc fileIdle (onRoot r [.needDir .out]) = true := allLoc_onRoot _ _ _ (by simp [fileIdle])
  have a3 : allLoc fileIdle (if f.polyFit then onRoot r [.needDir .poly, .guard (decide (f.nz = 1))] else []) = true := by
    cases f.polyFit
    · rfl
    · simpa using allLoc_onRoot _ _ _ (by simp [fileIdle])
  unfold secSde
  simp only [seqFile_append, seqFile_idle data _ a1, Option.bind_some]
  cases f.keepRank <;> simp [seqFile, fileEff, seqFile_idle data _ a2, seqFile_idle data _ a3]

/-- The own rank file after the whole program. -/
theorem seqFile_main (n : Nat) (f : Flags) (r : Nat) :
    seqFile data none (mainProg n f r) = some (if f.keepRank then some (full data f) else none) := by
  have e := seqFile_before data n f r
  have i := idle_rest n f r
  unfold mainProg afterSde
  simp only [List.append_assoc] at *
  rw [seqFile_append, e]
  simp only [Option.bind_some]
  rw [← List.append_assoc, seqFile_append, seqFile_idle data _ (idle_middle f r)]
  simp only [Option.bind_some]
  rw [seqFile_append, seqFile_idle data _ idle_scatter]
  simp only [Option.bind_some]
  rw [seqFile_append, seqFile_sde]
  simp only [Option.bind_some]
  exact seqFile_idle data _ i _

/-- The complete file holds both channels of every requested vertex. -/
theorem loadRank_full (f : Flags) (v : Vtx) (hv : f.wants v = true) :
    loadRank v (some (full data f)) = some fun c => some (data v c) := by
  have key : ∀ c, (full data f).lookup (v, c) = some (data v c) := by
    intro c
    unfold full comps
    cases h1 : f.pairing <;> cases h2 : f.vertex <;> cases h3 : f.saveFq <;> cases v <;> cases c <;>
      first
      | (exfalso; simp [Flags.wants, h1, h2, h3] at hv; done)
      | rfl
  simp [loadRank, key]

end file

end DGA.Spmd
