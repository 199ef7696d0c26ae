/- C96-C98: the run of the whole program under every schedule. -/
import Verif.Spmd.Props

namespace DGA.Spmd

variable {β : Type} {L : Lib} {n : Nat} {f : Flags} {data : Nat → Vtx → Ch → β}

/-- The run: `n` ranks execute `dga_main.main` with configuration `f`; `data r v c` is what rank `r` computes for vertex `v` in
    channel `c`. -/
abbrev Runs (L : Lib) (n : Nat) (f : Flags) (data : Nat → Vtx → Ch → β) (st : St (World β)) : Prop :=
  Reach L n (mainProg n f) (eff n data) (world0 β) st

/-- All ranks call the same collectives with the same roots in the same order, for every configuration (valid or not). -/
theorem collectives_agree (n : Nat) (f : Flags) : Matched n (mainProg n f) := fun r _ s _ => by
  rw [colls_main n f r, colls_main n f s]

/-- No deadlock and no failure: in every state any schedule can reach, either all ranks have completed the program or some rank
    can make a step. -/
theorem run_progress (hv : Valid n f) {st : St (World β)} (h : Runs L n f data st) :
    Done n (mainProg n f) st ∨ ∃ st', Step L n (mainProg n f) (eff n data) st st' :=
  progress (collectives_agree n f) h fun _ hr _ ha => next_succeeds hv h hr ha

/-- Every schedule is finite, with an explicit bound. -/
theorem run_bounded {m : Nat} {st : St (World β)}
    (h : Steps L n (mainProg n f) (eff n data) m (start (world0 β)) st) :
    m ≤ ∑ r ∈ Finset.range n, 2 * (mainProg n f r).length := steps_bounded h

/-- Together: every schedule can be continued to one in which all ranks complete the program. -/
theorem run_completes (hv : Valid n f) {st : St (World β)} (h : Runs L n f data st) :
    ∃ st', Relation.ReflTransGen (Step L n (mainProg n f) (eff n data)) st st' ∧ Done n (mainProg n f) st' := by
  have gen : ∀ k, ∀ st : St (World β), Runs L n f data st → todo n (mainProg n f) st ≤ k →
      ∃ st', Relation.ReflTransGen (Step L n (mainProg n f) (eff n data)) st st' ∧ Done n (mainProg n f) st' := by
    intro k
    induction k with
    | zero =>
      intro st h hk
      rcases run_progress hv h with hd | ⟨st', hs⟩
      · exact ⟨st, .refl, hd⟩
      · have := todo_step hs; omega
    | succ k ih =>
      intro st h hk
      rcases run_progress hv h with hd | ⟨st', hs⟩
      · exact ⟨st, .refl, hd⟩
      · have hlt := todo_step hs
        obtain ⟨st'', h1, h2⟩ := ih st' (h.tail hs) (by omega)
        exact ⟨st'', Relation.ReflTransGen.head hs h1, h2⟩
  exact gen _ st h le_rfl

/-- A rank reaches the end of the program only after every other rank has done all its work: then only the last barrier can be
    left to do. -/
theorem exit_together {st : St (World β)} (h : Runs L n f data st) {r s : Nat} (hr : r < n) (hs : s < n)
    (hd : (st.rk r).pc = (mainProg n f r).length) : (mainProg n f s).length ≤ (st.rk s).pc + 1 := by
  have hsplit : ∀ r, ∃ P, mainProg n f r = P ++ .coll .barrier :: [] := fun r =>
    ⟨beforeBuild n f r ++ [.coll .barrier] ++ middle f r ++ secScatter ++ secSde f r ++ secEliash f r ++ secOptics f r ++
      secMaxEnt n f r, by simp [mainProg, afterSde]⟩
  obtain ⟨P, hP⟩ := hsplit r
  obtain ⟨P', hP'⟩ := hsplit s
  have hk : (colls P).length = (colls P').length := by
    have e1 := congrArg (fun l => (colls l).length) hP
    have e2 := congrArg (fun l => (colls l).length) hP'
    simp only [colls_append, List.length_append, colls, List.length_cons, List.length_nil] at e1 e2
    rw [colls_main] at e1 e2
    omega
  have := happens_before h hr hs hP hP' hk trivial (by rw [hd, hP]; simp)
  rw [hP']
  simpa using this

/-- While rank 0 reads the rank files, all of them are complete and none has been deleted. -/
theorem reads_see_writes (hn : 0 < n) {st : St (World β)} (h : Runs L n f data st) {v : Vtx}
    (ha : (mainProg n f 0)[(st.rk 0).pc]? = some (.loc (.build v))) :
    ∀ s < n, ∃ l, st.w.files s = some l ∧ ∀ c, l.lookup (v, c) = some (data s v c) := by
  intro s hs
  obtain ⟨p1, p2, p3⟩ := build_position ha
  refine ⟨_, files_complete hn h (inv_reach hn h).file p1 p2 s hs, fun c => ?_⟩
  have h1 := loadRank_full (data s) f v p3
  simp only [loadRank] at h1
  split at h1
  · exact congrFun (Option.some.inj h1) c
  · simp at h1

/-- The result does not depend on the schedule: when all ranks have finished, each requested vertex was assembled from exactly
    what every rank computed, and the rank files are gone (or complete, if they are to be kept). -/
theorem run_result (hn : 0 < n) {st : St (World β)} (h : Runs L n f data st) (hd : Done n (mainProg n f) st) :
    (∀ v, f.wants v = true → st.w.vtx v = some fun s c => if s < n then some (data s v c) else none) ∧
      ∀ r < n, st.w.files r = if f.keepRank then some (full (data r) f) else none := by
  have hi := inv_reach hn h
  refine ⟨fun v hv => ?_, fun r hr => ?_⟩
  · apply hi.vtx
    rw [hd 0 hn, List.take_length]
    exact wants_build n f v hv
  · have := hi.file r hr
    rw [hd r hr, List.take_length, seqFile_main] at this
    exact (Option.some.inj this).symm

/-- Rank 0's folders and saved files at the end of a completed run do not depend on the schedule either. -/
theorem run_root_result (hn : 0 < n) {st st' : St (World β)} (h : Runs L n f data st) (hd : Done n (mainProg n f) st)
    (h' : Runs L n f data st') (hd' : Done n (mainProg n f) st') : st.w.root = st'.w.root := by
  have h1 := (inv_reach hn h).root
  have h2 := (inv_reach hn h').root
  rw [hd 0 hn, List.take_length] at h1
  rw [hd' 0 hn, List.take_length, h1] at h2
  exact Option.some.inj h2

/-! ### configurations with which the run hangs -/

/-- If the next action of rank 0 fails whenever it gets there, no schedule completes; the others are stuck at the latest at the
    last barrier. -/
theorem stuck_of_root {P Q : Prog} {a : Loc} (hn : 0 < n) (hP : mainProg n f 0 = P ++ .loc a :: Q)
    (hfail : ∀ s, seqRoot root0 P = some s → rootEff a s = none) {st : St (World β)} (h : Runs L n f data st) :
    (st.rk 0).pc ≤ P.length ∧ ∀ r < n, (st.rk r).pc < (mainProg n f r).length := by
  have key : ∀ st : St (World β), Runs L n f data st → (st.rk 0).pc ≤ P.length := by
    intro st h
    by_contra hc
    push Not at hc
    have hi := (inv_reach hn h).root
    have ht : (mainProg n f 0).take (st.rk 0).pc = P ++ .loc a :: Q.take ((st.rk 0).pc - P.length - 1) := by
      rw [hP, List.take_append, List.take_of_length_le hc.le]
      congr 1
      obtain ⟨k, hk⟩ : ∃ k, (st.rk 0).pc - P.length = k + 1 := ⟨(st.rk 0).pc - P.length - 1, by omega⟩
      rw [hk]; simp
    rw [ht, seqRoot_append] at hi
    cases h1 : seqRoot root0 P with
    | none => rw [h1] at hi; simp at hi
    | some s =>
      rw [h1] at hi
      simp [seqRoot, hfail s h1] at hi
  refine ⟨key st h, fun r hr => ?_⟩
  by_contra hc
  push Not at hc
  have hb := (ctl_reach h).bound r
  have hx := exit_together h hr hn (le_antisymm hb hc)
  have hk := key st h
  rw [hP] at hx
  simp only [List.length_append, List.length_cons] at hx
  have hQ : Q = [] := List.length_eq_zero_iff.mp (by omega)
  -- the program of rank 0 ends with a barrier
  have hlast : (mainProg n f 0).getLast? = some (.coll .barrier) := by
    unfold mainProg afterSde
    rw [← List.append_assoc, List.getLast?_append]
    rfl
  rw [hP, hQ] at hlast
  simp at hlast

/-- Fewer than ten bosonic frequencies in the core: the plot of the two-particle Green's function at index 10 asserts, rank 0
    raises, and the run hangs. -/
theorem few_frequencies_hang (hn : 0 < n) (hw : f.niw < 10) {st : St (World β)} (h : Runs L n f data st) :
    ∀ r < n, (st.rk r).pc < (mainProg n f r).length := by
  refine (stuck_of_root (P := secConf n f 0 ++ secLog 0 ++ [.coll .barrier, .loc (.needDir .out), .loc (.save .config),
      .loc (.needDir .plots)]) (a := .guard (decide (10 ≤ f.niw)))
      (Q := (if f.polyFit then onRoot 0 [.needDir .poly, .guard (decide (f.nz = 1))] else []) ++
        (if f.verbose then onRoot 0 [.needDir .plots, .needDir .out] else []) ++ secLadder f 0 ++ secLambda 0 ++
        [.coll .barrier] ++ middle f 0 ++ secScatter ++ afterSde n f 0) hn ?_ (fun s _ => ?_) h).2
  · simp [mainProg, beforeBuild, secLocal, onRoot]
  · simp [rootEff, hw]

/-- Polynomial fits on a k grid with several momenta along z: the figure of the fit needs a plane, rank 0 raises, and the run hangs. -/
theorem fits_on_3d_grid_hang (hn : 0 < n) (hp : f.polyFit = true) (hz : f.nz ≠ 1) {st : St (World β)} (h : Runs L n f data st) :
    ∀ r < n, (st.rk r).pc < (mainProg n f r).length := by
  refine (stuck_of_root (P := secConf n f 0 ++ secLog 0 ++ [.coll .barrier, .loc (.needDir .out), .loc (.save .config),
      .loc (.needDir .plots), .loc (.guard (decide (10 ≤ f.niw))), .loc (.needDir .poly)]) (a := .guard (decide (f.nz = 1)))
      (Q := (if f.verbose then onRoot 0 [.needDir .plots, .needDir .out] else []) ++ secLadder f 0 ++ secLambda 0 ++
        [.coll .barrier] ++ middle f 0 ++ secScatter ++ afterSde n f 0) hn ?_ (fun s _ => ?_) h).2
  · simp [mainProg, beforeBuild, secLocal, onRoot, hp]
  · simp [rootEff, hz]

/-- Fewer than four momenta along x or along y: the search of the Fermi surface gets fewer than two by two values, rank 0 raises, and the
    run hangs. -/
theorem small_grid_hangs (hn : 0 < n) (hx : f.nx < 4 ∨ f.ny < 4) {st : St (World β)} (h : Runs L n f data st) :
    ∀ r < n, (st.rk r).pc < (mainProg n f r).length := by
  refine (stuck_of_root (P := beforeBuild n f 0 ++ [.coll .barrier] ++ middle f 0 ++ secScatter ++ [.loc (.needDir .plots),
      .loc (.save .siwkDga)]) (a := .guard (decide (4 ≤ f.nx ∧ 4 ≤ f.ny)))
      (Q := .loc (.needDir .out) :: ((if f.keepRank then [] else [.loc .delFile]) ++ onRoot 0 [.needDir .out] ++
        (if f.polyFit then onRoot 0 [.needDir .poly, .guard (decide (f.nz = 1))] else []) ++ secEliash f 0 ++ secOptics f 0 ++
        secMaxEnt n f 0 ++ [.coll .barrier])) hn ?_ (fun s _ => ?_) h).2
  · simp [mainProg, afterSde, secSde, onRoot]
  · have : ¬ (4 ≤ f.nx ∧ 4 ≤ f.ny) := by omega
    simp only [rootEff, this, decide_false, Bool.false_eq_true, if_false]

/-- Eliashberg requested without the pairing vertex: F_sing_pp.npy does not exist, rank 0 raises, and the run hangs: no rank
    ever completes. -/
theorem eliash_without_pairing_hangs (hn : 0 < n) (he : f.eliash = true) (hp : f.pairing = false)
    {st : St (World β)} (h : Runs L n f data st) : ∀ r < n, (st.rk r).pc < (mainProg n f r).length := by
  have hsplit : mainProg n f 0 = (beforeBuild n f 0 ++ [.coll .barrier] ++ middle f 0 ++ secScatter ++ secSde f 0 ++
      [.loc (.needDir .eliash)]) ++ .loc (.load .fSing) :: ([.loc (.load .fTrip), .loc (.needDir .eliash)] ++
      (if f.keepPairing then [] else onRoot 0 [.clean .fSing, .clean .fTrip]) ++ secOptics f 0 ++ secMaxEnt n f 0 ++
      [.coll .barrier]) := by
    simp [mainProg, afterSde, secEliash, he, onRoot]
  by_cases hw : 10 ≤ f.niw
  case neg => exact few_frequencies_hang hn (by omega) h
  by_cases hg : 4 ≤ f.nx ∧ 4 ≤ f.ny
  case neg => exact small_grid_hangs hn (by omega) h
  by_cases hz : f.polyFit = true → f.nz = 1
  case neg => push Not at hz; exact fits_on_3d_grid_hang hn hz.1 hz.2 h
  refine (stuck_of_root hn hsplit (fun s hs => ?_) h).2
  by_cases hsz : n ≤ f.nkIrr
  · simp only [seqRoot_append, seqRoot_before n f hsz hw hz, Option.bind_some] at hs
    simp only [seqRoot, seqRoot_scatter, Option.bind_some] at hs
    rw [seqRoot_middle f _ (by simp)] at hs
    simp only [Option.bind_some, seqRoot_sde f _ hg.1 hg.2 hz] at hs
    have hd := mem_dirs f ([.dmftInput, .config, .chiDensLam, .chiMagnLam] ++ vObjs f ++ [.siwkDga])
    simp only [rootEff, hd.2.2.1, if_true, Option.bind_some, Option.some.injEq] at hs
    subst hs
    cases hv : f.vertex <;> simp [rootEff, rootN, vObjs, hp, hv]
  · exfalso
    have hg : ∀ l, seqRoot root0 (.coll (.bcast 0) :: .loc (.guard (decide (n ≤ f.nkIrr))) :: l) = none := by
      intro l; simp [seqRoot, rootEff, hsz]
    simp [beforeBuild, secConf, hg] at hs

/-- An optics section without the bubble: `chijj_bubble` is None when it is plotted, rank 0 raises, and the run hangs. -/
theorem optics_without_bubble_hangs (hn : 0 < n) (ho : f.opticsSec = true) (hb : f.bubble = false)
    {st : St (World β)} (h : Runs L n f data st) : ∀ r < n, (st.rk r).pc < (mainProg n f r).length := by
  have hsplit : mainProg n f 0 = (beforeBuild n f 0 ++ [.coll .barrier] ++ middle f 0 ++ secScatter ++ secSde f 0 ++
      secEliash f 0 ++ ([.loc (.needDir .optics)] ++ (if f.vertex then
      onRoot 0 [.load .fCond] ++ scatter ++ [.coll .allreduce] ++ onRoot 0 [.needDir .optics] else []))) ++
      .loc .needBubble :: ([.loc (.needDir .optics)] ++ (if f.opticsMe then onRoot 0 [.needDir .optics] ++
        (if f.keepFq then [] else onRoot 0 [.clean .fCond]) else []) ++ secMaxEnt n f 0 ++ [.coll .barrier]) := by
    simp [mainProg, afterSde, secOptics, ho, hb, onRoot]
  refine (stuck_of_root hn hsplit (fun s hs => ?_) h).2
  -- nothing before assigns chijj_bubble
  have gen : ∀ l : Prog, Act.loc Loc.bubble ∉ l → ∀ s s', seqRoot s l = some s' → s'.bub = s.bub := by
    intro l
    induction l with
    | nil => intro _ s s' h; simp [seqRoot] at h; rw [h]
    | cons x l ih =>
      intro hx s s' h
      cases x with
      | coll c => exact ih (fun hm => hx (List.mem_cons_of_mem _ hm)) s s' (by simpa [seqRoot] using h)
      | loc a =>
        simp only [seqRoot, Option.bind_eq_some_iff] at h
        obtain ⟨s1, e1, e2⟩ := h
        rw [ih (fun hm => hx (List.mem_cons_of_mem _ hm)) s1 s' e2]
        have hne : a ≠ .bubble := fun e => hx (by rw [e]; exact List.mem_cons_self)
        cases a <;> simp [rootEff] at e1 hne ⊢ <;> grind
  have := gen _ ?_ root0 s hs
  · simp [rootEff, this, root0]
  · have hA : allLoc (fun a => !decide (a = Loc.bubble)) (beforeBuild n f 0 ++ [.coll .barrier] ++ middle f 0 ++ secScatter ++
        secSde f 0 ++ secEliash f 0 ++ ([.loc (.needDir .optics)] ++ (if f.vertex then
        onRoot 0 [.load .fCond] ++ scatter ++ [.coll .allreduce] ++ onRoot 0 [.needDir .optics] else []))) = true := by
      have h1 : allLoc (fun a => !decide (a = Loc.bubble)) (beforeBuild n f 0) = true := by
        cases h1 : f.polyFit <;> cases h2 : f.verbose <;> cases h3 : f.saveVrg <;> cases h4 : f.pairing <;>
          cases h5 : f.vertex <;> cases h6 : f.saveFq <;>
          simp [beforeBuild, secConf, folders, setOut, secLog, secLocal, secLadder, secLambda, ladder, onRoot, allLoc,
            h1, h2, h3, h4, h5, h6]
      have h2 : allLoc (fun a => !decide (a = Loc.bubble)) (middle f 0) = true := by
        cases h4 : f.pairing <;> cases h5 : f.vertex <;> cases h6 : f.saveFq <;>
          simp [middle, secBuild, onRoot, allLoc, h4, h5, h6]
      have h3 : allLoc (fun a => !decide (a = Loc.bubble)) secScatter = true := by rfl
      have e1 : allLoc (fun a => !decide (a = Loc.bubble)) (secSde f 0) = true := by
        cases h : f.keepRank <;> cases h2 : f.polyFit <;> simp [secSde, onRoot, allLoc, h, h2]
      have e2 : allLoc (fun a => !decide (a = Loc.bubble)) (secEliash f 0) = true := by
        cases h : f.eliash <;> cases h2 : f.keepPairing <;> simp [secEliash, onRoot, allLoc, h, h2]
      simp only [allLoc_append, h1, h2, h3, e1, e2]
      cases f.vertex <;> simp [allLoc, scatter, onRoot]
    intro hm
    simpa using (allLoc_mem _ _).mp hA _ hm

/-- Continuation of the self-energy when the two momentum grids have different numbers of irreducible points: the distributor
    counts q-points, the data are k-points, rank 0 raises in the scatter (too few rows) or in the mapping back to the full zone
    (too few results), and the run hangs. -/
theorem continuation_grid_mismatch_hangs (hn : 0 < n) {m : MeFlags} (hm : f.maxEnt = some m) (hs : m.sDga = some true)
    (hne : f.nkIrr ≠ f.nqIrr) {st : St (World β)} (h : Runs L n f data st) :
    ∀ r < n, (st.rk r).pc < (mainProg n f r).length := by
  let A : Prog := beforeBuild n f 0 ++ [.coll .barrier] ++ middle f 0 ++ secScatter ++ secSde f 0 ++ secEliash f 0 ++
    secOptics f 0 ++ (onRoot 0 [.load .config] ++ [.coll (.bcast 0), .loc (.guard (decide (n ≤ f.nkIrr)))] ++
      onRoot 0 [.needDir .out] ++
      [.loc (.load .dmftInput)] ++ (if m.loc then onRoot 0 [.mkdir .meLoc, .needDir .meLoc] else []) ++
      onRoot 0 [.load .siwkDga] ++ [.coll .barrier] ++ (if m.loc then onRoot 0 [.needDir .meLoc] else []))
  let B : Prog := secCont m.gDga 0 .meGiwk [.guard (decide (f.nqIrr ≤ f.nkIrr))] [.guard (decide (f.nkIrr ≤ f.nqIrr))] ++
      secCont m.chiD 0 .meDens [.load .chiDensLam] [] ++ secCont m.chiM 0 .meMagn [.load .chiMagnLam] [] ++ [.coll .barrier]
  have hsplit : mainProg n f 0 = A ++ [.loc (.mkdir .meSiwk), .loc (.guard (decide (f.nqIrr ≤ f.nkIrr)))] ++ scatter ++
      [.coll (.gatherv 0), .loc (.guard (decide (f.nkIrr ≤ f.nqIrr))), .loc (.needDir .meSiwk)] ++ B := by
    simp [A, B, mainProg, afterSde, secMaxEnt, hm, secCont, hs, onRoot]
  rcases Nat.lt_or_gt_of_ne hne with hlt | hlt
  · refine (stuck_of_root (P := A ++ [.loc (.mkdir .meSiwk)]) (a := .guard (decide (f.nqIrr ≤ f.nkIrr)))
      (Q := scatter ++ [.coll (.gatherv 0), .loc (.guard (decide (f.nkIrr ≤ f.nqIrr))), .loc (.needDir .meSiwk)] ++ B)
      hn (by rw [hsplit]; simp) (fun s _ => ?_) h).2
    simp [rootEff, hlt]
  · refine (stuck_of_root (P := A ++ [.loc (.mkdir .meSiwk), .loc (.guard (decide (f.nqIrr ≤ f.nkIrr)))] ++ scatter ++
      [.coll (.gatherv 0)]) (a := .guard (decide (f.nkIrr ≤ f.nqIrr))) (Q := [.loc (.needDir .meSiwk)] ++ B)
      hn (by rw [hsplit]; simp) (fun s _ => ?_) h).2
    simp [rootEff, hlt]

/-! ### non-vacuity -/

/-- an MPI library with the synchronisation of the standard -/
def stdLib : Lib := ⟨mustWait, fun _ _ _ h => h⟩

/-- every optional part switched on, equal grids with 15 irreducible points -/
def flagsAll : Flags where
  polyFit := true
  verbose := true
  pairing := true
  vertex := true
  saveFq := true
  saveVrg := true
  keepRank := false
  eliash := true
  keepPairing := false
  bubble := true
  opticsSec := true
  opticsMe := true
  keepFq := false
  maxEnt := some ⟨true, some true, some true, some true, some false⟩
  nkIrr := 15
  nqIrr := 15
  niw := 20
  nx := 8
  ny := 8
  nz := 1

example : Valid 4 flagsAll := by
  refine ⟨by decide, by decide, fun _ => rfl, fun _ => rfl, fun m _ _ => rfl, by decide, by decide, by decide, fun _ => rfl⟩

example : (colls (mainProg 4 flagsAll 3)).length = 51 := by decide +kernel

/-- a run that ends with the three vertices assembled from the data of all ranks exists -/
example : ∃ st : St (World Nat), Runs stdLib 4 flagsAll (fun r _ _ => r) st ∧ Done 4 (mainProg 4 flagsAll) st ∧
    ∀ v, st.w.vtx v = some fun s _ => if s < 4 then some s else none := by
  have hv : Valid 4 flagsAll := ⟨by decide, by decide, fun _ => rfl, fun _ => rfl, fun m _ _ => rfl, by decide, by decide, by decide, fun _ => rfl⟩
  obtain ⟨st, h1, h2⟩ := run_completes hv (L := stdLib) (data := fun r _ _ => r) (st := start (world0 Nat)) .refl
  exact ⟨st, h1, h2, fun v => (run_result hv.pos h1 h2).1 v (by cases v <;> rfl)⟩

/-- the hypotheses of the three negative theorems are met by realistic configurations -/
example : ({ flagsAll with pairing := false } : Flags).eliash = true ∧ ({ flagsAll with pairing := false } : Flags).pairing = false :=
  ⟨rfl, rfl⟩

example : ∀ st : St (World Nat), Runs stdLib 2 { flagsAll with nqIrr := 6 } (fun r _ _ => r) st →
    ¬ Done 2 (mainProg 2 { flagsAll with nqIrr := 6 }) st := fun st h hd => by
  have := continuation_grid_mismatch_hangs (f := { flagsAll with nqIrr := 6 }) (by decide) rfl rfl (by decide) h 0 (by decide)
  exact absurd (hd 0 (by decide)) this.ne

/-- a core with five bosonic frequencies: the run with two processes never completes -/
example : ∀ st : St (World Nat), Runs stdLib 2 { flagsAll with niw := 5 } (fun r _ _ => r) st →
    ¬ Done 2 (mainProg 2 { flagsAll with niw := 5 }) st := fun st h hd => by
  have := few_frequencies_hang (f := { flagsAll with niw := 5 }) (by decide) (by decide) h 0 (by decide)
  exact absurd (hd 0 (by decide)) this.ne

/-- a grid of two by eight momenta, and fits on a cube -/
example : ∀ st : St (World Nat), Runs stdLib 2 { flagsAll with nx := 2 } (fun r _ _ => r) st →
    ¬ Done 2 (mainProg 2 { flagsAll with nx := 2 }) st := fun st h hd => by
  have := small_grid_hangs (f := { flagsAll with nx := 2 }) (by decide) (.inl (by decide)) h 0 (by decide)
  exact absurd (hd 0 (by decide)) this.ne

example : ∀ st : St (World Nat), Runs stdLib 2 { flagsAll with nz := 8 } (fun r _ _ => r) st →
    ¬ Done 2 (mainProg 2 { flagsAll with nz := 8 }) st := fun st h hd => by
  have := fits_on_3d_grid_hang (f := { flagsAll with nz := 8 }) (by decide) rfl (by decide) h 0 (by decide)
  exact absurd (hd 0 (by decide)) this.ne

end DGA.Spmd
