/-
  The DGA run under every schedule: no deadlock, no failing access to folders and rank files, schedule independent result.
-/
import Verif.Spmd.Inv

namespace DGA.Spmd

variable {β : Type}

theorem eff_some {n : Nat} {data : Nat → Vtx → Ch → β} {r : Nat} {a : Loc} {w w' : World β} (h : eff n data r a w = some w') :
    rootEff a w.root = some w'.root ∧ fileEff (data r) a (w.files r) = some (w'.files r) ∧
      (∀ s, s ≠ r → w'.files s = w.files s) ∧
      ∀ v, (a = .build v → loadAll n v w.files = w'.vtx v) ∧ (a ≠ .build v → w'.vtx v = w.vtx v) := by
  unfold eff at h
  cases h1 : rootEff a w.root with
  | none => rw [h1] at h; simp at h
  | some root' =>
    cases h2 : fileEff (data r) a (w.files r) with
    | none => rw [h1, h2] at h; simp at h
    | some f' =>
      rw [h1, h2] at h
      simp only [Option.bind_some] at h
      by_cases hb : ∃ v, a = .build v
      · obtain ⟨v, rfl⟩ := hb
        simp only [Option.map_eq_some_iff] at h
        obtain ⟨g, hg, rfl⟩ := h
        refine ⟨rfl, by simp, fun s hs => by simp [hs], fun u => ⟨fun e => ?_, fun e => ?_⟩⟩
        · obtain rfl := Loc.build.inj e; simp [hg]
        · have : u ≠ v := fun e' => e (by rw [e'])
          simp [this]
      · push Not at hb
        have : some w' = some { root := root', files := fun s => if s = r then f' else w.files s, vtx := w.vtx } := by
          rw [← h]
          cases a <;> first | rfl | exact absurd rfl (hb _)
        obtain rfl := Option.some.inj this
        exact ⟨rfl, by simp, fun s hs => by simp [hs], fun u => ⟨fun e => absurd e (hb u), fun _ => rfl⟩⟩

theorem eff_of {n : Nat} {data : Nat → Vtx → Ch → β} {r : Nat} {a : Loc} {w : World β} {s' : RootSt} {f' : Option (RFile β)}
    (h1 : rootEff a w.root = some s') (h2 : fileEff (data r) a (w.files r) = some f')
    (h3 : ∀ v, a = .build v → ∃ g, loadAll n v w.files = some g) : ∃ w', eff n data r a w = some w' := by
  unfold eff
  rw [h1, h2]
  simp only [Option.bind_some]
  cases a
  case build v =>
    obtain ⟨g, hg⟩ := h3 v rfl
    simp only [hg, Option.map_some]; exact ⟨_, rfl⟩
  all_goals exact ⟨_, rfl⟩

/-- What every reachable state satisfies. -/
structure Inv (n : Nat) (f : Flags) (data : Nat → Vtx → Ch → β) (st : St (World β)) : Prop where
  root : seqRoot root0 ((mainProg n f 0).take (st.rk 0).pc) = some st.w.root
  file : ∀ r < n, seqFile (data r) none ((mainProg n f r).take (st.rk r).pc) = some (st.w.files r)
  vtx : ∀ v, Act.loc (Loc.build v) ∈ (mainProg n f 0).take (st.rk 0).pc →
    st.w.vtx v = some fun s c => if s < n then some (data s v c) else none

variable {L : Lib} {n : Nat} {f : Flags} {data : Nat → Vtx → Ch → β}

theorem prog_split1 (n : Nat) (f : Flags) (r : Nat) :
    mainProg n f r = beforeBuild n f r ++ .coll .barrier :: (middle f r ++ secScatter ++ afterSde n f r) := by
  simp [mainProg]

theorem prog_split2 (n : Nat) (f : Flags) (r : Nat) : ∃ Q,
    mainProg n f r = (beforeBuild n f r ++ [.coll .barrier] ++ middle f r) ++ .coll .barrier :: Q := by
  exact ⟨scatter ++ scatter ++ scatter ++ scatter ++ [.coll (.gatherv 0)] ++ scatter ++ [.coll .allreduce] ++ afterSde n f r,
    by simp [mainProg, secScatter]⟩

theorem allLoc_take (p : Loc → Bool) (l : Prog) (k : Nat) (h : allLoc p l = true) : allLoc p (l.take k) = true := by
  rw [allLoc_mem] at *
  exact fun a ha => h a (List.mem_of_mem_take ha)

/-- While rank 0 assembles the vertices, the rank file of every rank is complete and has not been deleted. -/
theorem files_complete (hn : 0 < n) {st : St (World β)} (h : Reach L n (mainProg n f) (eff n data) (world0 β) st)
    (hfile : ∀ r < n, seqFile (data r) none ((mainProg n f r).take (st.rk r).pc) = some (st.w.files r))
    (h1 : (beforeBuild n f 0).length < (st.rk 0).pc)
    (h2 : (st.rk 0).pc < (beforeBuild n f 0).length + ([.coll .barrier] ++ middle f 0 : Prog).length) :
    ∀ s < n, st.w.files s = some (full (data s) f) := by
  intro s hs
  have hk1 : (colls (beforeBuild n f 0)).length = (colls (beforeBuild n f s)).length := by rw [colls_before n f s]
  have lo : (beforeBuild n f s).length ≤ (st.rk s).pc :=
    happens_before h hn hs (prog_split1 n f 0) (prog_split1 n f s) hk1 trivial h1
  have hi : (st.rk s).pc ≤ (beforeBuild n f s ++ [.coll .barrier] ++ middle f s : Prog).length := by
    by_contra hc
    push Not at hc
    obtain ⟨Q, hQ⟩ := prog_split2 n f s
    obtain ⟨Q', hQ'⟩ := prog_split2 n f 0
    have := happens_before h hs hn hQ hQ' (by
      simp only [colls_append, colls_before n f s, colls_middle f s]) trivial hc
    simp only [List.length_append] at this h2
    omega
  have ht : (mainProg n f s).take (st.rk s).pc =
      beforeBuild n f s ++ ([.coll .barrier] ++ middle f s : Prog).take ((st.rk s).pc - (beforeBuild n f s).length) := by
    obtain ⟨Q, hQ⟩ := prog_split2 n f s
    rw [hQ, List.take_append_of_le_length hi, List.append_assoc, List.take_append, List.take_of_length_le lo]
  have := hfile s hs
  rw [ht, seqFile_append, seqFile_before, Option.bind_some,
    seqFile_idle _ _ (allLoc_take _ _ _ (idle_middle f s))] at this
  exact (Option.some.inj this).symm

theorem loadAll_complete {v : Vtx} (hv : f.wants v = true) {files : Nat → Option (RFile β)}
    (h : ∀ s < n, files s = some (full (data s) f)) :
    loadAll n v files = some fun s c => if s < n then some (data s v c) else none := by
  have h' : ∀ s < n, loadRank v (files s) = some fun c => some (data s v c) := fun s hs => by
    rw [h s hs]; exact loadRank_full (data s) f v hv
  unfold loadAll
  rw [if_pos (fun s hs => by rw [h' s hs]; rfl)]
  congr 1
  funext s c
  by_cases hs : s < n
  · simp [hs, h' s hs]
  · simp [hs]

theorem build_position {st : St (World β)} {v : Vtx} (ha : (mainProg n f 0)[(st.rk 0).pc]? = some (.loc (.build v))) :
    (beforeBuild n f 0).length < (st.rk 0).pc ∧
      (st.rk 0).pc < (beforeBuild n f 0).length + ([.coll .barrier] ++ middle f 0 : Prog).length ∧ f.wants v = true := by
  have hs : mainProg n f 0 = beforeBuild n f 0 ++ ([.coll .barrier] ++ middle f 0) ++ (secScatter ++ afterSde n f 0) := by
    simp [mainProg]
  have ha' := ha
  rw [hs] at ha
  obtain ⟨h1, h2, h3⟩ := getElem?_mid ha (build_not_before n f v) (build_not_after n f v)
  refine ⟨lt_of_le_of_ne h1 fun e => ?_, h2, build_wants f v 0 h3⟩
  rw [prog_split1, ← e] at ha'
  simp at ha'

theorem inv_reach (hn : 0 < n) {st : St (World β)} (h : Reach L n (mainProg n f) (eff n data) (world0 β) st) :
    Inv n f data st := by
  induction h with
  | refl => exact ⟨by simp [start, seqRoot, world0, root0], fun r _ => by simp [start, seqFile, world0], by simp [start]⟩
  | tail hreach hstep ih =>
    rename_i st st'
    have stay : ∀ r c, (mainProg n f r)[(st.rk r).pc]? = some (.coll c) →
        (mainProg n f r).take ((st.rk r).pc + 1) = (mainProg n f r).take (st.rk r).pc ++ [.coll c] := fun r c h =>
      take_succ_of_getElem? h
    cases hstep with
    | enter r c hr hi ha =>
      have e : ∀ s, (setRk st.rk r ⟨(st.rk r).pc, true⟩ s).pc = (st.rk s).pc := by
        intro s; by_cases hs : s = r
        · subst hs; simp [setRk_same]
        · simp [setRk_other _ _ hs]
      exact ⟨by simp only [e]; exact ih.root, by simp only [e]; exact ih.file, by simp only [e]; exact ih.vtx⟩
    | leave r c hr hi ha hw =>
      have e : ∀ s, (setRk st.rk r ⟨(st.rk r).pc + 1, false⟩ s).pc = if s = r then (st.rk r).pc + 1 else (st.rk s).pc := by
        intro s; by_cases hs : s = r
        · subst hs; simp [setRk_same]
        · simp [setRk_other _ _ hs, hs]
      refine ⟨?_, fun s hs => ?_, fun v hv => ?_⟩
      · simp only [e]
        split
        · rename_i h0
          subst h0
          rw [stay _ _ ha, seqRoot_append, ih.root]; rfl
        · exact ih.root
      · simp only [e]
        split
        · rename_i h0
          subst h0
          rw [stay _ _ ha, seqFile_append, ih.file _ hs]; rfl
        · exact ih.file s hs
      · simp only [e] at hv
        split at hv
        · rename_i h0
          subst h0
          rw [stay _ _ ha] at hv
          exact ih.vtx v (by simpa using hv)
        · exact ih.vtx v hv
    | loc r a w' hr hi ha he =>
      obtain ⟨g1, g2, g3, g4⟩ := eff_some he
      have e : ∀ s, (setRk st.rk r ⟨(st.rk r).pc + 1, false⟩ s).pc = if s = r then (st.rk r).pc + 1 else (st.rk s).pc := by
        intro s; by_cases hs : s = r
        · subst hs; simp [setRk_same]
        · simp [setRk_other _ _ hs, hs]
      have ht := take_succ_of_getElem? ha
      refine ⟨?_, fun s hs => ?_, fun v hv => ?_⟩
      · simp only [e]
        split
        · rename_i h0
          subst h0
          rw [ht, seqRoot_append, ih.root]; simp [seqRoot, g1]
        · rename_i h0
          have hw := (allLoc_mem _ _).mp (main_worker n f (Ne.symm h0)) a (List.mem_of_getElem? ha)
          have : passive a = true := by cases a <;> simp_all [worker, passive]
          rw [rootEff_passive this g1]; exact ih.root
      · simp only [e]
        split
        · rename_i h0
          subst h0
          rw [ht, seqFile_append, ih.file _ hs]; simp [seqFile, g2]
        · rename_i h0
          rw [g3 s h0]; exact ih.file s hs
      · simp only [e] at hv
        by_cases hb : a = .build v
        · subst hb
          have h0 : r = 0 := by
            by_contra h0
            have hw := (allLoc_mem _ _).mp (main_worker n f h0) _ (List.mem_of_getElem? ha)
            simp [worker] at hw
          subst h0
          obtain ⟨p1, p2, p3⟩ := build_position ha
          rw [← (g4 v).1 rfl]
          exact loadAll_complete p3 (files_complete hn hreach ih.file p1 p2)
        · show w'.vtx v = _
          rw [(g4 v).2 hb]
          apply ih.vtx v
          split at hv
          · rename_i h0
            subst h0
            rw [ht] at hv
            rcases List.mem_append.mp hv with hv | hv
            · exact hv
            · simp only [List.mem_singleton, Act.loc.injEq] at hv
              exact absurd hv.symm hb
          · exact hv

/-! ### no local action fails -/

theorem seqRoot_prefix {s0 s : RootSt} {l : Prog} (h : seqRoot s0 l = some s) {i : Nat} {a : Loc} (ha : l[i]? = some (.loc a))
    {s1 : RootSt} (h1 : seqRoot s0 (l.take i) = some s1) : ∃ s2, rootEff a s1 = some s2 := by
  have hl : l = l.take (i + 1) ++ l.drop (i + 1) := (List.take_append_drop _ _).symm
  rw [hl, take_succ_of_getElem? ha, seqRoot_append, seqRoot_append, h1] at h
  simp only [Option.bind_some, seqRoot] at h
  cases h2 : rootEff a s1 with
  | none => rw [h2] at h; simp at h
  | some s2 => exact ⟨s2, rfl⟩

theorem seqFile_prefix {d : Vtx → Ch → β} {g0 g : Option (RFile β)} {l : Prog} (h : seqFile d g0 l = some g) {i : Nat} {a : Loc}
    (ha : l[i]? = some (.loc a)) {g1 : Option (RFile β)} (h1 : seqFile d g0 (l.take i) = some g1) :
    ∃ g2, fileEff d a g1 = some g2 := by
  have hl : l = l.take (i + 1) ++ l.drop (i + 1) := (List.take_append_drop _ _).symm
  rw [hl, take_succ_of_getElem? ha, seqFile_append, seqFile_append, h1] at h
  simp only [Option.bind_some, seqFile] at h
  cases h2 : fileEff d a g1 with
  | none => rw [h2] at h; simp at h
  | some s2 => exact ⟨s2, rfl⟩

/-- folders are never removed -/
theorem seqRoot_dirs {s s' : RootSt} {l : Prog} (h : seqRoot s l = some s') {d : Dir} (hd : d ∈ s.dirs) : d ∈ s'.dirs := by
  induction l generalizing s with
  | nil => simp [seqRoot] at h; rw [← h]; exact hd
  | cons a l ih =>
    cases a with
    | coll c => exact ih (by simpa [seqRoot] using h) hd
    | loc a =>
      simp only [seqRoot, Option.bind_eq_some_iff] at h
      obtain ⟨s1, e1, e2⟩ := h
      refine ih e2 ?_
      cases a <;> simp [rootEff] at e1 <;> grind

/-- an object stays saved unless it is cleaned -/
theorem seqRoot_npy {s s' : RootSt} {l : Prog} (h : seqRoot s l = some s') {o : Obj} (ho : o ∈ s.npy)
    (hc : Act.loc (Loc.clean o) ∉ l) : o ∈ s'.npy := by
  induction l generalizing s with
  | nil => simp [seqRoot] at h; rw [← h]; exact ho
  | cons a l ih =>
    cases a with
    | coll c => exact ih (by simpa [seqRoot] using h) ho (fun h => hc (List.mem_cons_of_mem _ h))
    | loc a =>
      simp only [seqRoot, Option.bind_eq_some_iff] at h
      obtain ⟨s1, e1, e2⟩ := h
      refine ih e2 ?_ (fun h => hc (List.mem_cons_of_mem _ h))
      cases a <;> simp [rootEff] at e1 <;> grind

/-- the only objects cleaned are the vertices -/
theorem clean_only (n : Nat) (f : Flags) : Act.loc (Loc.clean .dmftInput) ∉ mainProg n f 0 := by
  have : allLoc (fun a => !decide (a = Loc.clean .dmftInput)) (mainProg n f 0) = true := by
    have h1 : allLoc (fun a => !decide (a = Loc.clean .dmftInput)) (beforeBuild n f 0) = true := by
      cases h1 : f.polyFit <;> cases h2 : f.verbose <;> cases h3 : f.saveVrg <;> cases h4 : f.pairing <;>
        cases h5 : f.vertex <;> cases h6 : f.saveFq <;>
        simp [beforeBuild, secConf, folders, setOut, secLog, secLocal, secLadder, secLambda, ladder, onRoot, allLoc,
          h1, h2, h3, h4, h5, h6]
    have h2 : allLoc (fun a => !decide (a = Loc.clean .dmftInput)) (middle f 0) = true := by
      cases h4 : f.pairing <;> cases h5 : f.vertex <;> cases h6 : f.saveFq <;>
        simp [middle, secBuild, onRoot, allLoc, h4, h5, h6]
    have h3 : allLoc (fun a => !decide (a = Loc.clean .dmftInput)) secScatter = true := by rfl
    have e1 : allLoc (fun a => !decide (a = Loc.clean .dmftInput)) (secSde f 0) = true := by
      cases h : f.keepRank <;> cases h2 : f.polyFit <;> simp [secSde, onRoot, allLoc, h, h2]
    have e2 : allLoc (fun a => !decide (a = Loc.clean .dmftInput)) (secEliash f 0) = true := by
      cases h : f.eliash <;> cases h2 : f.keepPairing <;> simp [secEliash, onRoot, allLoc, h, h2]
    have e3 : allLoc (fun a => !decide (a = Loc.clean .dmftInput)) (secOptics f 0) = true := by
      cases h1 : f.opticsSec <;> cases h2 : f.bubble <;> cases h3 : f.vertex <;> cases h4 : f.opticsMe <;>
        cases h5 : f.keepFq <;> simp [secOptics, onRoot, allLoc, scatter, h1, h2, h3, h4, h5]
    have e4 : allLoc (fun a => !decide (a = Loc.clean .dmftInput)) (secMaxEnt n f 0) = true := by
      have ec : ∀ o d pre post, (pre.all fun a => !decide (a = Loc.clean .dmftInput)) = true →
          (post.all fun a => !decide (a = Loc.clean .dmftInput)) = true →
          allLoc (fun a => !decide (a = Loc.clean .dmftInput)) (secCont o 0 d pre post) = true := by
        intro o d pre post h1 h2
        match o with
        | none => rfl
        | some false => exact allLoc_onRoot _ _ _ (by simp)
        | some true =>
          simp only [secCont, allLoc_append]
          rw [allLoc_onRoot _ _ [Loc.mkdir d] (by simp), allLoc_onRoot _ _ _ h1,
            allLoc_onRoot _ _ _ (by rw [List.all_append, h2]; simp)]
          rfl
      cases hm : f.maxEnt with
      | none => simp [secMaxEnt, hm, allLoc]
      | some m =>
        have c1 := ec m.sDga .meSiwk [.guard (decide (f.nqIrr ≤ f.nkIrr))] [.guard (decide (f.nkIrr ≤ f.nqIrr))] (by simp) (by simp)
        have c2 := ec m.gDga .meGiwk [.guard (decide (f.nqIrr ≤ f.nkIrr))] [.guard (decide (f.nkIrr ≤ f.nqIrr))] (by simp) (by simp)
        have c3 := ec m.chiD .meDens [.load .chiDensLam] [] (by simp) (by simp)
        have c4 := ec m.chiM .meMagn [.load .chiMagnLam] [] (by simp) (by simp)
        cases hl : m.loc <;>
          (simp only [secMaxEnt, hm, allLoc_append, c1, c2, c3, c4, hl]; simp [onRoot, allLoc])
    simp [mainProg, afterSde, allLoc_append, h1, h2, h3, e1, e2, e3, e4, allLoc]
  rw [allLoc_mem] at this
  intro h
  simpa using this _ h

/-- In every reachable state the next local action of every rank succeeds. -/
theorem next_succeeds (hv : Valid n f) {st : St (World β)} (h : Reach L n (mainProg n f) (eff n data) (world0 β) st)
    {r : Nat} (hr : r < n) {a : Loc} (ha : (mainProg n f r)[(st.rk r).pc]? = some (.loc a)) :
    ∃ w', eff n data r a st.w = some w' := by
  have hi := inv_reach hv.pos h
  obtain ⟨g2, e2⟩ := seqFile_prefix (seqFile_main (data r) n f r) ha (hi.file r hr)
  by_cases h0 : r = 0
  · subst h0
    obtain ⟨sF, hF⟩ := seqRoot_main n f hv
    obtain ⟨s2, e1⟩ := seqRoot_prefix hF ha hi.root
    refine eff_of e1 e2 fun v hb => ?_
    subst hb
    obtain ⟨p1, p2, p3⟩ := build_position ha
    exact ⟨_, loadAll_complete p3 (files_complete hv.pos h hi.file p1 p2)⟩
  · have hw := (allLoc_mem _ _).mp (main_worker n f h0) a (List.mem_of_getElem? ha)
    have hnb : ∀ v, a = .build v → ∃ g, loadAll n v st.w.files = some g := by
      rintro v rfl; simp [worker] at hw
    -- rank 0 has created the output folder and saved the DMFT input before any worker needs them
    have pos1 : (∀ b, a ≠ .guard b) → Dir.out ∈ st.w.root.dirs := by
      intro hng
      have hsplit : ∀ r, ∃ Q, mainProg n f r = secConf n f r ++ .coll .barrier :: Q := fun r =>
        ⟨onRoot r [.save .dmftInput] ++ [.loc (.needDir .out)] ++ secLocal f r ++ secLadder f r ++ secLambda r ++
          [.coll .barrier] ++ middle f r ++ secScatter ++ afterSde n f r, by simp [mainProg, beforeBuild, secLog]⟩
      obtain ⟨Q, hQ⟩ := hsplit r
      obtain ⟨Q0, hQ0⟩ := hsplit 0
      have hge : (secConf n f r).length < (st.rk r).pc := by
        have hni : Act.loc a ∉ secConf n f r ++ [.coll .barrier] := by
          intro hm
          have hm' : Act.loc a ∈ secConf n f r := by simpa using hm
          have := (allLoc_mem _ _).mp (conf_worker n f h0) a hm'
          cases a <;> simp_all
        have := getElem?_ge (P := secConf n f r ++ [.coll .barrier]) (Q := Q) (by simpa [← hQ] using ha) hni
        simp at this
        omega
      have hk : (colls (secConf n f r)).length = (colls (secConf n f 0)).length := by
        cases h1 : f.polyFit <;> simp [secConf, folders, setOut, colls_append, colls, colls_onRoot, h1]
      have hb := happens_before h hr hv.pos hQ hQ0 hk trivial hge
      have htake : (mainProg n f 0).take (st.rk 0).pc =
          secConf n f 0 ++ (.coll .barrier :: Q0).take ((st.rk 0).pc - (secConf n f 0).length) := by
        rw [hQ0, List.take_append, List.take_of_length_le hb]
      have hroot := hi.root
      rw [htake, seqRoot_append, seqRoot_conf n f hv.size] at hroot
      exact seqRoot_dirs hroot (by simp [rootA])
    have pos2 : a = .load .dmftInput → Obj.dmftInput ∈ st.w.root.npy := by
      rintro rfl
      have hsplit : ∀ r, ∃ Q, mainProg n f r = (secConf n f r ++ secLog r) ++ .coll .barrier :: Q := fun r =>
        ⟨(onRoot r [.needDir .out, .save .config, .needDir .plots, .guard (decide (10 ≤ f.niw))] ++ (if f.polyFit then onRoot r [.needDir .poly, .guard (decide (f.nz = 1))] else []) ++
            (if f.verbose then onRoot r [.needDir .plots, .needDir .out] else [])) ++ secLadder f r ++ secLambda r ++
          [.coll .barrier] ++ middle f r ++ secScatter ++ afterSde n f r, by simp [mainProg, beforeBuild, secLocal]⟩
      obtain ⟨Q, hQ⟩ := hsplit r
      obtain ⟨Q0, hQ0⟩ := hsplit 0
      have hge : (secConf n f r ++ secLog r).length < (st.rk r).pc := by
        have hni : Act.loc (Loc.load .dmftInput) ∉ (secConf n f r ++ secLog r) ++ [.coll .barrier] := by
          intro hm
          have hm' : Act.loc (Loc.load .dmftInput) ∈ secConf n f r ++ secLog r := by simpa using hm
          have hc := (allLoc_mem _ _).mp (conf_worker n f h0) (Loc.load .dmftInput)
          rcases List.mem_append.mp hm' with hm' | hm'
          · simpa using hc hm'
          · simp [secLog, onRoot_worker h0] at hm'
        have := getElem?_ge (P := (secConf n f r ++ secLog r) ++ [.coll .barrier]) (Q := Q)
          (by rw [hQ] at ha; simpa using ha) hni
        simp at this ⊢
        omega
      have hk : (colls (secConf n f r ++ secLog r)).length = (colls (secConf n f 0 ++ secLog 0)).length := by
        cases h1 : f.polyFit <;> simp [secConf, folders, secLog, setOut, colls_append, colls, colls_onRoot, h1]
      have hb := happens_before h hr hv.pos hQ hQ0 hk trivial hge
      have htake : (mainProg n f 0).take (st.rk 0).pc =
          (secConf n f 0 ++ secLog 0) ++ (.coll .barrier :: Q0).take ((st.rk 0).pc - (secConf n f 0 ++ secLog 0).length) := by
        rw [hQ0, List.take_append, List.take_of_length_le hb]
      have hroot := hi.root
      have hlog : seqRoot (rootA f) (secLog 0) = some (rootN f [.dmftInput]) := by
        simp [secLog, onRoot, seqRoot, rootEff, dirOf, rootA, rootN]
      rw [htake, seqRoot_append, seqRoot_append, seqRoot_conf n f hv.size, Option.bind_some, hlog] at hroot
      refine seqRoot_npy hroot (by simp [rootN]) fun hm => ?_
      have : Act.loc (Loc.clean .dmftInput) ∈ mainProg n f 0 := by
        rw [hQ0]; exact List.mem_append_right _ (List.mem_of_mem_take hm)
      exact clean_only n f this
    have hs : ∃ s2, rootEff a st.w.root = some s2 := by
      cases a with
      | guard b =>
        simp only [worker, beq_iff_eq] at hw
        subst hw
        exact ⟨_, by simp [rootEff, hv.size]; rfl⟩
      | needDir d =>
        simp only [worker, beq_iff_eq] at hw
        subst hw
        exact ⟨_, by simp [rootEff, pos1 (by simp)]; rfl⟩
      | newFile => exact ⟨_, by simp [rootEff, pos1 (by simp)]; rfl⟩
      | load o =>
        simp only [worker, beq_iff_eq] at hw
        subst hw
        exact ⟨_, by simp [rootEff, pos2 rfl]; rfl⟩
      | write v c => exact ⟨_, rfl⟩
      | delFile => exact ⟨_, rfl⟩
      | mkdir d => simp [worker] at hw
      | save o => simp [worker] at hw
      | clean o => simp [worker] at hw
      | build v => simp [worker] at hw
      | bubble => simp [worker] at hw
      | needBubble => simp [worker] at hw
    obtain ⟨s2, e1⟩ := hs
    exact eff_of e1 e2 hnb

end DGA.Spmd
