/- Non-vacuity of C124 and C125: a path resolution, a disk and complete executions. -/
import Verif.Writes.Success

namespace DGA.Wr

open DGA.RankFiles (Str decDigits rankFileName)
open DGA.Paths (uniquify)
open DGA.Spmd (Dir Flags MeFlags)

/-- cut at slashes -/
def splitSlash : Str → List Str
  | [] => [[]]
  | c :: t => if c = '/' then [] :: splitSlash t else
    match splitSlash t with
    | h :: r => (c :: h) :: r
    | [] => [[c]]

theorem splitSlash_ne (s : Str) : splitSlash s ≠ [] := by
  cases s with
  | nil => simp [splitSlash]
  | cons c t => unfold splitSlash; split <;> [simp; (split <;> simp)]

theorem splitSlash_slash (t : Str) : splitSlash ('/' :: t) = [] :: splitSlash t := by simp [splitSlash]

theorem splitSlash_other (c : Char) (hc : c ≠ '/') (t h : Str) (r : List Str) (e : splitSlash t = h :: r) :
    splitSlash (c :: t) = (c :: h) :: r := by simp [splitSlash, hc, e]

theorem splitSlash_append (a b : Str) : splitSlash (a ++ '/' :: b) = splitSlash a ++ splitSlash b := by
  induction a with
  | nil => simp [splitSlash]
  | cons c a ih =>
    rw [List.cons_append]
    by_cases hc : c = '/'
    · subst hc; rw [splitSlash_slash, splitSlash_slash, ih]; rfl
    · obtain ⟨h, t, e⟩ := List.exists_cons_of_ne_nil (splitSlash_ne a)
      rw [splitSlash_other c hc _ h t e, splitSlash_other c hc _ h (t ++ splitSlash b) (by rw [ih, e]; rfl)]; rfl

theorem splitSlash_name (s : Str) (h : '/' ∉ s) : splitSlash s = [s] := by
  induction s with
  | nil => rfl
  | cons c s ih =>
    rw [List.mem_cons, not_or] at h
    unfold splitSlash
    rw [if_neg (fun e => h.1 e.symm), ih h.2]

/-- lexical resolution: components without empty ones and `.` -/
def lexRes (p : Str) : List Str := (splitSlash p).filter (fun s => decide (s ∉ ([[], ['.']] : List Str)))

theorem lexRes_tree : PathTree lexRes where
  slash p _ := by
    unfold lexRes
    have := splitSlash_append p []
    rw [this]; simp [splitSlash]
  child dir s hd hs := by
    have hs2 : s ∉ ([[], ['.']] : List Str) := by
      intro hm
      refine hs.2 ?_
      simp only [List.mem_cons, List.not_mem_nil, or_false] at hm ⊢
      tauto
    rcases hd with rfl | hd
    · simp [lexRes, splitSlash_name s hs.1, splitSlash] at hs2 ⊢
      exact hs2
    · rw [List.getLast?_eq_some_iff] at hd
      obtain ⟨o, rfl⟩ := hd
      unfold lexRes
      rw [List.append_assoc, List.singleton_append, splitSlash_append, splitSlash_append, splitSlash_name s hs.1]
      simp only [List.filter_append]
      have : ([s].filter fun s => decide (s ∉ ([[], ['.']] : List Str))) = [s] := by
        rw [List.filter_cons_of_pos (by simpa using hs2)]; rfl
      rw [this]
      simp [splitSlash]

/-- a disk with a folder `data` that holds a file `old` -/
def disk0 : Disk Nat := fun k => if k = [] ∨ k = ["data".toList] then some .dir else if k = ["data".toList, "old".toList] then some (.file 7) else none

theorem disk0_wf : disk0.WF := by
  refine ⟨by simp [disk0], fun k hk hs => ?_⟩
  unfold disk0 at hs
  by_cases h1 : k = [] ∨ k = ["data".toList]
  · rcases h1 with rfl | rfl
    · exact absurd rfl hk
    · simp [disk0]
  · rw [if_neg h1] at hs
    by_cases h2 : k = ["data".toList, "old".toList]
    · subst h2; simp [disk0]
    · rw [if_neg h2] at hs; simp at hs

/-- two ranks, one after the other, `w` writes what -/
def twoRanks (p : Par) (w : Nat) : List (Event Nat) := (cmds p 0).map (fun c => (0, c, w)) ++ (cmds p 1).map (fun c => (1, c, w + 1))

theorem twoRanks_exec (p : Par) (w : Nat) : Execution p (twoRanks p w) := by
  constructor
  · intro r
    rw [twoRanks, List.filter_append]
    by_cases h0 : r = 0
    · subst h0
      have h1 : ((cmds p 0).map (fun c => ((0, c, w) : Event Nat))).filter (fun e => decide (e.1 = 0)) = (cmds p 0).map (fun c => (0, c, w)) := by
        rw [List.filter_eq_self]; intro e he; obtain ⟨c, _, rfl⟩ := List.mem_map.mp he; rfl
      have h2 : ((cmds p 1).map (fun c => ((1, c, w + 1) : Event Nat))).filter (fun e => decide (e.1 = 0)) = [] := by
        rw [List.filter_eq_nil_iff]; intro e he; obtain ⟨c, _, rfl⟩ := List.mem_map.mp he; simp
      rw [h1, h2, List.append_nil, List.map_map]
      simp [Function.comp_def]
    · by_cases h1 : r = 1
      · subst h1
        have h1 : ((cmds p 0).map (fun c => ((0, c, w) : Event Nat))).filter (fun e => decide (e.1 = 1)) = [] := by
          rw [List.filter_eq_nil_iff]; intro e he; obtain ⟨c, _, rfl⟩ := List.mem_map.mp he; simp
        have h2 : ((cmds p 1).map (fun c => ((1, c, w + 1) : Event Nat))).filter (fun e => decide (e.1 = 1)) = (cmds p 1).map (fun c => (1, c, w + 1)) := by
          rw [List.filter_eq_self]; intro e he; obtain ⟨c, _, rfl⟩ := List.mem_map.mp he; rfl
        rw [h1, h2, List.nil_append, List.map_map]
        simp [Function.comp_def]
      · have h2 : ∀ (q : Nat) (v : Nat) (l : List Cmd), q ≠ r → (l.map (fun c => ((q, c, v) : Event Nat))).filter (fun e => decide (e.1 = r)) = [] := by
          intro q v l hq
          rw [List.filter_eq_nil_iff]; intro e he; obtain ⟨c, _, rfl⟩ := List.mem_map.mp he; simpa using hq
        rw [h2 0 w _ (fun e => h0 e.symm), h2 1 (w + 1) _ (fun e => h1 e.symm)]
        exact List.nil_prefix
  · intro l e l' he hne
    cases l with
    | nil =>
      exfalso
      simp only [twoRanks, cmds, if_true, foldersC, List.cons_append, List.nil_append, List.append_assoc, List.map_cons, List.cons.injEq] at he
      exact hne (by rw [← he.1])
    | cons a l =>
      simp only [twoRanks, cmds, if_true, foldersC, List.cons_append, List.nil_append, List.append_assoc, List.map_cons, List.cons.injEq] at he
      exact ⟨w, by rw [← he.1]; exact List.mem_cons_self⟩

/-- everything switched on -/
def par1 : Par where
  flags := { polyFit := true, verbose := true, pairing := true, vertex := true, saveFq := true, saveVrg := true, keepRank := false,
             eliash := true, keepPairing := false, bubble := true, opticsSec := true, opticsMe := true, keepFq := false,
             maxEnt := some { loc := true, sDga := some true, gDga := some false, chiD := some true, chiM := some true }, nkIrr := 10, nqIrr := 10, niw := 20, nx := 8, ny := 8, nz := 1 }
  nEig := 2
  nivG := "40".toList
  bws := ["0.1".toList, "0.2".toList]
  fsPlot := true
  bwFitDmft := true
  bwFitDga := false

theorem par1_ok : par1.Ok := ⟨by decide, by decide⟩

/-- C125 is about something: the whole run on two ranks, with everything switched on, succeeds in the folder `data/run/`, … -/
theorem run1 : ∃ s', runCmds lexRes (freshDirs "data/run/".toList) disk0 ((twoRanks par1 3).map Prod.snd) = some s' :=
  run_succeeds lexRes_tree rfl par1_ok _ (twoRanks_exec par1 3) disk0_wf (by decide +kernel) (by decide +kernel) (by decide +kernel)

/-- … the self-energy is on the disk afterwards with the content rank 0 wrote, and the old file is unchanged (C124). -/
example : ∃ s', runCmds lexRes (freshDirs "data/run/".toList) disk0 ((twoRanks par1 3).map Prod.snd) = some s' ∧
    (∃ w, s' ["data".toList, "run".toList, "siwk_dga.npy".toList] = some (.file w) ∧ w = 3) ∧
    s' ["data".toList, "old".toList] = some (.file 7) := by
  obtain ⟨s', hs'⟩ := run1
  have hd := freshDirs_ok "data/run/".toList
  have hpart := (twoRanks_exec par1 3).part
  have keep := (run_frame lexRes_tree (by rfl) hd par1_ok _ hpart disk0_wf (by decide +kernel) hs').1
  refine ⟨s', hs', ?_, by rw [keep _ (by decide +kernel)]; decide +kernel⟩
  have hm : Cmd.put .out "/siwk_dga.npy".toList (some "siwk_dga") ∈ cmds par1 0 := by decide +kernel
  obtain ⟨a, b, hab⟩ := List.append_of_mem hm
  have split : twoRanks par1 3 = a.map (fun c => (0, c, 3)) ++ (0, .put .out "/siwk_dga.npy".toList (some "siwk_dga"), 3) ::
      (b.map (fun c => (0, c, 3)) ++ (cmds par1 1).map (fun c => (1, c, 4))) := by
    rw [twoRanks, hab]; simp
  rw [split] at hs' hpart
  have ndel : ∀ c ∈ cmds par1 0 ++ cmds par1 1, ∀ y rel', c = Cmd.del y rel' →
      lexRes (freshDirs "data/run/".toList y ++ rel') ≠ lexRes (freshDirs "data/run/".toList .out ++ "/siwk_dga.npy".toList) := by
    have : ∀ c ∈ cmds par1 0 ++ cmds par1 1, ∀ e ∈ c.rel?, c.val? = none →
      lexRes (freshDirs "data/run/".toList e.1 ++ e.2) ≠ lexRes (freshDirs "data/run/".toList .out ++ "/siwk_dga.npy".toList) := by decide +kernel
    intro c hc y rel' e
    exact this c hc (y, rel') (by rw [e]; rfl) (by rw [e]; rfl)
  obtain ⟨w', h1, h2⟩ := written_stays lexRes_tree (by rfl) hd par1_ok _ _ hpart hs' (by
      intro e he y rel' hce
      rw [List.mem_append, List.mem_map, List.mem_map] at he
      rcases he with ⟨c, hc, rfl⟩ | ⟨c, hc, rfl⟩
      · exact ndel c (by rw [hab]; simp [hc]) y rel' hce
      · exact ndel c (by simp [hc]) y rel' hce) (by decide +kernel)
  refine ⟨w', h1, ?_⟩
  rcases h2 with h2 | ⟨r', x', rel', hm'⟩
  · exact h2
  · rw [List.mem_append, List.mem_map, List.mem_map] at hm'
    rcases hm' with ⟨c, _, e⟩ | ⟨c, hc, e⟩
    · simp only [Prod.mk.injEq] at e; exact e.2.2.symm
    · exfalso
      simp only [Prod.mk.injEq] at e
      rw [e.2.1] at hc
      have := other_rank hc (by decide)
      simp [rankC] at this

/-- C124: a run that stops after the first write, and a second one that starts with the same base path, make a history -/
example : ∃ s', History lexRes disk0 s' ∧ s' ["data".toList, "run".toList, "dmft_input.npy".toList] = some (.file 1) ∧
    s' ["data".toList, "run_1".toList, "dmft_input.npy".toList] = some (.file 2) := by
  -- the first accesses of rank 0
  let evs : Nat → List (Event Nat) := fun w => [(0, .mkdir .out, w), (0, saveData .out "dmft_input" "dmft_input", w)]
  have hev : ∀ w, PartOfRun par1 (evs w) := by
    intro w e he
    simp only [evs, List.mem_cons, List.not_mem_nil, or_false] at he
    rcases he with rfl | rfl
    · show Cmd.mkdir .out ∈ cmds par1 0; decide +kernel
    · show saveData .out "dmft_input" "dmft_input" ∈ cmds par1 0; decide +kernel
  let s1 : Disk Nat := setKey (setKey disk0 ["data".toList, "run".toList] (some .dir)) ["data".toList, "run".toList, "dmft_input.npy".toList] (some (.file 1))
  let s2 : Disk Nat := setKey (setKey s1 ["data".toList, "run_1".toList] (some .dir)) ["data".toList, "run_1".toList, "dmft_input.npy".toList] (some (.file 2))
  have step : ∀ (s : Disk Nat) (out : Str) (k : List Str) (w : Nat), lexRes out = k → lexRes (out ++ "/dmft_input.npy".toList) = k ++ ["dmft_input.npy".toList] →
      s k = none → s (k ++ ["dmft_input.npy".toList]) = none → hasParent s k →
      runCmds lexRes (freshDirs out) s ((evs w).map Prod.snd) =
        some (setKey (setKey s k (some .dir)) (k ++ ["dmft_input.npy".toList]) (some (.file w))) := by
    intro s out k w e1 e2 h1 h2 hp
    have c1 : doCmd lexRes (freshDirs out) s (.mkdir .out) w = some (setKey s k (some .dir)) := by
      simp only [doCmd]
      have : target lexRes (freshDirs out) (.mkdir .out) = k := by simpa [target, freshDirs] using e1
      rw [this, doMkdir, h1]
      dsimp only
      rw [if_pos hp]
    refine runCmds_cons.mpr ⟨_, c1, ?_⟩
    refine runCmds_cons.mpr ⟨_, ?_, rfl⟩
    simp only [saveData, doCmd]
    have : target lexRes (freshDirs out) (.put .out ('/' :: ("dmft_input".toList ++ ".npy".toList)) (some "dmft_input")) = k ++ ["dmft_input.npy".toList] := by
      simpa [target, freshDirs] using e2
    rw [this, doWrite]
    have hk : (setKey s k (some .dir)) (k ++ ["dmft_input.npy".toList]) = none := by
      simp only [setKey]; rw [if_neg (by simp)]; exact h2
    rw [hk]
    dsimp only
    rw [if_pos]
    refine hasParent_of (by simp) ?_
    simp [setKey]
  refine ⟨s2, .run (disk' := s1) (.run .start ?_) ?_, ?_, ?_⟩
  · refine ⟨"data/run".toList, "data/run/".toList, 3, freshDirs "data/run/".toList, par1, evs 1, by decide, par1_ok, by decide +kernel,
      freshDirs_ok _, hev 1, step disk0 "data/run/".toList ["data".toList, "run".toList] 1 (by decide +kernel) (by decide +kernel) (by decide +kernel)
      (by decide +kernel) ?_⟩
    exact hasParent_of (by simp) (by decide +kernel)
  · refine ⟨"data/run".toList, "data/run_1/".toList, 3, freshDirs "data/run_1/".toList, par1, evs 2, by decide, par1_ok, by decide +kernel,
      freshDirs_ok _, hev 2, step s1 "data/run_1/".toList ["data".toList, "run_1".toList] 2 (by decide +kernel) (by decide +kernel) (by decide +kernel)
      (by decide +kernel) ?_⟩
    exact hasParent_of (by simp) (by decide +kernel)
  · decide +kernel
  · decide +kernel

end DGA.Wr
