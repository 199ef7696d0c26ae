/-
  C124: a run never touches anything outside its own new folder, whatever its parameters, the order of the ranks and the point
  at which it stops; so earlier runs (finished or crashed) keep their files.
  C125: the files of a run have one owner and one content each; the disk at any moment is determined by what each rank has done,
  not by the order in which the ranks did it; no access of a run fails.
-/
import Verif.Writes.Cmds

namespace DGA.Wr

open DGA.RankFiles (Str decDigits rankFileName rankFileName_injective)
open DGA.Paths (uniquify uniqLoop_spec)
open DGA.Spmd (Dir Flags MeFlags)

/-! ### specification -/

/-- what rank `e.1` did, with the content that was written -/
abbrev Event (V : Type) := Nat × Cmd × V

/-- a file system: the root is a folder, and every other entry lies in a folder -/
structure Disk.WF {V : Type} (disk : Disk V) : Prop where
  root : disk [] = some .dir
  parent : ∀ k, k ≠ [] → disk k ≠ none → disk k.dropLast = some .dir

/-- Part of a run of the program: rank `r` only does what is in its program.  No order, no completeness and no particular contents
    are assumed, so this covers all interleavings, all crash points and all torn writes. -/
def PartOfRun {V : Type} (p : Par) (evs : List (Event V)) : Prop := ∀ e ∈ evs, e.2.1 ∈ cmds p e.1

/-- One run, started on `disk` and stopped anywhere: the output folder is what `uniquify` returns for some non-empty base path. -/
def RunStep {V : Type} (res : Str → List Str) (disk disk' : Disk V) : Prop :=
  ∃ (base out : Str) (fuel : Nat) (d : Dirs) (p : Par) (evs : List (Event V)), base ≠ [] ∧ p.Ok ∧
    uniquify (fun s => (disk (res s)).isSome) fuel base = some out ∧ DirsOk out d ∧ PartOfRun p evs ∧
    runCmds res d disk (evs.map Prod.snd) = some disk'

/-- any number of runs, one after the other -/
inductive History {V : Type} (res : Str → List Str) (disk : Disk V) : Disk V → Prop
  | start : History res disk disk
  | run {disk' disk''} : History res disk disk' → RunStep res disk' disk'' → History res disk disk''

/-- what an access leaves behind: a folder, a file with the content written, nothing -/
def effect {V : Type} (c : Cmd) (v : V) : Option (Node V) :=
  match c with
  | .mkdir _ => some .dir
  | .put _ _ _ => some (.file v)
  | .del _ _ => none

/-- What the accesses in `cs` do to the entry `k`, looked at alone. -/
def lastOn {V : Type} (res : Str → List Str) (d : Dirs) (k : List Str) (cs : List (Cmd × V)) (x : Option (Node V)) : Option (Node V) :=
  cs.foldl (fun x c => if target res d c.1 = k then effect c.1 c.2 else x) x

/-! ### one access -/

variable {V : Type} {res : Str → List Str}

theorem doCmd_frame {d : Dirs} {s s' : Disk V} {c : Cmd} {v : V} (h : doCmd res d s c v = some s') (k : List Str)
    (hk : k ≠ target res d c) : s' k = s k := by
  cases c with
  | mkdir x =>
    simp only [doCmd, doMkdir] at h
    split at h
    · split at h
      · simp only [Option.some.injEq] at h; subst h; simp [setKey, hk]
      · simp at h
    · simp at h
  | put x rel v' =>
    simp only [doCmd, doWrite] at h
    split at h
    · simp at h
    · split at h
      · simp only [Option.some.injEq] at h; subst h; simp [setKey, hk]
      · simp at h
  | del x rel =>
    simp only [doCmd, doRemove] at h
    split at h
    · simp at h
    · simp only [Option.some.injEq] at h; subst h; simp [setKey, hk]
    · simp only [Option.some.injEq] at h; subst h; rfl

/-- what an access does to its entry -/
theorem doCmd_effect {d : Dirs} {s s' : Disk V} {c : Cmd} {v : V} (h : doCmd res d s c v = some s') :
    s' (target res d c) = effect c v := by
  cases c with
  | mkdir x =>
    simp only [doCmd, doMkdir] at h
    split at h
    · split at h
      · simp only [Option.some.injEq] at h; subst h; simp [setKey, effect]
      · simp at h
    · simp at h
  | put x rel v' =>
    simp only [doCmd, doWrite] at h
    split at h
    · simp at h
    · split at h
      · simp only [Option.some.injEq] at h; subst h; simp [setKey, effect]
      · simp at h
  | del x rel =>
    simp only [doCmd, doRemove] at h
    split at h
    · simp at h
    · simp only [Option.some.injEq] at h; subst h; simp [setKey, effect]
    · next e => simp only [Option.some.injEq] at h; subst h; simpa [effect] using e

theorem setKey_wf {s : Disk V} (h : s.WF) {k : List Str} (hp : hasParent s k) (x : Node V) (hx : s k = some .dir → x = .dir) :
    (setKey s k (some x)).WF := by
  obtain ⟨hne, n, e, hn⟩ := hp
  have hd : s k.dropLast = some .dir := by
    rw [e]; cases n with
    | dir => rfl
    | file v => simp at hn
  constructor
  · simp only [setKey]; rw [if_neg (fun e => hne e.symm)]; exact h.root
  · intro j hj hs
    have par : s j.dropLast = some .dir := by
      by_cases hjk : j = k
      · subst hjk; exact hd
      · simp only [setKey, if_neg hjk] at hs; exact h.parent j hj hs
    simp only [setKey]
    by_cases he : j.dropLast = k
    · rw [if_pos he, hx (by rw [← he]; exact par)]
    · rw [if_neg he]; exact par

theorem doCmd_wf {d : Dirs} {s s' : Disk V} {c : Cmd} {v : V} (hs : s.WF) (h : doCmd res d s c v = some s') : s'.WF := by
  cases c with
  | mkdir x =>
    simp only [doCmd, doMkdir] at h
    split at h
    · split at h
      · next hp => simp only [Option.some.injEq] at h; subst h; exact setKey_wf hs hp _ (fun _ => rfl)
      · simp at h
    · simp at h
  | put x rel v' =>
    simp only [doCmd, doWrite] at h
    split at h
    · simp at h
    · next hnd =>
      split at h
      · next hp => simp only [Option.some.injEq] at h; subst h; exact setKey_wf hs hp _ (fun e => absurd e hnd)
      · simp at h
  | del x rel =>
    simp only [doCmd, doRemove] at h
    split at h
    · simp at h
    · next v0 hf =>
      simp only [Option.some.injEq] at h; subst h
      constructor
      · simp only [setKey]
        rw [if_neg]
        · exact hs.root
        · intro e; rw [← e, hs.root] at hf; simp at hf
      · intro j hj hne
        have hj' : s j ≠ none := by
          intro e; apply hne; simp only [setKey]; split <;> simp [e]
        have := hs.parent j hj hj'
        simp only [setKey]
        rw [if_neg]
        · exact this
        · intro e; rw [e, hf] at this; simp at this
    · simp only [Option.some.injEq] at h; subst h; exact hs

theorem runCmds_cons {d : Dirs} {s s' : Disk V} {c : Cmd × V} {cs : List (Cmd × V)} :
    runCmds res d s (c :: cs) = some s' ↔ ∃ s1, doCmd res d s c.1 c.2 = some s1 ∧ runCmds res d s1 cs = some s' := by
  simp [runCmds, List.foldlM_cons, Option.bind_eq_some_iff]

theorem runCmds_frame {d : Dirs} (cs : List (Cmd × V)) {s s' : Disk V} (h : runCmds res d s cs = some s') (k : List Str)
    (hk : ∀ c ∈ cs, k ≠ target res d c.1) : s' k = s k := by
  induction cs generalizing s with
  | nil => simp [runCmds] at h; rw [h]
  | cons c cs ih =>
    obtain ⟨s1, h1, h2⟩ := runCmds_cons.mp h
    rw [ih h2 (fun c hc => hk c (List.mem_cons_of_mem _ hc)), doCmd_frame h1 k (hk c List.mem_cons_self)]

theorem runCmds_wf {d : Dirs} (cs : List (Cmd × V)) {s s' : Disk V} (hs : s.WF) (h : runCmds res d s cs = some s') : s'.WF := by
  induction cs generalizing s with
  | nil => simp [runCmds] at h; rw [← h]; exact hs
  | cons c cs ih =>
    obtain ⟨s1, h1, h2⟩ := runCmds_cons.mp h
    exact ih (doCmd_wf hs h1) h2

theorem runCmds_lastOn {d : Dirs} (cs : List (Cmd × V)) {s s' : Disk V} (h : runCmds res d s cs = some s') (k : List Str) :
    s' k = lastOn res d k cs (s k) := by
  induction cs generalizing s with
  | nil => simp [runCmds] at h; rw [h]; rfl
  | cons c cs ih =>
    obtain ⟨s1, h1, h2⟩ := runCmds_cons.mp h
    rw [ih h2]
    unfold lastOn
    rw [List.foldl_cons]
    congr 1
    by_cases hk : target res d c.1 = k
    · rw [if_pos hk, ← hk]; exact doCmd_effect h1
    · rw [if_neg hk]; exact doCmd_frame h1 k (fun e => hk e.symm)

/-! ### where a run writes -/

/-- the entry of an access to a file -/
theorem target_file (h : PathTree res) {out : Str} (ho : out.getLast? = some '/') {d : Dirs} (hd : DirsOk out d) {p : Par} (hp : p.Ok)
    {r : Nat} {c : Cmd} (hc : c ∈ cmds p r) {x : Dir} {rel : Str} (he : c.rel? = some (x, rel)) :
    target res d c = res (d x) ++ [relName rel] := by
  have hn := (cmds_names p hp r c hc x rel he).1
  have := res_rel h (d x) rel (dir_slash h ho hd x) hn
  cases c with
  | mkdir y => simp [Cmd.rel?] at he
  | put y rel' v =>
    simp only [Cmd.rel?, Option.some.injEq, Prod.mk.injEq] at he
    obtain ⟨rfl, rfl⟩ := he
    exact this
  | del y rel' =>
    simp only [Cmd.rel?, Option.some.injEq, Prod.mk.injEq] at he
    obtain ⟨rfl, rfl⟩ := he
    exact this

/-- every access of a run is to the output folder or below it -/
theorem target_under (h : PathTree res) {out : Str} (ho : out.getLast? = some '/') {d : Dirs} (hd : DirsOk out d) {p : Par} (hp : p.Ok)
    {r : Nat} {c : Cmd} (hc : c ∈ cmds p r) : res out <+: target res d c := by
  cases c with
  | mkdir x => exact dir_prefix h ho hd x
  | put x rel v =>
    rw [target_file h ho hd hp hc (x := x) (rel := rel) rfl]
    exact (dir_prefix h ho hd x).trans (List.prefix_append _ _)
  | del x rel =>
    rw [target_file h ho hd hp hc (x := x) (rel := rel) rfl]
    exact (dir_prefix h ho hd x).trans (List.prefix_append _ _)

/-- nothing lies below an entry that does not exist -/
theorem fresh_below {s : Disk V} (hs : s.WF) {k : List Str} (hk : s k = none) (j : List Str) (hj : k <+: j) : s j = none := by
  obtain ⟨t, rfl⟩ := hj
  induction t using List.reverseRecOn with
  | nil => simpa using hk
  | append_singleton t a ih =>
    by_contra hne
    have := hs.parent (k ++ (t ++ [a])) (by simp) hne
    rw [← List.append_assoc, List.dropLast_concat, ih] at this
    simp at this

/-! ### C124 -/

/-- C124.  A run with a new output folder leaves every entry that existed before unchanged, and whatever it changed lies in its own
    folder: for all parameters, all numbers of ranks, all interleavings, all crash points and all contents. -/
theorem run_frame (h : PathTree res) {out : Str} (ho : out.getLast? = some '/') {d : Dirs} (hd : DirsOk out d) {p : Par} (hp : p.Ok)
    (evs : List (Event V)) (hev : PartOfRun p evs) {s s' : Disk V} (hs : s.WF) (hnew : s (res out) = none)
    (hrun : runCmds res d s (evs.map Prod.snd) = some s') :
    (∀ k, s k ≠ none → s' k = s k) ∧ (∀ k, s' k ≠ s k → res out <+: k) ∧ s'.WF := by
  have under : ∀ k, ¬ res out <+: k → s' k = s k := by
    intro k hk
    refine runCmds_frame _ hrun k ?_
    intro c hc e
    obtain ⟨e0, he0, rfl⟩ := List.mem_map.mp hc
    exact hk (e ▸ target_under h ho hd hp (hev e0 he0))
  refine ⟨fun k hk => under k ?_, fun k hk => ?_, runCmds_wf _ hs hrun⟩
  · intro hpre; exact hk (fresh_below hs hnew k hpre)
  · by_contra hcon; exact hk (under k hcon)

/-- what `uniquify` returns does not exist and ends with a slash -/
theorem uniquify_fresh (h : PathTree res) {s : Disk V} {fuel : Nat} {base out : Str} (hb : base ≠ [])
    (hu : uniquify (fun s' => (s (res s')).isSome) fuel base = some out) : s (res out) = none ∧ out.getLast? = some '/' := by
  simp only [uniquify, Option.map_eq_some_iff] at hu
  obtain ⟨q, hq, rfl⟩ := hu
  have hne : q ≠ [] := by
    rcases (uniqLoop_spec _ _ _ _ _ _ _ hq).2 with rfl | ⟨_, n, _, rfl, _⟩
    · exact hb
    · simp [DGA.Paths.candidate]
  refine ⟨?_, by simp⟩
  rw [h.slash q hne]
  have := (uniqLoop_spec _ _ _ _ _ _ _ hq).1
  simpa using this

/-- one run, with the folder chosen as in the code -/
theorem runStep_frame (h : PathTree res) {s s' : Disk V} (hs : s.WF) (hrun : RunStep res s s') :
    (∀ k, s k ≠ none → s' k = s k) ∧ s'.WF := by
  obtain ⟨base, out, fuel, d, p, evs, hb, hp, hu, hd, hev, hr⟩ := hrun
  obtain ⟨hf, ho⟩ := uniquify_fresh h hb hu
  have := run_frame h ho hd hp evs hev hs hf hr
  exact ⟨this.1, this.2.2⟩

/-- C124 for histories.  After any number of runs, each of which may stop anywhere (also in the middle of a write), everything that
    was on the disk at any earlier time between two runs is still there and unchanged: no run overwrites, deletes or adds to the
    results of an earlier one, not even to the remains of a crashed one. -/
theorem history_keeps (h : PathTree res) {s s' : Disk V} (hs : s.WF) (hist : History res s s') :
    (∀ k, s k ≠ none → s' k = s k) ∧ s'.WF := by
  induction hist with
  | start => exact ⟨fun _ _ => rfl, hs⟩
  | run _ hr ih =>
    have := runStep_frame h ih.2 hr
    exact ⟨fun k hk => by rw [this.1 k (by rw [ih.1 k hk]; exact hk), ih.1 k hk], this.2⟩

/-! ### C125: owners -/

/-- the rank files of different ranks have different names -/
theorem rankRel_inj {r r' : Nat} (h : rankRel r = rankRel r') : r = r' := rankFileName_injective [] ['Q'] r r' h

/-- entries of files and of folders: a file lies in the folder it was meant for and has the name it was given -/
theorem file_file (h : PathTree res) {out : Str} (ho : out.getLast? = some '/') {d : Dirs} (hd : DirsOk out d) {x y : Dir} {a b : Str}
    (e : res (d x) ++ [a] = res (d y) ++ [b]) : x = y ∧ a = b := by
  have := List.append_inj' e rfl
  exact ⟨dir_inj h ho hd this.1, by simpa using this.2⟩

/-- a rank file is not a folder of the run and not below one -/
theorem rank_not_below (h : PathTree res) {out : Str} (ho : out.getLast? = some '/') {d : Dirs} (hd : DirsOk out d) (r : Nat) (x : Dir)
    (hx : x ≠ .out) (t : List Str) : res out ++ [rankRel r] ≠ res (d x) ++ t := by
  obtain ⟨_, a, rest, e, _, hq⟩ := dir_key h ho hd x hx
  intro he
  rw [e, List.append_assoc] at he
  have := List.append_cancel_left he
  rw [List.cons_append, List.cons.injEq] at this
  obtain ⟨u, hu, _⟩ := rankRel_eq r
  rw [← this.1, hu] at hq
  simp at hq

/-- C125.  No two ranks touch the same entry, whatever they do. -/
theorem ranks_disjoint (h : PathTree res) {out : Str} (ho : out.getLast? = some '/') {d : Dirs} (hd : DirsOk out d) {p : Par} (hp : p.Ok)
    {r r' : Nat} (hr : r ≠ r') {c c' : Cmd} (hc : c ∈ cmds p r) (hc' : c' ∈ cmds p r') : target res d c ≠ target res d c' := by
  -- an access of a rank other than 0 is to its own rank file
  have other : ∀ {r : Nat} {c : Cmd}, c ∈ cmds p r → r ≠ 0 → target res d c = res out ++ [rankRel r] := by
    intro r c hc h0
    rcases cmds_known p r c hc with hk | ⟨rfl, _⟩
    · have : c.rel? = some (.out, rankRel r) := by
        simp only [rankC, List.mem_cons, List.not_mem_nil, or_false] at hk
        rcases hk with rfl | rfl <;> rfl
      rw [target_file h ho hd hp hc this, hd.1, (rankRel_eq r).choose_spec.2.2.2]
    · exact absurd rfl h0
  -- rank 0 does not touch the rank file of another rank
  have zero : ∀ {r' : Nat} {c c' : Cmd}, c ∈ cmds p 0 → c' ∈ cmds p r' → r' ≠ 0 → target res d c ≠ target res d c' := by
    intro r' c c' hc hc' h0 e
    rw [other hc' h0] at e
    have file : ∀ x rel, c.rel? = some (x, rel) → False := by
      intro x rel he
      rw [target_file h ho hd hp hc he] at e
      have hx : x = .out := by
        by_contra hx
        exact rank_not_below h ho hd r' x hx _ e.symm
      subst hx
      rw [hd.1] at e
      have e' : relName rel = rankRel r' := by simpa using e
      rcases (cmds_names p hp 0 c hc .out rel he).2 with ⟨_, rfl⟩ | ⟨_, hq⟩
      · rw [(rankRel_eq 0).choose_spec.2.2.2] at e'
        exact h0 (rankRel_inj e').symm
      · have := hq rfl
        rw [e'] at this
        obtain ⟨u, hu, _⟩ := rankRel_eq r'
        rw [hu] at this
        simp at this
    cases c with
    | mkdir x =>
      by_cases hx : x = .out
      · subst hx
        simp only [target, hd.1] at e
        have := congrArg List.length e
        simp at this
      · exact rank_not_below h ho hd r' x hx [] (by simpa [target] using e.symm)
    | put x rel v => exact file x rel rfl
    | del x rel => exact file x rel rfl
  by_cases h0 : r = 0
  · subst h0; exact zero hc hc' (fun e => hr e.symm)
  · by_cases h0' : r' = 0
    · subst h0'; exact fun e => zero hc' hc h0 e.symm
    · rw [other hc h0, other hc' h0']
      intro e
      exact hr (rankRel_inj (by simpa using e))

/-- C125.  Two results that are written to the same file are the same quantity; the only exception is the check plot
    `chi_dens_magn_lad_q_tilde.png` in the plot folder. -/
theorem one_value_per_file (h : PathTree res) {out : Str} (ho : out.getLast? = some '/') {d : Dirs} (hd : DirsOk out d) {p : Par} (hp : p.Ok)
    {r r' : Nat} {x y : Dir} {rel rel' : Str} {v v' : String} (hc : Cmd.put x rel (some v) ∈ cmds p r)
    (hc' : Cmd.put y rel' (some v') ∈ cmds p r') (e : res (d x ++ rel) = res (d y ++ rel')) :
    v = v' ∨ res (d x ++ rel) = res (d .plots) ++ ["chi_dens_magn_lad_q_tilde.png".toList] := by
  have hr : r = r' := by
    by_contra hr
    exact ranks_disjoint h ho hd hp hr hc hc' e
  subst hr
  have h0 : r = 0 := by
    rcases cmds_known p r _ hc with hk | ⟨h0, _⟩
    · simp [rankC] at hk
    · exact h0
  subst h0
  have t1 := target_file h ho hd hp hc (x := x) (rel := rel) rfl
  have t2 := target_file h ho hd hp hc' (x := y) (rel := rel') rfl
  simp only [target] at t1 t2
  rw [t1, t2] at e
  have e := file_file h ho hd e
  obtain rfl := e.1
  rcases same_name_same_val p x rel rel' v v' hc hc' e.2 with hv | ⟨rfl, ht⟩
  · exact Or.inl hv
  · right; rw [t1, ht]; rfl

/-- the finding: the plot of the ladder susceptibility is overwritten by the plot of the lambda-corrected one, in every run -/
theorem ladder_check_overwritten (p : Par) :
    ∃ a b rest, cmds p 0 = a ++ Cmd.put .plots "/chi_dens_magn_lad_q_tilde.png".toList (some "chi q-sum ladder") ::
      (b ++ Cmd.put .plots "/chi_dens_magn_lad_q_tilde.png".toList (some "chi q-sum lam") :: rest) := by
  refine ⟨(foldersC p.flags ++ startC ++ dmftPolyC p.flags ++ localC p) ++ ladderC p 0,
    [fig .plots "Chi_ladder_dens_kz0" "chi_dens ladder", fig .plots "Chi_ladder_magn_kz0" "chi_magn ladder"],
    [fig .plots "Chi_lam_dens_kz0" "chi_dens lam", fig .plots "Chi_lam_magn_kz0" "chi_magn lam",
     saveData .out "chi_dens_lam" "chi_dens_lam", saveData .out "chi_magn_lam" "chi_magn_lam", putAs .out "/lambda.txt" "lambda",
     putAs .out "/UniformStaticSusceptibility.txt" "chi uniform static", logC] ++ (buildC p.flags ++ (sdeC p 0 ++
     (eliashC p ++ opticsC p.flags ++ maxEntC p ++ [logC]))), ?_⟩
  simp only [cmds, if_true, lambdaC, chiChecksC, putAs, List.append_assoc, List.cons_append, List.nil_append]
  rfl

/-! ### C125: schedules -/

/-- accesses to `k` by other ranks do not exist, so only the own accesses count -/
theorem lastOn_filter {d : Dirs} (evs : List (Event V)) (k : List Str) (r : Nat)
    (hr : ∀ e ∈ evs, target res d e.2.1 = k → e.1 = r) (x : Option (Node V)) :
    lastOn res d k (evs.map Prod.snd) x = lastOn res d k ((evs.filter (fun e => e.1 = r)).map Prod.snd) x := by
  induction evs generalizing x with
  | nil => rfl
  | cons e evs ih =>
    have ih' := fun x => ih (fun e he => hr e (List.mem_cons_of_mem _ he)) x
    by_cases her : e.1 = r
    · rw [List.filter_cons_of_pos (by simpa using her), List.map_cons, List.map_cons]
      unfold lastOn at *
      rw [List.foldl_cons, List.foldl_cons, ih']
    · rw [List.filter_cons_of_neg (by simpa using her), List.map_cons]
      have hk : target res d e.2.1 ≠ k := fun ht => her (hr e List.mem_cons_self ht)
      unfold lastOn at *
      rw [List.foldl_cons, if_neg hk, ih']

/-- C125.  At every moment of every execution each entry is determined by what one rank, its owner, has done to it. -/
theorem content_of_owner (h : PathTree res) {out : Str} (ho : out.getLast? = some '/') {d : Dirs} (hd : DirsOk out d) {p : Par} (hp : p.Ok)
    (evs : List (Event V)) (hev : PartOfRun p evs) {s s' : Disk V} (hrun : runCmds res d s (evs.map Prod.snd) = some s') (k : List Str) :
    ∃ r, (∀ e ∈ evs, target res d e.2.1 = k → e.1 = r) ∧
      s' k = lastOn res d k ((evs.filter (fun e => e.1 = r)).map Prod.snd) (s k) := by
  by_cases hex : ∃ e ∈ evs, target res d e.2.1 = k
  · obtain ⟨e0, he0, hk0⟩ := hex
    have own : ∀ e ∈ evs, target res d e.2.1 = k → e.1 = e0.1 := by
      intro e he hk
      by_contra hne
      exact ranks_disjoint h ho hd hp hne (hev e he) (hev e0 he0) (hk.trans hk0.symm)
    exact ⟨e0.1, own, by rw [runCmds_lastOn _ hrun, lastOn_filter evs k _ own]⟩
  · have own : ∀ e ∈ evs, target res d e.2.1 = k → e.1 = 0 := fun e he hk => absurd ⟨e, he, hk⟩ hex
    exact ⟨0, own, by rw [runCmds_lastOn _ hrun, lastOn_filter evs k _ own]⟩

/-- C125.  Two executions in which every rank did the same, in any two orders of the ranks, leave the same disk. -/
theorem schedule_independent (h : PathTree res) {out : Str} (ho : out.getLast? = some '/') {d : Dirs} (hd : DirsOk out d) {p : Par}
    (hp : p.Ok) (evs evs' : List (Event V)) (hev : PartOfRun p evs)
    (same : ∀ r, evs.filter (fun e => e.1 = r) = evs'.filter (fun e => e.1 = r)) {s s1 s2 : Disk V}
    (h1 : runCmds res d s (evs.map Prod.snd) = some s1) (h2 : runCmds res d s (evs'.map Prod.snd) = some s2) : s1 = s2 := by
  have mem : ∀ e, e ∈ evs ↔ e ∈ evs' := by
    intro e
    have := congrArg (e ∈ ·) (same e.1)
    simpa using this
  funext k
  obtain ⟨r, own, e1⟩ := content_of_owner h ho hd hp evs hev h1 k
  rw [e1, runCmds_lastOn _ h2, lastOn_filter evs' k r (fun e he => own e ((mem e).mpr he)), same r]

end DGA.Wr
