/-
  C147: the command lines of the symmetrisation programs: which files they read and write, over any sequence of calls.
-/
import Verif.Symm.RunProps3

namespace DGA.Sym

variable {K : Type} [Field K]

/-! ### Model -/

/-- a path as it is given -/
abbrev Path := List Char

/-- symmetrize.py:325: the configuration of the command line (cli/sym1b.py:20-22 the same with `worm-last`) -/
def cmdConf (worm : String) : Conf := ⟨.ffb3, 1, [1, 1], [[[1]]], worm⟩

/-- symmetrize.py:324: `input_file.split(".")[0] + "_sym.hdf5"` -/
def outName (inp : Path) : Path := inp.takeWhile (· != '.') ++ "_sym.hdf5".toList

/-- A call: `symmetrize.py WORM [FILE]` (symmetrize.py:316-325; without arguments the program asks, which is not modelled) or `sym1b` in the directory `cwd`
    with its three options (cli/sym1b.py:7-13): an option is absent, given without a value (`nargs='?'`: the value is then `None`) or has a value. -/
inductive Call where
  | symmetrize (worm : String) (file : Option Path)
  | sym1b (cwd : Path) (inp out path : Option (Option Path))

/-- cli/sym1b.py:7-13: value of an option; `None` raises when it is concatenated (20-21) -/
def optVal (o : Option (Option Path)) (dflt : Path) : Option Path := o.getD (some dflt)

/-- worm group, input file and output file: symmetrize.py:319-325, cli/sym1b.py:16-22 -/
def Call.files : Call → Option (String × Path × Path)
  | .symmetrize w f => let i := f.getD "g4iw.hdf5".toList; some (w, i, outName i)
  | .sym1b cwd i o p =>
    (optVal p (cwd ++ ['/'])).bind fun p => (optVal o "g4iw_sym.hdf5".toList).bind fun o => (optVal i "Vertex.hdf5".toList).map fun i =>
      ("worm-last", p ++ i, p ++ o)

/-- One call (symmetrize.py:316-334, cli/sym1b.py:15-24).  `inputs`: the worm-sampling files by path; `ans`: the answer to the question about the number of
    groups; `d`: what is at every path.  An output file has no worm groups; given as an input it raises like a file that cannot be opened. -/
noncomputable def call (inputs : Path → Option (InFile K)) (ans : Bool) (d : Path → Disk K) (c : Call) : End × (Path → Disk K) :=
  match c.files with
  | none => (.raised, d)
  | some (w, i, o) => let r := run (cmdConf w) (inputs i) ans (d o); (r.1, Function.update d o r.2)

/-- any sequence of calls, each with its answer -/
noncomputable def calls (inputs : Path → Option (InFile K)) (d : Path → Disk K) (l : List (Call × Bool)) : Path → Disk K :=
  l.foldl (fun d c => (call inputs c.2 d c.1).2) d

/-! ### Theorems -/

theorem takeWhile_dot (stem rest : Path) (h : '.' ∉ stem) : (stem ++ '.' :: rest).takeWhile (· != '.') = stem := by
  induction stem with
  | nil => rfl
  | cons a t ih =>
    simp only [List.mem_cons, not_or] at h
    rw [List.cons_append, List.takeWhile_cons_of_pos (by simpa using fun e => h.1 e.symm), ih h.2]

theorem takeWhile_none (stem : Path) (h : '.' ∉ stem) : stem.takeWhile (· != '.') = stem := by
  induction stem with
  | nil => rfl
  | cons a t ih =>
    simp only [List.mem_cons, not_or] at h
    rw [List.takeWhile_cons_of_pos (by simpa using fun e => h.1 e.symm), ih h.2]

theorem not_mem_takeWhile (p : Path) : '.' ∉ p.takeWhile (· != '.') := by
  induction p with
  | nil => simp
  | cons a t ih =>
    rw [List.takeWhile_cons]
    split
    · next h =>
      rw [List.mem_cons, not_or]
      exact ⟨fun e => by rw [← e] at h; simp at h, ih⟩
    · simp

/-- **C147 (a).** The output of `symmetrize.py` for `stem.rest` is `stem_sym.hdf5`, where the stem ends at the first dot of the path; `rest` does not matter. -/
theorem out_stem (stem rest : Path) (h : '.' ∉ stem) :
    outName (stem ++ '.' :: rest) = stem ++ "_sym.hdf5".toList ∧ outName stem = stem ++ "_sym.hdf5".toList := by
  unfold outName
  rw [takeWhile_dot stem rest h, takeWhile_none stem h]
  exact ⟨rfl, rfl⟩

/-- **C147 (b).** Two inputs have the same output if and only if their paths agree up to the first dot; every path that starts with a dot (`./…`, `../…`) has the
    output `_sym.hdf5` in the working directory.  The output is never the input. -/
theorem out_same (p q : Path) : (outName p = outName q ↔ p.takeWhile (· != '.') = q.takeWhile (· != '.')) ∧
    outName ('.' :: p) = "_sym.hdf5".toList ∧ outName p ≠ p := by
  refine ⟨?_, rfl, ?_⟩
  · unfold outName
    exact List.append_left_inj _
  · intro h
    have h1 := congrArg (fun l => (l.takeWhile (· != '.')).length) h
    unfold outName at h1
    have hn : '.' ∉ p.takeWhile (· != '.') ++ "_sym".toList := by
      rw [List.mem_append]
      rintro (h | h)
      · exact not_mem_takeWhile p h
      · revert h
        decide
    have he : p.takeWhile (· != '.') ++ "_sym.hdf5".toList = (p.takeWhile (· != '.') ++ "_sym".toList) ++ '.' :: "hdf5".toList := by
      rw [List.append_assoc]
      rfl
    simp only at h1
    rw [he, takeWhile_dot _ _ hn, List.length_append] at h1
    have : "_sym".toList.length = 4 := rfl
    omega

theorem call_keeps (inputs : Path → Option (InFile K)) (ans : Bool) (d : Path → Disk K) (c : Call) (p : Path) (h : d p ≠ .absent) : (call inputs ans d c).2 p = d p := by
  unfold call
  split
  · rfl
  · next w i o _ =>
    simp only
    by_cases e : p = o
    · subst e
      rw [Function.update_self, (run_keeps_existing (cmdConf w) (inputs i) ans (d p) h).1]
    · rw [Function.update_of_ne e]

/-- **C147 (c).** No sequence of calls of the two programs changes a file that is there: inputs, finished outputs, outputs left incomplete. -/
theorem calls_keep (inputs : Path → Option (InFile K)) (d : Path → Disk K) (l : List (Call × Bool)) (p : Path) (h : d p ≠ .absent) : calls inputs d l p = d p := by
  induction l generalizing d with
  | nil => rfl
  | cons c l ih =>
    unfold calls
    rw [List.foldl_cons]
    have h1 := call_keeps inputs c.2 d c.1 p h
    exact (ih _ (by rw [h1]; exact h)).trans h1

/-- **C147 (d).** A path other than the output of a call is not touched by it. -/
theorem call_elsewhere (inputs : Path → Option (InFile K)) (ans : Bool) (d : Path → Disk K) (c : Call) (p : Path) (h : ∀ w i o, c.files = some (w, i, o) → p ≠ o) :
    (call inputs ans d c).2 p = d p := by
  unfold call
  split
  · rfl
  · next w i o he => exact Function.update_of_ne (h w i o he) _ _

/-- the run is done only if its output was absent -/
theorem call_done (inputs : Path → Option (InFile K)) (ans : Bool) (d : Path → Disk K) (c : Call) (w : String) (i o : Path) (hf : c.files = some (w, i, o))
    (h : (call inputs ans d c).1 = .done) : d o = .absent := by
  by_contra hd
  unfold call at h
  rw [hf] at h
  exact (run_keeps_existing (cmdConf w) (inputs i) ans (d o) hd).2 h

/-- what is at the output path after a run that is done is a complete file -/
theorem run_done_file (c : Conf) (f : Option (InFile K)) (ans : Bool) (d : Disk K) (h : (run c f ans d).1 = .done) : ∃ o, (run c f ans d).2 = .file o := by
  have hd : d = .absent := by
    by_contra hd
    exact (run_keeps_existing c f ans d hd).2 h
  subst hd
  cases hc : checkAll c with
  | none => unfold run at h; rw [hc] at h; cases h
  | some b =>
    cases b with
    | false => unfold run at h; rw [hc] at h; cases h
    | true =>
      cases f with
      | none => unfold run at h; rw [hc] at h; cases h
      | some f =>
        cases hg : getGroups c f ans with
        | error e =>
          have := (run_keeps_existing c (some f) ans .incomplete (by simp)).2
          unfold run at this h
          simp only [hc, hg] at this h
          exact absurd h this
        | ok groups =>
          cases hbx : getFbox c.target f with
          | none => unfold run at h; simp [hc, hg, hbx] at h
          | some box =>
            unfold run at h ⊢
            simp only [hc, hg, hbx] at h ⊢
            split at h
            · cases h
            · next hax =>
              rw [if_neg hax]
              cases hl : symLoop c box.2 groups (initOutput c box groups) with
              | none => rw [hl] at h; cases h
              | some o => exact ⟨o, rfl⟩

/-- **C147 (e).** Inputs that differ behind the first dot only block each other: once one of them has been treated, no later call on another one is done, whatever was
    called in between, and the output still is that of the first. -/
theorem same_stem_blocks (inputs : Path → Option (InFile K)) (d : Path → Disk K) (w w' : String) (p q : Path) (hpq : p.takeWhile (· != '.') = q.takeWhile (· != '.'))
    (ans ans' : Bool) (h : (call inputs ans d (.symmetrize w (some p))).1 = .done) (l : List (Call × Bool)) :
    let d1 := (call inputs ans d (.symmetrize w (some p))).2
    (call inputs ans' (calls inputs d1 l) (.symmetrize w' (some q))).1 ≠ .done ∧
      (call inputs ans' (calls inputs d1 l) (.symmetrize w' (some q))).2 (outName p) = d1 (outName p) ∧ ∃ o, d1 (outName p) = .file o := by
  intro d1
  have ho : ∃ o, d1 (outName p) = .file o := by
    have hd : d (outName p) = .absent := call_done inputs ans d _ w p (outName p) rfl h
    show ∃ o, (Function.update d (outName p) (run (cmdConf w) (inputs p) ans (d (outName p))).2) (outName p) = .file o
    rw [Function.update_self, hd]
    have h' : (run (cmdConf w) (inputs p) ans (d (outName p))).1 = .done := h
    rw [hd] at h'
    exact run_done_file _ _ _ _ h'
  have hne : d1 (outName p) ≠ .absent := by
    obtain ⟨o, ho⟩ := ho
    rw [ho]
    simp
  have hkeep := calls_keep inputs d1 l (outName p) hne
  have hne2 : calls inputs d1 l (outName p) ≠ .absent := by rw [hkeep]; exact hne
  refine ⟨?_, ?_, ho⟩
  · intro hdone
    have := call_done inputs ans' (calls inputs d1 l) (.symmetrize w' (some q)) w' q (outName q) rfl hdone
    rw [← (out_same p q).1.2 hpq] at this
    exact hne2 this
  · exact (call_keeps inputs ans' _ _ _ hne2).trans hkeep

/-- **C147 (f).** `sym1b`: the two file names are put behind the path without a separator; without options they are `Vertex.hdf5` and `g4iw_sym.hdf5` in the working
    directory; an option without a value raises. -/
theorem sym1b_files (cwd : Path) (i o p : Option Path) :
    (Call.sym1b cwd none none none).files = some ("worm-last", cwd ++ "/Vertex.hdf5".toList, cwd ++ "/g4iw_sym.hdf5".toList) ∧
    (∀ i o p, (Call.sym1b cwd (some (some i)) (some (some o)) (some (some p))).files = some ("worm-last", p ++ i, p ++ o)) ∧
    ((Call.sym1b cwd (some i) (some o) (some p)).files = none ↔ i = none ∨ o = none ∨ p = none) := by
  refine ⟨?_, fun _ _ _ => rfl, ?_⟩
  · simp [Call.files, optVal]
  · cases i <;> cases o <;> cases p <;> simp [Call.files, optVal]

open Classical in
/-- **C147 (g).** In any sequence of calls of the two programs that contains `symmetrize.py w p` with a correct one-band input at `p`, at a time when there is nothing at
    `outName p`: that call is done, and at the end, reading the output gives the average over the equivalent components of the data of `p`: nothing that is called later
    with another input of the same name up to the first dot shows up in it. -/
theorem command_value [CharZero K] (inputs : Path → Option (InFile K)) (d : Path → Disk K) (w : String) (p : Path) (f : InFile K) (hf : inputs p = some f)
    (l₁ l₂ : List (Call × Bool)) (hd : calls inputs d l₁ (outName p) = .absent)
    (nf nb : Nat) (nba : Nat → Nat) (X : Nat → Q4 → Q4 → List Nat → Option K) (h : InputOk (cmdConf w) f nf nb nba X) (ans : Bool) :
    (call inputs ans (calls inputs d l₁) (.symmetrize w (some p))).1 = .done ∧
    ∃ o, calls inputs d (l₁ ++ (.symmetrize w (some p), ans) :: l₂) (outName p) = .file o ∧
      ∀ ch, ch = "dens" ∨ ch = "magn" → ∀ (g : Q4) (orb : Finset Q4) (i : Int), InRange 1 g → Kan g → (∀ t, t ∈ orb ↔ Equiv4 [[1]] g t) →
        component2indexBand 1 4 g.toList = some i →
        readG2Full (g2Of o 0 ch i (2 * nb + 1)) = (List.range (2 * nb + 1)).map fun w => (List.range (2 * nf)).map fun v =>
          (List.range (2 * nf)).map fun v' =>
            ∑ s ∈ sixSpins, weight K ch s * ((∑ b ∈ orb, (X 0 s b [v, v', w]).getD 0) / (orb.card : K)) := by
  obtain ⟨o, h1, h2⟩ := run_then_read (cmdConf w) rfl f ans nf nb nba X h
  set d1 := calls inputs d l₁ with hd1
  have hc : call inputs ans d1 (.symmetrize w (some p)) = (.done, Function.update d1 (outName p) (.file o)) := by
    show (let r := run (cmdConf w) (inputs p) ans (d1 (outName p)); (r.1, Function.update d1 (outName p) r.2)) = _
    rw [hf, hd, h1]
  have hs : calls inputs d (l₁ ++ (.symmetrize w (some p), ans) :: l₂) = calls inputs (Function.update d1 (outName p) (.file o)) l₂ := by
    have e1 : calls inputs d (l₁ ++ (.symmetrize w (some p), ans) :: l₂) = calls inputs (call inputs ans d1 (.symmetrize w (some p))).2 l₂ := by
      unfold calls
      rw [List.foldl_append, List.foldl_cons]
      rfl
    rw [e1, hc]
  rw [hc, hs]
  refine ⟨rfl, o, ?_, fun ch hch g orb i hr hk horb hi => h2 0 Nat.one_pos ch hch g orb i hr hk horb hi⟩
  have e : (Function.update d1 (outName p) (.file o)) (outName p) = .file o := Function.update_self _ _ _
  exact (calls_keep inputs _ l₂ (outName p) (fun h => by cases e.symm.trans h)).trans e

/-! ### Concrete cases -/

/-- `a.1.hdf5` and `a.2.hdf5` are both written to `a_sym.hdf5` -/
example : outName "a.1.hdf5".toList = "a_sym.hdf5".toList ∧ outName "a.2.hdf5".toList = "a_sym.hdf5".toList ∧
    outName "./g4iw.hdf5".toList = "_sym.hdf5".toList ∧ outName "run.v2/g4iw.hdf5".toList = "run_sym.hdf5".toList := by decide

/-- two runs on temperatures kept as `a.1.hdf5`, `a.2.hdf5`: the second one is not done -/
example : let inp : Path → Option (InFile ℚ) := fun _ => some (exFile fun _ => 3)
    let d1 := (call inp false (fun _ => .absent) (.symmetrize "worm-last" (some "a.1.hdf5".toList))).2
    (call inp false d1 (.symmetrize "worm-last" (some "a.2.hdf5".toList))).1 ≠ .done ∧
      ∃ o, d1 "a_sym.hdf5".toList = .file o := by
  intro inp d1
  have hdone : (call inp false (fun _ => .absent) (.symmetrize "worm-last" (some "a.1.hdf5".toList))).1 = .done :=
    (command_value inp (fun _ => .absent) "worm-last" "a.1.hdf5".toList _ rfl [] [] rfl 2 1 (fun _ => 1) _ (exInput "worm-last" 1 (by decide) (fun _ => 3) rfl rfl) false).1
  have h := same_stem_blocks inp (fun _ => .absent) "worm-last" "worm-last" "a.1.hdf5".toList "a.2.hdf5".toList (by decide) false false hdone []
  exact ⟨h.1, h.2.2⟩

end DGA.Sym
