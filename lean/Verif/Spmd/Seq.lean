/- What one rank's program does to rank 0's part of the world and to its own rank file when run alone. -/
import Verif.Spmd.Lemmas
import Verif.Spmd.Main

namespace DGA.Spmd

/-- effect of an action list on rank 0's part -/
def seqRoot : RootSt → Prog → Option RootSt
  | s, [] => some s
  | s, .loc a :: l => (rootEff a s).bind fun s' => seqRoot s' l
  | s, .coll _ :: l => seqRoot s l

/-- effect of an action list on the own rank file -/
def seqFile {β : Type} (data : Vtx → Ch → β) : Option (RFile β) → Prog → Option (Option (RFile β))
  | f, [] => some f
  | f, .loc a :: l => (fileEff data a f).bind fun f' => seqFile data f' l
  | f, .coll _ :: l => seqFile data f l

theorem seqRoot_append (s : RootSt) (l m : Prog) : seqRoot s (l ++ m) = (seqRoot s l).bind fun s' => seqRoot s' m := by
  induction l generalizing s with
  | nil => rfl
  | cons a l ih =>
    cases a with
    | loc a =>
      simp only [List.cons_append, seqRoot]
      cases h : rootEff a s with
      | none => rfl
      | some s' => simpa using ih s'
    | coll c => simpa [seqRoot] using ih s

theorem seqFile_append {β : Type} (data : Vtx → Ch → β) (f : Option (RFile β)) (l m : Prog) :
    seqFile data f (l ++ m) = (seqFile data f l).bind fun f' => seqFile data f' m := by
  induction l generalizing f with
  | nil => rfl
  | cons a l ih =>
    cases a with
    | loc a =>
      simp only [List.cons_append, seqFile]
      cases h : fileEff data a f with
      | none => rfl
      | some s' => simpa using ih s'
    | coll c => simpa [seqFile] using ih f

/-- the initial part of rank 0's world -/
def root0 : RootSt := ⟨[], [], false⟩

/-- state after `secConf` -/
def rootA (f : Flags) : RootSt :=
  ⟨[.out, .plots] ++ (if f.polyFit then [.poly] else []) ++ [.eliash, .optics], [], false⟩

theorem seqRoot_conf (n : Nat) (f : Flags) (hn : n ≤ f.nkIrr) : seqRoot root0 (secConf n f 0) = some (rootA f) := by
  unfold rootA
  cases h : f.polyFit <;>
    simp [secConf, folders, setOut, onRoot, seqRoot, rootEff, root0, h, hn]

/-- with a given set of saved objects -/
def rootN (f : Flags) (os : List Obj) : RootSt := { rootA f with npy := os }

theorem mem_dirs (f : Flags) (os : List Obj) :
    Dir.out ∈ (rootN f os).dirs ∧ Dir.plots ∈ (rootN f os).dirs ∧ Dir.eliash ∈ (rootN f os).dirs ∧
      Dir.optics ∈ (rootN f os).dirs ∧ (f.polyFit = true → Dir.poly ∈ (rootN f os).dirs) := by
  refine ⟨?_, ?_, ?_, ?_, fun h => ?_⟩ <;> simp [rootN, rootA]
  simp [h]

theorem seqRoot_before (n : Nat) (f : Flags) (hn : n ≤ f.nkIrr) (hw : 10 ≤ f.niw) (hz : f.polyFit = true → f.nz = 1) :
    seqRoot root0 (beforeBuild n f 0) = some (rootN f [.dmftInput, .config, .chiDensLam, .chiMagnLam]) := by
  have hA : rootA f = rootN f [] := rfl
  have hl : ∀ s : RootSt, ∀ c, seqRoot s (ladder f c) = some s := by
    intro s c
    cases h1 : f.pairing <;> cases h2 : f.vertex <;> cases h3 : f.saveFq <;>
      simp [ladder, seqRoot, rootEff, h1, h2, h3]
  unfold beforeBuild
  simp only [seqRoot_append, seqRoot_conf n f hn, Option.bind_some]
  have h1 : seqRoot (rootA f) (secLog 0) = some (rootN f [.dmftInput]) := by
    simp [secLog, onRoot, seqRoot, rootEff, dirOf, rootA, rootN]
  have h2 : seqRoot (rootN f [.dmftInput]) (secLocal f 0) = some (rootN f [.dmftInput, .config]) := by
    cases h1 : f.polyFit <;> cases h2 : f.verbose <;>
      simp [secLocal, onRoot, seqRoot, rootEff, dirOf, rootA, rootN, h1, h2, hw, hz]
  have h3 : seqRoot (rootN f [.dmftInput, .config]) (secLadder f 0) = some (rootN f [.dmftInput, .config]) := by
    have hd := mem_dirs f [.dmftInput, .config]
    unfold secLadder
    simp only [seqRoot_append, hl]
    cases h1 : f.saveVrg <;> simp [onRoot, seqRoot, rootEff, hd.1, hd.2.1]
  have h4 : seqRoot (rootN f [.dmftInput, .config]) (secLambda 0) =
      some (rootN f [.dmftInput, .config, .chiDensLam, .chiMagnLam]) := by
    simp [secLambda, onRoot, seqRoot, rootEff, dirOf, rootA, rootN]
  simp [h1, h2, h3, h4]

/-- objects saved when the vertices are assembled -/
def vObjs (f : Flags) : List Obj :=
  (if f.pairing then [.fSing, .fTrip] else []) ++ (if f.vertex then [.fCond] else [])

theorem seqRoot_middle (f : Flags) (os : List Obj) (ho : Obj.chiMagnLam ∈ os) :
    seqRoot (rootN f os) (middle f 0) = some (rootN f (os ++ vObjs f)) := by
  have hd := fun os => mem_dirs f os
  have h1 : ∀ os, seqRoot (rootN f os) (if f.pairing then onRoot 0 [.build .pv, .needDir .eliash, .save .fSing, .save .fTrip] else []) =
      some (rootN f (os ++ if f.pairing then [.fSing, .fTrip] else [])) := by
    intro os
    have hd := mem_dirs f
    cases h : f.pairing
    · simp [seqRoot]
    · simp [onRoot, seqRoot, rootEff, dirOf, rootN, rootA]
  have h2 : ∀ os, seqRoot (rootN f os) (if f.vertex then onRoot 0 [.build .opt, .needDir .optics, .save .fCond] else []) =
      some (rootN f (os ++ if f.vertex then [.fCond] else [])) := by
    intro os
    cases h : f.vertex
    · simp [seqRoot]
    · simp [onRoot, seqRoot, rootEff, dirOf, rootN, rootA]
  have h3 : ∀ os, seqRoot (rootN f os) (if f.saveFq then onRoot 0 [.build .fq, .needDir .out] else []) = some (rootN f os) := by
    intro os
    cases h : f.saveFq
    · simp [seqRoot]
    · simp [onRoot, seqRoot, rootEff, rootN, rootA]
  have h4 : ∀ os, Obj.chiMagnLam ∈ os → seqRoot (rootN f os) (onRoot 0 [.load .chiMagnLam, .needDir .out]) = some (rootN f os) := by
    intro os h
    simp [onRoot, seqRoot, rootEff, rootN, rootA, h]
  unfold middle secBuild vObjs
  simp only [seqRoot_append, h1, h2, h3, Option.bind_some]
  rw [h4 _ (by simp [ho])]
  simp [seqRoot]

theorem seqRoot_scatter (s : RootSt) : seqRoot s secScatter = some s := by
  simp [secScatter, scatter, seqRoot]

theorem seqRoot_sde (f : Flags) (os : List Obj) (hx : 4 ≤ f.nx) (hy : 4 ≤ f.ny) (hz : f.polyFit = true → f.nz = 1) :
    seqRoot (rootN f os) (secSde f 0) = some (rootN f (os ++ [.siwkDga])) := by
  cases h1 : f.polyFit <;> cases h2 : f.keepRank <;>
    simp [secSde, onRoot, seqRoot, rootEff, dirOf, rootA, rootN, h1, h2, hx, hy, hz]

/-- after the Eliashberg section: the folders are unchanged, everything but the pairing vertex is still there -/
theorem seqRoot_eliash (f : Flags) (os : List Obj) (h : f.eliash = true → Obj.fSing ∈ os ∧ Obj.fTrip ∈ os) :
    ∃ os', seqRoot (rootN f os) (secEliash f 0) = some (rootN f os') ∧
      ∀ o, o ≠ Obj.fSing → o ≠ Obj.fTrip → o ∈ os → o ∈ os' := by
  cases h1 : f.eliash with
  | false => exact ⟨os, by simp [secEliash, h1, seqRoot], fun o _ _ ho => ho⟩
  | true =>
    obtain ⟨ha, hb⟩ := h h1
    cases h2 : f.keepPairing with
    | true =>
      exact ⟨os, by simp [secEliash, h1, h2, seqRoot, onRoot, rootEff, rootN, rootA, ha, hb], fun o _ _ ho => ho⟩
    | false =>
      refine ⟨(os.filter (· ≠ Obj.fSing)).filter (· ≠ Obj.fTrip),
        by simp [secEliash, h1, h2, seqRoot, onRoot, rootEff, rootN, rootA, ha, hb], ?_⟩
      intro o h3 h4 ho
      simp [ho, h3, h4]

/-- after the optics section -/
theorem seqRoot_optics (f : Flags) (os : List Obj) (h : f.vertex = true → Obj.fCond ∈ os)
    (hb : f.opticsSec = true → f.bubble = true) :
    ∃ os' b, seqRoot (rootN f os) (secOptics f 0) = some { rootN f os' with bub := b } ∧
      ∀ o, o ≠ Obj.fCond → o ∈ os → o ∈ os' := by
  have hf : ∀ o : Obj, o ≠ Obj.fCond → o ∈ os → o ∈ os.filter (fun x => !decide (x = Obj.fCond)) := by
    intro o h1 h2; simp [h1, h2]
  cases h1 : f.opticsSec <;> cases h2 : f.bubble <;> cases h3 : f.vertex <;> cases h4 : f.opticsMe <;> cases h5 : f.keepFq <;>
    first
    | (exfalso; simp [h1, h2] at hb; done)
    | (have h' := h; simp only [h3, forall_const, Bool.false_eq_true, false_implies] at h'
       refine ⟨_, _, by simp [secOptics, scatter, h1, h2, h3, h4, h5, seqRoot, onRoot, rootEff, rootN, rootA, h']; constructor <;> rfl, ?_⟩
       first
       | exact fun o _ ho => ho
       | exact hf)

end DGA.Spmd
