/- Invariants of the concurrent run. -/
import Verif.Spmd.Seq2

namespace DGA.Spmd

/-! ### all ranks execute the same collectives -/

theorem colls_map_loc (l : List Loc) : colls (l.map (Act.loc (A := Loc))) = [] := by
  induction l with
  | nil => rfl
  | cons a l ih => simpa [colls] using ih

theorem colls_onRoot (r : Nat) (l : List Loc) : colls (onRoot r l) = [] := by
  unfold onRoot; split
  · exact colls_map_loc l
  · rfl

theorem colls_before (n : Nat) (f : Flags) (r : Nat) : colls (beforeBuild n f r) = colls (beforeBuild n f 0) := by
  have hl : ∀ c, colls (ladder f c) = [] := by
    intro c
    cases h1 : f.pairing <;> cases h2 : f.vertex <;> cases h3 : f.saveFq <;> simp [ladder, colls, h1, h2, h3]
  cases h1 : f.polyFit <;> cases h2 : f.verbose <;> cases h3 : f.saveVrg <;>
    simp [beforeBuild, secConf, folders, setOut, secLog, secLocal, secLadder, secLambda, colls_append, colls, colls_onRoot, hl,
      h1, h2, h3]

theorem colls_middle (f : Flags) (r : Nat) : colls (middle f r) = colls (middle f 0) := by
  cases h1 : f.pairing <;> cases h2 : f.vertex <;> cases h3 : f.saveFq <;>
    simp [middle, secBuild, colls_append, colls, colls_onRoot, h1, h2, h3]

theorem colls_cont (o : Option Bool) (r : Nat) (d : Dir) (pre post : List Loc) :
    colls (secCont o r d pre post) = colls (secCont o 0 d pre post) := by
  match o with
  | none => rfl
  | some false => simp [secCont, colls_onRoot]
  | some true => simp [secCont, colls_append, colls_onRoot, colls]

theorem colls_maxEnt (n : Nat) (f : Flags) (r : Nat) : colls (secMaxEnt n f r) = colls (secMaxEnt n f 0) := by
  cases hm : f.maxEnt with
  | none => simp [secMaxEnt, hm]
  | some m =>
    have c := fun o d pre post => colls_cont o r d pre post
    cases hl : m.loc <;> simp [secMaxEnt, hm, colls_append, colls, colls_onRoot, hl, c m.sDga, c m.gDga, c m.chiD, c m.chiM]

theorem colls_after (n : Nat) (f : Flags) (r : Nat) : colls (afterSde n f r) = colls (afterSde n f 0) := by
  have h3 := colls_maxEnt n f r
  have h1 : ∀ r, colls (secEliash f r) = [] := by
    intro r
    cases h1 : f.eliash <;> cases h2 : f.keepPairing <;> simp [secEliash, colls_append, colls_onRoot, colls, h1, h2]
  have h2 : colls (secOptics f r) = colls (secOptics f 0) := by
    cases h1 : f.opticsSec <;> cases h2 : f.bubble <;> cases h3 : f.vertex <;> cases h4 : f.opticsMe <;>
      cases h5 : f.keepFq <;>
      simp [secOptics, colls_append, colls, colls_onRoot, h1, h2, h3, h4, h5]
  have h0 : ∀ r, colls (secSde f r) = [] := by
    intro r
    cases h1 : f.polyFit <;> cases h2 : f.keepRank <;> simp [secSde, colls_append, colls_onRoot, colls, h1, h2]
  simp [afterSde, colls_append, h1, h2, h3, h0]

theorem colls_main (n : Nat) (f : Flags) (r : Nat) : colls (mainProg n f r) = colls (mainProg n f 0) := by
  simp [mainProg, colls_append, colls, colls_before n f r, colls_middle f r, colls_after n f r]

/-! ### actions of the workers -/

/-- actions that do not change rank 0's part of the world -/
def passive : Loc → Bool
  | .mkdir _ => false
  | .save _ => false
  | .clean _ => false
  | .bubble => false
  | _ => true

theorem rootEff_passive {a : Loc} (h : passive a = true) {s s' : RootSt} (e : rootEff a s = some s') : s' = s := by
  cases a <;> simp_all [passive, rootEff]

/-- local actions of ranks other than 0 -/
def worker (b : Bool) : Loc → Bool
  | .guard c => c == b
  | .needDir d => d == .out
  | .newFile => true
  | .write _ _ => true
  | .delFile => true
  | .load o => o == .dmftInput
  | _ => false

theorem onRoot_worker {r : Nat} (hr : r ≠ 0) (l : List Loc) : onRoot r l = [] := by simp [onRoot, hr]

theorem cont_worker {r : Nat} (hr : r ≠ 0) (b : Bool) (o : Option Bool) (d : Dir) (pre post : List Loc) :
    allLoc (worker b) (secCont o r d pre post) = true := by
  match o with
  | none => rfl
  | some false => simp [secCont, onRoot_worker hr, allLoc]
  | some true => simp [secCont, onRoot_worker hr, scatter, allLoc]

theorem main_worker (n : Nat) (f : Flags) {r : Nat} (hr : r ≠ 0) :
    allLoc (worker (decide (n ≤ f.nkIrr))) (mainProg n f r) = true := by
  have h1 : allLoc (worker (decide (n ≤ f.nkIrr))) (beforeBuild n f r) = true := by
    cases h1 : f.polyFit <;> cases h2 : f.verbose <;> cases h3 : f.saveVrg <;> cases h4 : f.pairing <;>
      cases h5 : f.vertex <;> cases h6 : f.saveFq <;>
      simp [beforeBuild, secConf, folders, setOut, secLog, secLocal, secLadder, secLambda, ladder, onRoot_worker hr, allLoc,
        worker, h1, h2, h3, h4, h5, h6]
  have h2 : allLoc (worker (decide (n ≤ f.nkIrr))) (middle f r) = true := by
    simp [middle, secBuild, onRoot_worker hr, allLoc]
  have h3 : allLoc (worker (decide (n ≤ f.nkIrr))) secScatter = true := by rfl
  have h4 : allLoc (worker (decide (n ≤ f.nkIrr))) (afterSde n f r) = true := by
    have e1 : allLoc (worker (decide (n ≤ f.nkIrr))) (secSde f r) = true := by
      cases h : f.keepRank <;> simp [secSde, onRoot_worker hr, allLoc, worker, h]
    have e2 : allLoc (worker (decide (n ≤ f.nkIrr))) (secEliash f r) = true := by
      simp [secEliash, onRoot_worker hr, allLoc]
    have e3 : allLoc (worker (decide (n ≤ f.nkIrr))) (secOptics f r) = true := by
      cases h : f.vertex <;> simp [secOptics, onRoot_worker hr, allLoc, scatter, h]
    have e4 : allLoc (worker (decide (n ≤ f.nkIrr))) (secMaxEnt n f r) = true := by
      cases hm : f.maxEnt with
      | none => simp [secMaxEnt, hm, allLoc]
      | some m =>
        simp [secMaxEnt, hm, onRoot_worker hr, allLoc, allLoc_append, cont_worker hr, worker]
    simp [afterSde, allLoc_append, e1, e2, e3, e4, allLoc]
  simp [mainProg, allLoc_append, h1, h2, h3, h4, allLoc]

/-- before the folder barrier a worker only runs checks -/
theorem conf_worker (n : Nat) (f : Flags) {r : Nat} (hr : r ≠ 0) :
    allLoc (fun a => match a with | .guard _ => true | _ => false) (secConf n f r) = true := by
  simp [secConf, folders, setOut, onRoot_worker hr, allLoc]

/-! ### positions -/

theorem getElem?_mid {α : Type} {P M Q : List α} {i : Nat} {x : α} (h : (P ++ M ++ Q)[i]? = some x) (hP : x ∉ P) (hQ : x ∉ Q) :
    P.length ≤ i ∧ i < P.length + M.length ∧ x ∈ M := by
  have h1 : P.length ≤ i := by
    by_contra hc
    push Not at hc
    rw [List.append_assoc, List.getElem?_append_left hc] at h
    exact hP (List.mem_of_getElem? h)
  have h2 : i < (P ++ M).length := by
    by_contra hc
    push Not at hc
    rw [List.getElem?_append_right hc] at h
    exact hQ (List.mem_of_getElem? h)
  refine ⟨h1, by simpa using h2, ?_⟩
  rw [List.getElem?_append_left h2, List.getElem?_append_right h1] at h
  exact List.mem_of_getElem? h

theorem getElem?_ge {α : Type} {P Q : List α} {i : Nat} {x : α} (h : (P ++ Q)[i]? = some x) (hP : x ∉ P) :
    P.length ≤ i := by
  by_contra hc
  push Not at hc
  rw [List.getElem?_append_left hc] at h
  exact hP (List.mem_of_getElem? h)

/-- no vertex is assembled outside `middle` -/
theorem build_not_before (n : Nat) (f : Flags) (v : Vtx) : Act.loc (Loc.build v) ∉ beforeBuild n f 0 := by
  have : allLoc (fun a => match a with | .build _ => false | _ => true) (beforeBuild n f 0) = true := by
    cases h1 : f.polyFit <;> cases h2 : f.verbose <;> cases h3 : f.saveVrg <;> cases h4 : f.pairing <;>
      cases h5 : f.vertex <;> cases h6 : f.saveFq <;>
      simp [beforeBuild, secConf, folders, setOut, secLog, secLocal, secLadder, secLambda, ladder, onRoot, allLoc,
        h1, h2, h3, h4, h5, h6]
  rw [allLoc_mem] at this
  intro h
  simpa using this _ h

theorem build_not_after (n : Nat) (f : Flags) (v : Vtx) : Act.loc (Loc.build v) ∉ secScatter ++ afterSde n f 0 := by
  have : allLoc (fun a => match a with | .build _ => false | _ => true) (secScatter ++ afterSde n f 0) = true := by
    have e1 : allLoc (fun a => match a with | .build _ => false | _ => true) (secSde f 0) = true := by
      cases h : f.keepRank <;> cases h2 : f.polyFit <;> simp [secSde, onRoot, allLoc, h, h2]
    have e2 : allLoc (fun a => match a with | .build _ => false | _ => true) (secEliash f 0) = true := by
      cases h : f.eliash <;> cases h2 : f.keepPairing <;> simp [secEliash, onRoot, allLoc, h, h2]
    have e3 : allLoc (fun a => match a with | .build _ => false | _ => true) (secOptics f 0) = true := by
      cases h1 : f.opticsSec <;> cases h2 : f.bubble <;> cases h3 : f.vertex <;> cases h4 : f.opticsMe <;>
        cases h5 : f.keepFq <;> simp [secOptics, onRoot, allLoc, scatter, h1, h2, h3, h4, h5]
    have e4 : allLoc (fun a => match a with | .build _ => false | _ => true) (secMaxEnt n f 0) = true := by
      have ec : ∀ o d pre post, (pre.all fun a => match a with | .build _ => false | _ => true) = true →
          (post.all fun a => match a with | .build _ => false | _ => true) = true →
          allLoc (fun a => match a with | .build _ => false | _ => true) (secCont o 0 d pre post) = true := by
        intro o d pre post h1 h2
        match o with
        | none => rfl
        | some false => exact allLoc_onRoot _ _ _ rfl
        | some true =>
          simp only [secCont, allLoc_append]
          rw [allLoc_onRoot _ _ [Loc.mkdir d] rfl, allLoc_onRoot _ _ _ h1,
            allLoc_onRoot _ _ _ (by rw [List.all_append, h2]; rfl)]
          rfl
      cases hm : f.maxEnt with
      | none => simp [secMaxEnt, hm, allLoc]
      | some m =>
        have c1 := ec m.sDga .meSiwk [.guard (decide (f.nqIrr ≤ f.nkIrr))] [.guard (decide (f.nkIrr ≤ f.nqIrr))] rfl rfl
        have c2 := ec m.gDga .meGiwk [.guard (decide (f.nqIrr ≤ f.nkIrr))] [.guard (decide (f.nkIrr ≤ f.nqIrr))] rfl rfl
        have c3 := ec m.chiD .meDens [.load .chiDensLam] [] rfl rfl
        have c4 := ec m.chiM .meMagn [.load .chiMagnLam] [] rfl rfl
        cases hl : m.loc <;> simp [secMaxEnt, hm, onRoot, allLoc, allLoc_append, c1, c2, c3, c4, hl]
    have e0 : allLoc (fun a => match a with | .build _ => false | _ => true) secScatter = true := by rfl
    simp [afterSde, allLoc_append, e0, e1, e2, e3, e4, allLoc]
  rw [allLoc_mem] at this
  intro h
  simpa using this _ h

theorem build_wants (f : Flags) (v : Vtx) (r : Nat) (h : Act.loc (Loc.build v) ∈ [.coll .barrier] ++ middle f r) :
    f.wants v = true := by
  cases v <;> simp [middle, secBuild, onRoot] at h <;> simp [Flags.wants] <;> grind

theorem wants_build (n : Nat) (f : Flags) (v : Vtx) (h : f.wants v = true) : Act.loc (Loc.build v) ∈ mainProg n f 0 := by
  unfold mainProg middle secBuild
  cases v <;> simp only [Flags.wants] at h <;> simp [h, onRoot]

end DGA.Spmd
