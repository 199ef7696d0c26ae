/-
  C137: the rank files of a complete run, shared by all that is asked for.
-/
import Verif.Shared.Props
import Verif.Optics.FromFiles

noncomputable section

namespace DGA.Shared

open DGA.RankFiles DGA.Mpi DGA.Pipe DGA.Fp DGA.Mf DGA.Bz DGA.Bubble DGA.Pairing

/-! ### Model -/

/-- one of the two vertex components (four_point.py:303 `f1_slice, f2_slice = …`) -/
def part {n : Nat} (second : Bool) (fc : Mat n ℂ × Mat n ℂ) : Mat n ℂ := if second then fc.2 else fc.1

/-- optics.py:222-233: the slices of one component of one channel at the momenta of a rank -/
def slicesOf {c : Nat} (niw niwV niwC nivV : Nat) (second : Bool) (comps : List (List (Mat (2 * c) ℂ × Mat (2 * c) ℂ))) : Option (List (List (List (List ℂ)))) :=
  comps.mapM fun rows => (wnRange niwV).mapM fun iw => (Py.get? rows ((niw : Int) + iw)).bind fun fc =>
    Opt.getVmwVSlice (Pairing.rowsOf (part second fc)) (2 * c) (wn niwC 0 true) nivV

/-- optics.py:221-233: both components of one channel, if the optics vertex is asked for (high_level_routines.py:109) -/
def slices2 {c : Nat} (fl : Flags) (niw niwV niwC nivV : Nat) (comps : List (List (Mat (2 * c) ℂ × Mat (2 * c) ℂ))) :
    Option (Bool → List (List (List (List ℂ)))) :=
  if fl.vertex then
    (slicesOf niw niwV niwC nivV false comps).bind fun a => (slicesOf niw niwV niwC nivV true comps).map fun b => fun second => if second then b else a
  else some fun _ => []

/-- dga_main.py:111-136, high_level_routines.py:98-115: what rank `r` has to write, from the ladder of the density channel and of the magnetic channel at
    its momenta -/
def rankData {c : Nat} (fl : Flags) (s R nx ny nz : Nat) (f : List Nat) (niw niwV niwC nivV : Nat) (gamD gamM : FourP (2 * c) ℂ) (b : Bub ℂ) (beta u : ℂ) (r : Nat) :
    Option (RankData (List (List ℂ))) :=
  (irrqList nx ny nz f).bind fun irr =>
    let l : List Mom := irr.map momOf
    (mySlice l.length R r).bind fun p => (myTasks l.length R r).bind fun ts =>
      (rankComp s gamD b beta u (Py.slice l p.1 p.2)).bind fun cd => (slices2 fl niw niwV niwC nivV cd).bind fun sd =>
        (rankComp s gamM b beta u (Py.slice l p.1 p.2)).bind fun cm => (slices2 fl niw niwV niwC nivV cm).map fun sm =>
          { tasks := ts, wn := wnRange niw, wnV := wnRange niwV, niv := c, npp := nivPP niw c
            pv := fun magn second i j => compMat second (((if magn then cm else cd).getD i []).getD j (0, 0))
            opt := fun magn second i j => (((if magn then sm else sd) second).getD i []).getD j []
            fq := fun magn second i j => Pairing.rowsOf (part second (((if magn then cm else cd).getD i []).getD j (0, 0))) }

/-- the rank files of a run after the ladder (dga_main.py:129-136), whatever is asked for -/
def runFiles {c : Nat} (fl : Flags) (s R nx ny nz : Nat) (f : List Nat) (niw niwV niwC nivV : Nat) (gamD gamM : FourP (2 * c) ℂ) (b : Bub ℂ) (beta u : ℂ) :
    Option (List (H5 (List (List ℂ)))) :=
  ((List.range R).mapM (rankData fl s R nx ny nz f niw niwV niwC nivV gamD gamM b beta u)).bind (rankFiles fl)

/-- four_point.py:297-310: the rank files with one component of the full vertex of one channel -/
def fqFiles {c : Nat} (second : Bool) (s R nx ny nz : Nat) (f : List Nat) (niw : Nat) (gam : FourP (2 * c) ℂ) (b : Bub ℂ) (beta u : ℂ) :
    Option (List (File (List (List ℂ)))) :=
  (irrqList nx ny nz f).bind fun irr =>
    let l : List Mom := irr.map momOf
    (List.range R).mapM fun r => (mySlice l.length R r).bind fun p => (myTasks l.length R r).bind fun ts =>
      (rankComp s gam b beta u (Py.slice l p.1 p.2)).bind fun comps =>
        writeVertex "fq_".toList ts (wnRange niw) (fun i j => Pairing.rowsOf (part second ((comps.getD i []).getD j (0, 0)))) []

/-! ### Properties -/

theorem mapM_link {α γ δ : Type} (l : List α) (h : α → Option γ) (k : α → Option δ) (g : γ → Option δ) (hk : ∀ a D, h a = some D → k a = g D) (Ds : List γ)
    (hl : l.mapM h = some Ds) : l.mapM k = Ds.mapM g := by
  induction l generalizing Ds with
  | nil => cases hl; rfl
  | cons a l ih =>
    rw [List.mapM_cons] at hl
    cases h1 : h a with
    | none => rw [h1] at hl; cases hl
    | some D =>
      rw [h1] at hl
      cases h2 : l.mapM h with
      | none => rw [h2] at hl; cases hl
      | some Ds' =>
        rw [h2] at hl
        cases hl
        rw [List.mapM_cons, List.mapM_cons, hk a D h1, ih Ds' h2]

variable {c : Nat} (fl : Flags) (s R nx ny nz : Nat) (f : List Nat) (niw niwV niwC nivV : Nat) (gamD gamM : FourP (2 * c) ℂ) (b : Bub ℂ) (beta u : ℂ)

/-- what a rank's data consist of -/
theorem rankData_some (r : Nat) (D : RankData (List (List ℂ))) (h : rankData fl s R nx ny nz f niw niwV niwC nivV gamD gamM b beta u r = some D) :
    ∃ irr p cd cm sd sm, irrqList nx ny nz f = some irr ∧ mySlice (irr.map momOf).length R r = some p ∧ myTasks (irr.map momOf).length R r = some D.tasks ∧
      rankComp s gamD b beta u (Py.slice (irr.map momOf) p.1 p.2) = some cd ∧ rankComp s gamM b beta u (Py.slice (irr.map momOf) p.1 p.2) = some cm ∧
      slices2 fl niw niwV niwC nivV cd = some sd ∧ slices2 fl niw niwV niwC nivV cm = some sm ∧
      D.wn = wnRange niw ∧ D.wnV = wnRange niwV ∧ D.niv = c ∧ D.npp = nivPP niw c ∧
      (D.pv = fun magn second i j => compMat second (((if magn then cm else cd).getD i []).getD j (0, 0))) ∧
      (D.opt = fun magn second i j => (((if magn then sm else sd) second).getD i []).getD j []) ∧
      D.fq = fun magn second i j => Pairing.rowsOf (part second (((if magn then cm else cd).getD i []).getD j (0, 0))) := by
  unfold rankData at h
  simp only [Option.bind_eq_some_iff, Option.map_eq_some_iff] at h
  obtain ⟨irr, h1, p, h2, ts, h3, cd, h4, sd, h5, cm, h6, sm, h7, rfl⟩ := h
  exact ⟨irr, p, cd, cm, sd, sm, h1, h2, h3, h4, h6, h5, h7, rfl, rfl, rfl, rfl, rfl, rfl, rfl⟩

theorem rankData_ok (hR : 0 < R) (r : Nat) (D : RankData (List (List ℂ))) (h : rankData fl s R nx ny nz f niw niwV niwC nivV gamD gamM b beta u r = some D) : Ok D := by
  obtain ⟨irr, p, cd, cm, sd, sm, h1, h2, h3, h4, h6, h5, h7, w1, w2, -⟩ := rankData_some fl s R nx ny nz f niw niwV niwC nivV gamD gamM b beta u r D h
  refine ⟨?_, by rw [w1]; exact Py.nodup_arange _ _, by rw [w2]; exact Py.nodup_arange _ _⟩
  set n := (irr.map momOf).length with hn
  have hr : r < R := by
    by_contra hc
    unfold myTasks mySlice at h3
    rw [slices_get? n R r hR] at h3; simp [hc] at h3
  rw [myTasks_eq n R r hR hr] at h3
  rw [← Option.some.inj h3, List.Nodup, List.pairwise_map]
  exact List.nodup_range.imp (by intro x y h; omega)

theorem mapM_ok (hR : 0 < R) (Ds : List (RankData (List (List ℂ))))
    (h : (List.range R).mapM (rankData fl s R nx ny nz f niw niwV niwC nivV gamD gamM b beta u) = some Ds) : ∀ D ∈ Ds, Ok D := by
  generalize List.range R = L at h
  induction L generalizing Ds with
  | nil => cases h; simp
  | cons r L ih =>
    rw [List.mapM_cons] at h
    cases h1 : rankData fl s R nx ny nz f niw niwV niwC nivV gamD gamM b beta u r with
    | none => rw [h1] at h; cases h
    | some D =>
      rw [h1] at h
      cases h2 : L.mapM (rankData fl s R nx ny nz f niw niwV niwC nivV gamD gamM b beta u) with
      | none => rw [h2] at h; cases h
      | some Ds' =>
        rw [h2] at h
        cases h
        intro D' hD'
        rw [List.mem_cons] at hD'
        rcases hD' with rfl | hD'
        · exact rankData_ok fl s R nx ny nz f niw niwV niwC nivV gamD gamM b beta u hR r _ h1
        · exact ih Ds' h2 D' hD'

theorem irr_some (hR : 0 < R) (Ds : List (RankData (List (List ℂ))))
    (h : (List.range R).mapM (rankData fl s R nx ny nz f niw niwV niwC nivV gamD gamM b beta u) = some Ds) : ∃ irr, irrqList nx ny nz f = some irr := by
  obtain ⟨R, rfl⟩ : ∃ k, R = k + 1 := ⟨R - 1, by omega⟩
  rw [List.range_succ_eq_map, List.mapM_cons] at h
  cases h1 : rankData fl s (R + 1) nx ny nz f niw niwV niwC nivV gamD gamM b beta u 0 with
  | none => rw [h1] at h; cases h
  | some D =>
    obtain ⟨irr, _, _, _, _, _, h2, -⟩ := rankData_some fl s _ nx ny nz f niw niwV niwC nivV gamD gamM b beta u 0 D h1
    exact ⟨irr, h2⟩

/-- C137.  The pairing slices in the rank files of a run that also writes whatever else is asked for are those of files of their own, one per component
    (the files of C130). -/
theorem run_pairing (hR : 0 < R) (hp : fl.pairing = true) (nq npp : Nat) (files : List (H5 (List (List ℂ))))
    (h : runFiles fl s R nx ny nz f niw niwV niwC nivV gamD gamM b beta u = some files) :
    loadPv4 nq npp files = opt4
      ((pvFiles false s R nx ny nz f niw gamM b beta u).bind (loadPairing nq npp)) ((pvFiles true s R nx ny nz f niw gamM b beta u).bind (loadPairing nq npp))
      ((pvFiles false s R nx ny nz f niw gamD b beta u).bind (loadPairing nq npp)) ((pvFiles true s R nx ny nz f niw gamD b beta u).bind (loadPairing nq npp)) := by
  unfold runFiles at h
  rw [Option.bind_eq_some_iff] at h
  obtain ⟨Ds, hDs, hf⟩ := h
  have hOk := mapM_ok fl s R nx ny nz f niw niwV niwC nivV gamD gamM b beta u hR Ds hDs
  have hmain := shared_pairing fl hp nq npp Ds hOk
  rw [hf, Option.bind_some] at hmain
  rw [hmain]
  obtain ⟨irr, hirr⟩ := irr_some fl s R nx ny nz f niw niwV niwC nivV gamD gamM b beta u hR Ds hDs
  have hown : ∀ magn second, pvFiles second s R nx ny nz f niw (if magn then gamM else gamD) b beta u =
      Ds.mapM fun D => writePairing D.niv D.npp D.tasks D.wn (D.pv magn second) [] := by
    intro magn second
    unfold pvFiles
    rw [hirr, Option.bind_some]
    refine mapM_link _ _ _ _ ?_ Ds hDs
    intro r D hD
    obtain ⟨irr', p, cd, cm, sd, sm, h1, h2, h3, h4, h6, h5, h7, w1, w2, w3, w4, w5, -⟩ := rankData_some fl s R nx ny nz f niw niwV niwC nivV gamD gamM b beta u r D hD
    rw [hirr] at h1
    cases h1
    simp only [h2, h3, Option.bind_some]
    cases magn
    · simp only [Bool.false_eq_true, if_false, h4, Option.bind_some, w1, w3, w4, w5]
    · simp only [if_true, h6, Option.bind_some, w1, w3, w4, w5]
  have e := fun magn second => congrArg (fun x => x.bind (loadPairing nq npp)) (hown magn second)
  have e1 := e true false
  have e2 := e true true
  have e3 := e false false
  have e4 := e false true
  simp only [if_true, Bool.false_eq_true, if_false] at e1 e2 e3 e4
  rw [e1, e2, e3, e4]
  rfl

/-- C137.  The optics slices, likewise (the files of C133). -/
theorem run_optics (hR : 0 < R) (hv : fl.vertex = true) (zero : List (List ℂ)) (nq : Nat) (files : List (H5 (List (List ℂ))))
    (h : runFiles fl s R nx ny nz f niw niwV niwC nivV gamD gamM b beta u = some files) :
    load4 "f_".toList zero nq niwV files = opt4
      ((optFiles false s R nx ny nz f niw niwV niwC nivV gamM b beta u).bind (loadVertex "f_".toList zero nq niwV))
      ((optFiles true s R nx ny nz f niw niwV niwC nivV gamM b beta u).bind (loadVertex "f_".toList zero nq niwV))
      ((optFiles false s R nx ny nz f niw niwV niwC nivV gamD b beta u).bind (loadVertex "f_".toList zero nq niwV))
      ((optFiles true s R nx ny nz f niw niwV niwC nivV gamD b beta u).bind (loadVertex "f_".toList zero nq niwV)) := by
  unfold runFiles at h
  rw [Option.bind_eq_some_iff] at h
  obtain ⟨Ds, hDs, hf⟩ := h
  have hOk := mapM_ok fl s R nx ny nz f niw niwV niwC nivV gamD gamM b beta u hR Ds hDs
  have hmain := shared_optics fl hv zero nq niwV Ds hOk
  rw [hf, Option.bind_some] at hmain
  rw [hmain]
  obtain ⟨irr, hirr⟩ := irr_some fl s R nx ny nz f niw niwV niwC nivV gamD gamM b beta u hR Ds hDs
  have hown : ∀ magn second, optFiles second s R nx ny nz f niw niwV niwC nivV (if magn then gamM else gamD) b beta u =
      Ds.mapM fun D => writeVertex "f_".toList D.tasks D.wnV (D.opt magn second) [] := by
    intro magn second
    unfold optFiles
    rw [hirr, Option.bind_some]
    refine mapM_link _ _ _ _ ?_ Ds hDs
    intro r D hD
    obtain ⟨irr', p, cd, cm, sd, sm, h1, h2, h3, h4, h6, h5, h7, w1, w2, w3, w4, w5, w6, -⟩ := rankData_some fl s R nx ny nz f niw niwV niwC nivV gamD gamM b beta u r D hD
    rw [hirr] at h1
    cases h1
    have hs : ∀ (comps : List (List (Mat (2 * c) ℂ × Mat (2 * c) ℂ))) (g : Bool → List (List (List (List ℂ)))), slices2 fl niw niwV niwC nivV comps = some g →
        slicesOf niw niwV niwC nivV second comps = some (g second) := by
      intro comps g hg
      unfold slices2 at hg
      rw [if_pos hv] at hg
      simp only [Option.bind_eq_some_iff, Option.map_eq_some_iff] at hg
      obtain ⟨a, ha, b', hb', rfl⟩ := hg
      cases second
      · exact ha
      · exact hb'
    have hd := hs cd sd h5
    have hm := hs cm sm h7
    unfold slicesOf part at hd hm
    simp only [h2, h3, Option.bind_some]
    cases magn
    · simp only [Bool.false_eq_true, if_false, h4, Option.bind_some, hd, w2, w6]
    · simp only [if_true, h6, Option.bind_some, hm, w2, w6]
  have e := fun magn second => congrArg (fun x => x.bind (loadVertex "f_".toList zero nq niwV)) (hown magn second)
  have e1 := e true false
  have e2 := e true true
  have e3 := e false false
  have e4 := e false true
  simp only [if_true, Bool.false_eq_true, if_false] at e1 e2 e3 e4
  rw [e1, e2, e3, e4]
  rfl

/-- C137.  The full ladder vertex, likewise. -/
theorem run_fq (hR : 0 < R) (hv : fl.fq = true) (zero : List (List ℂ)) (nq : Nat) (files : List (H5 (List (List ℂ))))
    (h : runFiles fl s R nx ny nz f niw niwV niwC nivV gamD gamM b beta u = some files) :
    load4 "fq_".toList zero nq niw files = opt4
      ((fqFiles false s R nx ny nz f niw gamM b beta u).bind (loadVertex "fq_".toList zero nq niw))
      ((fqFiles true s R nx ny nz f niw gamM b beta u).bind (loadVertex "fq_".toList zero nq niw))
      ((fqFiles false s R nx ny nz f niw gamD b beta u).bind (loadVertex "fq_".toList zero nq niw))
      ((fqFiles true s R nx ny nz f niw gamD b beta u).bind (loadVertex "fq_".toList zero nq niw)) := by
  unfold runFiles at h
  rw [Option.bind_eq_some_iff] at h
  obtain ⟨Ds, hDs, hf⟩ := h
  have hOk := mapM_ok fl s R nx ny nz f niw niwV niwC nivV gamD gamM b beta u hR Ds hDs
  have hmain := shared_fq fl hv zero nq niw Ds hOk
  rw [hf, Option.bind_some] at hmain
  rw [hmain]
  obtain ⟨irr, hirr⟩ := irr_some fl s R nx ny nz f niw niwV niwC nivV gamD gamM b beta u hR Ds hDs
  have hown : ∀ magn second, fqFiles second s R nx ny nz f niw (if magn then gamM else gamD) b beta u =
      Ds.mapM fun D => writeVertex "fq_".toList D.tasks D.wn (D.fq magn second) [] := by
    intro magn second
    unfold fqFiles
    rw [hirr, Option.bind_some]
    refine mapM_link _ _ _ _ ?_ Ds hDs
    intro r D hD
    obtain ⟨irr', p, cd, cm, sd, sm, h1, h2, h3, h4, h6, h5, h7, w1, w2, w3, w4, w5, w6, w7⟩ := rankData_some fl s R nx ny nz f niw niwV niwC nivV gamD gamM b beta u r D hD
    rw [hirr] at h1
    cases h1
    simp only [h2, h3, Option.bind_some]
    cases magn
    · simp only [Bool.false_eq_true, if_false, h4, Option.bind_some, w1, w7]
    · simp only [if_true, h6, Option.bind_some, w1, w7]
  have e := fun magn second => congrArg (fun x => x.bind (loadVertex "fq_".toList zero nq niw)) (hown magn second)
  have e1 := e true false
  have e2 := e true true
  have e3 := e false false
  have e4 := e false true
  simp only [if_true, Bool.false_eq_true, if_false] at e1 e2 e3 e4
  rw [e1, e2, e3, e4]
  rfl

theorem mapM_all {α γ : Type} (l : List α) (f : α → Option γ) : (∃ r, l.mapM f = some r) ↔ ∀ a ∈ l, ∃ c, f a = some c := by
  induction l with
  | nil => simp
  | cons a l ih =>
    rw [List.mapM_cons]
    cases h1 : f a with
    | none => simp [h1]
    | some c =>
      cases h2 : l.mapM f with
      | none =>
        have : ¬ ∀ a ∈ l, ∃ c, f a = some c := by rw [← ih]; simp [h2]
        simp only [List.mem_cons, forall_eq_or_imp]
        constructor
        · rintro ⟨r, hr⟩; cases hr
        · rintro ⟨-, hr⟩; exact (this hr).elim
      | some cs =>
        have : ∀ a ∈ l, ∃ c, f a = some c := by rw [← ih]; exact ⟨_, h2⟩
        simp only [List.mem_cons, forall_eq_or_imp]
        exact ⟨fun _ => ⟨⟨c, h1⟩, this⟩, fun _ => ⟨_, rfl⟩⟩

/-- C137.  Sharing the files causes no failure: if the ladder can be solved in both channels (so that pairing files of their own could be written) and, in
    case the optics vertex is asked for, the optics slices of both components of both channels can be cut out, then the run writes its rank files,
    whatever the flags. -/
theorem run_returns (hR : 0 < R) (hpv : ∀ magn : Bool, ∃ F, pvFiles false s R nx ny nz f niw (if magn then gamM else gamD) b beta u = some F)
    (hopt : fl.vertex = true → ∀ magn second : Bool, ∃ F, optFiles second s R nx ny nz f niw niwV niwC nivV (if magn then gamM else gamD) b beta u = some F) :
    ∃ files, runFiles fl s R nx ny nz f niw niwV niwC nivV gamD gamM b beta u = some files := by
  have hdata : ∃ Ds, (List.range R).mapM (rankData fl s R nx ny nz f niw niwV niwC nivV gamD gamM b beta u) = some Ds := by
    rw [mapM_all]
    intro r hr
    have hd := hpv false
    have hm := hpv true
    simp only [if_true, Bool.false_eq_true, if_false] at hd hm
    unfold pvFiles at hd hm
    cases hirr : irrqList nx ny nz f with
    | none => rw [hirr] at hd; obtain ⟨F, hF⟩ := hd; cases hF
    | some irr =>
      rw [hirr] at hd hm
      simp only [Option.bind_some] at hd hm
      rw [mapM_all] at hd hm
      obtain ⟨Fd, hd⟩ := hd r hr
      obtain ⟨Fm, hm⟩ := hm r hr
      simp only [Option.bind_eq_some_iff] at hd hm
      obtain ⟨p, hp, ts, hts, cd, hcd, -⟩ := hd
      obtain ⟨p', hp', ts', hts', cm, hcm, -⟩ := hm
      rw [hp] at hp'; cases hp'
      have hs : ∀ (magn : Bool) (comps : List (List (Mat (2 * c) ℂ × Mat (2 * c) ℂ))),
          rankComp s (if magn then gamM else gamD) b beta u (Py.slice (irr.map momOf) p.1 p.2) = some comps → ∃ g, slices2 fl niw niwV niwC nivV comps = some g := by
        intro magn comps hc
        unfold slices2
        by_cases hv : fl.vertex = true
        · rw [if_pos hv]
          have hone : ∀ second : Bool, ∃ a, slicesOf niw niwV niwC nivV second comps = some a := by
            intro second
            obtain ⟨F, hF⟩ := hopt hv magn second
            unfold optFiles at hF
            rw [hirr, Option.bind_some] at hF
            obtain ⟨a, ha⟩ := (mapM_all _ _).1 ⟨F, hF⟩ r hr
            simp only [hp, hts, hc, Option.bind_some, Option.bind_eq_some_iff] at ha
            obtain ⟨x, hx, -⟩ := ha
            exact ⟨x, hx⟩
          obtain ⟨x, hx⟩ := hone false
          obtain ⟨y, hy⟩ := hone true
          rw [hx, hy]
          exact ⟨_, rfl⟩
        · rw [if_neg hv]
          exact ⟨_, rfl⟩
      obtain ⟨sd, hsd⟩ := hs false cd hcd
      obtain ⟨sm, hsm⟩ := hs true cm hcm
      unfold rankData
      simp only [hirr, hp, hts, hcd, hsd, hcm, hsm, Option.bind_some, Option.map_some]
      exact ⟨_, rfl⟩
  obtain ⟨Ds, hDs⟩ := hdata
  obtain ⟨files, hf⟩ := shared_written fl Ds (mapM_ok fl s R nx ny nz f niw niwV niwC nivV gamD gamM b beta u hR Ds hDs)
  exact ⟨files, by unfold runFiles; rw [hDs, Option.bind_some, hf]⟩

end DGA.Shared
