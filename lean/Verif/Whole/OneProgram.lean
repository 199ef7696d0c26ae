/-
  C140: the complete program with shared rank files from the configuration file on.
-/
import Verif.Whole.OneProps

noncomputable section

namespace DGA.Whole

open DGA.Bz DGA.Wan DGA.WanIo DGA.Pipe DGA.Pairing DGA.Report DGA.Inp DGA.Two DGA.Mf
open DGA.RankFiles (Str)

/-! ### Model -/

/-- the momentum grid and the results of a complete run on it -/
abbrev OneResult := Σ n : Nat × Nat × Nat, OneOut n.1 n.2.1 n.2.2

/-- config.py:541-549 the flag `save_fq` of the run configuration (values other than `true` and `false` are outside the model) -/
def saveFqOf (conf : Cfg.CfgFile) : Option Bool := boolAttr (Cfg.newDga [] (sections conf)) "save_fq"

/-- the complete run for given settings; grids without points are rejected before (config.py:563-565) if there is a rank -/
def mainOneOf (fs : Inp.Fs) (s : Setup) (P : Plan) (saveFq : Bool) (X : ∀ nx ny nz, Chance nx ny nz) : Except String OneResult :=
  if h : s.S.nx ≠ 0 ∧ s.S.ny ≠ 0 ∧ s.S.nz ≠ 0 then
    haveI : NeZero s.S.nx := ⟨h.1⟩
    haveI : NeZero s.S.ny := ⟨h.2.1⟩
    haveI : NeZero s.S.nz := ⟨h.2.2⟩
    match mainOne fs s.ty s.path s.f1 s.f2 s.S P saveFq (X s.S.nx s.S.ny s.S.nz) with
    | .error e => .error e
    | .ok r => .ok ⟨(s.S.nx, s.S.ny, s.S.nz), r⟩
  else .error "outside"

/-- dga_main.py:41-360: the complete program from the configuration file on -/
def programOne (fs : Inp.Fs) (wan : String → Option (List Str)) (conf : Cfg.CfgFile) (ranks : Nat) (X : ∀ nx ny nz, Chance nx ny nz) :
    Except String OneResult :=
  match setupOf wan conf ranks with
  | .error e => .error e
  | .ok s =>
    match planOf conf, saveFqOf conf with
    | some P, some saveFq => mainOneOf fs s P saveFq X
    | _, _ => .error "outside"

/-! ### Theorems -/

/-- **C140 (e).** The complete program started with a configuration file returns a result exactly if the file is accepted, and the complete run of (a) to
    (d) with the input files, settings and plan the file means returns it; `save_fq` is read from the section `output` (or `dga`) and off by default. -/
theorem program_one_iff (fs : Inp.Fs) (wan : String → Option (List Str)) (conf : Cfg.CfgFile) (ranks : Nat) (X : ∀ nx ny nz, Chance nx ny nz)
    (hwf : ∀ s e, conf.lookup s = some (some e) → (e.map Prod.fst).Nodup) (hkeys : (conf.map Prod.fst).Nodup) (res : OneResult) :
    programOne fs wan conf ranks X = .ok res ↔
      ∃ (ty path f1 : String) (f2 : Option String) (S : Settings) (P : Plan) (saveFq : Bool) (_ : NeZero S.nx) (_ : NeZero S.ny) (_ : NeZero S.nz)
        (r : OneOut S.nx S.ny S.nz), Means wan conf ranks ty path f1 f2 S ∧ MeansPlan conf P ∧
        optVal conf ["dga", "output"] "save_fq" (.bool false) = .bool saveFq ∧
        mainOne fs ty path f1 f2 S P saveFq (X S.nx S.ny S.nz) = .ok r ∧ res = ⟨(S.nx, S.ny, S.nz), r⟩ := by
  have hsec := sections_wf conf hwf hkeys
  have key := setup_iff wan conf ranks hwf hkeys
  have hfq : ∀ b, saveFqOf conf = some b ↔ optVal conf ["dga", "output"] "save_fq" (.bool false) = .bool b := by
    intro b
    exact boolAttr_iff _ _ _ (attr_eq conf hsec "save_fq" "output" (.bool false) (by simp [Cfg.options])) b
  unfold programOne
  constructor
  · intro h
    split at h
    · cases h
    · rename_i s hs
      split at h
      swap
      · cases h
      · rename_i P b hP hb
        unfold mainOneOf at h
        split_ifs at h with hz
        split at h
        · cases h
        · rename_i r hr
          cases h
          exact ⟨s.ty, s.path, s.f1, s.f2, s.S, P, b, ⟨hz.1⟩, ⟨hz.2.1⟩, ⟨hz.2.2⟩, r, (key s).1 hs, (plan_iff conf hsec P).1 hP, (hfq b).1 hb, hr, rfl⟩
  · rintro ⟨ty, path, f1, f2, S, P, b, z1, z2, z3, r, hm, hP, hb, hr, rfl⟩
    rw [(key ⟨ty, path, f1, f2, S⟩).2 hm, (plan_iff conf hsec P).2 hP, (hfq b).2 hb]
    simp only
    unfold mainOneOf
    rw [dif_pos ⟨NeZero.ne S.nx, NeZero.ne S.ny, NeZero.ne S.nz⟩]
    simp only [hr]

/-! ### The input of Whole/Ex.lean -/

/-- the plan of Whole/Ex.lean with or without the Eliashberg equation -/
def onePlan (eliash vertex : Bool) : Plan := { exPlan vertex with eliash := eliash }

theorem ex_one (R : Nat) (hR : 0 < R) (eliash vertex saveFq : Bool) : ∃ r, mainOne Pairing.Ex4.fs "test" "in/" "data.npy" none { Pairing.Ex4.S with ranks := R } (onePlan eliash vertex) saveFq
      (Pairing.Ex4.X 1) = .ok r ∧ mainOne Pairing.Ex4.fs "test" "in/" "data.npy" none Pairing.Ex4.S (onePlan eliash vertex) saveFq (Pairing.Ex4.X 1) = .ok r ∧
    r.pv.isSome = true ∧ r.fq.isSome = saveFq ∧ r.pairing.isSome = eliash ∧ r.optics.isSome = true := by
  obtain ⟨out, h⟩ := Pairing.Ex4.returns
  have hr : mainRun Pairing.Ex4.fs "test" "in/" "data.npy" none (withAs Pairing.Ex4.S 6) = .ok out := by
    rw [(Pairing.Ex4.theFiles.enlarge 6 le_rfl).mainRun_eq]
    rw [Pairing.Ex4.theFiles.mainRun_eq] at h
    exact h
  obtain ⟨r, h1, -, h2, h3, h4, h5⟩ := one_returns Pairing.Ex4.theFiles (by decide) (onePlan eliash vertex) saveFq (Pairing.Ex4.X 1) 6 ⟨1, 1, 2, 4, 1⟩
    Pairing.Ex4.ranges (fun _ => rfl) (fun _ => ⟨by decide, by decide⟩) (fun _ => ⟨rfl, by decide⟩) out hr 1 (by simp [gfMu, updateMu, Pairing.Ex4.X]; norm_num)
  exact ⟨r, (one_ranks Pairing.Ex4.theFiles (by decide) _ _ _ R hR r).2 h1, h1, h2, h3, h4, h5⟩

/-- (a) to (d): the run returns on two ranks and on five for all flags, and its parts are those of the separate runs -/
example (eliash vertex saveFq : Bool) : ∃ r, mainOne Pairing.Ex4.fs "test" "in/" "data.npy" none { Pairing.Ex4.S with ranks := 5 } (onePlan eliash vertex) saveFq
      (Pairing.Ex4.X 1) = .ok r ∧ mainAll Pairing.Ex4.fs "test" "in/" "data.npy" none Pairing.Ex4.S (onePlan eliash vertex).forAll (Pairing.Ex4.X 1) = .ok r.all ∧
    r.pv.isSome = true ∧ r.fq.isSome = saveFq := by
  obtain ⟨r, h1, h2, h3, h4, -⟩ := ex_one 5 (by norm_num) eliash vertex saveFq
  exact ⟨r, h1, ((one_iff Pairing.Ex4.theFiles _ _ _ r).1 h2).1, h3, h4⟩

/-- a configuration that also asks for the full vertices -/
def oneConf (vertex saveFq : Bool) : Cfg.CfgFile := exConf vertex ++ [("output", some [("save_fq", .bool saveFq)])]

/-- (e): started with this configuration file the program returns all parts -/
example (vertex saveFq : Bool) : ∃ res, programOne Pairing.Ex4.fs (fun _ => none) (oneConf vertex saveFq) 2 (fun _ _ _ => ⟨fun _ _ => some 1, fun _ _ _ _ _ => 1,
    fun _ _ _ _ _ => 1, fun _ _ _ => 1⟩) = .ok res ∧ res.2.pv.isSome = true ∧ res.2.fq.isSome = saveFq := by
  obtain ⟨out, h⟩ := Pairing.Ex4.returns
  have hr : mainRun Pairing.Ex4.fs "test" "in/" "data.npy" none (withAs Pairing.Ex4.S 6) = .ok out := by
    rw [(Pairing.Ex4.theFiles.enlarge 6 le_rfl).mainRun_eq]
    rw [Pairing.Ex4.theFiles.mainRun_eq] at h
    exact h
  obtain ⟨r, h1, -, h2, h3, -⟩ := one_returns (Pairing.Ex4.theFiles.enlarge 6 le_rfl) (by decide) (exPlan vertex) saveFq (Pairing.Ex4.X 1) 6 ⟨1, 1, 2, 4, 1⟩
    Pairing.Ex4.ranges (fun _ => rfl) (fun _ => ⟨by decide, by decide⟩) (fun _ => ⟨rfl, by decide⟩) out hr 1 (by simp [gfMu, updateMu, Pairing.Ex4.X]; norm_num)
  refine ⟨⟨(4, 4, 1), r⟩, (program_one_iff _ _ _ _ _ ?_ (by simp [oneConf, exConf]) _).2
    ⟨_, _, _, _, withAs Pairing.Ex4.S 6, exPlan vertex, saveFq, inferInstance, inferInstance, inferInstance, r, ?_, ?_, rfl, h1, rfl⟩, h2, h3⟩
  · refine Pipe.Ex4.wf _ ?_
    intro p hp e he
    simp only [oneConf, exConf, List.mem_cons, List.mem_append, List.not_mem_nil, or_false] at hp
    rcases hp with (rfl | rfl | rfl | rfl | rfl | rfl) | rfl <;> cases he <;> simp
  · exact ⟨⟨_, .hop 0 0 0, rfl, ⟨rfl, rfl, .square, .hop _ _ _ _ _ _ rfl rfl rfl⟩, by simp [latticeHr, withAs, Pairing.Ex4.S]⟩,
      by simp [oneConf, exConf, Cfg.lookup_cons_if], rfl, by rw [show (withAs Pairing.Ex4.S 6).syms = square from rfl]; exact ex_irr.ge.trans' (by decide), rfl, rfl, rfl, rfl, rfl,
      rfl, rfl, rfl, rfl, rfl⟩
  · exact ⟨rfl, rfl, rfl, rfl, rfl, Or.inr ⟨1 / 100, rfl, by simp [exPlan, Pairing.Ex4.E]⟩, rfl, rfl, rfl, by simp [exPlan, oneConf, exConf], rfl, rfl, rfl, rfl, rfl, rfl, rfl, rfl, rfl,
      rfl⟩

end DGA.Whole
