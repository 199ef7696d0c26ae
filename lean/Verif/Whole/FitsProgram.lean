/-
  C141: the complete program with polynomial fits from the configuration file on.
-/
import Verif.Whole.FitsProps

noncomputable section

namespace DGA.Whole

open DGA.Bz DGA.Wan DGA.WanIo DGA.Pipe DGA.Pairing DGA.Report DGA.Inp DGA.Two DGA.Mf
open DGA.RankFiles (Str)

/-! ### Model -/

/-- config.py:509, 525-529, dga_io.py:151, 253: whether the fits are made, with `n_fit` and `o_fit` (values other than a flag, a positive and a non-negative
    number are outside the model) -/
def fitsOf (conf : Cfg.CfgFile) : Option (Option (Nat × Nat)) :=
  let D := Cfg.newDga [] (sections conf)
  match Cfg.getattr Cfg.dgaCls D "do_poly_fitting" with
  | some (.bool false) => some none
  | some (.bool true) =>
    match D.lookup "n_fit", D.lookup "o_fit" with
    | some (.int n), some (.int o) => if 0 < n ∧ 0 ≤ o then some (some (n.toNat, o.toNat)) else none
    | _, _ => none
  | _ => none

/-- the momentum grid and the results of a complete run on it -/
abbrev PolyResult := Σ n : Nat × Nat × Nat, OneOut n.1 n.2.1 n.2.2 × Option PolyFits

/-- the complete run for given settings; grids without points are rejected before (config.py:563-565) if there is a rank -/
def mainPolyOf (fs : Inp.Fs) (s : Setup) (P : Plan) (saveFq : Bool) (F : Option (Nat × Nat)) (fit : Fitter) (X : ∀ nx ny nz, Chance nx ny nz) :
    Except String PolyResult :=
  if h : s.S.nx ≠ 0 ∧ s.S.ny ≠ 0 ∧ s.S.nz ≠ 0 then
    haveI : NeZero s.S.nx := ⟨h.1⟩
    haveI : NeZero s.S.ny := ⟨h.2.1⟩
    haveI : NeZero s.S.nz := ⟨h.2.2⟩
    match mainPoly fs s.ty s.path s.f1 s.f2 s.S P saveFq F fit (X s.S.nx s.S.ny s.S.nz) with
    | .error e => .error e
    | .ok r => .ok ⟨(s.S.nx, s.S.ny, s.S.nz), r⟩
  else .error "outside"

/-- dga_main.py:41-360: the complete program from the configuration file on -/
def programPoly (fs : Inp.Fs) (wan : String → Option (List Str)) (conf : Cfg.CfgFile) (ranks : Nat) (fit : Fitter) (X : ∀ nx ny nz, Chance nx ny nz) :
    Except String PolyResult :=
  match setupOf wan conf ranks with
  | .error e => .error e
  | .ok s =>
    match planOf conf, saveFqOf conf, fitsOf conf with
    | some P, some saveFq, some F => mainPolyOf fs s P saveFq F fit X
    | _, _, _ => .error "outside"

/-! ### Specification -/

/-- the sections in which the options of the fits may stand, highest precedence first -/
def fitSections : List String := ["dga", "output", "dmft_input", "poly_fitting"]

/-- What a configuration file says about the fits: they are made if there is a section `poly_fitting` (unless `do_poly_fitting` is given explicitly),
    with four frequencies and order three unless other numbers are given -/
def MeansFits (conf : Cfg.CfgFile) (F : Option (Nat × Nat)) : Prop :=
  optVal conf fitSections "do_poly_fitting" (.bool ((sections conf).lookup "poly_fitting").isSome) = .bool F.isSome ∧
  ∀ n o, F = some (n, o) → 0 < n ∧ optVal conf fitSections "n_fit" (.int 4) = .int n ∧ optVal conf fitSections "o_fit" (.int 3) = .int o

/-! ### Theorems -/

theorem do_fits (conf : Cfg.Conf) (hwf : Cfg.WellFormed conf) : Cfg.getattr Cfg.dgaCls (Cfg.newDga [] conf) "do_poly_fitting" =
    some ((Cfg.firstEntry conf fitSections "do_poly_fitting").getD (.bool (conf.lookup "poly_fitting").isSome)) := by
  have h := Cfg.newDga_lookup [] conf hwf "do_poly_fitting"
  simp only [String.reduceEq, if_false, true_and, List.lookup_nil] at h
  unfold Cfg.getattr
  rw [h]
  simp only [Cfg.firstEntry, fitSections, List.findSome?]
  cases Cfg.entry conf "dga" "do_poly_fitting" <;> cases Cfg.entry conf "output" "do_poly_fitting" <;> cases Cfg.entry conf "dmft_input" "do_poly_fitting" <;>
    cases Cfg.entry conf "poly_fitting" "do_poly_fitting" <;> cases hl : (conf.lookup "poly_fitting") <;> simp [Cfg.dgaCls, Cfg.lookup_cons_if]

theorem fits_iff (conf : Cfg.CfgFile) (hsec : Cfg.WellFormed (sections conf)) (F : Option (Nat × Nat)) : fitsOf conf = some F ↔ MeansFits conf F := by
  have h0 := do_fits (sections conf) hsec
  have h1 := attr_eq conf hsec "n_fit" "poly_fitting" (.int 4) (by simp [Cfg.options])
  have h2 := attr_eq conf hsec "o_fit" "poly_fitting" (.int 3) (by simp [Cfg.options])
  rw [show Cfg.precedence "poly_fitting" = fitSections from rfl] at h1 h2
  have h0' : Cfg.getattr Cfg.dgaCls (Cfg.newDga [] (sections conf)) "do_poly_fitting" =
    some (optVal conf fitSections "do_poly_fitting" (.bool ((sections conf).lookup "poly_fitting").isSome)) := h0
  unfold fitsOf MeansFits
  simp only [h0', h1, h2]
  generalize optVal conf fitSections "do_poly_fitting" _ = x
  generalize optVal conf fitSections "n_fit" _ = y
  generalize optVal conf fitSections "o_fit" _ = z
  cases x with
  | bool b =>
    cases b with
    | false =>
      simp only [Option.some.injEq, Cfg.Val.bool.injEq]
      constructor
      · rintro rfl
        exact ⟨rfl, fun n o h => by cases h⟩
      · rintro ⟨h, -⟩
        cases F with
        | none => rfl
        | some p => cases h
    | true =>
      simp only [Cfg.Val.bool.injEq]
      constructor
      · intro h
        split at h
        · rename_i n o hn ho
          split_ifs at h with hc
          cases hn
          cases ho
          cases h
          refine ⟨rfl, ?_⟩
          intro n' o' he
          cases he
          refine ⟨by omega, ?_, ?_⟩
          · rw [Int.toNat_of_nonneg (by omega)]
          · rw [Int.toNat_of_nonneg (by omega)]
        · cases h
      · rintro ⟨h, h'⟩
        cases F with
        | none => cases h
        | some p =>
          obtain ⟨n, o⟩ := p
          obtain ⟨q1, rfl, rfl⟩ := h' n o rfl
          simp only
          rw [if_pos ⟨by omega, by omega⟩]
          simp
  | _ => simp

/-- **C141 (d).** The complete program with fits started with a configuration file returns a result exactly if the file is accepted, and the run of (a) to (c) with
    the input files, settings, plan and fits the file means returns it. -/
theorem program_poly_iff (fs : Inp.Fs) (wan : String → Option (List Str)) (conf : Cfg.CfgFile) (ranks : Nat) (fit : Fitter) (X : ∀ nx ny nz, Chance nx ny nz)
    (hwf : ∀ s e, conf.lookup s = some (some e) → (e.map Prod.fst).Nodup) (hkeys : (conf.map Prod.fst).Nodup) (res : PolyResult) :
    programPoly fs wan conf ranks fit X = .ok res ↔
      ∃ (ty path f1 : String) (f2 : Option String) (S : Settings) (P : Plan) (saveFq : Bool) (F : Option (Nat × Nat)) (_ : NeZero S.nx) (_ : NeZero S.ny)
        (_ : NeZero S.nz) (r : OneOut S.nx S.ny S.nz × Option PolyFits), Means wan conf ranks ty path f1 f2 S ∧ MeansPlan conf P ∧
        optVal conf ["dga", "output"] "save_fq" (.bool false) = .bool saveFq ∧ MeansFits conf F ∧
        mainPoly fs ty path f1 f2 S P saveFq F fit (X S.nx S.ny S.nz) = .ok r ∧ res = ⟨(S.nx, S.ny, S.nz), r⟩ := by
  have hsec := sections_wf conf hwf hkeys
  have key := setup_iff wan conf ranks hwf hkeys
  have hfq : ∀ b, saveFqOf conf = some b ↔ optVal conf ["dga", "output"] "save_fq" (.bool false) = .bool b := by
    intro b
    exact boolAttr_iff _ _ _ (attr_eq conf hsec "save_fq" "output" (.bool false) (by simp [Cfg.options])) b
  unfold programPoly
  constructor
  · intro h
    split at h
    · cases h
    · rename_i s hs
      split at h
      swap
      · cases h
      · rename_i P b F hP hb hF
        unfold mainPolyOf at h
        split_ifs at h with hz
        split at h
        · cases h
        · rename_i r hr
          cases h
          exact ⟨s.ty, s.path, s.f1, s.f2, s.S, P, b, F, ⟨hz.1⟩, ⟨hz.2.1⟩, ⟨hz.2.2⟩, r, (key s).1 hs, (plan_iff conf hsec P).1 hP, (hfq b).1 hb,
            (fits_iff conf hsec F).1 hF, hr, rfl⟩
  · rintro ⟨ty, path, f1, f2, S, P, b, F, z1, z2, z3, r, hm, hP, hb, hF, hr, rfl⟩
    rw [(key ⟨ty, path, f1, f2, S⟩).2 hm, (plan_iff conf hsec P).2 hP, (hfq b).2 hb, (fits_iff conf hsec F).2 hF]
    simp only
    unfold mainPolyOf
    rw [dif_pos ⟨NeZero.ne S.nx, NeZero.ne S.ny, NeZero.ne S.nz⟩]
    simp only [hr]

/-! ### The input of Whole/Ex.lean -/

/-- (a) to (c): the complete run of C140 with fits returns, on two ranks and on five, on the 4×4 grid with two frequencies -/
theorem ex_poly (eliash vertex saveFq : Bool) (nFit order : Nat) (fit : Fitter) : ∃ r t, mainPoly Pairing.Ex4.fs "test" "in/" "data.npy" none { Pairing.Ex4.S with ranks := 5 }
      (onePlan eliash vertex) saveFq (some (nFit, order)) fit (Pairing.Ex4.X 1) = .ok (r, some t) ∧
    mainPoly Pairing.Ex4.fs "test" "in/" "data.npy" none Pairing.Ex4.S (onePlan eliash vertex) saveFq (some (nFit, order)) fit (Pairing.Ex4.X 1) = .ok (r, some t) := by
  obtain ⟨r, -, h2, -⟩ := ex_one 5 (by norm_num) eliash vertex saveFq
  obtain ⟨fits, h3⟩ := (poly_iff Pairing.Ex4.theFiles (onePlan eliash vertex) saveFq (some (nFit, order)) fit (Pairing.Ex4.X 1) r).2 ⟨h2, fun _ => ⟨by decide, by decide⟩⟩
  rcases poly_values Pairing.Ex4.theFiles _ _ _ _ _ _ _ h3 with ⟨h, -⟩ | ⟨n, o, a, op, mu, t, -, rfl, -⟩
  · cases h
  · exact ⟨r, t, (poly_ranks Pairing.Ex4.theFiles (by decide) _ _ _ _ _ 5 (by norm_num) r _).2 h3, h3⟩

/-- (b): the map of the self-energy at `(2, 2, 0)` holds what is fitted at Γ -/
example (fit : Fitter) : ∃ r t, mainPoly Pairing.Ex4.fs "test" "in/" "data.npy" none Pairing.Ex4.S (onePlan true true) true (some (4, 3)) fit (Pairing.Ex4.X 1) = .ok (r, some t) ∧
    MapsAt t.siw (2, 2, 0) (fit 4 3 (freqs Pairing.Ex4.theFiles.beta 2) (valsAt 2 (sigmaAt Pairing.Ex4.S r.main.sigma 0 0 0))) := by
  obtain ⟨r, t, -, h⟩ := ex_poly true true true 4 3 fit
  refine ⟨r, t, h, ?_⟩
  rcases poly_values Pairing.Ex4.theFiles _ _ _ _ _ _ _ h with ⟨h', -⟩ | ⟨n, o, a, op, mu, t', e1, e2, -, -, -, -, e3, -⟩
  · cases h'
  · cases e1
    cases e2
    obtain ⟨q, -, -, hq, hv⟩ := e3 (2, 2, 0) ⟨by decide, by decide, by decide⟩
    obtain rfl := hq (by decide) (by decide)
    exact hv

/-- a configuration that asks for fits of order two -/
def polyConf (vertex saveFq : Bool) : Cfg.CfgFile := oneConf vertex saveFq ++ [("poly_fitting", some [("o_fit", .int 2)])]

/-- (d): with this configuration file the fits are made with four frequencies and order two; without the section none are made -/
example (vertex saveFq : Bool) : MeansFits (polyConf vertex saveFq) (some (4, 2)) ∧ MeansFits (oneConf vertex saveFq) none :=
  ⟨⟨rfl, fun n o h => by cases h; exact ⟨by decide, rfl, rfl⟩⟩, ⟨rfl, fun n o h => by cases h⟩⟩

/-- (d): started with this configuration file the program returns all parts -/
example (vertex saveFq : Bool) (fit : Fitter) : ∃ res, programPoly Pairing.Ex4.fs (fun _ => none) (polyConf vertex saveFq) 2 fit (fun _ _ _ => ⟨fun _ _ => some 1, fun _ _ _ _ _ => 1,
    fun _ _ _ _ _ => 1, fun _ _ _ => 1⟩) = .ok res ∧ res.2.2.isSome = true := by
  obtain ⟨out, h⟩ := Pairing.Ex4.returns
  have hr : mainRun Pairing.Ex4.fs "test" "in/" "data.npy" none (withAs Pairing.Ex4.S 6) = .ok out := by
    rw [(Pairing.Ex4.theFiles.enlarge 6 le_rfl).mainRun_eq]
    rw [Pairing.Ex4.theFiles.mainRun_eq] at h
    exact h
  obtain ⟨r, h1, -⟩ := one_returns (Pairing.Ex4.theFiles.enlarge 6 le_rfl) (by decide) (exPlan vertex) saveFq (Pairing.Ex4.X 1) 6 ⟨1, 1, 2, 4, 1⟩
    Pairing.Ex4.ranges (fun _ => rfl) (fun _ => ⟨by decide, by decide⟩) (fun _ => ⟨rfl, by decide⟩) out hr 1 (by simp [gfMu, updateMu, Pairing.Ex4.X]; norm_num)
  obtain ⟨fits, h3⟩ := (poly_iff (Pairing.Ex4.theFiles.enlarge 6 le_rfl) (exPlan vertex) saveFq (some (4, 2)) fit (Pairing.Ex4.X 1) r).2 ⟨h1, fun _ => ⟨by decide, by decide⟩⟩
  rcases poly_values (Pairing.Ex4.theFiles.enlarge 6 le_rfl) _ _ _ _ _ _ _ h3 with ⟨h, -⟩ | ⟨n, o, a, op, mu, t, -, rfl, -⟩
  · cases h
  refine ⟨⟨(4, 4, 1), (r, some t)⟩, (program_poly_iff _ _ _ _ _ _ ?_ (by simp [polyConf, oneConf, exConf]) _).2
    ⟨_, _, _, _, withAs Pairing.Ex4.S 6, exPlan vertex, saveFq, some (4, 2), inferInstance, inferInstance, inferInstance, (r, some t), ?_, ?_, rfl,
      ⟨rfl, fun n o h => by cases h; exact ⟨by decide, rfl, rfl⟩⟩, h3, rfl⟩, rfl⟩
  · refine Pipe.Ex4.wf _ ?_
    intro p hp e he
    simp only [polyConf, oneConf, exConf, List.mem_cons, List.mem_append, List.not_mem_nil, or_false] at hp
    rcases hp with ((rfl | rfl | rfl | rfl | rfl | rfl) | rfl) | rfl <;> cases he <;> simp
  · exact ⟨⟨_, .hop 0 0 0, rfl, ⟨rfl, rfl, .square, .hop _ _ _ _ _ _ rfl rfl rfl⟩, by simp [latticeHr, withAs, Pairing.Ex4.S]⟩,
      by simp [polyConf, oneConf, exConf, Cfg.lookup_cons_if], rfl, by rw [show (withAs Pairing.Ex4.S 6).syms = square from rfl]; exact ex_irr.ge.trans' (by decide), rfl, rfl, rfl, rfl, rfl,
      rfl, rfl, rfl, rfl, rfl⟩
  · exact ⟨rfl, rfl, rfl, rfl, rfl, Or.inr ⟨1 / 100, rfl, by simp [exPlan, Pairing.Ex4.E]⟩, rfl, rfl, rfl, by simp [exPlan, polyConf, oneConf, exConf], rfl, rfl, rfl, rfl, rfl, rfl, rfl, rfl, rfl,
      rfl⟩

end DGA.Whole
