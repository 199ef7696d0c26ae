/-
  The input of Pairing/FromFilesEx.lean through the complete program: it meets every hypothesis of C136.
-/
import Verif.Whole.Program
import Verif.Pipeline.ProgramEx
import Verif.Optics.FromFilesEx

noncomputable section

namespace DGA.Whole

open DGA.Mf DGA.Bz DGA.Bubble DGA.Fp DGA.Two DGA.Inp DGA.Pipe DGA.Pairing DGA.Pairing.Ex4

/-- everything is asked for (`vertex` as an argument) -/
def exPlan (vertex : Bool) : Plan := ⟨true, true, true, true, vertex, E, {}, 0, 0⟩

theorem ex_returns (vertex : Bool) : ∃ r, mainAll fs "test" "in/" "data.npy" none Ex4.S (exPlan vertex) (X 1) = .ok r ∧ r.pairing.isSome = true ∧
    r.optics.isSome = true := by
  obtain ⟨out, h⟩ := returns
  have hr : mainRun fs "test" "in/" "data.npy" none (withAs Ex4.S 6) = .ok out := by
    rw [(theFiles.enlarge 6 le_rfl).mainRun_eq]
    rw [theFiles.mainRun_eq] at h
    exact h
  obtain ⟨r, h1, _, h3, h4⟩ := all_returns theFiles (by decide) (exPlan vertex) (X 1) 6 ⟨1, 1, 2, 4, 1⟩ ranges rfl (fun _ => ⟨rfl, by decide⟩) out hr 1
    (by simp [gfMu, updateMu, X]; norm_num)
  exact ⟨r, h1, h3, h4⟩

/-- (a) to (d) of C136: the run returns on two ranks and on five, with and without the vertex; all its parts use the chemical potential 1, and the bubble
    has a value at frequency 0 -/
example (vertex : Bool) : ∃ r z A, mainAll fs "test" "in/" "data.npy" none Ex4.S (exPlan vertex) (X 1) = .ok r ∧
    mainAll fs "test" "in/" "data.npy" none { Ex4.S with ranks := 5 } (exPlan vertex) (X 1) = .ok r ∧ Ex4.S.ranks = 2 ∧
    r.optics = some z ∧ IsVelocity Ex4.S 0 A ∧ z.mu = 1 ∧ (∀ e ∈ r.pairing, e.mu = 1) ∧ z.ranges = ⟨1, 1, 2, 4, 1⟩ ∧ (atB z.bubble 0).isSome := by
  obtain ⟨r, h1, _, h3⟩ := ex_returns vertex
  obtain ⟨z, hz⟩ := Option.isSome_iff_exists.1 h3
  obtain ⟨A, hA⟩ := velocity Ex4.S 0
  have hmu : ∀ s : SelfEnergy, gfMu (X 1).newton s (bandOf Ex4.S) theFiles.n 0 = some 1 := by
    intro s
    simp [gfMu, updateMu, X]
    norm_num
  obtain ⟨a, mu, e1, e2, e3, e4, -, e5, e6⟩ := all_consistent theFiles (by decide) _ _ r h1
  have m1 : mu = 1 := (Option.some.inj ((hmu _).symm.trans e4)).symm
  obtain ⟨b, o, q1, q2, q3, q4, q5⟩ := (all_iff theFiles _ _ r).1 h1
  have hq := q2.symm.trans ranges
  simp only [Option.some.injEq, Prod.mk.injEq] at hq
  obtain ⟨rfl, -⟩ := hq
  have hzr : z.ranges = ⟨1, 1, 2, 4, 1⟩ := by
    rcases q5 with ⟨-, g1⟩ | ⟨-, -, -, mu', bub, F, V, g1, g2⟩ | ⟨-, -, -, b1, b2, mu', g2, g1⟩
    · rw [g1] at hz; cases hz
    · rw [← Option.some.inj (g1.symm.trans hz)]
    · rw [← Option.some.inj (g1.symm.trans hz)]
  have hfive := (all_ranks theFiles (by decide) _ _ 5 (by norm_num) r).2 h1
  have hb := all_bubble theFiles (by decide) (exPlan vertex) _ A A hA hA r h1 z hz 0 (by rw [hzr]; decide) (by rw [hzr]; decide)
  exact ⟨r, z, A, h1, hfive, rfl, hz, hA, (e6 z hz).trans m1, fun e he => (e5 e he).2.trans m1, hzr, by rw [hb]; exact Option.isSome_some⟩

/-! ### From the configuration file on -/

/-- a configuration that asks for everything -/
def exConf (vertex : Bool) : Cfg.CfgFile :=
  [("lattice", some [("type", .str "t_tp_tpp"), ("hr_input", .list [.int 0, .int 0, .int 0]), ("nk", .list [.int 4, .int 4, .int 1]),
    ("symmetries", .str "two_dimensional_square")]),
   ("dmft_input", some [("type", .str "test"), ("input_path", .str "in/"), ("fname_1p", .str "data.npy"), ("fname_2p", .null), ("do_sym_v_vp", .bool false)]),
   ("box_sizes", some [("niv_core", .int 2), ("niv_asympt", .int 6)]), ("dga", some [("lambda_corr", .str "none")]),
   ("pairing", some [("do_eliash", .bool true), ("do_pairing_vertex", .bool true), ("k_sym", .str "d-wave"), ("eps", .num (1 / 100)), ("max_count", .int 50)]),
   ("optics", some [("do_bubble", .bool true), ("do_vertex", .bool vertex)])]

theorem ex_plan (vertex : Bool) : MeansPlan (exConf vertex) (exPlan vertex) :=
  ⟨rfl, rfl, rfl, rfl, rfl, Or.inr ⟨1 / 100, rfl, by simp [exPlan, E]⟩, rfl, rfl, rfl, by simp [exPlan, exConf], rfl, rfl, rfl, rfl, rfl, rfl, rfl, rfl, rfl, rfl⟩

theorem ex_irr : Cfg.irrPoints (4, 4, 1) square = 6 := by
  unfold Cfg.irrPoints
  decide +kernel

theorem ex_means (vertex : Bool) : Means (fun _ => none) (exConf vertex) 2 "test" "in/" "data.npy" none (withAs Ex4.S 6) :=
  ⟨⟨_, .hop 0 0 0, rfl, ⟨rfl, rfl, .square, .hop _ _ _ _ _ _ rfl rfl rfl⟩, by simp [latticeHr, withAs, Ex4.S]⟩,
    by simp [exConf, Cfg.lookup_cons_if], rfl, by rw [show (withAs Ex4.S 6).syms = square from rfl]; exact ex_irr.ge.trans' (by decide), rfl, rfl, rfl, rfl, rfl, rfl, rfl, rfl, rfl, rfl⟩

/-- (f) of C136: started with this configuration file the program returns all parts -/
example (vertex : Bool) : ∃ res, programAll fs (fun _ => none) (exConf vertex) 2 (fun _ _ _ => ⟨fun _ _ => some 1, fun _ _ _ _ _ => 1,
    fun _ _ _ _ _ => 1, fun _ _ _ => 1⟩) = .ok res ∧ res.2.pairing.isSome = true ∧ res.2.optics.isSome = true := by
  obtain ⟨out, h⟩ := returns
  have hr : mainRun fs "test" "in/" "data.npy" none (withAs Ex4.S 6) = .ok out := by
    rw [(theFiles.enlarge 6 le_rfl).mainRun_eq]
    rw [theFiles.mainRun_eq] at h
    exact h
  obtain ⟨r, h1, _, h3, h4⟩ := all_returns (theFiles.enlarge 6 le_rfl) (by decide) (exPlan vertex) (X 1) 6 ⟨1, 1, 2, 4, 1⟩ ranges rfl
    (fun _ => ⟨rfl, by decide⟩) out hr 1 (by simp [gfMu, updateMu, X]; norm_num)
  refine ⟨⟨(4, 4, 1), r⟩, (program_all_iff _ _ _ _ _ ?_ (by simp [exConf]) _).2
    ⟨_, _, _, _, withAs Ex4.S 6, exPlan vertex, inferInstance, inferInstance, inferInstance, r, ex_means vertex, ex_plan vertex, h1, rfl⟩, h3, h4⟩
  refine Pipe.Ex4.wf _ ?_
  intro p hp e he
  simp only [exConf, List.mem_cons, List.not_mem_nil, or_false] at hp
  rcases hp with rfl | rfl | rfl | rfl | rfl | rfl <;> cases he <;> simp

end DGA.Whole
