/-
  Concrete cases for C134 and C135: configuration files, a Wannier90 file, and the run of Ex3 started from them.
-/
import Verif.Pipeline.Program
import Verif.Pipeline.FromFilesEx

namespace DGA.Pipe.Ex4

open DGA.Bz DGA.Wan DGA.WanIo DGA.Inp DGA.Pipe
open DGA.RankFiles (Str)

/-- a Wannier90 file with `t = 1/2`, `t' = t'' = 0`, written by the program -/
def wan : String → Option (List Str) := fun f => if f = "hr.dat" then some (writeHr true 12 1 (List.replicate 12 1) (squareRows (1 / 2) 0 0)) else none

/-- the input options of both configuration files -/
def input : Option Cfg.Dict := some [("type", .str "test"), ("input_path", .str "in/"), ("fname_1p", .str "data.npy"), ("fname_2p", .null),
  ("do_sym_v_vp", .bool false)]

/-- a configuration with hopping amplitudes -/
def confHop : Cfg.CfgFile :=
  [("lattice", some [("type", .str "t_tp_tpp"), ("hr_input", .list [.num (1 / 2), .int 0, .int 0]), ("nk", .list [.int 2, .int 1, .int 1]),
    ("symmetries", .str "quasi_one_dimensional_square")]), ("dmft_input", input), ("box_sizes", some [("niv_core", .int 1)])]

/-- the same with a Wannier90 file -/
def confFile : Cfg.CfgFile :=
  [("lattice", some [("type", .str "from_wannier90"), ("hr_input", .str "hr.dat"), ("nk", .list [.int 2, .int 1, .int 1]),
    ("symmetries", .str "quasi_one_dimensional_square")]), ("dmft_input", input), ("box_sizes", some [("niv_core", .int 1)])]

theorem read_ok : ((wan "hr.dat").bind readHr).isSome = true := by
  have h : wan "hr.dat" = some (writeHr true 12 1 (List.replicate 12 1) (squareRows (1 / 2) 0 0)) := rfl
  rw [h, Option.bind_some, hr_file_roundtrip true 12 1 _ _ rfl rfl, if_pos (by decide +kernel)]
  rfl

theorem half_rounded : rounded (1 / 2) = 1 / 2 ∧ rounded 0 = 0 := by decide +kernel

theorem hr_hop : latticeHr wan (.hop (1 / 2) 0 0) = some ⟨0, oneBand (1 / 2) 0 0⟩ := by
  simp [latticeHr]

theorem hr_file : latticeHr wan (.file "hr.dat") = some ⟨0, oneBand (1 / 2) 0 0⟩ := by
  obtain ⟨h1, h2⟩ := half_rounded
  rw [saved_square wan "hr.dat" true (1 / 2) 0 0 (by rw [h1]; norm_num) (by rw [h2]; norm_num) (by rw [h2]; norm_num) rfl, h1, h2, hr_hop]

theorem irr : Cfg.irrPoints (2, 1, 1) nematic = 2 := by
  unfold Cfg.irrPoints
  decide +kernel

theorem means_hop : Means wan confHop 2 "test" "in/" "data.npy" none Ex3.S :=
  ⟨⟨_, .hop (1 / 2) 0 0, rfl, ⟨rfl, rfl, .quasi1d, .hop _ _ _ _ _ _ rfl rfl rfl⟩, hr_hop⟩, by simp [confHop, input, Cfg.lookup_cons_if], rfl, irr.ge, rfl, rfl, rfl, rfl, rfl, rfl, rfl, rfl,
    rfl, rfl⟩

theorem means_file : Means wan confFile 2 "test" "in/" "data.npy" none Ex3.S :=
  ⟨⟨_, .file "hr.dat", rfl, ⟨rfl, rfl, .quasi1d, .file _ read_ok⟩, hr_file⟩, by simp [confFile, input, Cfg.lookup_cons_if], rfl, irr.ge, rfl, rfl, rfl, rfl, rfl, rfl, rfl, rfl, rfl, rfl⟩

theorem wf (conf : Cfg.CfgFile) (h : ∀ p ∈ conf, ∀ e, p.2 = some e → (e.map Prod.fst).Nodup) (s : String) (e : Cfg.Dict)
    (hl : conf.lookup s = some (some e)) : (e.map Prod.fst).Nodup := by
  induction conf with
  | nil => cases hl
  | cons p conf ih =>
    rw [Cfg.lookup_cons_if] at hl
    split at hl
    · exact h p (by simp) e (Option.some.inj hl)
    · exact ih (fun q hq => h q (by simp [hq])) hl

/-- **C134, C135.** Started from either configuration, the program returns the same result: that of the run of Ex3. -/
theorem both_return : ∃ out, program Ex3.fs wan confHop 2 = .ok out ∧ program Ex3.fs wan confFile 2 = .ok out := by
  obtain ⟨out, h⟩ := Ex3.returns
  refine ⟨out, ?_, ?_⟩
  · exact (program_iff _ _ _ _ (wf confHop (by
      intro p hp e he
      simp only [confHop, input, List.mem_cons, List.not_mem_nil, or_false] at hp
      rcases hp with rfl | rfl | rfl <;> cases he <;> decide)) (by decide) _).2 ⟨_, _, _, _, _, means_hop, h⟩
  · exact (program_iff _ _ _ _ (wf confFile (by
      intro p hp e he
      simp only [confFile, input, List.mem_cons, List.not_mem_nil, or_false] at hp
      rcases hp with rfl | rfl | rfl <;> cases he <;> decide)) (by decide) _).2 ⟨_, _, _, _, _, means_file, h⟩

/-- a two-orbital table with complex elements and a weight of 2: on-site energies and a bond between neighbours along `x`; the elements of the first
    orbital are `H(±x) = 1/4 ± i/3` -/
def rows2 : List Row :=
  [⟨(0, 0, 0), (1, 1), 3 / 10, 0⟩, ⟨(0, 0, 0), (1, 2), 1, 0⟩, ⟨(0, 0, 0), (2, 1), 1, 0⟩, ⟨(0, 0, 0), (2, 2), -1, 0⟩,
   ⟨(1, 0, 0), (1, 1), 1 / 4, 1 / 3⟩, ⟨(1, 0, 0), (1, 2), 0, 0⟩, ⟨(1, 0, 0), (2, 1), 0, 0⟩, ⟨(1, 0, 0), (2, 2), 1, 0⟩,
   ⟨(-1, 0, 0), (1, 1), 1 / 4, -1 / 3⟩, ⟨(-1, 0, 0), (1, 2), 0, 0⟩, ⟨(-1, 0, 0), (2, 1), 0, 0⟩, ⟨(-1, 0, 0), (2, 2), 1, 0⟩]

/-- exchange of the last two vectors -/
def swap3 : Fin 3 ≃ Fin 3 := Equiv.swap 1 2

/-- it has inversion in `y` and is Hermitian, but it has no inversion in `x` -/
example : RowsOk 3 1 [1, 2, 2] rows2 [.yInv] ∧ ∀ x ∈ rows2, Fits x := by
  refine ⟨⟨⟨swap3, ?_⟩, ?_⟩, by decide +kernel⟩
  · intro R
    fin_cases R <;> refine ⟨fun x => ?_, by rfl, by decide +kernel, by rfl⟩ <;> fin_cases x <;> simp [first, rows2, vec, swap3, Equiv.swap_apply_def]
  · intro σ hσ
    obtain rfl := List.mem_singleton.1 hσ
    refine ⟨Equiv.refl _, fun R => ⟨?_, rfl, rfl, rfl⟩⟩
    funext x
    fin_cases R <;> fin_cases x <;> simp [first, rows2, vec, rot]

end DGA.Pipe.Ex4
