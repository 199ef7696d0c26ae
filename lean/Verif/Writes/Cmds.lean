/- Facts about the list of accesses. -/
import Verif.Writes.PathLemmas

namespace DGA.Wr

open DGA.RankFiles (Str decDigits decDigits_all isDigit rankFileName rankFileName_injective)
open DGA.Spmd (Dir Flags MeFlags)

/-- all accesses with fixed names (every optional part switched on) -/
def fixedC : List Cmd :=
  [.mkdir .out, .mkdir .plots, .mkdir .poly, .mkdir .eliash, .mkdir .optics] ++ startC ++
  (polyC "Giwk_dmft_poly_cont_" "giwk_dmft fit" ++ [putAs .poly "Siw_DMFT_polyfit.txt" "siw_dmft fit"]) ++
  [fig4 .plots "Gchi_dens" "0" "-1".toList "gchi_dens(0)", fig4 .plots "Gchi_magn" "0" "-1".toList "gchi_magn(0)",
     saveData .out "gamma_dens" "gamma_dens", saveData .out "gamma_magn" "gamma_magn",
     putAs .plots "/chi_dens_magn_loc.png" "chi local", putAs .plots "/sde__check.png" "sde check",
     saveData .out "siw_sde_full" "siw_sde_full", saveData .out "chi_dens_loc" "chi_dens_loc",
     saveData .out "chi_magn_loc" "chi_magn_loc", logC] ++
  [.put .plots ("//F_dc_wn0_niv-1.png".toList) (some "f_dc"),
    saveData .out "vrg_q_magn" "vrg_q_magn", saveData .out "vrg_q_dens" "vrg_q_dens"] ++ lambdaC ++
  [fig .eliash "F_sing_pp" "f_sing plot", fig .eliash "F_trip_pp" "f_trip plot", fig .eliash "F_sing_pp_loc" "f_sing loc",
     fig .eliash "F_trip_pp_loc" "f_trip loc", saveData .eliash "F_sing_pp" "f_sing", saveData .eliash "F_trip_pp" "f_trip",
     fig .optics "F_dens_niw0" "f_dens(0)", fig .optics "F_magn_niw0" "f_magn(0)", fig .optics "F_cond_niw0" "f_cond(0)",
     saveData .optics "F_cond" "f_cond", fig .out "F_dens_niw0" "fq_dens(0)", fig .out "F_magn_niw0" "fq_magn(0)",
     saveData .out "F_dens" "fq_dens", saveData .out "F_magn" "fq_magn",
     putAs .out "/oz_coeff.txt" "oz_coeff", fig .out "oz_fit" "oz plot"] ++
  [fig .plots "Siwk_dga_kz0" "siwk_dga plot", putAs .plots "/sde_dga_loc_check.png" "sde dga_loc",
       putAs .plots "/sde_dga_loc_core_check.png" "sde dga_loc_core",
     saveData .out "siwk_dga" "siwk_dga", fig .plots "Giwk_dga_kz0" "giwk_dga plot", saveData .out "giwk_dga" "giwk_dga",
     putAs .out "/mu.txt" "mu", putAs .plots "/Sigma_{dga}_along_Fermi_surface.png" "siwk_dga fs", putAs .out "/energies.txt" "energies"] ++
  polyC "Siwk_poly_cont_" "siwk_dga fit" ++ polyC "Giwk_dga_poly_cont_" "giwk_dga fit" ++
  [putAs .eliash "/eliashberg_config.yaml" "eliashberg config",
    fig .eliash "Gamma_sing_pp_loc" "gamma_sing loc", fig .eliash "Gamma_trip_pp_loc" "gamma_trip loc",
    saveData .eliash "eliashberg" "eliashberg", putAs .eliash "eigenvalues.txt" "lam", putAs .eliash "eigenvalues_s.txt" "lam_s",
    cleanData .eliash "F_sing_pp", cleanData .eliash "F_trip_pp",
    putAs .optics "/optics_config.yaml" "optics config", saveData .optics "chijj_bubble" "chijj_bubble",
    saveData .optics "chijj_vert" "chijj_vert", putAs .optics "optical_conductivity_matsubara.png" "optics matsubara",
    putAs .optics "optical_conductivity_realf.png" "optics realf", saveData .optics "sigma_bubble_cont" "sigma_bubble_cont",
    saveData .optics "sigma_full_cont" "sigma_full_cont", saveData .optics "w" "w", cleanData .optics "F_cond"] ++
  [meLogC, .mkdir .meLoc, .mkdir .meSiwk, .mkdir .meGiwk, .mkdir .meDens, .mkdir .meMagn] ++
  locC "dmft" [] true ++ locC "dga" [] true ++ [putAs .meLoc "w.npy" "mesh"] ++
  (contC .meSiwk "swk_dga" ++ contC .meSiwk "gwk_dga" ++
      kpaths.flatMap (fun k => [kfig .meSiwk ("gwk_dga_" ++ k) ("gwk_dga " ++ k), kfig .meSiwk ("gwk_dga_wfull_" ++ k) ("gwk_dga full " ++ k)]) ++
      [putAs .meSiwk "sigma_bub.npy" "sigma_bub", putAs .meSiwk "w_bub.npy" "w_bub", kfig .meSiwk "sigma_bub" "sigma_bub plot", meLogC]) ++
  (contC .meGiwk "gwk_dga" ++ [meLogC]) ++
  (contC .meDens "chi_dens" ++ kpaths.map (fun k => kfig .meDens ("chi_dens_" ++ k) ("chi_dens " ++ k)) ++ [meLogC]) ++
  (contC .meMagn "chi_magn" ++ kpaths.map (fun k => kfig .meMagn ("chi_dens_" ++ k) ("chi_magn " ++ k)) ++ [meLogC])

/-- accesses whose names carry a blur width -/
def bwC (name : String) (bw : Str) : List Cmd :=
  [.put .meLoc (name.toList ++ ("-bw".toList ++ (bw ++ ".png".toList))) (some (name ++ " plot " ++ String.ofList bw)),
   .put .meLoc (name.toList ++ ("_cont_bw".toList ++ (bw ++ ".npy".toList))) (some (name ++ " " ++ String.ofList bw))]

/-- accesses to the own rank file -/
def rankC (r : Nat) : List Cmd := [.put .out (rankRel r) none, .del .out (rankRel r)]

/-- what one access of a run can be -/
def Known (p : Par) (r : Nat) (c : Cmd) : Prop :=
  c ∈ rankC r ∨ (r = 0 ∧ (c ∈ fixedC ∨ c ∈ gammaC p.nivG ∨ (∃ i, c = gapC "sing" i ∨ c = gapC "trip" i) ∨
    ∃ bw ∈ p.bws, c ∈ bwC "dmft" bw ∨ c ∈ bwC "dga" bw))

theorem known_fixed (p : Par) (l : List Cmd) (h : ∀ c ∈ l, c ∈ fixedC) (c : Cmd) (hc : c ∈ l) : Known p 0 c :=
  Or.inr ⟨rfl, Or.inl (h c hc)⟩

theorem known_locC (p : Par) (name : String) (hn : name = "dmft" ∨ name = "dga") (fit : Bool) (c : Cmd)
    (hc : c ∈ locC name p.bws fit) : Known p 0 c := by
  rw [locC, List.mem_append, List.mem_flatMap] at hc
  rcases hc with ⟨bw, hb, hc⟩ | hc
  · simp only [List.mem_cons, List.not_mem_nil, or_false] at hc
    rcases hc with rfl | rfl | rfl
    · refine Or.inr ⟨rfl, Or.inr (Or.inr (Or.inr ⟨bw, hb, ?_⟩))⟩
      rcases hn with rfl | rfl
      · left; simp [bwC]
      · right; simp [bwC]
    · refine Or.inr ⟨rfl, Or.inr (Or.inr (Or.inr ⟨bw, hb, ?_⟩))⟩
      rcases hn with rfl | rfl
      · left; simp [bwC]
      · right; simp [bwC]
    · exact known_fixed p [putAs .meLoc "w.npy" "mesh"] (by decide +kernel) _ (by simp)
  · cases fit
    · simp at hc
    · rcases hn with rfl | rfl
      · exact known_fixed p (locC "dmft" [] true) (by decide +kernel) c (by simpa [locC] using hc)
      · exact known_fixed p (locC "dga" [] true) (by decide +kernel) c (by simpa [locC] using hc)

theorem known_secC (p : Par) (s : Option Bool) (d : Dir) (body : List Cmd) (h : ∀ c ∈ Cmd.mkdir d :: body, c ∈ fixedC) (c : Cmd)
    (hc : c ∈ secC s d body) : Known p 0 c := by
  cases s with
  | none => simp [secC] at hc
  | some b =>
    cases b
    · exact known_fixed p _ h c (by simp [secC] at hc; simp [hc])
    · exact known_fixed p _ h c (by simpa [secC] using hc)

/-- every access of a run is one of the known ones -/
theorem cmds_known (p : Par) (r : Nat) (c : Cmd) (hc : c ∈ cmds p r) : Known p r c := by
  have hite : ∀ {b : Prop} [Decidable b] {l : List Cmd}, c ∈ (if b then l else []) → b ∧ c ∈ l := by
    intro b _ l h
    by_cases hb : b
    · rw [if_pos hb] at h; exact ⟨hb, h⟩
    · rw [if_neg hb] at h; simp at h
  simp only [cmds, List.mem_append] at hc
  rcases hc with (((hc | hc) | hc) | hc) | hc
  · obtain ⟨rfl, hc'⟩ := hite hc; replace hc := hc'
    simp only [List.mem_append] at hc
    rcases hc with ((hc | hc) | hc) | hc
    · cases hp : p.flags.polyFit <;> simp only [foldersC, hp] at hc
      · exact known_fixed p _ (by decide +kernel) c hc
      · exact known_fixed p _ (by decide +kernel) c hc
    · exact known_fixed p startC (by decide +kernel) c hc
    · exact known_fixed p _ (by decide +kernel) c (hite hc).2
    · rw [localC] at hc
      cases hv : p.flags.verbose <;> simp only [hv, if_true] at hc
      · exact known_fixed p [logC] (by decide +kernel) c hc
      · simp only [List.mem_append] at hc
        rcases hc with (hc | hc) | hc
        · exact known_fixed p _ (by decide +kernel) c hc
        · exact Or.inr ⟨rfl, Or.inr (Or.inl hc)⟩
        · exact known_fixed p _ (by decide +kernel) c hc
  · simp only [ladderC, List.mem_append] at hc
    rcases hc with ((hc | hc) | hc) | hc
    · exact Or.inl (by simp at hc; simp [hc, rankC])
    · obtain ⟨rfl, hc'⟩ := hite hc; replace hc := hc'
      exact known_fixed p _ (by decide +kernel) c hc
    · exact Or.inl (by have := (hite hc).2; simp at this; simp [this, rankC])
    · obtain ⟨⟨rfl, _⟩, hc'⟩ := hite hc; replace hc := hc'
      exact known_fixed p _ (by decide +kernel) c hc
  · obtain ⟨rfl, hc'⟩ := hite hc; replace hc := hc'
    rw [List.mem_append] at hc
    rcases hc with hc | hc
    · exact known_fixed p lambdaC (by decide +kernel) c hc
    · simp only [buildC, List.mem_append] at hc
      rcases hc with ((hc | hc) | hc) | hc
      · exact known_fixed p _ (by decide +kernel) c (hite hc).2
      · exact known_fixed p _ (by decide +kernel) c (hite hc).2
      · exact known_fixed p _ (by decide +kernel) c (hite hc).2
      · exact known_fixed p _ (by decide +kernel) c hc
  · simp only [sdeC, List.mem_append] at hc
    rcases hc with (hc | hc) | hc
    · obtain ⟨rfl, hc'⟩ := hite hc; replace hc := hc'
      simp only [List.mem_append] at hc
      rcases hc with (hc | hc) | hc
      · exact known_fixed p _ (by decide +kernel) c (hite hc).2
      · exact known_fixed p _ (by decide +kernel) c hc
      · exact known_fixed p _ (by decide +kernel) c (hite hc).2
    · left
      cases hk : p.flags.keepRank <;> simp [hk] at hc
      simp [hc, rankC]
    · obtain ⟨rfl, hc'⟩ := hite hc; replace hc := hc'
      rw [List.mem_append] at hc
      rcases hc with hc | hc
      · exact known_fixed p _ (by decide +kernel) c hc
      · exact known_fixed p _ (by decide +kernel) c (hite hc).2
  · obtain ⟨rfl, hc'⟩ := hite hc; replace hc := hc'
    simp only [List.mem_append] at hc
    rcases hc with ((hc | hc) | hc) | hc
    · have hc := (hite hc).2
      simp only [List.mem_append] at hc
      rcases hc with (((hc | hc) | hc) | hc) | hc
      · exact known_fixed p _ (by decide +kernel) c hc
      · exact known_fixed p _ (by decide +kernel) c (hite hc).2
      · exact known_fixed p _ (by decide +kernel) c hc
      · rw [List.mem_flatMap] at hc
        obtain ⟨i, _, hc⟩ := hc
        simp only [List.mem_cons, List.not_mem_nil, or_false] at hc
        exact Or.inr ⟨rfl, Or.inr (Or.inr (Or.inl ⟨i, hc⟩))⟩
      · cases hk : p.flags.keepPairing <;> simp only [hk] at hc
        · exact known_fixed p _ (by decide +kernel) c hc
        · simp at hc
    · simp only [opticsC, List.mem_append] at hc
      rcases hc with ((hc | hc) | hc) | hc
      · exact known_fixed p _ (by decide +kernel) c (hite hc).2
      · exact known_fixed p _ (by decide +kernel) c (hite hc).2
      · exact known_fixed p _ (by decide +kernel) c (hite hc).2
      · have hc := (hite hc).2
        rw [List.mem_append] at hc
        rcases hc with hc | hc
        · exact known_fixed p _ (by decide +kernel) c hc
        · have hc := (hite hc).2
          rw [List.mem_append] at hc
          rcases hc with hc | hc
          · exact known_fixed p _ (by decide +kernel) c hc
          · cases hk : p.flags.keepFq <;> simp only [hk] at hc
            · exact known_fixed p _ (by decide +kernel) c hc
            · simp at hc
    · rw [maxEntC] at hc
      cases hm : p.flags.maxEnt with
      | none => simp [hm] at hc
      | some m =>
        simp only [hm, List.mem_append] at hc
        rcases hc with ((((((hc | hc) | hc) | hc) | hc) | hc) | hc)
        · exact known_fixed p [meLogC] (by decide +kernel) c hc
        · have hc := (hite hc).2
          rw [List.mem_cons] at hc
          rcases hc with rfl | hc
          · exact known_fixed p [.mkdir .meLoc] (by decide +kernel) _ (by simp)
          · exact known_locC p "dmft" (Or.inl rfl) _ c hc
        · exact known_locC p "dga" (Or.inr rfl) _ c (hite hc).2
        · exact known_secC p _ _ _ (by decide +kernel) c hc
        · exact known_secC p _ _ _ (by decide +kernel) c hc
        · exact known_secC p _ _ _ (by decide +kernel) c hc
        · exact known_secC p _ _ _ (by decide +kernel) c hc
    · exact known_fixed p [logC] (by decide +kernel) c hc

/-! ### names -/

/-- the parameters that appear in names contain no slash (they are formatted numbers) -/
structure Par.Ok (p : Par) : Prop where
  niv : '/' ∉ p.nivG
  bws : ∀ bw ∈ p.bws, '/' ∉ bw

/-- the name an access refers to, if it is a file -/
def Cmd.rel? : Cmd → Option (Dir × Str)
  | .mkdir _ => none
  | .put x rel _ => some (x, rel)
  | .del x rel => some (x, rel)

theorem fixed_names : ∀ c ∈ fixedC, ∀ e ∈ c.rel?, '/' ∉ relName e.2 ∧ 3 ≤ (relName e.2).length ∧
    (e.1 = .out → (relName e.2).head? ≠ some 'Q') := by decide +kernel

theorem noSlash_digits (n : Nat) : '/' ∉ decDigits n := DGA.Paths.decDigits_no_slash n

theorem rankRel_eq (r : Nat) : ∃ t, rankRel r = 'Q' :: t ∧ '/' ∉ rankRel r ∧ 3 ≤ (rankRel r).length ∧ relName (rankRel r) = rankRel r := by
  have e : rankRel r = 'Q' :: ("Rank".toList ++ (DGA.RankFiles.fmtD 5 r ++ ".hdf5".toList)) := rfl
  have hs : '/' ∉ DGA.RankFiles.fmtD 5 (r : Int) := by
    rw [DGA.RankFiles.fmtD_nat, DGA.RankFiles.padZero, List.mem_append, not_or]
    exact ⟨by intro h; rw [List.mem_replicate] at h; exact absurd h.2 (by decide), noSlash_digits r⟩
  refine ⟨_, e, ?_, ?_, ?_⟩
  · rw [e]
    simp only [List.mem_cons, List.mem_append, not_or]
    exact ⟨by decide, by decide, hs, by decide⟩
  · rw [e]; simp
  · rw [e]; simp [relName]

/-- every file name of a run is a proper name, and in the output folder only rank files start with a `Q` -/
theorem cmds_names (p : Par) (hp : p.Ok) (r : Nat) (c : Cmd) (hc : c ∈ cmds p r) (x : Dir) (rel : Str) (he : c.rel? = some (x, rel)) :
    Proper (relName rel) ∧ (x = .out ∧ rel = rankRel r ∨ (r = 0 ∧ (x = .out → (relName rel).head? ≠ some 'Q'))) := by
  rcases cmds_known p r c hc with h | ⟨rfl, h⟩
  · have hx : x = .out ∧ rel = rankRel r := by
      simp only [rankC, List.mem_cons, List.not_mem_nil, or_false] at h
      rcases h with rfl | rfl <;> simp [Cmd.rel?] at he <;> exact ⟨he.1.symm, he.2.symm⟩
    obtain ⟨rfl, rfl⟩ := hx
    obtain ⟨t, _, h2, h3, h4⟩ := rankRel_eq r
    exact ⟨by rw [h4]; exact proper_of _ h2 h3, Or.inl ⟨rfl, rfl⟩⟩
  · suffices H : '/' ∉ relName rel ∧ 3 ≤ (relName rel).length ∧ (x = .out → (relName rel).head? ≠ some 'Q') from
      ⟨proper_of _ H.1 H.2.1, Or.inr ⟨rfl, H.2.2⟩⟩
    rcases h with h | h | ⟨i, h⟩ | ⟨bw, hb, h⟩
    · exact fixed_names c h (x, rel) he
    · have := hp.niv
      simp only [gammaC, List.mem_cons, List.not_mem_nil, or_false] at h
      rcases h with rfl | rfl | rfl | rfl | rfl <;> simp only [Cmd.rel?, fig4, Option.some.injEq, Prod.mk.injEq] at he <;>
        obtain ⟨rfl, rfl⟩ := he <;> simp [relName, this]
    · have := noSlash_digits i
      rcases h with rfl | rfl <;> simp only [Cmd.rel?, gapC, Option.some.injEq, Prod.mk.injEq] at he <;>
        obtain ⟨rfl, rfl⟩ := he <;> simp [relName, this]
    · have := hp.bws bw hb
      simp only [bwC, List.mem_cons, List.not_mem_nil, or_false] at h
      rcases h with (rfl | rfl) | (rfl | rfl) <;> simp only [Cmd.rel?, Option.some.injEq, Prod.mk.injEq] at he <;>
        obtain ⟨rfl, rfl⟩ := he <;> simp [relName, this]

/-- the plot that is written twice -/
def tilde : Str := "chi_dens_magn_lad_q_tilde.png".toList

/-- folder, string and stored quantity of an access that writes a result -/
def Cmd.val? : Cmd → Option (Dir × Str × String)
  | .put x rel (some v) => some (x, rel, v)
  | _ => none

theorem fixed_unique' : ∀ c ∈ fixedC, ∀ c' ∈ fixedC, ∀ e ∈ c.val?, ∀ e' ∈ c'.val?, e.1 = e'.1 → relName e.2.1 = relName e'.2.1 →
    e.2.2 = e'.2.2 ∨ (e.1 = .plots ∧ relName e.2.1 = tilde) := by decide +kernel

theorem fixed_unique (x : Dir) (rel rel' : Str) (v v' : String) (h : Cmd.put x rel (some v) ∈ fixedC)
    (h' : Cmd.put x rel' (some v') ∈ fixedC) (e : relName rel = relName rel') : v = v' ∨ (x = .plots ∧ relName rel = tilde) :=
  fixed_unique' _ h _ h' (x, rel, v) rfl (x, rel', v') rfl rfl e

/-- start of the names that carry a number -/
def paramPre : List (Dir × Str) :=
  [(.plots, "Gamma_dens_wn".toList), (.plots, "Gamma_magn_wn".toList), (.eliash, "GapFunction_".toList), (.meLoc, "dmft".toList),
   (.meLoc, "dga".toList)]

theorem fixed_notParam : ∀ c ∈ fixedC, ∀ e ∈ c.rel?, ∀ q ∈ paramPre, e.1 = q.1 → ¬ q.2 <+: relName e.2 := by decide +kernel

/-- within one folder, equal names carry equal contents; the only exception is `chi_dens_magn_lad_q_tilde.png` -/
theorem same_name_same_val (p : Par) (x : Dir) (rel rel' : Str) (v v' : String) (h : Cmd.put x rel (some v) ∈ cmds p 0)
    (h' : Cmd.put x rel' (some v') ∈ cmds p 0) (e : relName rel = relName rel') : v = v' ∨ (x = .plots ∧ relName rel = tilde) := by
  -- classification of one access
  have cls : ∀ rel v, Cmd.put x rel (some v) ∈ cmds p 0 → Cmd.put x rel (some v) ∈ fixedC ∨
      (x = .plots ∧ ∃ ch wn : String, (ch, wn, v) ∈ [("Gamma_dens", "0", "gamma_dens(0)"), ("Gamma_magn", "0", "gamma_magn(0)"),
        ("Gamma_magn", "10", "gamma_magn(10)"), ("Gamma_magn", "-10", "gamma_magn(-10)"), ("Gamma_dens", "10", "gamma_dens(10)")] ∧
        relName rel = ch.toList ++ ("_wn".toList ++ (wn.toList ++ ("_niv".toList ++ (p.nivG ++ ".png".toList))))) ∨
      (x = .eliash ∧ ∃ (ch : String) (i : Nat), ch ∈ ["sing", "trip"] ∧ v = "gap " ++ ch ++ " " ++ String.ofList (decDigits i) ∧
        relName rel = "GapFunction_".toList ++ (ch.toList ++ ('_' :: (decDigits i ++ ".png".toList)))) ∨
      (x = .meLoc ∧ ∃ (name : String) (bw : Str), name ∈ ["dmft", "dga"] ∧
        ((v = name ++ " plot " ++ String.ofList bw ∧ relName rel = name.toList ++ ("-bw".toList ++ (bw ++ ".png".toList))) ∨
         (v = name ++ " " ++ String.ofList bw ∧ relName rel = name.toList ++ ("_cont_bw".toList ++ (bw ++ ".npy".toList))))) := by
    intro rel v h
    rcases cmds_known p 0 _ h with h | ⟨_, h | h | ⟨i, h⟩ | ⟨bw, hb, h⟩⟩
    · simp [rankC] at h
    · exact Or.inl h
    · right; left
      simp only [gammaC, fig4, List.mem_cons, List.not_mem_nil, or_false, Cmd.put.injEq, Option.some.injEq] at h
      rcases h with ⟨rfl, rfl, rfl⟩ | ⟨rfl, rfl, rfl⟩ | ⟨rfl, rfl, rfl⟩ | ⟨rfl, rfl, rfl⟩ | ⟨rfl, rfl, rfl⟩
      · exact ⟨rfl, "Gamma_dens", "0", by decide, by simp [relName]⟩
      · exact ⟨rfl, "Gamma_magn", "0", by decide, by simp [relName]⟩
      · exact ⟨rfl, "Gamma_magn", "10", by decide, by simp [relName]⟩
      · exact ⟨rfl, "Gamma_magn", "-10", by decide, by simp [relName]⟩
      · exact ⟨rfl, "Gamma_dens", "10", by decide, by simp [relName]⟩
    · right; right; left
      simp only [gapC, Cmd.put.injEq, Option.some.injEq] at h
      rcases h with ⟨rfl, rfl, rfl⟩ | ⟨rfl, rfl, rfl⟩
      · exact ⟨rfl, "sing", i, by decide, rfl, by simp [relName]⟩
      · exact ⟨rfl, "trip", i, by decide, rfl, by simp [relName]⟩
    · right; right; right
      simp only [bwC, List.mem_cons, List.not_mem_nil, or_false, Cmd.put.injEq, Option.some.injEq] at h
      rcases h with (⟨rfl, rfl, rfl⟩ | ⟨rfl, rfl, rfl⟩) | (⟨rfl, rfl, rfl⟩ | ⟨rfl, rfl, rfl⟩)
      · exact ⟨rfl, "dmft", bw, by decide, Or.inl ⟨rfl, by simp [relName]⟩⟩
      · exact ⟨rfl, "dmft", bw, by decide, Or.inr ⟨rfl, by simp [relName]⟩⟩
      · exact ⟨rfl, "dga", bw, by decide, Or.inl ⟨rfl, by simp [relName]⟩⟩
      · exact ⟨rfl, "dga", bw, by decide, Or.inr ⟨rfl, by simp [relName]⟩⟩
  -- a fixed name is not one that carries a number
  have mixed : ∀ rel rel' v v', Cmd.put x rel (some v) ∈ fixedC → Cmd.put x rel' (some v') ∈ cmds p 0 → relName rel = relName rel' →
      Cmd.put x rel' (some v') ∈ fixedC := by
    intro rel rel' v v' hf h' e
    have no := fixed_notParam _ hf (x, rel) rfl
    rcases cls rel' v' h' with g | ⟨rfl, ch, wn, hm, g⟩ | ⟨rfl, ch, i, hm, _, g⟩ | ⟨rfl, name, bw, hm, g⟩
    · exact g
    · exfalso
      rw [← e] at g
      simp only [List.mem_cons, List.not_mem_nil, or_false, Prod.mk.injEq] at hm
      rcases hm with ⟨rfl, rfl, _⟩ | ⟨rfl, rfl, _⟩ | ⟨rfl, rfl, _⟩ | ⟨rfl, rfl, _⟩ | ⟨rfl, rfl, _⟩
      · exact no (.plots, "Gamma_dens_wn".toList) (by decide) rfl (by rw [g]; simp)
      · exact no (.plots, "Gamma_magn_wn".toList) (by decide) rfl (by rw [g]; simp)
      · exact no (.plots, "Gamma_magn_wn".toList) (by decide) rfl (by rw [g]; simp)
      · exact no (.plots, "Gamma_magn_wn".toList) (by decide) rfl (by rw [g]; simp)
      · exact no (.plots, "Gamma_dens_wn".toList) (by decide) rfl (by rw [g]; simp)
    · exfalso
      rw [← e] at g
      exact no (.eliash, "GapFunction_".toList) (by decide) rfl (by rw [g]; exact List.prefix_append _ _)
    · exfalso
      have g : ∃ t, relName rel = name.toList ++ t := by rcases g with ⟨_, g⟩ | ⟨_, g⟩ <;> exact ⟨_, e.trans g⟩
      obtain ⟨t, g⟩ := g
      simp only [List.mem_cons, List.not_mem_nil, or_false] at hm
      rcases hm with rfl | rfl
      · exact no (.meLoc, "dmft".toList) (by decide) rfl (by rw [g]; exact List.prefix_append _ _)
      · exact no (.meLoc, "dga".toList) (by decide) rfl (by rw [g]; exact List.prefix_append _ _)
  rcases cls rel v h with g | ⟨rfl, ch, wn, hm, g⟩ | ⟨rfl, ch, i, hm, hv, g⟩ | ⟨rfl, name, bw, hm, g⟩
  · exact fixed_unique _ _ _ _ _ g (mixed rel rel' v v' g h' e) e
  all_goals
    rcases cls rel' v' h' with g' | g' | g' | g'
  · exact fixed_unique _ _ _ _ _ (mixed rel' rel v' v g' h e.symm) g' e
  · obtain ⟨_, ch', wn', hm', g'⟩ := g'
    rw [g, g'] at e
    left
    simp only [List.mem_cons, List.not_mem_nil, or_false, Prod.mk.injEq] at hm hm'
    rcases hm with ⟨rfl, rfl, rfl⟩ | ⟨rfl, rfl, rfl⟩ | ⟨rfl, rfl, rfl⟩ | ⟨rfl, rfl, rfl⟩ | ⟨rfl, rfl, rfl⟩ <;>
      rcases hm' with ⟨rfl, rfl, rfl⟩ | ⟨rfl, rfl, rfl⟩ | ⟨rfl, rfl, rfl⟩ | ⟨rfl, rfl, rfl⟩ | ⟨rfl, rfl, rfl⟩ <;>
      first | rfl | simp at e
  · exact absurd g'.1 (by decide)
  · exact absurd g'.1 (by decide)
  · exact fixed_unique _ _ _ _ _ (mixed rel' rel v' v g' h e.symm) g' e
  · exact absurd g'.1 (by decide)
  · obtain ⟨_, ch', i', hm', hv', g'⟩ := g'
    rw [g, g'] at e
    left
    have hch : ch = ch' ∧ decDigits i = decDigits i' := by
      simp only [List.mem_cons, List.not_mem_nil, or_false] at hm hm'
      rcases hm with rfl | rfl <;> rcases hm' with rfl | rfl <;> simp at e ⊢ <;> exact e
    rw [hv, hv', hch.1, hch.2]
  · exact absurd g'.1 (by decide)
  · exact fixed_unique _ _ _ _ _ (mixed rel' rel v' v g' h e.symm) g' e
  · exact absurd g'.1 (by decide)
  · exact absurd g'.1 (by decide)
  · obtain ⟨_, name', bw', hm', g'⟩ := g'
    left
    simp only [List.mem_cons, List.not_mem_nil, or_false] at hm hm'
    rcases hm with rfl | rfl <;> rcases hm' with rfl | rfl <;> rcases g with ⟨rfl, g⟩ | ⟨rfl, g⟩ <;>
      rcases g' with ⟨rfl, g'⟩ | ⟨rfl, g'⟩ <;> rw [g, g'] at e <;> simp at e <;> rw [e]

end DGA.Wr
